import Verif.Props.Continue

/-! Property C156: applying the model between calls of training. -/
namespace Verif.Train

open MathUtils EStep MStep Pool Finset

variable {K V C W n : ℕ} {Q R S T D : Type}

/-- A call of a program that trains and applies a model: `partial_fit` on the corpus, shuffled to `order`, or `transform` of
`d` documents for which the E step gives `eval` (`predict` and `transform_predict` start with a `transform`,
LDA.cpp:179-229). -/
inductive Use (Q T R : Type) where
  | train (order : ℕ → ℕ)
  | apply (d : ℕ) (eval : Q × T → ℕ → R)

/-- Successive calls on one object, under any schedule: from the leftovers `l` and the model `m` to `l'` and `m'`, with the
matrices that the calls of `transform` return (LDA.cpp:90-176).  A `transform` reads the parameters and the state of
the E step; neither the `e_step` of the E step nor the M step is called. -/
inductive Session (b : BatchStep Q R S) (next : T → T) (eval : Q × T → ℕ → R) (W n : ℕ) :
    List (Use Q T R) → Left R → Q × T × Option S → Left R → Q × T × Option S → List (ℕ → Option R) → Prop where
  | nil (l : Left R) (m : Q × T × Option S) : Session b next eval W n [] l m l m []
  | train {p : ℕ → ℕ} {us : List (Use Q T R)} {l l' : Left R} {m m' : Q × T × Option S} {outs : List (ℕ → Option R)}
      (as : List Act) (s : St (Q × T × Option S) R W)
      (h : run (trainCfg b next eval true W n p) (start (trainCfg b next eval true W n p) l m) as = some s)
      (hr : s.main = .ret) (ht : Session b next eval W n us s.left s.model l' m' outs) :
      Session b next eval W n (.train p :: us) l m l' m' outs
  | apply {d : ℕ} {ev : Q × T → ℕ → R} {us : List (Use Q T R)} {l l' : Left R} {m m' : Q × T × Option S}
      {outs : List (ℕ → Option R)} (as : List Act) (s : St ((Q × T) × (ℕ → Option R)) R W)
      (h : run (transformCfg W d true ev) (start (transformCfg W d true ev) l (trainParams m, fun _ => none)) as = some s)
      (hr : s.main = .ret)
      (ht : Session b next eval W n us s.left (s.model.1.1, s.model.1.2, m.2.2) l' m' outs) :
      Session b next eval W n (.apply d ev :: us) l m l' m' (s.model.2 :: outs)

/-- The number of calls of `partial_fit`. -/
def trainings : List (Use Q T R) → ℕ
  | [] => 0
  | .train _ :: us => trainings us + 1
  | .apply _ _ :: us => trainings us

/-- The matrices one expects: those of the model after as many sequential epochs as there were trainings before. -/
def expected (step : Q × T × Option S → Q × T × Option S) : List (Use Q T R) → Q × T × Option S → List (ℕ → Option R)
  | [], _ => []
  | .train _ :: us, m => expected step us (step m)
  | .apply d ev :: us, m => (fun i => if i < d then some (ev (m.1, m.2.1) i) else none) :: expected step us m

theorem OrderFree.session {b : BatchStep Q R S} (o : OrderFree b D) {next : T → T} {eval : Q × T → ℕ → R}
    {us : List (Use Q T R)} {l' : Left R} {m' : Q × T × Option S} {outs : List (ℕ → Option R)} {l : Left R}
    {m : Q × T × Option S} (h : Session b next eval W n us l m l' m' outs) : l = .empty →
    (∀ p, Use.train p ∈ us → ((List.range n).map p).Perm (List.range n)) → ∀ m1, o.Same m m1 →
    o.Same m' ((epoch b next eval n)^[trainings us] m1) ∧ outs = expected (epoch b next eval n) us m1 ∧ l' = .empty := by
  induction h with
  | nil l m => exact fun hl _ m1 hm => ⟨hm, rfl, hl⟩
  | @train p us l l' m m' outs as s h hr ht ih =>
    rintro rfl ho m1 hm
    have hR : Reachable (trainCfg b next eval true W n p) m s := ⟨as, h⟩
    have hclean := C06_nothing_left hR hr
    have hleft : s.left = .empty := by simp [St.left, Left.empty, hclean.1, hclean.2.1, hclean.2.2.2 rfl]
    rw [trainings, Function.iterate_succ_apply]
    exact ih hleft (fun x hx => ho x (List.mem_cons_of_mem _ hx)) _
      (partial_fit_same o (ho p List.mem_cons_self) hm hR hr)
  | @apply d ev us l l' m m' outs as s h hr ht ih =>
    rintro rfl ho m1 hm
    have hR : Reachable (transformCfg W d true ev) (trainParams m, fun _ => none) s := ⟨as, h⟩
    have hclean := C06_nothing_left hR hr
    have hleft : s.left = .empty := by simp [St.left, Left.empty, hclean.1, hclean.2.1, hclean.2.2.2 rfl]
    obtain ⟨h1, h2, -⟩ := C02_transform_columns hR hr
    have hm' : (s.model.1.1, s.model.1.2, m.2.2) = m := by rw [h1]; rfl
    obtain ⟨i1, i2, i3⟩ := ih hleft (fun x hx => ho x (List.mem_cons_of_mem _ hx)) m1 (by rw [hm']; exact hm)
    refine ⟨i1, ?_, i3⟩
    rw [expected, i2]
    congr 1
    funext i
    rw [h2 i, trainParams, hm.1, hm.2.1]

/-- Calls of `partial_fit` and `transform` in any order: the parameters in the end are those of as many sequential epochs as
there are calls of `partial_fit`, and every `transform` gives what the E step finds with the parameters of its moment. -/
def ApplyingIsHarmless (b : BatchStep Q R S) (s0 : S) : Prop :=
  ∀ (T : Type) (next : T → T) (eval : Q × T → ℕ → R) (q : Q) (t : T) (W n : ℕ) (us : List (Use Q T R))
    (m' : Q × T × Option S) (l' : Left R) (outs : List (ℕ → Option R)),
    (∀ p, Use.train p ∈ us → ((List.range n).map p).Perm (List.range n)) →
    Session b next eval W n us .empty (q, t, some s0) l' m' outs →
    m'.1 = ((epoch b next eval n)^[trainings us] (q, t, some s0)).1 ∧
    (m'.2.2 = none ↔ ((epoch b next eval n)^[trainings us] (q, t, some s0)).2.2 = none) ∧
    outs = expected (epoch b next eval n) us (q, t, some s0)

theorem harmless {b : BatchStep Q R S} (o : OrderFree b D) {s0 : S} (h : ∃ ds f, o.Is s0 ds f) :
    ApplyingIsHarmless b s0 := by
  obtain ⟨ds, f, h0⟩ := h
  intro T next eval q t W n us m' l' outs ho hs
  obtain ⟨h1, h2, -⟩ := o.session hs rfl ho (q, t, some s0)
    ⟨rfl, rfl, .inr ⟨_, _, _, _, _, rfl, rfl, h0, h0, List.Perm.refl _⟩⟩
  refine ⟨h1.1, ?_, h2⟩
  rcases h1.2.2 with ⟨e1, e2⟩ | ⟨_, _, _, _, _, e1, e2, _⟩ <;> simp [e1, e2]

/-- **C156**: two programs with the same number of calls of `partial_fit`, one with and one without calls of `transform` in
between, end with the same parameters. -/
theorem C156_same_model {b : BatchStep Q R S} {s0 : S} (hb : ApplyingIsHarmless b s0) {next : T → T}
    {eval : Q × T → ℕ → R} {q : Q} {t : T} {W W' : ℕ} {us us' : List (Use Q T R)} (hlen : trainings us = trainings us')
    (ho : ∀ p, Use.train p ∈ us → ((List.range n).map p).Perm (List.range n))
    (ho' : ∀ p, Use.train p ∈ us' → ((List.range n).map p).Perm (List.range n)) {m m' : Q × T × Option S} {l l' : Left R}
    {outs outs' : List (ℕ → Option R)} (h : Session b next eval W n us .empty (q, t, some s0) l m outs)
    (h' : Session b next eval W' n us' .empty (q, t, some s0) l' m' outs') :
    m.1 = m'.1 ∧ (m.2.2 = none ↔ m'.2.2 = none) := by
  obtain ⟨a1, a2, -⟩ := hb T next eval q t W n us m l outs ho h
  obtain ⟨b1, b2, -⟩ := hb T next eval q t W' n us' m' l' outs' ho' h'
  rw [hlen] at a1 a2
  exact ⟨a1.trans b1.symm, a2.trans b2.symm⟩

/-- **C156**, unsupervised M step, after any earlier use of it. -/
theorem C156_unsupervised (corpus : ℕ → Doc V) {h : List (Call (Given K V) Unit)} {s0 : Buf K V}
    (hs : uHistory h = some s0) : ApplyingIsHarmless (unsupervised (C := C) corpus) s0 := by
  obtain ⟨f, hf⟩ := exists_flag s0
  exact harmless (unsupervisedFree corpus) ⟨_, f, uHistory_buf hs, hf⟩

/-- **C156**, fast supervised M step. -/
theorem C156_fast_supervised (cfg : SupCfg) (corpus : ℕ → Doc V) {h : List (Call (DocArg K V) (Mat K C ℝ))}
    {s0 : MStep.FastState K V} (hs : fastHistory cfg h = some s0) :
    ApplyingIsHarmless (fastSupervised (C := C) cfg corpus) s0 := by
  obtain ⟨f, hf⟩ := exists_flag s0.b
  exact harmless (fastFree cfg corpus) ⟨_, f, fastHistory_is hs, hf⟩

/-- **C156**, semi-supervised M step. -/
theorem C156_semi_supervised (cfg : SupCfg) (corpus : ℕ → Doc V) {h : List (Call (DocArg K V) (Mat K C ℝ))}
    {s0 : MStep.FastState K V} (hs : semiHistory cfg h = some s0) :
    ApplyingIsHarmless (semiSupervised (C := C) cfg corpus) s0 := by
  obtain ⟨f, hf⟩ := exists_flag s0.b
  exact harmless (semiFree cfg corpus) ⟨_, f, semiHistory_is hs, hf⟩

/-- **C156**, supervised M step. -/
theorem C156_supervised (cfg : SupCfg) (corpus : ℕ → Doc V) {h : List (Call (DocArg K V) (Mat K C ℝ))}
    {s0 : SupState K V} (hs : supHistory cfg h = some s0) : ApplyingIsHarmless (supervised (C := C) cfg corpus) s0 := by
  obtain ⟨f, hf⟩ := exists_flag s0.b
  exact harmless (supervisedFree cfg corpus) ⟨_, f, supHistory_is hs, hf⟩

/-- **C156**, multinomial supervised M step. -/
theorem C156_multinomial (mu : ℝ) (corpus : ℕ → Doc V) {h : List (Call (Sample K V C) Unit)} {s0 : MultState K V C}
    (hs : multHistory mu h = some s0) : ApplyingIsHarmless (multinomial mu corpus) s0 := by
  obtain ⟨f, hf⟩ := exists_flag s0.bufs
  exact harmless (multinomialFree mu corpus) ⟨_, f, _, rfl, multHistory_is hs, hf⟩

/-- **C156**, correspondence supervised M step. -/
theorem C156_correspondence (mu : ℝ) (corpus : ℕ → Doc V) {h : List (Call (Sample K V C) Unit)} {s0 : MultState K V C}
    (hs : multHistory mu h = some s0) : ApplyingIsHarmless (correspondence mu corpus) s0 := by
  obtain ⟨f, hf⟩ := exists_flag s0.bufs
  exact harmless (correspondenceFree mu corpus) ⟨_, f, _, rfl, multHistory_is hs, hf⟩

/-! ### The hypotheses can be met -/

/-- Every program has an execution, if there is a worker. -/
theorem session_exists (b : BatchStep Q R S) (next : T → T) (eval : Q × T → ℕ → R) (hW : 0 < W) (n : ℕ)
    (us : List (Use Q T R)) : ∀ m, ∃ m' outs, Session b next eval W n us .empty m .empty m' outs := by
  induction us with
  | nil => exact fun m => ⟨m, [], .nil _ _⟩
  | cons u us ih =>
    intro m
    cases u with
    | train p =>
      obtain ⟨⟨as, s, h1, h2⟩, _⟩ := C05_returns_partial (c := trainCfg b next eval true W n p) (m := m) (.inl hW)
        (Reachable.init _ m)
      have hclean := C06_nothing_left (c := trainCfg b next eval true W n p) ⟨as, h1⟩ h2
      have hleft : s.left = .empty := by simp [St.left, Left.empty, hclean.1, hclean.2.1, hclean.2.2.2 rfl]
      obtain ⟨m', outs, h⟩ := ih s.model
      have h : Session b next eval W n us s.left s.model .empty m' outs := hleft.symm ▸ h
      exact ⟨m', outs, .train as s h1 h2 h⟩
    | apply d ev =>
      obtain ⟨⟨as, s, h1, h2⟩, _⟩ := C05_returns_partial (c := transformCfg W d true ev) (m := (trainParams m, fun _ => none))
        (.inl hW) (Reachable.init _ _)
      have hclean := C06_nothing_left (c := transformCfg W d true ev) ⟨as, h1⟩ h2
      have hleft : s.left = .empty := by simp [St.left, Left.empty, hclean.1, hclean.2.1, hclean.2.2.2 rfl]
      obtain ⟨m', outs, h⟩ := ih (s.model.1.1, s.model.1.2, m.2.2)
      have h : Session b next eval W n us s.left (s.model.1.1, s.model.1.2, m.2.2) .empty m' outs := hleft.symm ▸ h
      exact ⟨m', _, .apply as s h1 h2 h⟩

/-- Two trainings, with two documents looked at before, between and after them, and without: the same topics, and what is
seen in between belongs to the model after one epoch. -/
example (corpus : ℕ → Doc 4) (eval look : Params 2 4 3 × Unit → ℕ → VP 2 4) (q : Params 2 4 3) :
    ∃ m m' outs outs',
      Session (unsupervised corpus) id eval 3 5 [.apply 2 look, .train id, .apply 2 look, .train fun i => 4 - i, .apply 2 look]
        .empty (q, (), some none) .empty m outs ∧
      Session (unsupervised corpus) id eval 1 5 [.train id, .train id] .empty (q, (), some none) .empty m' outs' ∧
      m.1 = m'.1 ∧ outs' = [] ∧ (outs.map fun X => X 1)[1]? =
        some (some (look ((epoch (unsupervised corpus) id eval 5 (q, (), some none)).1, ()) 1)) := by
  obtain ⟨m, outs, h⟩ := session_exists (unsupervised (C := 3) corpus) id eval (W := 3) (by norm_num) 5
    [.apply 2 look, .train id, .apply 2 look, .train fun i => 4 - i, .apply 2 look] (q, (), some none)
  obtain ⟨m', outs', h'⟩ := session_exists (unsupervised (C := 3) corpus) id eval (W := 1) (by norm_num) 5
    [.train id, .train id] (q, (), some none)
  have hb := C156_unsupervised (C := 3) corpus (h := ([] : List (Call (Given 2 4) Unit))) (s0 := none) rfl
  have ho : ∀ p, Use.train p ∈ ([.apply 2 look, .train id, .apply 2 look, .train fun i => 4 - i, .apply 2 look] :
      List (Use (Params 2 4 3) Unit (VP 2 4))) → ((List.range 5).map p).Perm (List.range 5) := by
    intro p hp
    simp only [List.mem_cons, Use.train.injEq, reduceCtorEq, false_or, List.not_mem_nil, or_false] at hp
    rcases hp with rfl | rfl
    · simp
    · decide
  have ho' : ∀ p, Use.train p ∈ ([.train id, .train id] : List (Use (Params 2 4 3) Unit (VP 2 4))) →
      ((List.range 5).map p).Perm (List.range 5) := by
    intro p hp
    simp only [List.mem_cons, Use.train.injEq, List.not_mem_nil, or_false, or_self] at hp
    subst hp
    simp
  refine ⟨m, m', outs, outs', h, h', (C156_same_model (us' := [.train id, .train id]) hb (by rfl) ho ho' h h').1, (hb _ _ _ _ _ _ _ _ _ _ _ ho' h').2.2, ?_⟩
  rw [(hb _ _ _ _ _ _ _ _ _ _ _ ho h).2.2]
  simp [expected]

end Verif.Train
