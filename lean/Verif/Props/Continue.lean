import Verif.Props.Schedule
import Verif.Props.Online

/-! Property C87: training can be stopped and continued from the model. -/
namespace Verif.Train

open MathUtils EStep MStep Pool Finset

variable {K V C : ℕ} {Q R S T D : Type}

namespace OrderFree

variable {b : BatchStep Q R S} (o : OrderFree b D)

theorem Same.symm' {o : OrderFree b D} {m m' : Q × T × Option S} (h : o.Same m m') : o.Same m' m := by
  obtain ⟨h1, h2, h3⟩ := h
  refine ⟨h1.symm, h2.symm, ?_⟩
  rcases h3 with ⟨e1, e2⟩ | ⟨s, s', ds, ds', f, e1, e2, i1, i2, hp⟩
  · exact .inl ⟨e2, e1⟩
  · exact .inr ⟨s', s, ds', ds, f, e2, e1, i2, i1, hp.symm⟩

theorem epoch_eq (next : T → T) (eval : Q × T → ℕ → R) (n : ℕ) (m : Q × T × Option S) :
    epoch b next eval n m =
      (trainBatch b next (docs b m ((List.range n).map fun i => (i, eval (trainParams m) i)))).1 := by
  rw [epoch, seqEpoch, docs, List.foldl_map]

theorem epoch_same {m m' : Q × T × Option S} (h : o.Same m m') (next : T → T) (eval : Q × T → ℕ → R) (n : ℕ) :
    o.Same (epoch b next eval n m) (epoch b next eval n m') := by
  have hpar : trainParams m' = trainParams m := by
    obtain ⟨h1, h2, _⟩ := h
    simp [trainParams, h1, h2]
  rw [epoch_eq, epoch_eq, hpar]
  exact o.batch_same (o.docs_same h (List.Perm.refl _)) next

theorem epochs_same {m m' : Q × T × Option S} (h : o.Same m m') (next : T → T) (eval : Q × T → ℕ → R)
    (n k : ℕ) : o.Same ((epoch b next eval n)^[k] m) ((epoch b next eval n)^[k] m') := by
  induction k generalizing m m' with
  | zero => exact h
  | succ k ih =>
    rw [Function.iterate_succ_apply, Function.iterate_succ_apply]
    exact ih (o.epoch_same h next eval n)

/-- The state of a step that holds no document, after any number of epochs. -/
def Rest (n : ℕ) (f : Bool) (m : Q × T × Option S) : Prop :=
  ∀ s, m.2.2 = some s → ∃ f', o.Is s [] f' ∧ (n = 0 → f' = f)

theorem epoch_rest {n : ℕ} {f : Bool} {m : Q × T × Option S} (h : o.Rest n f m) (next : T → T)
    (eval : Q × T → ℕ → R) : o.Rest n f (epoch b next eval n m) := by
  obtain ⟨q, t, x⟩ := m
  rw [epoch_eq]
  cases x with
  | none =>
    rw [docs_none]
    intro s hs
    simp [trainBatch] at hs
  | some s0 =>
    obtain ⟨f0, h0, hf0⟩ := h s0 rfl
    rcases o.docs_state q t ((List.range n).map fun i => (i, eval (trainParams (q, t, some s0)) i)) s0 [] f0 h0
      with ⟨_, e⟩ | ⟨_, s1, e, hI⟩
    · rw [e]
      intro s hs
      simp [trainBatch] at hs
    · rw [e]
      intro s hs
      rcases o.step (q := q) hI hI (List.Perm.refl _) with ⟨e1, _⟩ | ⟨q', u, _, k, e1, _, i1, _⟩
      · simp [trainBatch, e1] at hs
      · simp only [trainBatch, Option.bind_some, e1, Option.some.injEq] at hs
        subst hs
        refine ⟨_, i1, fun hn => ?_⟩
        subst hn
        simp [hf0 rfl]

theorem epochs_rest {n : ℕ} {f : Bool} {m : Q × T × Option S} (h : o.Rest n f m) (next : T → T)
    (eval : Q × T → ℕ → R) (k : ℕ) : o.Rest n f ((epoch b next eval n)^[k] m) := by
  induction k generalizing m with
  | zero => exact h
  | succ k ih =>
    rw [Function.iterate_succ_apply]
    exact ih (o.epoch_rest h next eval)

/-- An epoch forgets how often the step has been used before. -/
theorem epoch_forget {n : ℕ} {q : Q} {t : T} {s s' : S} {f f' : Bool} (h : o.Is s [] f) (h' : o.Is s' [] f')
    (hf : n = 0 → f = f') (next : T → T) (eval : Q × T → ℕ → R) :
    o.Same (epoch b next eval n (q, t, some s)) (epoch b next eval n (q, t, some s')) := by
  rw [epoch_eq, epoch_eq]
  refine o.batch_same ?_ next
  have hpar : trainParams (q, t, some s') = trainParams (q, t, some s) := rfl
  rw [hpar]
  have hflag : (f || !((List.range n).map fun i => (i, eval (trainParams (q, t, some s)) i)).isEmpty) =
      (f' || !((List.range n).map fun i => (i, eval (trainParams (q, t, some s)) i)).isEmpty) := by
    by_cases hn : n = 0
    · rw [hf hn]
    · have : ((List.range n).map fun i => (i, eval (trainParams (q, t, some s)) i)).isEmpty = false := by
        simp [hn]
      simp [this]
  rcases o.docs_state q t ((List.range n).map fun i => (i, eval (trainParams (q, t, some s)) i)) s [] f h
    with ⟨⟨d, hd, hd'⟩, e⟩ | ⟨hok, s1, e, hI⟩ <;>
  rcases o.docs_state q t ((List.range n).map fun i => (i, eval (trainParams (q, t, some s)) i)) s' [] f' h'
    with ⟨⟨d1, hd1, hd1'⟩, e'⟩ | ⟨hok', s1', e', hI'⟩
  · rw [e, e']
    exact ⟨rfl, rfl, .inl ⟨rfl, rfl⟩⟩
  · exact absurd (hok' d hd) hd'
  · exact absurd (hok d1 hd1) hd1'
  · rw [e, e']
    rw [hflag] at hI
    exact ⟨rfl, rfl, .inr ⟨_, _, _, _, _, rfl, rfl, hI, hI', List.Perm.refl _⟩⟩

end OrderFree

/-- The E step does not depend on how many epochs it has seen. -/
def EpochFree (eval : Q × T → ℕ → R) : Prop := ∀ q t t' i, eval (q, t) i = eval (q, t') i

theorem epoch_any {b : BatchStep Q R S} {next : T → T} {eval : Q × T → ℕ → R} (hE : EpochFree eval) {n : ℕ}
    {m m' : Q × T × Option S} (h1 : m.1 = m'.1) (h2 : m.2.2 = m'.2.2) :
    (epoch b next eval n m).1 = (epoch b next eval n m').1 ∧
    (epoch b next eval n m).2.2 = (epoch b next eval n m').2.2 := by
  obtain ⟨q, t, x⟩ := m
  obtain ⟨q', t', x'⟩ := m'
  simp only at h1 h2
  subst h1 h2
  rw [OrderFree.epoch_eq, OrderFree.epoch_eq]
  have hl : ((List.range n).map fun i => (i, eval (trainParams (q, t', x)) i)) =
      (List.range n).map fun i => (i, eval (trainParams (q, t, x)) i) :=
    List.map_congr_left fun i _ => by rw [trainParams, trainParams, hE q t' t i]
  rw [hl]
  generalize ((List.range n).map fun i => (i, eval (trainParams (q, t, x)) i)) = l
  have hd : ∀ (l : List (ℕ × R)) (x : Option S),
      (OrderFree.docs b (q, t, x) l).2.2 = (OrderFree.docs b (q, t', x) l).2.2 := by
    intro l
    induction l with
    | nil => intro x; rfl
    | cons a l ih => intro x; exact ih _
  have h1 := (OrderFree.docs_params (b := b) (q, t, x) l).1
  have h2 := (OrderFree.docs_params (b := b) (q, t', x) l).1
  have h3 := hd l x
  simp only [trainBatch, h1, h2, h3]
  split <;> simp

theorem epochs_any {b : BatchStep Q R S} {next : T → T} {eval : Q × T → ℕ → R} (hE : EpochFree eval) {n : ℕ}
    (k : ℕ) : ∀ {m m' : Q × T × Option S}, m.1 = m'.1 → m.2.2 = m'.2.2 →
    ((epoch b next eval n)^[k] m).1 = ((epoch b next eval n)^[k] m').1 ∧
    ((epoch b next eval n)^[k] m).2.2 = ((epoch b next eval n)^[k] m').2.2 := by
  induction k with
  | zero => exact fun h1 h2 => ⟨h1, h2⟩
  | succ k ih =>
    intro m m' h1 h2
    rw [Function.iterate_succ_apply, Function.iterate_succ_apply]
    obtain ⟨e1, e2⟩ := epoch_any (b := b) (next := next) hE (n := n) h1 h2
    exact ih e1 e2

/-- Training with a fresh step, stopping after some epochs and continuing from the model with another fresh
step gives the model of uninterrupted training: for every E step that does not count epochs (its counter may
start anywhere), every corpus and all schedules, numbers of workers and shuffles of the three runs.  Undefined
behaviour occurs in the continued run if and only if it does in the uninterrupted one. -/
def Resumable (b : BatchStep Q R S) (fresh : S) : Prop :=
  ∀ (T : Type) (next : T → T) (eval : Q × T → ℕ → R) (q : Q) (t t' : T) (W W1 W2 n : ℕ)
    (orders orders1 orders2 : List (ℕ → ℕ)) (m m1 m2 : Q × T × Option S) (l l1 l2 : Left R)
    (logs logs1 logs2 : List (List (Obs R))),
    EpochFree eval →
    (∀ p ∈ orders ++ orders1 ++ orders2, ((List.range n).map p).Perm (List.range n)) →
    orders.length = orders1.length + orders2.length →
    Calls (fitCalls b next eval W n orders) .empty (q, t, some fresh) l m logs →
    Calls (fitCalls b next eval W1 n orders1) .empty (q, t, some fresh) l1 m1 logs1 → m1.2.2 ≠ none →
    Calls (fitCalls b next eval W2 n orders2) .empty (m1.1, t', some fresh) l2 m2 logs2 →
    m2.1 = m.1 ∧ (m2.2.2 = none ↔ m.2.2 = none)

theorem same_none {b : BatchStep Q R S} {o : OrderFree b D} {x y : Q × T × Option S} (h : o.Same x y) :
    x.2.2 = none ↔ y.2.2 = none := by
  rcases h with ⟨_, _, ⟨e1, e2⟩ | ⟨_, _, _, _, _, e1, e2, _⟩⟩ <;> simp [e1, e2]

theorem resumable {b : BatchStep Q R S} (o : OrderFree b D) {fresh : S} (h : ∃ f, o.Is fresh [] f) :
    Resumable b fresh := by
  obtain ⟨f, hf⟩ := h
  intro T next eval q t t' W W1 W2 n orders orders1 orders2 m m1 m2 l l1 l2 logs logs1 logs2 hE ho hlen hc hc1
    hdef hc2
  have hself : ∀ (q : Q) (t : T), o.Same (q, t, some fresh) (q, t, some fresh) := fun q t =>
    ⟨rfl, rfl, .inr ⟨_, _, _, _, _, rfl, rfl, hf, hf, List.Perm.refl _⟩⟩
  have e := fit_same o orders (fun p hp => ho p (by simp [hp])) _ _ _ _ _ (hself q t) hc
  have e1 := fit_same o orders1 (fun p hp => ho p (by simp [hp])) _ _ _ _ _ (hself q t) hc1
  have e2 := fit_same o orders2 (fun p hp => ho p (by simp [hp])) _ _ _ _ _ (hself m1.1 t') hc2
  rw [hlen, Nat.add_comm, Function.iterate_add_apply] at e
  have hrest : o.Rest n f ((epoch b next eval n)^[orders1.length] (q, t, some fresh)) := by
    refine o.epochs_rest ?_ next eval _
    intro s hs
    cases hs
    exact ⟨f, hf, fun _ => rfl⟩
  have hdef' : ((epoch b next eval n)^[orders1.length] (q, t, some fresh)).2.2 ≠ none :=
    fun h => hdef ((same_none e1).2 h)
  have hq := e1.1
  generalize ((epoch b next eval n)^[orders1.length] (q, t, some fresh)) = x at e hrest hdef' hq
  obtain ⟨q1, t1, y⟩ := x
  obtain ⟨s1, rfl⟩ : ∃ s, y = some s := by
    cases y with
    | none => exact absurd rfl hdef'
    | some s => exact ⟨s, rfl⟩
  obtain ⟨f1, hI1, hf1⟩ := hrest s1 rfl
  simp only at hq
  rw [hq] at e2
  -- the two states after the second part
  have key : ((epoch b next eval n)^[orders2.length] (q1, t', some fresh)).1 =
        ((epoch b next eval n)^[orders2.length] (q1, t1, some s1)).1 ∧
      (((epoch b next eval n)^[orders2.length] (q1, t', some fresh)).2.2 = none ↔
        ((epoch b next eval n)^[orders2.length] (q1, t1, some s1)).2.2 = none) := by
    obtain ⟨a1, a2⟩ := epochs_any (b := b) (next := next) hE (n := n) orders2.length
      (m := (q1, t', some fresh)) (m' := (q1, t1, some fresh)) rfl rfl
    rw [a1, a2]
    cases orders2.length with
    | zero => exact ⟨rfl, by simp⟩
    | succ k =>
      rw [Function.iterate_succ_apply, Function.iterate_succ_apply]
      have := o.epochs_same (o.epoch_forget (q := q1) (t := t1) hf hI1 (fun hn => (hf1 hn).symm) next eval)
        next eval n k
      exact ⟨this.1, same_none this⟩
  exact ⟨e2.1.trans (key.1.trans e.1.symm), (same_none e2).trans (key.2.trans (same_none e).symm)⟩

/-- **C87**, the part that holds: with every batch M step of the library.  Missing: the online M step, for
which it is false (`C87_online`), and E steps that count epochs (`C87_decay`). -/
theorem C87_resume_partial (corpus : ℕ → Doc V) (cfg : SupCfg) (mu : ℝ) :
    Resumable (unsupervised (K := K) (C := C) corpus) none ∧
    Resumable (fastSupervised (K := K) (C := C) cfg corpus) FastState.init ∧
    Resumable (semiSupervised (K := K) (C := C) cfg corpus) FastState.init ∧
    Resumable (supervised (K := K) (C := C) cfg corpus) SupState.init ∧
    Resumable (multinomial (K := K) (C := C) mu corpus) MultState.init ∧
    Resumable (correspondence (K := K) (C := C) mu corpus) MultState.init := by
  refine ⟨resumable (unsupervisedFree corpus) ⟨false, uHistory_buf (h := []) rfl, by simp⟩,
    resumable (fastFree cfg corpus) ⟨false, fastHistory_is (C := C) (cfg := cfg) (h := []) rfl, by simp [FastState.init]⟩,
    resumable (semiFree cfg corpus) ⟨false, semiHistory_is (C := C) (cfg := cfg) (h := []) rfl, by simp [FastState.init]⟩,
    resumable (supervisedFree cfg corpus) ⟨false, supHistory_is (C := C) (cfg := cfg) (h := []) rfl, by simp [SupState.init]⟩,
    resumable (multinomialFree mu corpus) ⟨false, [], rfl, multHistory_is (mu := mu) (h := []) rfl, by simp [MultState.init]⟩,
    resumable (correspondenceFree mu corpus) ⟨false, [], rfl, multHistory_is (mu := mu) (h := []) rfl, by simp [MultState.init]⟩⟩

/-- The E steps of the library depend on the epoch through the weight only, and a constant weight does not. -/
theorem C87_constant_weight (c : ℝ) (f : Q → ℝ → ℕ → R) :
    EpochFree fun (p : Q × ℕ) i => f p.1 (EStep.FastState.weight ⟨c, .constant, p.2⟩) i :=
  fun _ _ _ _ => rfl

/-- **C87 is false for the exponentially decaying weight**: a new E step begins again with the weight of the
first epoch, which is not the weight that the uninterrupted training has reached. -/
theorem C87_decay {c : ℝ} (h0 : 0 < c) (h1 : c ≠ 1) {e : ℕ} (he : 0 < e) :
    (EStep.FastState.eStep^[e] (EStep.FastState.new c .exponentialDecay)).weight ≠
      (EStep.FastState.new c .exponentialDecay).weight := by
  have : ∀ (e : ℕ) (s : EStep.FastState), EStep.FastState.eStep^[e] s = { s with epochs := s.epochs + e } := by
    intro e
    induction e with
    | zero => intro s; rfl
    | succ e ih =>
      intro s
      rw [Function.iterate_succ_apply, ih]
      simp only [EStep.FastState.eStep]
      congr 1
      omega
  rw [this]
  simp only [EStep.FastState.weight, EStep.FastState.new, Nat.zero_add, pow_zero]
  intro h
  exact h1 ((pow_eq_one_iff_of_nonneg h0.le he.ne').1 h)

/-- One topic, two words, one class; minibatches of one document; the topics move half the way. -/
noncomputable def onlineCfg3 : OnlineCfg 1 :=
  { classWeights := fun _ => 1, penalty := 0, minibatch := 1, momentum := 0, rate := 1, betaWeight := 1 / 2 }

theorem online3_defined (h : List (Call (DocArg 1 2) Unit)) (hh : ∀ d ∈ given h, d.2.1.cls = 0)
    (beta : Mat 1 2 ℝ) (eta : Mat 1 1 ℝ) : ∃ s ev, onlineHistory onlineCfg3 beta eta h = some (s, ev) :=
  C52_defined (by simp [onlineCfg3]) beta eta h fun d hd => by simp [hh d hd]

/-- The share of the first word after one more document. -/
theorem online3_beta {beta : Mat 1 2 ℝ} {eta : Mat 1 1 ℝ} {h : List (Call (DocArg 1 2) Unit)}
    {s s' : OnlineState 1 2 1} {ev ev' : List (Option ℝ)}
    (hs : onlineHistory onlineCfg3 beta eta h = some (s, ev)) {d : DocArg 1 2} {b : Mat 1 2 ℝ}
    (hb : s.beta = some b) (hs' : onlineHistory onlineCfg3 beta eta (h ++ [.doc d]) = some (s', ev'))
    (hm : topicMass ((given h ++ [d]).map Prod.snd) 0 ≠ 0) :
    ∃ b', s'.beta = some b' ∧ b' 0 0 = b 0 0 / 2 +
      expectedCounts ((given h ++ [d]).map Prod.snd) 0 0 / topicMass ((given h ++ [d]).map Prod.snd) 0 / 2 := by
  refine ⟨_, C53_all_documents (by simp [onlineCfg3]) hs d (by simp [onlineCfg3]) hb hs' fun k => by
    rw [Subsingleton.elim k 0]; exact hm, ?_⟩
  simp only [onlineCfg3]
  ring

/-- The calls that one epoch over two documents makes. -/
noncomputable def epoch3 : List (Call (DocArg 1 2) Unit) :=
  [.doc (onlineDoc1 1 0), .doc (onlineDoc1 0 1), .step ()]

/-- **C87 is false for the online step**: two epochs over the same two documents.  In between, a fresh step
takes over with the model of the first epoch; the topics become different. -/
theorem C87_online :
    ∃ (beta beta1 : Mat 1 2 ℝ) (eta eta1 : Mat 1 1 ℝ) (s s1 s2 : OnlineState 1 2 1)
      (ev ev1 ev2 : List (Option ℝ)),
      onlineHistory onlineCfg3 beta eta (epoch3 ++ epoch3) = some (s, ev) ∧
      onlineHistory onlineCfg3 beta eta epoch3 = some (s1, ev1) ∧ s1.beta = some beta1 ∧ s1.eta = some eta1 ∧
      onlineHistory onlineCfg3 beta1 eta1 epoch3 = some (s2, ev2) ∧ s2.beta ≠ s.beta := by
  have hmb : 0 < onlineCfg3.minibatch := by simp [onlineCfg3]
  let a : Call (DocArg 1 2) Unit := .doc (onlineDoc1 1 0)
  let c : Call (DocArg 1 2) Unit := .doc (onlineDoc1 0 1)
  let beta : Mat 1 2 ℝ := fun _ _ => 1 / 2
  let eta : Mat 1 1 ℝ := fun _ _ => 0
  have hdef : ∀ (h : List (Call (DocArg 1 2) Unit)) (beta : Mat 1 2 ℝ) (eta : Mat 1 1 ℝ),
      (∀ d ∈ given h, d.2.1.cls = 0) → ∃ s ev, onlineHistory onlineCfg3 beta eta h = some (s, ev) :=
    fun h beta eta hh => online3_defined h hh beta eta
  have hs0 : ∀ (beta : Mat 1 2 ℝ) (eta : Mat 1 1 ℝ), onlineHistory (K := 1) (V := 2) onlineCfg3 beta eta [] =
      some (⟨none, 0, some beta, some eta⟩, []) := fun _ _ => rfl
  obtain ⟨u1, x1, g1⟩ := hdef ([] ++ [a]) beta eta (by simp [a, onlineDoc1])
  obtain ⟨u2, x2, g2⟩ := hdef ([a] ++ [c]) beta eta (by simp [a, c, onlineDoc1])
  obtain ⟨b1, e1, v1⟩ := online3_beta (hs0 beta eta) rfl g1
    (by norm_num [onlineDoc1, topicMass, expectedCounts, Fin.sum_univ_two])
  obtain ⟨b2, e2, v2⟩ := online3_beta g1 e1 g2
    (by norm_num [a, onlineDoc1, topicMass, expectedCounts, Fin.sum_univ_two])
  have g3 := C52_m_step_no_op hmb g2
  obtain ⟨u4, x4, g4⟩ := hdef (([a] ++ [c] ++ [.step ()]) ++ [a]) beta eta (by simp [a, c, onlineDoc1])
  obtain ⟨u5, x5, g5⟩ := hdef (([a] ++ [c] ++ [.step ()] ++ [a]) ++ [c]) beta eta (by simp [a, c, onlineDoc1])
  obtain ⟨b4, e4, v4⟩ := online3_beta g3 e2 g4
    (by norm_num [a, c, onlineDoc1, topicMass, expectedCounts, Fin.sum_univ_two])
  obtain ⟨b5, e5, v5⟩ := online3_beta g4 e4 g5
    (by norm_num [a, c, onlineDoc1, topicMass, expectedCounts, Fin.sum_univ_two])
  have g6 := C52_m_step_no_op hmb g5
  obtain ⟨eta1, _, he1, _⟩ : ∃ (e v : Mat 1 1 ℝ), u2.eta = some e ∧ True := by
    obtain ⟨e, v, h, _⟩ := C52_finite hmb g2 (by simp [a, c, onlineDoc1]) (by
      intro d hd
      have : d = onlineDoc1 1 0 ∨ d = onlineDoc1 0 1 := by simpa [a, c] using hd
      rcases this with rfl | rfl <;> norm_num [onlineDoc1])
    exact ⟨e, v, h, trivial⟩
  obtain ⟨w1, y1, k1⟩ := hdef ([] ++ [a]) b2 eta1 (by simp [a, onlineDoc1])
  obtain ⟨w2, y2, k2⟩ := hdef ([a] ++ [c]) b2 eta1 (by simp [a, c, onlineDoc1])
  obtain ⟨d1, f1, z1⟩ := online3_beta (hs0 b2 eta1) rfl k1
    (by norm_num [onlineDoc1, topicMass, expectedCounts, Fin.sum_univ_two])
  obtain ⟨d2, f2, z2⟩ := online3_beta k1 f1 k2
    (by norm_num [a, onlineDoc1, topicMass, expectedCounts, Fin.sum_univ_two])
  have k3 := C52_m_step_no_op hmb k2
  refine ⟨beta, b2, eta, eta1, u5, u2, w2, x5, x2, y2, g6, g3, e2, he1, k3, ?_⟩
  rw [f2, e5]
  intro h
  have h := congrFun (congrFun (Option.some.inj h) 0) 0
  norm_num [a, c, beta, onlineDoc1, topicMass, expectedCounts, Fin.sum_univ_two] at v1 v2 v4 v5 z1 z2
  rw [z2, z1, v5, v4] at h
  rw [v2, v1] at h
  norm_num at h

/-- There are runs of every sequence of epochs. -/
theorem calls_exist (b : BatchStep Q R S) (next : T → T) (eval : Q × T → ℕ → R) {W : ℕ} (hW : 0 < W) (n : ℕ)
    (orders : List (ℕ → ℕ)) : ∀ m : Q × T × Option S,
    ∃ m' logs, Calls (fitCalls b next eval W n orders) .empty m .empty m' logs := by
  induction orders with
  | nil => exact fun m => ⟨m, [], .nil _ _⟩
  | cons p orders ih =>
    intro m
    obtain ⟨⟨as, s, h1, h2⟩, _⟩ := C05_returns_partial (c := trainCfg b next eval true W n p) (m := m) (.inl hW)
      (Reachable.init _ m)
    have hclean := C06_nothing_left (c := trainCfg b next eval true W n p) ⟨as, h1⟩ h2
    have hleft : s.left = .empty := by
      simp [St.left, Left.empty, hclean.1, hclean.2.1, hclean.2.2.2 rfl]
    obtain ⟨m', logs, h⟩ := ih s.model
    have h : Calls (fitCalls b next eval W n orders) s.left s.model .empty m' logs := hleft.symm ▸ h
    exact ⟨m', _, .cons as s h1 h2 h⟩

/-- The three runs exist, whatever the numbers of workers and the shuffles: the unsupervised step. -/
example (corpus : ℕ → Doc V) (eval : Params K V C × Unit → ℕ → VP K V) (q : Params K V C) {W W1 W2 : ℕ}
    (h : 0 < W) (h1 : 0 < W1) (h2 : 0 < W2) (n : ℕ) (orders orders1 orders2 : List (ℕ → ℕ))
    (ho : ∀ p ∈ orders1, ((List.range n).map p).Perm (List.range n)) :
    ∃ m m1 m2 logs logs1 logs2,
      Calls (fitCalls (unsupervised corpus) id eval W n orders) .empty (q, (), some none) .empty m logs ∧
      Calls (fitCalls (unsupervised corpus) id eval W1 n orders1) .empty (q, (), some none) .empty m1 logs1 ∧
      m1.2.2 ≠ none ∧
      Calls (fitCalls (unsupervised corpus) id eval W2 n orders2) .empty (m1.1, (), some none) .empty m2 logs2 := by
  obtain ⟨m, logs, c⟩ := calls_exist (unsupervised corpus) id eval h n orders (q, (), some none)
  obtain ⟨m1, logs1, c1⟩ := calls_exist (unsupervised corpus) id eval h1 n orders1 (q, (), some none)
  obtain ⟨m2, logs2, c2⟩ := calls_exist (unsupervised corpus) id eval h2 n orders2 (m1.1, (), some none)
  refine ⟨m, m1, m2, logs, logs1, logs2, c, c1, ?_, c2⟩
  have hd : ∀ (l : List (ℕ × VP K V)) (q : Params K V C) (s : Buf K V),
      (OrderFree.docs (unsupervised corpus) (q, (), some s) l).2.2 ≠ none := by
    intro l
    induction l with
    | nil => intro q s; simp [OrderFree.docs]
    | cons a l ih => intro q s; exact ih q _
  have he : ∀ (m : Params K V C × Unit × Option (Buf K V)), m.2.2 ≠ none →
      (epoch (unsupervised corpus) id eval n m).2.2 ≠ none := by
    rintro ⟨q, t, x⟩ hx
    obtain ⟨s, rfl⟩ := Option.ne_none_iff_exists'.1 hx
    rw [OrderFree.epoch_eq]
    obtain ⟨s', hs'⟩ := Option.ne_none_iff_exists'.1
      (hd ((List.range n).map fun i => (i, eval (trainParams (q, t, some s)) i)) q s)
    rw [trainBatch, hs']
    simp [unsupervised]
  have hi : ∀ (k : ℕ) (m : Params K V C × Unit × Option (Buf K V)), m.2.2 ≠ none →
      ((epoch (unsupervised corpus) id eval n)^[k] m).2.2 ≠ none := by
    intro k
    induction k with
    | zero => exact fun m hm => hm
    | succ k ih => exact fun m hm => by rw [Function.iterate_succ_apply]; exact ih _ (he m hm)
  have hf : (unsupervisedFree (K := K) (C := C) corpus).Is none [] false :=
    ⟨uHistory_buf (h := []) rfl, by simp⟩
  exact fun hc => hi orders1.length (q, (), some none) (by simp) ((C08_fit _ hf ho c1).2.1 hc)

end Verif.Train
