import Verif.Props.EpochBound
import Verif.Props.Renumber

/-!
C118: throughout training the topics are distributions over the words of the corpus, and a topic never takes up a word
that it did not know.
-/
namespace Verif.Train

open MathUtils EStep MStep Pool Finset

variable {Q R S T D : Type}

/-! ### Invariants of training -/

/-- An epoch, from and to a state between epochs. -/
theorem OrderFree.epoch_sound {b : BatchStep Q R S} (o : OrderFree b D) {n : ℕ} {eval : Q × T → ℕ → R} {next : T → T}
    {Pre Post : Q → Prop} (hok : ∀ q t i, Pre q → i < n → o.ok (o.item q i (eval (q, t) i)))
    (hstep : ∀ q t s f, Pre q → o.Is s ((List.range n).map fun i => o.item q i (eval (q, t) i)) f →
      ∃ q' u k, b.step q s = some (q', u, k) ∧ Post q')
    {m : Q × T × Option S} (hm : o.Resting m) (hd : m.2.2 ≠ none) (hp : Pre m.1) :
    o.Resting (Train.epoch b next eval n m) ∧ (Train.epoch b next eval n m).2.2 ≠ none ∧
      Post (Train.epoch b next eval n m).1 := by
  obtain ⟨q, t, x⟩ := m
  obtain ⟨s, rfl⟩ := Option.ne_none_iff_exists'.1 hd
  obtain ⟨f, hf⟩ := hm s rfl
  rw [OrderFree.epoch_eq, show trainParams (q, t, some s) = (q, t) from rfl]
  rcases o.docs_state q t ((List.range n).map fun i => (i, eval (q, t) i)) s [] f hf with ⟨h, _⟩ | ⟨_, s', e, hI⟩
  · obtain ⟨d, hd, hno⟩ := h
    obtain ⟨i, hi, rfl⟩ := List.mem_map.1 hd
    exact absurd (hok q t i hp (List.mem_range.1 hi)) hno
  · rw [List.nil_append, List.map_map] at hI
    rw [e]
    obtain ⟨q', u, k, e4, hq⟩ := hstep q t s' _ hp hI
    rcases o.step (q := q) hI hI (List.Perm.refl _) with ⟨e5, _⟩ | ⟨q1, u1, u', k1, e5, _, hu, _⟩
    · rw [e4] at e5; cases e5
    · rw [e4] at e5
      simp only [Option.some.injEq, Prod.mk.injEq] at e5
      obtain ⟨rfl, rfl, rfl⟩ := e5
      simp only [trainBatch, Option.bind_some, e4]
      exact ⟨fun s1 hs1 => ⟨_, (Option.some.inj hs1) ▸ hu⟩, by simp, hq⟩

/-- `fit`: if every document and every `m_step` is defined as long as `Pre` holds, and `m_step` makes `Post` and thereby
`Pre` hold, then training is defined and `Post` holds after every iteration, for all schedules, numbers of workers and
shuffles. -/
theorem OrderFree.fit_sound {b : BatchStep Q R S} (o : OrderFree b D) {n : ℕ} {eval : Q × T → ℕ → R} {next : T → T}
    {Pre Post : Q → Prop} (hpp : ∀ q, Post q → Pre q)
    (hok : ∀ q t i, Pre q → i < n → o.ok (o.item q i (eval (q, t) i)))
    (hstep : ∀ q t s f, Pre q → o.Is s ((List.range n).map fun i => o.item q i (eval (q, t) i)) f →
      ∃ q' u k, b.step q s = some (q', u, k) ∧ Post q')
    {s0 : S} {f : Bool} (h0 : o.Is s0 [] f) {q : Q} {t : T} (hq : Pre q) {W : ℕ} {orders : List (ℕ → ℕ)}
    (ho : ∀ p ∈ orders, ((List.range n).map p).Perm (List.range n)) (hne : orders ≠ [])
    {m : Q × T × Option S} {l : Left R} {logs : List (List (Obs R))}
    (hc : Calls (fitCalls b next eval W n orders) .empty (q, t, some s0) l m logs) : m.2.2 ≠ none ∧ Post m.1 := by
  obtain ⟨e1, e2⟩ := C08_fit o h0 ho hc
  have key : ∀ (k : ℕ), o.Resting ((Train.epoch b next eval n)^[k] (q, t, some s0)) ∧
      ((Train.epoch b next eval n)^[k] (q, t, some s0)).2.2 ≠ none ∧
        Pre ((Train.epoch b next eval n)^[k] (q, t, some s0)).1 := by
    intro k
    induction k with
    | zero =>
      refine ⟨?_, by simp, hq⟩
      intro s hs
      simp only [Function.iterate_zero, id_eq, Option.some.injEq] at hs
      subst hs
      exact ⟨f, h0⟩
    | succ k ih =>
      rw [Function.iterate_succ_apply']
      obtain ⟨h1, h2, h3⟩ := o.epoch_sound (next := next) hok hstep ih.1 ih.2.1 ih.2.2
      exact ⟨h1, h2, hpp _ h3⟩
  obtain ⟨k, hk⟩ : ∃ k, orders.length = k + 1 := ⟨orders.length - 1, by
    have := List.length_pos_iff.2 hne
    omega⟩
  obtain ⟨_, h2, h3⟩ := o.epoch_sound (next := next) hok hstep (key k).1 (key k).2.1 (key k).2.2
  rw [hk, Function.iterate_succ_apply'] at e1 e2
  rw [e1]
  exact ⟨fun h => h2 (e2.1 h), h3⟩

/-! ### Topics -/

variable {K V C : ℕ}

/-- The word occurs in the corpus. -/
def Occurs (corpus : ℕ → Doc V) (n : ℕ) (w : Fin V) : Prop := ∃ i < n, (corpus i).words w ≠ 0

/-- The responsibilities of a document are not negative, and for a word of the document those of the topics that know it
are positive and those of the others zero. -/
def Shares (words : Vec V ℕ) (beta phi : Mat K V ℝ) : Prop :=
  ∀ k w, 0 ≤ phi k w ∧ (words w ≠ 0 → (0 < phi k w ↔ 0 < beta k w))

/-- The topics are distributions, and on the words of the corpus know what `beta0` knows. -/
def Agrees (corpus : ℕ → Doc V) (n : ℕ) (beta0 beta : Mat K V ℝ) : Prop :=
  RowStochastic beta ∧ ∀ k w, Occurs corpus n w → (0 < beta k w ↔ 0 < beta0 k w)

/-- The topics are distributions over the words of the corpus, each over those that it knows in `beta0`. -/
def Restricts (corpus : ℕ → Doc V) (n : ℕ) (beta0 beta : Mat K V ℝ) : Prop :=
  RowStochastic beta ∧ ∀ k w, 0 < beta k w ↔ 0 < beta0 k w ∧ Occurs corpus n w

theorem Restricts.agrees {corpus : ℕ → Doc V} {n : ℕ} {beta0 beta : Mat K V ℝ} (h : Restricts corpus n beta0 beta) :
    Agrees corpus n beta0 beta :=
  ⟨h.1, fun k w hw => (h.2 k w).trans (and_iff_left hw)⟩

/-- What a document contributes to the topics. -/
def Contributes (words : Vec V ℕ) (beta a : Mat K V ℝ) : Prop :=
  ∀ k w, 0 ≤ a k w ∧ (0 < a k w ↔ 0 < beta k w ∧ words w ≠ 0)

theorem Shares.contributes {words : Vec V ℕ} {beta phi : Mat K V ℝ} (h : Shares words beta phi) {c : Vec V ℝ}
    (hc : ∀ w, 0 ≤ c w) (hc' : ∀ w, 0 < c w ↔ words w ≠ 0) : Contributes words beta fun k w => phi k w * c w := by
  intro k w
  refine ⟨mul_nonneg (h k w).1 (hc w), ?_⟩
  by_cases hw : words w = 0
  · have : c w = 0 := le_antisymm (not_lt.1 fun h0 => (hc' w).1 h0 hw) (hc w)
    simp [this, hw]
  · rw [mul_pos_iff_of_pos_right ((hc' w).2 hw), (h k w).2 hw]
    simp [hw]

theorem sum_contributes {corpus : ℕ → Doc V} {n : ℕ} {beta : Mat K V ℝ} {a : ℕ → Mat K V ℝ}
    (h : ∀ i < n, Contributes (corpus i).words beta (a i)) (k : Fin K) (w : Fin V) :
    0 ≤ ((List.range n).map fun i => a i k w).sum ∧
      (0 < ((List.range n).map fun i => a i k w).sum ↔ 0 < beta k w ∧ Occurs corpus n w) := by
  have hnn : ∀ x ∈ (List.range n).map (fun i => a i k w), 0 ≤ x := by
    intro x hx
    obtain ⟨i, hi, rfl⟩ := List.mem_map.1 hx
    exact (h i (List.mem_range.1 hi) k w).1
  refine ⟨List.sum_nonneg hnn, ?_, ?_⟩
  · intro hs
    by_contra hno
    refine hs.ne' (List.sum_eq_zero fun x hx => ?_)
    obtain ⟨i, hi, rfl⟩ := List.mem_map.1 hx
    have hi := List.mem_range.1 hi
    refine le_antisymm (not_lt.1 fun h0 => hno ?_) (h i hi k w).1
    obtain ⟨h1, h2⟩ := (h i hi k w).2.1 h0
    exact ⟨h1, i, hi, h2⟩
  · rintro ⟨hk, i, hi, hz⟩
    exact lt_of_lt_of_le ((h i hi k w).2.2 ⟨hk, hz⟩)
      (List.single_le_sum hnn _ (List.mem_map.2 ⟨i, List.mem_range.2 hi, rfl⟩))

/-- The sums divided by the sums of their rows. -/
theorem restricts_of {corpus : ℕ → Doc V} {n : ℕ} {beta0 beta c : Mat K V ℝ} (ha : Agrees corpus n beta0 beta)
    (huse : ∀ k, ∃ w, 0 < beta0 k w ∧ Occurs corpus n w)
    (hc : ∀ k w, 0 ≤ c k w ∧ (0 < c k w ↔ 0 < beta k w ∧ Occurs corpus n w)) :
    (∀ k, 0 < ∑ w, c k w) ∧ Restricts corpus n beta0 fun k w => c k w / ∑ w, c k w := by
  have hmass : ∀ k, 0 < ∑ w, c k w := by
    intro k
    obtain ⟨w, h1, h2⟩ := huse k
    exact lt_of_lt_of_le ((hc k w).2.2 ⟨(ha.2 k w h2).2 h1, h2⟩)
      (Finset.single_le_sum (f := fun w => c k w) (fun w _ => (hc k w).1) (mem_univ w))
  refine ⟨hmass, ⟨fun k w => div_nonneg (hc k w).1 (hmass k).le, fun k => ?_⟩, fun k w => ?_⟩
  · rw [← Finset.sum_div]
    exact div_self (hmass k).ne'
  · rw [div_pos_iff_of_pos_right (hmass k), (hc k w).2]
    exact ⟨fun ⟨h1, h2⟩ => ⟨(ha.2 k w h2).1 h1, h2⟩, fun ⟨h1, h2⟩ => ⟨(ha.2 k w h2).2 h1, h2⟩⟩

/-- What is assumed of the E step: on a model with distributions for topics, which of the words of the corpus know what
`beta0` knows, the responsibilities go to the topics that know the word. -/
def Careful (corpus : ℕ → Doc V) (n : ℕ) (alpha : Vec K ℝ) (beta0 : Mat K V ℝ) (eval : Params K V C × T → ℕ → VP K V) :
    Prop :=
  ∀ q t i beta, i < n → q.alpha = alpha → q.beta.IsReal beta → Agrees corpus n beta0 beta →
    Shares (corpus i).words beta (eval (q, t) i).phi

/-- The prior is `alpha` and the topics are real numbers for which `G` holds. -/
def Good (alpha : Vec K ℝ) (G : Mat K V ℝ → Prop) (q : Params K V C) : Prop :=
  q.alpha = alpha ∧ ∃ beta, q.beta.IsReal beta ∧ G beta

variable {corpus : ℕ → Doc V} {n : ℕ} {alpha : Vec K ℝ} {beta0 : Mat K V ℝ} {eval : Params K V C × T → ℕ → VP K V}
  {next : T → T} {t : T} {W : ℕ} {orders : List (ℕ → ℕ)} {l : Left (VP K V)} {logs : List (List (Obs (VP K V)))}

theorem restricts_betaOf {beta : Mat K V ℝ} {r : ℕ → VP K V} (ha : Agrees corpus n beta0 beta)
    (huse : ∀ k, ∃ w, 0 < beta0 k w ∧ Occurs corpus n w) (hs : ∀ i < n, Shares (corpus i).words beta (r i).phi) :
    ∃ beta', (betaOf ((List.range n).map fun i => (corpus i, r i))).IsReal beta' ∧ Restricts corpus n beta0 beta' := by
  obtain ⟨h4, h5⟩ := restricts_of ha huse (sum_contributes fun i hi => (hs i hi).contributes
    (c := fun w => ((corpus i).words w : ℝ)) (fun w => Nat.cast_nonneg _) fun w => by
      rw [Nat.cast_pos, Nat.pos_iff_ne_zero])
  have e : expectedCounts ((List.range n).map fun i => (corpus i, r i)) = fun k w =>
      ((List.range n).map fun i => (r i).phi k w * ((corpus i).words w : ℝ)).sum := by
    funext k w
    simp only [expectedCounts, List.map_map]
    congr 1
    refine List.map_congr_left fun i _ => ?_
    simp [mul_comm]
  refine ⟨_, ?_, h5⟩
  have := betaOf_isReal (ds := (List.range n).map fun i => (corpus i, r i)) fun k => by
    rw [topicMass, e]; exact (h4 k).ne'
  simp only [topicMass, e] at this
  exact this

theorem good_step (huse : ∀ k, ∃ w, 0 < beta0 k w ∧ Occurs corpus n w) (hE : Careful corpus n alpha beta0 eval)
    {q : Params K V C} (hq : Good alpha (Agrees corpus n beta0) q) {b : Beta K V}
    (hb : b = betaOf ((List.range n).map fun i => (corpus i, eval (q, t) i))) (eta : Mat K C ℝ) :
    Good alpha (Restricts corpus n beta0) ⟨q.alpha, b, eta⟩ := by
  obtain ⟨h1, beta, h2, h3⟩ := hq
  obtain ⟨beta', h4, h5⟩ := restricts_betaOf h3 huse fun i hi => hE q t i beta hi h1 h2 h3
  exact ⟨h1, beta', hb ▸ h4, h5⟩

theorem range_map_ne_nil {A : Type} {f : ℕ → A} (hn : 0 < n) : (List.range n).map f ≠ [] := by
  simp only [ne_eq, List.map_eq_nil_iff, List.range_eq_nil]
  omega

theorem good_mono {q : Params K V C} (h : Good alpha (Restricts corpus n beta0) q) :
    Good alpha (Agrees corpus n beta0) q :=
  ⟨h.1, h.2.imp fun _ hb => ⟨hb.1, hb.2.agrees⟩⟩

/-- `m_step` of the fast and semi supervised steps is defined after documents with labels in range. -/
theorem fast_ready {s : FastState K V} {ds : List (DocArg K V)} {all : List (Given K V)} (h : FastIs s ds all)
    (hne : ds ≠ []) (hl : ∀ d ∈ ds, 0 ≤ d.2.1.cls ∧ d.2.1.cls < (C : ℤ)) (mcfg : SupCfg) (eta : Mat K C ℝ) :
    ∃ e ev u, fastM mcfg eta s = some (⟨uBeta s.b, e, ev⟩, u) := by
  obtain ⟨t, ht⟩ := fastHistory_docs (C := C) mcfg ds
  obtain ⟨data, d1, d2⟩ := exists_data (C := C) ds (fun d => topicShare d.1 d.2.2.gamma) (fun d => d.2.1.cls) hl
  have hsd := since_docs (B := Mat K C ℝ) ds
  obtain ⟨out, s', _, _, _, hM, _⟩ := C50_fast_trains ht (by rw [hsd]; exact hne) eta
    (by rw [hsd]; exact d1) (by rw [hsd]; exact d2)
  obtain ⟨_, _, _, _, e1⟩ := (fastHistory_is ht).step (C := C) mcfg eta
  obtain ⟨u, _, _, _, e2⟩ := h.step (C := C) mcfg eta
  rw [hsd, hM] at e1
  rw [e2]
  cases hb : (Optim.logisticDefault C (ds.map fun d => topicShare d.1 d.2.2.gamma) (ds.map fun d => d.2.1.cls)
      mcfg.penalty) with
  | none => rw [hb] at e1; cases e1
  | some pr =>
    rw [hb, Option.bind_some] at e1
    cases hd : descend mcfg pr eta with
    | none => rw [hd] at e1; cases e1
    | some r => exact ⟨r.1, r.2.map some, u, by simp [hd]⟩

theorem supHistory_docs (mcfg : SupCfg) {ds : List (DocArg K V)} (hs : ∀ d ∈ ds, size d ≤ 46340) :
    ∃ s, supHistory (C := C) mcfg (ds.map .doc) = some s := by
  induction ds using List.reverseRecOn with
  | nil => exact ⟨_, rfl⟩
  | append_singleton ds d ih =>
    obtain ⟨s, h⟩ := ih fun x hx => hs x (List.mem_append_left _ hx)
    rw [List.map_append]
    exact C80_defined_partial h d (hs d (by simp))

/-- `m_step` of the supervised step is defined after documents of at most 46340 words with labels in range. -/
theorem sup_ready {s : SupState K V} {ds : List (DocArg K V)} (h : SupIs s ds) (hne : ds ≠ [])
    (hl : ∀ d ∈ ds, 0 ≤ d.2.1.cls ∧ d.2.1.cls < (C : ℤ)) (hs : ∀ d ∈ ds, size d ≤ 46340) (mcfg : SupCfg)
    (eta : Mat K C ℝ) : ∃ e ev u, supM mcfg eta s = some (⟨uBeta s.b, e, ev⟩, u) := by
  obtain ⟨t, ht⟩ := supHistory_docs (C := C) mcfg hs
  have hsd := since_docs (B := Mat K C ℝ) ds
  have hM : ∃ out s', supM mcfg eta t = some (out, s') := by
    by_cases h0 : ∃ d ∈ ds, size d = 0
    · exact C81_empty_defined ht (by rw [hsd]; exact h0) (by rw [hsd]; exact hl) eta
    · push Not at h0
      obtain ⟨data, d1, d2, d3⟩ : ∃ data : List (Vec K ℝ × Mat K K ℝ × Fin C), data.map Prod.fst = ds.map meanTopics ∧
          (data.map fun d => d.2.1) = ds.map varTopics ∧
          (data.map fun d => (d.2.2 : ℤ)) = ds.map fun d => d.2.1.cls := by
        clear ht hsd hne h hs h0
        induction ds with
        | nil => exact ⟨[], rfl, rfl, rfl⟩
        | cons a ds ih =>
          obtain ⟨data, h1, h2, h3⟩ := ih fun b hb => hl b (List.mem_cons_of_mem _ hb)
          have ha := hl a List.mem_cons_self
          refine ⟨(meanTopics a, varTopics a, ⟨a.2.1.cls.toNat, by omega⟩) :: data, by simp [h1], by simp [h2], ?_⟩
          simp only [List.map_cons, h3, List.cons.injEq, and_true]
          exact Int.toNat_of_nonneg ha.1
      obtain ⟨out, s', _, _, _, hM, _⟩ := C50_second_trains ht (by rw [hsd]; exact hne) (by rw [hsd]; exact h0) eta
        (by rw [hsd]; exact d1) (by rw [hsd]; exact d2) (by rw [hsd]; exact d3)
      exact ⟨out, s', hM⟩
  obtain ⟨out, s', hM⟩ := hM
  obtain ⟨_, _, _, _, e1⟩ := (supHistory_is ht).step (C := C) mcfg eta
  obtain ⟨u, _, _, _, e2⟩ := h.step (C := C) mcfg eta
  rw [hsd, hM] at e1
  rw [e2]
  cases hd : supDescend mcfg (ds.map fun d => supZbar (numWords d.2.1.words) d.2.2.gamma d.1)
      (ds.map fun d => supVar (numWords d.2.1.words) d.2.1.words d.2.2.phi) (ds.map fun d => d.2.1.cls) eta with
  | none => rw [hd] at e1; cases e1
  | some r => exact ⟨_, _, u, rfl⟩

/-- The labels of the corpus are numbers of classes. -/
def Labelled (corpus : ℕ → Doc V) (n C : ℕ) : Prop := ∀ i < n, 0 ≤ (corpus i).cls ∧ (corpus i).cls < (C : ℤ)

/-- **C118**, unsupervised M step. -/
theorem C118_fit_unsupervised (hn : 0 < n) (huse : ∀ k, ∃ w, 0 < beta0 k w ∧ Occurs corpus n w)
    (hE : Careful corpus n alpha beta0 eval) {q : Params K V C} (hq : Good alpha (Agrees corpus n beta0) q)
    (ho : ∀ p ∈ orders, ((List.range n).map p).Perm (List.range n)) (hne : orders ≠ [])
    {m : Params K V C × T × Option (Buf K V)}
    (hc : Calls (fitCalls (unsupervised corpus) next eval W n orders) .empty (q, t, some none) l m logs) :
    m.2.2 ≠ none ∧ Good alpha (Restricts corpus n beta0) m.1 := by
  refine (unsupervisedFree corpus).fit_sound (Pre := Good alpha (Agrees corpus n beta0)) (fun _ => good_mono)
    (fun _ _ _ _ _ => trivial) ?_ (f := false) ⟨by simp [BufIs], by simp⟩ hq ho hne hc
  intro q t s f hq hI
  exact ⟨_, _, _, rfl, good_step huse hE hq (hI.1.beta (range_map_ne_nil hn)) q.eta⟩

/-- **C118**, fast supervised M step. -/
theorem C118_fit_fast (mcfg : SupCfg) (hn : 0 < n) (hcls : Labelled corpus n C)
    (huse : ∀ k, ∃ w, 0 < beta0 k w ∧ Occurs corpus n w)
    (hE : Careful corpus n alpha beta0 eval) {q : Params K V C} (hq : Good alpha (Agrees corpus n beta0) q)
    (ho : ∀ p ∈ orders, ((List.range n).map p).Perm (List.range n)) (hne : orders ≠ [])
    {m : Params K V C × T × Option (FastState K V)}
    (hc : Calls (fitCalls (fastSupervised mcfg corpus) next eval W n orders) .empty (q, t, some .init) l m logs) :
    m.2.2 ≠ none ∧ Good alpha (Restricts corpus n beta0) m.1 := by
  refine (fastFree mcfg corpus).fit_sound (Pre := Good alpha (Agrees corpus n beta0)) (fun _ => good_mono)
    (fun _ _ _ _ _ => trivial) ?_ (f := false) ⟨FastIs.init, by simp [FastState.init]⟩ hq ho hne hc
  intro q t s f hq hI
  obtain ⟨e, ev, u, hM⟩ := fast_ready hI.1 (range_map_ne_nil hn) (fun d hd => by
    obtain ⟨i, hi, rfl⟩ := List.mem_map.1 hd
    exact hcls i (List.mem_range.1 hi)) mcfg q.eta
  have := hI.1.buf
  rw [List.map_map] at this
  exact ⟨_, u, ev.length, by simp only [fastSupervised, hM, Option.map_some],
    good_step huse hE hq (this.beta (range_map_ne_nil hn)) e⟩

/-- **C118**, semi supervised M step: documents without a label count too, but one must have a label. -/
theorem C118_fit_semi (mcfg : SupCfg) (hcls : ∀ i < n, (corpus i).cls < (C : ℤ)) (hlab : ∃ i < n, 0 ≤ (corpus i).cls)
    (huse : ∀ k, ∃ w, 0 < beta0 k w ∧ Occurs corpus n w)
    (hE : Careful corpus n alpha beta0 eval) {q : Params K V C} (hq : Good alpha (Agrees corpus n beta0) q)
    (ho : ∀ p ∈ orders, ((List.range n).map p).Perm (List.range n)) (hne : orders ≠ [])
    {m : Params K V C × T × Option (FastState K V)}
    (hc : Calls (fitCalls (semiSupervised mcfg corpus) next eval W n orders) .empty (q, t, some .init) l m logs) :
    m.2.2 ≠ none ∧ Good alpha (Restricts corpus n beta0) m.1 := by
  obtain ⟨i0, hi0, hl0⟩ := hlab
  refine (semiFree mcfg corpus).fit_sound (Pre := Good alpha (Agrees corpus n beta0)) (fun _ => good_mono)
    (fun _ _ _ _ _ => trivial) ?_ (f := false) ⟨FastIs.init, by simp [FastState.init]⟩ hq ho hne hc
  intro q t s f hq hI
  obtain ⟨e, ev, u, hM⟩ := fast_ready hI.1
    (List.ne_nil_of_mem (List.mem_filter.2 ⟨List.mem_map.2 ⟨i0, List.mem_range.2 hi0, rfl⟩, decide_eq_true hl0⟩))
    (fun d hd => by
      obtain ⟨h1, h2⟩ := List.mem_filter.1 hd
      obtain ⟨i, hi, rfl⟩ := List.mem_map.1 h1
      exact ⟨by simpa using h2, hcls i (List.mem_range.1 hi)⟩) mcfg q.eta
  have := hI.1.buf
  rw [List.map_map] at this
  exact ⟨_, u, ev.length, by simp only [semiSupervised, fastSupervised, hM, Option.map_some],
    good_step huse hE hq (this.beta (range_map_ne_nil (by omega))) e⟩

/-- **C118**, supervised M step, for documents of at most 46340 words. -/
theorem C118_fit_supervised (mcfg : SupCfg) (hn : 0 < n) (hcls : Labelled corpus n C)
    (hsize : ∀ i < n, numWords (corpus i).words ≤ 46340)
    (huse : ∀ k, ∃ w, 0 < beta0 k w ∧ Occurs corpus n w)
    (hE : Careful corpus n alpha beta0 eval) {q : Params K V C} (hq : Good alpha (Agrees corpus n beta0) q)
    (ho : ∀ p ∈ orders, ((List.range n).map p).Perm (List.range n)) (hne : orders ≠ [])
    {m : Params K V C × T × Option (SupState K V)}
    (hc : Calls (fitCalls (supervised mcfg corpus) next eval W n orders) .empty (q, t, some .init) l m logs) :
    m.2.2 ≠ none ∧ Good alpha (Restricts corpus n beta0) m.1 := by
  refine (supervisedFree mcfg corpus).fit_sound (Pre := Good alpha (Agrees corpus n beta0)) (fun _ => good_mono)
    (fun q t i _ hi => ?_) ?_ (f := false) ⟨SupIs.init, by simp [SupState.init]⟩ hq ho hne hc
  · have := hsize i hi
    change numWords (corpus i).words * numWords (corpus i).words ≤ 2147483647
    nlinarith
  intro q t s f hq hI
  obtain ⟨e, ev, u, hM⟩ := sup_ready hI.1 (range_map_ne_nil hn) (fun d hd => by
    obtain ⟨i, hi, rfl⟩ := List.mem_map.1 hd
    exact hcls i (List.mem_range.1 hi)) (fun d hd => by
    obtain ⟨i, hi, rfl⟩ := List.mem_map.1 hd
    exact hsize i (List.mem_range.1 hi)) mcfg q.eta
  have := hI.1.buf
  rw [List.map_map] at this
  exact ⟨_, u, ev.length, by simp only [supervised, hM, Option.map_some],
    good_step huse hE hq (this.beta (range_map_ne_nil hn)) e⟩

/-! ### Multinomial and correspondence models -/

/-- The prior is `alpha`, the topics are a matrix for which `G` holds, and every topic gives every class positive
probability. -/
def GoodMult (alpha : Vec K ℝ) (G : Mat K V ℝ → Prop) (q : MultParams K V C) : Prop :=
  q.1 = alpha ∧ ∃ beta eta, q.2 = some (beta, eta) ∧ G beta ∧ ∀ k c, 0 < eta k c

/-- After an epoch the class probabilities of each topic add up to one, too. -/
def GoodMultAfter (alpha : Vec K ℝ) (G : Mat K V ℝ → Prop) (q : MultParams K V C) : Prop :=
  q.1 = alpha ∧ ∃ beta eta, q.2 = some (beta, eta) ∧ G beta ∧ (∀ k c, 0 < eta k c) ∧ RowStochastic eta

/-- The assumption on the E step, whose responsibilities and word weights are given by `view`. -/
def CarefulMult (corpus : ℕ → Doc V) (n : ℕ) (alpha : Vec K ℝ) (beta0 : Mat K V ℝ)
    (eval : MultParams K V C × T → ℕ → R) (view : R → Mat K V ℝ × Vec V ℝ) : Prop :=
  ∀ q t i beta eta, i < n → q.1 = alpha → q.2 = some (beta, eta) → Agrees corpus n beta0 beta →
    (∀ k c, 0 < eta k c) →
    Shares (corpus i).words beta (view (eval (q, t) i)).1 ∧ ∀ w, 0 < (view (eval (q, t) i)).2 w

theorem goodMult_mono {q : MultParams K V C} (h : GoodMultAfter alpha (Restricts corpus n beta0) q) :
    GoodMult alpha (Agrees corpus n beta0) q := by
  obtain ⟨h1, beta, eta, h2, h3, h4, _⟩ := h
  exact ⟨h1, beta, eta, h2, h3.agrees, h4⟩

theorem goodMult_step {mu : ℝ} (hmu : 1 < mu) (hn : 0 < n)
    (huse : ∀ k, ∃ w, 0 < beta0 k w ∧ Occurs corpus n w) {q : MultParams K V C} {beta : Mat K V ℝ} (hq : q.1 = alpha)
    (hb : Agrees corpus n beta0 beta) {a : ℕ → Sample K V C}
    (ha : ∀ i < n, Contributes (corpus i).words beta (a i).counts) {s : MultState K V C} {f : Bool}
    (hI : MultHolds s ((List.range n).map fun i => some (a i)) f) :
    GoodMultAfter alpha (Restricts corpus n beta0) (q.1, (multM mu s).1.params) := by
  obtain ⟨l, el, hl, _⟩ := hI
  have el' : l = (List.range n).map a := by
    have : ((List.range n).map fun i => some (a i)) = ((List.range n).map a).map some := by
      rw [List.map_map]; rfl
    rw [this] at el
    exact (List.map_injective_iff.2 (Option.some_injective _) el).symm
  have hp : (multM mu s).1.params = some (normalizeRows (wordCount l),
      normalizeRows fun k c => classCount l k c + mu - 1) := by
    have h2 := hl.2
    cases hbufs : s.bufs with
    | none =>
      rw [hbufs] at h2
      exact absurd (el'.symm.trans h2) (range_map_ne_nil hn)
    | some p =>
      simp only [hbufs] at h2
      simp only [multM, hbufs, Option.map_some, h2.1, h2.2.1]
  have hw : wordCount l = fun k w => ((List.range n).map fun i => (a i).counts k w).sum := by
    funext k w
    rw [wordCount, el', List.map_map]
    rfl
  obtain ⟨h4, h5⟩ := restricts_of (c := wordCount l) hb huse fun k w => by
    rw [hw]
    exact sum_contributes ha k w
  have hcls : ∀ k c, 0 < classCount l k c + mu - 1 := by
    intro k c
    have : 0 ≤ classCount l k c := classCount_nonneg (by
      intro d hd
      rw [el'] at hd
      obtain ⟨i, hi, rfl⟩ := List.mem_map.1 hd
      exact fun k w => (ha i (List.mem_range.1 hi) k w).1) k c
    linarith
  have hC : 0 < C := by
    have := hl.1 (a 0) (by rw [el']; exact List.mem_map.2 ⟨0, List.mem_range.2 hn, rfl⟩)
    omega
  have hsum : ∀ k, 0 < ∑ c, (classCount l k c + mu - 1) := fun k =>
    Finset.sum_pos (fun c _ => hcls k c) ⟨⟨0, hC⟩, mem_univ _⟩
  have heta : ∀ k c, normalizeRows (fun k c => classCount l k c + mu - 1) k c =
      (classCount l k c + mu - 1) / ∑ c, (classCount l k c + mu - 1) := fun k c => by
    rw [normalizeRows_apply, if_neg (hsum k).ne']
  refine ⟨hq, _, _, hp, ?_, ?_, ?_, ?_⟩
  · have : normalizeRows (wordCount l) = fun k w => wordCount l k w / ∑ w, wordCount l k w := by
      funext k w
      rw [normalizeRows_apply, if_neg (h4 k).ne']
    rw [this]
    exact h5
  · intro k c
    rw [heta]
    exact div_pos (hcls k c) (hsum k)
  · intro k c
    rw [heta]
    exact (div_pos (hcls k c) (hsum k)).le
  · intro k
    simp only [heta]
    rw [← Finset.sum_div]
    exact div_self (hsum k).ne'

/-- **C118**, multinomial model. -/
theorem C118_fit_multinomial {mu : ℝ} (hmu : 1 < mu) (hn : 0 < n) (hcls : Labelled corpus n C)
    (huse : ∀ k, ∃ w, 0 < beta0 k w ∧ Occurs corpus n w) {eval : MultParams K V C × T → ℕ → VP K V}
    (hE : CarefulMult corpus n alpha beta0 eval fun r => (r.phi, fun _ => 1))
    {q : MultParams K V C} (hq : GoodMult alpha (Agrees corpus n beta0) q)
    (ho : ∀ p ∈ orders, ((List.range n).map p).Perm (List.range n)) (hne : orders ≠ [])
    {m : MultParams K V C × T × Option (MultState K V C)}
    (hc : Calls (fitCalls (multinomial mu corpus) next eval W n orders) .empty (q, t, some .init) l m logs) :
    m.2.2 ≠ none ∧ GoodMultAfter alpha (Restricts corpus n beta0) m.1 := by
  refine (multinomialFree mu corpus).fit_sound (Pre := GoodMult alpha (Agrees corpus n beta0))
    (fun _ => goodMult_mono) (fun q t i hq hi => ?_) ?_ (f := false)
    ⟨[], rfl, multHistory_is (mu := mu) (h := []) rfl, by simp [MultState.init]⟩ hq ho hne hc
  · obtain ⟨_, beta, eta, h2, _⟩ := hq
    exact ⟨multSample eta (corpus i, eval (q, t) i), by simp [multinomialFree, h2], hcls i hi⟩
  intro q t s f hq hI
  refine ⟨_, _, _, rfl, ?_⟩
  obtain ⟨h1, beta, eta, h2, h3, h4⟩ := hq
  have hI' : MultHolds s ((List.range n).map fun i => some (multSample eta (corpus i, eval (q, t) i))) f := by
    have := hI
    simp only [multinomialFree, h2, Option.map_some] at this
    exact this
  refine goodMult_step hmu hn huse h1 h3 (fun i hi => ?_) hI'
  exact (hE q t i beta eta hi h1 h2 h3 h4).1.contributes (c := fun w => ((corpus i).words w : ℝ))
    (fun w => Nat.cast_nonneg _) fun w => by rw [Nat.cast_pos, Nat.pos_iff_ne_zero]

/-- **C118**, correspondence model. -/
theorem C118_fit_correspondence {mu : ℝ} (hmu : 1 < mu) (hn : 0 < n) (hcls : Labelled corpus n C)
    (huse : ∀ k, ∃ w, 0 < beta0 k w ∧ Occurs corpus n w) {eval : MultParams K V C × T → ℕ → VP K V × Vec V ℝ}
    (hE : CarefulMult corpus n alpha beta0 eval fun r => (r.1.phi, r.2))
    {q : MultParams K V C} (hq : GoodMult alpha (Agrees corpus n beta0) q)
    (ho : ∀ p ∈ orders, ((List.range n).map p).Perm (List.range n)) (hne : orders ≠ [])
    {l : Left (VP K V × Vec V ℝ)} {logs : List (List (Obs (VP K V × Vec V ℝ)))}
    {m : MultParams K V C × T × Option (MultState K V C)}
    (hc : Calls (fitCalls (correspondence mu corpus) next eval W n orders) .empty (q, t, some .init) l m logs) :
    m.2.2 ≠ none ∧ GoodMultAfter alpha (Restricts corpus n beta0) m.1 := by
  refine (correspondenceFree mu corpus).fit_sound (Pre := GoodMult alpha (Agrees corpus n beta0))
    (fun _ => goodMult_mono) (fun q t i hq hi => ?_) ?_ (f := false)
    ⟨[], rfl, multHistory_is (mu := mu) (h := []) rfl, by simp [MultState.init]⟩ hq ho hne hc
  · obtain ⟨_, beta, eta, h2, _⟩ := hq
    exact ⟨corrSample eta (corpus i, (eval (q, t) i).1) (eval (q, t) i).2, by simp [correspondenceFree, h2], hcls i hi⟩
  intro q t s f hq hI
  refine ⟨_, _, _, rfl, ?_⟩
  obtain ⟨h1, beta, eta, h2, h3, h4⟩ := hq
  have hI' : MultHolds s ((List.range n).map fun i =>
      some (corrSample eta (corpus i, (eval (q, t) i).1) (eval (q, t) i).2)) f := by
    have := hI
    simp only [correspondenceFree, h2, Option.map_some] at this
    exact this
  refine goodMult_step hmu hn huse h1 h3 (fun i hi => ?_) hI'
  obtain ⟨h5, h6⟩ := hE q t i beta eta hi h1 h2 h3 h4
  refine h5.contributes (c := fun w => ((corpus i).words w : ℝ) * (eval (q, t) i).2 w)
    (fun w => mul_nonneg (Nat.cast_nonneg _) (h6 w).le) fun w => ?_
  rw [mul_pos_iff_of_pos_right (h6 w), Nat.cast_pos, Nat.pos_iff_ne_zero]

/-! ### The E steps of the library -/

/-- The E step makes an iteration for the document: the limit is not zero, and the tolerance is at most the mean of the
first values of `gamma`. -/
def Iterates (limit : ℕ) (tol : ℝ) (alpha : Vec K ℝ) (X : Vec V ℕ) : Prop :=
  limit ≠ 0 ∧ tol ≤ (∑ k, (alpha k + (∑ n, (X n : ℝ)) / K)) / K

theorem shares_of_proportional {words : Vec V ℕ} {beta phi e : Mat K V ℝ} (hb : ∀ k w, 0 ≤ beta k w)
    (he : ∀ k w, 0 < e k w) (hp : Proportional phi fun k w => beta k w * e k w) : Shares words beta phi := by
  intro k w
  have h1 : ∀ j, 0 ≤ beta j w * e j w := fun j => mul_nonneg (hb j w) (he j w).le
  by_cases hz : ∀ j, beta j w * e j w = 0
  · have h0 := (hp w).2.2 hz k
    have hk : beta k w = 0 := (mul_eq_zero.1 (hz k)).resolve_right (he k w).ne'
    rw [h0, hk]
    exact ⟨le_rfl, fun _ => Iff.rfl⟩
  · push Not at hz
    obtain ⟨j, hj⟩ := hz
    have hs : 0 < ∑ j, beta j w * e j w :=
      Finset.sum_pos' (fun j _ => h1 j) ⟨j, mem_univ j, lt_of_le_of_ne (h1 j) hj.symm⟩
    have hk : phi k w = beta k w * e k w / ∑ j, beta j w * e j w := by
      rw [eq_div_iff hs.ne']
      exact (hp w).1 k
    rw [hk, div_pos_iff_of_pos_right hs, mul_pos_iff_of_pos_right (he k w)]
    exact ⟨div_nonneg (h1 k) hs.le, fun _ => Iff.rfl⟩

theorem valid_of {n : ℕ} {corpus : ℕ → Doc V} {alpha : Vec K ℝ} {beta0 beta : Mat K V ℝ} (hal : ∀ k, 0 < alpha k)
    (ha : Agrees corpus n beta0 beta) (eta : Mat K C ℝ) : (⟨alpha, beta, eta⟩ : Model K V C).Valid :=
  ⟨hal, ha.1.1⟩

variable {P : Prims} {cfg : Cfg}

/-- The E step of LDA. -/
theorem careful_lda (hK : 0 < K) (hal : ∀ k, 0 < alpha k)
    (hit : ∀ i < n, Iterates cfg.iterations cfg.tolerance alpha (corpus i).words) (any : VP K V) :
    Careful (C := C) (T := T) corpus n alpha beta0
      (libResults (fun _ X _ m => unsupervisedRun P cfg X m) any corpus) := by
  rintro q t i beta hi rfl hb ha
  have hm := valid_of (C := C) hal ha q.eta
  obtain ⟨s, r, h, _⟩ := C35_unsupervised_defined (P := P) (cfg := cfg) (draw := 0) (X := (corpus i).words) hm hK
  simp only [libResults, realBeta_of hb, Option.bind_some, run_of_unsupervised h, Option.getD_some]
  obtain ⟨s1, psi, _, h2, _⟩ := (C38_unsupervised hm hK h).ran hm rfl (hit i hi)
  exact shares_of_proportional ha.1.1 (fun k _ => P.exp_pos (psi k)) h2

/-- The E step of fast supervised LDA. -/
theorem careful_flda (hK : 0 < K) (hal : ∀ k, 0 < alpha k) (hcls : Labelled corpus n C)
    (hit : ∀ i < n, Iterates cfg.iterations cfg.tolerance alpha (corpus i).words) (any : VP K V) :
    Careful (C := C) corpus n alpha beta0
      (libResults (fun (t : EStep.FastState) X y m => fastRun P cfg t.weight X y m) any corpus) := by
  rintro q t i beta hi rfl hb ha
  have hm := valid_of (C := C) hal ha q.eta
  obtain ⟨y, hy⟩ : ∃ y : Fin C, (corpus i).cls = (y : ℤ) :=
    ⟨⟨(corpus i).cls.toNat, by have := hcls i hi; omega⟩, by have := hcls i hi; simp; omega⟩
  obtain ⟨s, r, h⟩ := C35_fast_defined (P := P) (cfg := cfg) (draw := cfg.computeLikelihood) (X := (corpus i).words)
    (y := y) (w := t.weight) hm hK (Or.inr (lt_irrefl _))
  simp only [libResults, realBeta_of hb, Option.bind_some, hy, run_of_fast h, Option.getD_some]
  by_cases hX : ∃ n, (corpus i).words n ≠ 0
  · obtain ⟨s1, h1⟩ := (C38_fast hm hK h).ran hm rfl (hit i hi)
    obtain ⟨psi, sm, es, _, _, _, h2, _⟩ := h1.1 hX
    exact shares_of_proportional ha.1.1 (fun k n => P.exp_pos _) h2
  · push Not at hX
    exact fun k w => ⟨(fast_between hm h).1 k w, fun hw => absurd (hX w) hw⟩

theorem Times.last {A : Type} {R : A → A → Prop} {i : ℕ} {a c : A} (h : Times R i a c) (hi : i ≠ 0) : ∃ b, R b c := by
  induction h with
  | zero a => exact absurd rfl hi
  | @succ i a b c h1 h2 ih =>
    by_cases h0 : i = 0
    · subst h0
      cases h2
      exact ⟨a, h1⟩
    · exact ih h0

theorem WordUpdates.column {X : Vec V ℕ} {y : Fin C} {m : Model K V C} {fp : ℕ} {ns : List (Fin V)} {s s' : VP K V}
    (h : WordUpdates P X y m fp ns s s') (hfp : fp ≠ 0) :
    (∀ k, ∀ w ∉ ns, s'.phi k w = s.phi k w) ∧ ∀ w ∈ ns, ∃ psi h col,
      ColumnUpdate P (X w) (∑ i, (X i : ℝ)) (fun k => m.beta k w) (fun k => m.eta k y) psi h col
        fun k => s'.phi k w := by
  induction h with
  | nil s => simp
  | @cons v ns s s1 s2 h1 h2 ih =>
    obtain ⟨psi, _, h4, h5, _⟩ := h1
    refine ⟨fun k w hw => ?_, fun w hw => ?_⟩
    · rw [List.mem_cons, not_or] at hw
      rw [ih.1 k w hw.2, h5 k w hw.1]
    · by_cases hn : w ∈ ns
      · exact ih.2 w hn
      · obtain rfl : w = v := (List.mem_cons.1 hw).resolve_right hn
        obtain ⟨col, hcol⟩ := Times.last h4 hfp
        have e : (fun k => s2.phi k w) = fun k => s1.phi k w := funext fun k => ih.1 k w hn
        exact ⟨psi, _, col, e ▸ hcol⟩

/-- The E step of supervised LDA: the words of the corpus must be known and `fixed_point_iterations` not zero. -/
theorem careful_slda (hK : 0 < K) (hal : ∀ k, 0 < alpha k) (hcls : Labelled corpus n C)
    {fp : ℕ} (hfp : fp ≠ 0) (hkn : ∀ w, Occurs corpus n w → ∃ k, 0 < beta0 k w)
    (hit : ∀ i < n, Iterates cfg.iterations cfg.tolerance alpha (corpus i).words) (any : VP K V) :
    Careful (C := C) (T := T) corpus n alpha beta0
      (libResults (fun _ X y m => (supervisedRun P cfg fp X y m).map Prod.fst) any corpus) := by
  rintro q t i beta hi rfl hb ha
  have hm := valid_of (C := C) hal ha q.eta
  obtain ⟨y, hy⟩ : ∃ y : Fin C, (corpus i).cls = (y : ℤ) :=
    ⟨⟨(corpus i).cls.toNat, by have := hcls i hi; omega⟩, by have := hcls i hi; simp; omega⟩
  have hknown : ∀ w, (corpus i).words w ≠ 0 → (⟨q.alpha, beta, q.eta⟩ : Model K V C).Known w := fun w hw => by
    have ho : Occurs corpus n w := ⟨i, hi, hw⟩
    obtain ⟨k, hk⟩ := hkn w ho
    exact ⟨k, (ha.2 k w ho).2 hk⟩
  obtain ⟨⟨s, h'⟩, hrun, hinv⟩ := loop_total
    (step := supervisedPhiGamma P (corpus i).words (ratio (corpus i).words) (y : ℤ) beta q.eta fp)
    (gam := fun s => s.1.gamma) (tol := cfg.tolerance)
    (fun s => (∀ n, IsDist fun k => s.1.phi k n) ∧ Counts (corpus i).words q.alpha s.1) (fun s hs => by
      obtain ⟨s', h⟩ := supervisedPhiGamma_total (P := P) (y := y) (fp := fp) hm hs.1 hs.2 hknown
      obtain ⟨h1, h2, _⟩ := supervisedPhiGamma_spec hm hs.1 hs.2 h
      exact ⟨s', h, h1, h2⟩)
    cfg.iterations (fun _ => 0) (initial (corpus i).words q.alpha, none)
    ⟨initial_dist hK _ _, initial_counts _ _⟩
  have hfull : EStep.supervised P cfg fp cfg.computeLikelihood (corpus i).words (y : ℤ) ⟨q.alpha, beta, q.eta⟩ =
      some (s, .nan) := by
    unfold EStep.supervised supervisedRun report bernoulli
    rw [hrun]
    simp
  have hrun' : supervisedRun P cfg fp (corpus i).words (y : ℤ) ⟨q.alpha, beta, q.eta⟩ = some (s, h') := hrun
  simp only [libResults, realBeta_of hb, Option.bind_some, hy, hrun', Option.map_some, Option.getD_some]
  intro k w
  refine ⟨(hinv.1 w).1 k, fun hw => ?_⟩
  obtain ⟨s1, h1⟩ := (C38_supervised hm hK hfull).ran hm rfl (hit i hi)
  obtain ⟨psi, h, col, _, h2, Z, hZ⟩ := (WordUpdates.column h1 hfp).2 w (by simp [present, hw])
  obtain ⟨j, hj⟩ := hknown w hw
  have hZpos : 0 < Z := by
    have := hZ j
    have hp := mul_pos hj (P.exp_pos (psi j + ((corpus i).words w : ℝ) / (∑ i_1, ((corpus i).words i_1 : ℝ)) *
      q.eta j y - h j / ((∑ k, h k * col k) * (corpus i).words w)))
    rw [← this] at hp
    exact pos_of_mul_pos_right hp ((hinv.1 w).1 j)
  rw [← mul_pos_iff_of_pos_right hZpos, hZ k, mul_pos_iff_of_pos_right (P.exp_pos _)]

/-- The E step of multinomial supervised LDA. -/
theorem careful_multinomial (hK : 0 < K) (hal : ∀ k, 0 < alpha k)
    (hcls : Labelled corpus n C) (ew : ℝ)
    (hit : ∀ i < n, Iterates cfg.iterations cfg.computeLikelihood alpha (corpus i).words) (any : VP K V) :
    CarefulMult (C := C) (T := T) corpus n alpha beta0
      (libResultsMult (fun _ X y m => multinomialRun P cfg ew X y m) any corpus) fun r => (r.phi, fun _ => 1) := by
  rintro ⟨_, p⟩ t i beta eta hi rfl hp ha he
  have hm := valid_of (C := C) hal ha eta
  obtain ⟨y, hy⟩ : ∃ y : Fin C, (corpus i).cls = (y : ℤ) :=
    ⟨⟨(corpus i).cls.toNat, by have := hcls i hi; omega⟩, by have := hcls i hi; simp; omega⟩
  obtain ⟨s, r, h⟩ := C35_multinomial_defined (P := P) (cfg := cfg) (draw := 0) (X := (corpus i).words) (y := y)
    (ew := ew) (mu := 1) (prior := 1) (N := 1) hm hK fun k => he k y
  obtain rfl : p = some (beta, eta) := hp
  simp only [libResultsMult, Option.bind_some, hy, run_of_multinomial h, Option.getD_some]
  refine ⟨?_, fun _ => one_pos⟩
  obtain ⟨s1, psi, d, _, _, h2, _⟩ := (C38_multinomial_partial hm hK h).ran hm rfl (hit i hi)
  exact shares_of_proportional ha.1.1 (fun k _ => P.exp_pos _) h2

/-- The E step of correspondence LDA. -/
theorem careful_correspondence (hK : 0 < K) (hal : ∀ k, 0 < alpha k)
    (hcls : Labelled corpus n C)
    (hit : ∀ i < n, Iterates cfg.iterations cfg.tolerance alpha (corpus i).words) (any : VP K V × Vec V ℝ) :
    CarefulMult (C := C) (T := T) corpus n alpha beta0
      (libResultsMult (fun _ X y m => correspondenceRun P cfg X y m) any corpus) fun r => (r.1.phi, r.2) := by
  rintro ⟨_, p⟩ t i beta eta hi rfl hp ha he
  have hm := valid_of (C := C) hal ha eta
  obtain ⟨y, hy⟩ : ∃ y : Fin C, (corpus i).cls = (y : ℤ) :=
    ⟨⟨(corpus i).cls.toNat, by have := hcls i hi; omega⟩, by have := hcls i hi; simp; omega⟩
  obtain ⟨s, r, h⟩ := C35_correspondence_defined (P := P) (cfg := cfg) (draw := 0) (X := (corpus i).words) (y := y)
    (mu := 1) (N := 1) hm fun k => he k y
  obtain rfl : p = some (beta, eta) := hp
  simp only [libResultsMult, Option.bind_some, hy, run_of_correspondence h, Option.getD_some]
  obtain ⟨s1, psi, _, h2, _, h3, _⟩ := (C38_correspondence hm hK h).ran hm rfl (hit i hi)
  refine ⟨shares_of_proportional ha.1.1 (fun k _ => mul_pos (P.exp_pos _) (P.exp_pos _)) h2, fun w => ?_⟩
  have hpos : 0 < ∑ l, P.exp (∑ k, s.1.phi k l * Real.log (eta k y)) :=
    Finset.sum_pos (fun _ _ => P.exp_pos _) ⟨w, mem_univ w⟩
  have := h3 w
  rw [← eq_div_iff hpos.ne'] at this
  rw [this]
  exact div_pos (P.exp_pos _) hpos

/-! ### Training -/

/-- **C118**: LDA. -/
theorem C118_lda (hK : 0 < K) (hn : 0 < n) (hal : ∀ k, 0 < alpha k) (hb0 : RowStochastic beta0)
    (huse : ∀ k, ∃ w, 0 < beta0 k w ∧ Occurs corpus n w)
    (hit : ∀ i < n, Iterates cfg.iterations cfg.tolerance alpha (corpus i).words) (any : VP K V) {q : Params K V C}
    (hqa : q.alpha = alpha) (hqb : q.beta.IsReal beta0)
    (ho : ∀ p ∈ orders, ((List.range n).map p).Perm (List.range n)) (hne : orders ≠ [])
    {m : Params K V C × T × Option (Buf K V)}
    (hc : Calls (fitCalls (unsupervised corpus) next
      (libResults (fun _ X _ m => unsupervisedRun P cfg X m) any corpus) W n orders) .empty (q, t, some none) l m logs) :
    m.2.2 ≠ none ∧ m.1.alpha = alpha ∧ ∃ beta, m.1.beta.IsReal beta ∧ RowStochastic beta ∧
      ∀ k w, 0 < beta k w ↔ 0 < beta0 k w ∧ Occurs corpus n w :=
  C118_fit_unsupervised hn huse (careful_lda hK hal hit any) ⟨hqa, beta0, hqb, hb0, fun _ _ _ => Iff.rfl⟩ ho hne hc

/-- **C118**: fast supervised LDA. -/
theorem C118_flda (mcfg : SupCfg) (hK : 0 < K) (hn : 0 < n) (hal : ∀ k, 0 < alpha k) (hb0 : RowStochastic beta0)
    (hcls : Labelled corpus n C)
    (huse : ∀ k, ∃ w, 0 < beta0 k w ∧ Occurs corpus n w)
    (hit : ∀ i < n, Iterates cfg.iterations cfg.tolerance alpha (corpus i).words) (any : VP K V) {q : Params K V C}
    (hqa : q.alpha = alpha) (hqb : q.beta.IsReal beta0) {t : EStep.FastState}
    (ho : ∀ p ∈ orders, ((List.range n).map p).Perm (List.range n)) (hne : orders ≠ [])
    {m : Params K V C × EStep.FastState × Option (FastState K V)}
    (hc : Calls (fitCalls (fastSupervised mcfg corpus) EStep.FastState.eStep
      (libResults (fun (t : EStep.FastState) X y m => fastRun P cfg t.weight X y m) any corpus) W n orders)
      .empty (q, t, some .init) l m logs) :
    m.2.2 ≠ none ∧ m.1.alpha = alpha ∧ ∃ beta, m.1.beta.IsReal beta ∧ RowStochastic beta ∧
      ∀ k w, 0 < beta k w ↔ 0 < beta0 k w ∧ Occurs corpus n w :=
  C118_fit_fast mcfg hn hcls huse (careful_flda hK hal hcls hit any) ⟨hqa, beta0, hqb, hb0, fun _ _ _ => Iff.rfl⟩ ho hne hc
   

/-- **C118**: supervised LDA, if every word of the corpus is known. -/
theorem C118_slda (mcfg : SupCfg) (hK : 0 < K) (hn : 0 < n) (hal : ∀ k, 0 < alpha k) (hb0 : RowStochastic beta0)
    (hcls : Labelled corpus n C) {fp : ℕ} (hfp : fp ≠ 0)
    (hsize : ∀ i < n, numWords (corpus i).words ≤ 46340)
    (huse : ∀ k, ∃ w, 0 < beta0 k w ∧ Occurs corpus n w) (hkn : ∀ w, Occurs corpus n w → ∃ k, 0 < beta0 k w)
    (hit : ∀ i < n, Iterates cfg.iterations cfg.tolerance alpha (corpus i).words) (any : VP K V) {q : Params K V C}
    (hqa : q.alpha = alpha) (hqb : q.beta.IsReal beta0)
    (ho : ∀ p ∈ orders, ((List.range n).map p).Perm (List.range n)) (hne : orders ≠ [])
    {m : Params K V C × T × Option (SupState K V)}
    (hc : Calls (fitCalls (supervised mcfg corpus) next
      (libResults (fun _ X y m => (supervisedRun P cfg fp X y m).map Prod.fst) any corpus) W n orders)
      .empty (q, t, some .init) l m logs) :
    m.2.2 ≠ none ∧ m.1.alpha = alpha ∧ ∃ beta, m.1.beta.IsReal beta ∧ RowStochastic beta ∧
      ∀ k w, 0 < beta k w ↔ 0 < beta0 k w ∧ Occurs corpus n w :=
  C118_fit_supervised mcfg hn hcls hsize huse (careful_slda hK hal hcls hfp hkn hit any)
    ⟨hqa, beta0, hqb, hb0, fun _ _ _ => Iff.rfl⟩ ho hne hc

/-- **C118**: multinomial supervised LDA, if the smoothing parameter is more than one.  The tolerance of its E step is
the probability of computing the likelihood. -/
theorem C118_multinomial {mu : ℝ} (hmu : 1 < mu) (ew : ℝ) (hK : 0 < K) (hn : 0 < n) (hal : ∀ k, 0 < alpha k)
    (hb0 : RowStochastic beta0) {eta0 : Mat K C ℝ} (he0 : ∀ k c, 0 < eta0 k c)
    (hcls : Labelled corpus n C)
    (huse : ∀ k, ∃ w, 0 < beta0 k w ∧ Occurs corpus n w)
    (hit : ∀ i < n, Iterates cfg.iterations cfg.computeLikelihood alpha (corpus i).words) (any : VP K V)
    (ho : ∀ p ∈ orders, ((List.range n).map p).Perm (List.range n)) (hne : orders ≠ [])
    {m : MultParams K V C × T × Option (MultState K V C)}
    (hc : Calls (fitCalls (multinomial mu corpus) next
      (libResultsMult (fun _ X y m => multinomialRun P cfg ew X y m) any corpus) W n orders)
      .empty ((alpha, some (beta0, eta0)), t, some .init) l m logs) :
    m.2.2 ≠ none ∧ m.1.1 = alpha ∧ ∃ beta eta, m.1.2 = some (beta, eta) ∧ (RowStochastic beta ∧
      ∀ k w, 0 < beta k w ↔ 0 < beta0 k w ∧ Occurs corpus n w) ∧ (∀ k c, 0 < eta k c) ∧ RowStochastic eta :=
  C118_fit_multinomial hmu hn hcls huse (careful_multinomial hK hal hcls ew hit any)
    ⟨rfl, beta0, eta0, rfl, ⟨hb0, fun _ _ _ => Iff.rfl⟩, he0⟩ ho hne hc

/-- **C118**: correspondence LDA, if the smoothing parameter is more than one. -/
theorem C118_correspondence {mu : ℝ} (hmu : 1 < mu) (hK : 0 < K) (hn : 0 < n) (hal : ∀ k, 0 < alpha k)
    (hb0 : RowStochastic beta0) {eta0 : Mat K C ℝ} (he0 : ∀ k c, 0 < eta0 k c)
    (hcls : Labelled corpus n C)
    (huse : ∀ k, ∃ w, 0 < beta0 k w ∧ Occurs corpus n w)
    (hit : ∀ i < n, Iterates cfg.iterations cfg.tolerance alpha (corpus i).words) (any : VP K V × Vec V ℝ)
    (ho : ∀ p ∈ orders, ((List.range n).map p).Perm (List.range n)) (hne : orders ≠ [])
    {l : Left (VP K V × Vec V ℝ)} {logs : List (List (Obs (VP K V × Vec V ℝ)))}
    {m : MultParams K V C × T × Option (MultState K V C)}
    (hc : Calls (fitCalls (correspondence mu corpus) next
      (libResultsMult (fun _ X y m => correspondenceRun P cfg X y m) any corpus) W n orders)
      .empty ((alpha, some (beta0, eta0)), t, some .init) l m logs) :
    m.2.2 ≠ none ∧ m.1.1 = alpha ∧ ∃ beta eta, m.1.2 = some (beta, eta) ∧ (RowStochastic beta ∧
      ∀ k w, 0 < beta k w ↔ 0 < beta0 k w ∧ Occurs corpus n w) ∧ (∀ k c, 0 < eta k c) ∧ RowStochastic eta :=
  C118_fit_correspondence hmu hn hcls huse (careful_correspondence hK hal hcls hit any)
    ⟨rfl, beta0, eta0, rfl, ⟨hb0, fun _ _ _ => Iff.rfl⟩, he0⟩ ho hne hc

/-- Two topics over four words, of which the first knows only two. -/
noncomputable def twoOfFour : Mat 2 4 ℝ := ![![1 / 2, 1 / 2, 0, 0], ![1 / 4, 1 / 4, 1 / 4, 1 / 4]]

theorem twoOfFour_stochastic : RowStochastic twoOfFour := by
  refine ⟨fun i j => ?_, fun i => ?_⟩
  · fin_cases i <;> fin_cases j <;> simp [twoOfFour]
  · fin_cases i <;> simp [twoOfFour, Fin.sum_univ_four] <;> norm_num

theorem threeDocs_occurs (w : Fin 4) : Occurs threeDocs 3 w := by
  refine ⟨0, by norm_num, ?_⟩
  simp only [threeDocs]
  split <;> simp

theorem threeDocs_words (i : ℕ) : (∑ n, ((threeDocs i).words n : ℝ)) ≥ 4 := by
  have h : ∀ n, (1 : ℝ) ≤ ((threeDocs i).words n : ℝ) := fun n => by
    simp only [threeDocs]
    split <;> simp
  rw [Fin.sum_univ_four]
  linarith [h 0, h 1, h 2, h 3]

theorem threeDocs_iterates (i : ℕ) :
    Iterates demoCfg.iterations demoCfg.tolerance (fun _ : Fin 2 => (1 : ℝ)) (threeDocs i).words := by
  refine ⟨by simp [demoCfg], ?_⟩
  have := threeDocs_words i
  simp only [demoCfg, Fin.sum_univ_two, Nat.cast_ofNat]
  linarith

/-- Three documents, two iterations, three workers, the documents last to first in the second one: the trained first
topic knows the first two words and no others, the second all four. -/
example (any : VP 2 4) (e : Mat 2 1 ℝ) : ∃ (m : Params 2 4 1 × Unit × Option (Buf 2 4)) (logs : _) (beta : Mat 2 4 ℝ),
    Calls (fitCalls (unsupervised threeDocs) id
      (libResults (fun _ X _ m => unsupervisedRun fastPrims demoCfg X m) any threeDocs) 3 3 [id, fun i => 2 - i]) .empty
      (⟨fun _ => 1, .matrix fun k w => .fin (twoOfFour k w), e⟩, (), some none) .empty m logs ∧
    m.1.beta.IsReal beta ∧ 0 < beta 0 0 ∧ 0 < beta 0 1 ∧ beta 0 2 = 0 ∧ beta 0 3 = 0 ∧ ∀ w, 0 < beta 1 w := by
  obtain ⟨m, logs, hc⟩ := calls_exist (unsupervised threeDocs) id
    (libResults (C := 1) (fun _ X _ m => unsupervisedRun fastPrims demoCfg X m) any threeDocs) (W := 3) (by norm_num) 3
    [id, fun i => 2 - i] (⟨fun _ => 1, .matrix fun k w => .fin (twoOfFour k w), e⟩, (), some none)
  obtain ⟨_, _, beta, h1, ⟨h2, _⟩, h3⟩ := C118_lda (alpha := fun _ => 1) (beta0 := twoOfFour) (by norm_num) (by norm_num)
    (fun _ => one_pos) twoOfFour_stochastic
    (fun k => ⟨0, by fin_cases k <;> simp [twoOfFour], threeDocs_occurs 0⟩) (fun i _ => threeDocs_iterates i) any
    (q := ⟨fun _ => 1, .matrix fun k w => .fin (twoOfFour k w), e⟩) rfl rfl
    (by
      intro p hp
      rcases List.mem_pair.1 hp with rfl | rfl
      · simp
      · decide) (by simp) hc
  have hz : ∀ w, twoOfFour 0 w = 0 → beta 0 w = 0 := fun w hw =>
    le_antisymm (not_lt.1 fun h => by
      have := ((h3 0 w).1 h).1
      rw [hw] at this
      exact lt_irrefl _ this) (h2 0 w)
  refine ⟨m, logs, beta, hc, h1, (h3 0 0).2 ⟨by simp [twoOfFour], threeDocs_occurs 0⟩,
    (h3 0 1).2 ⟨by simp [twoOfFour], threeDocs_occurs 1⟩, hz 2 (by simp [twoOfFour]), hz 3 (by simp [twoOfFour]),
    fun w => (h3 1 w).2 ⟨?_, threeDocs_occurs w⟩⟩
  fin_cases w <;> simp [twoOfFour]

/-- The conditions of the supervised models can be met with the same documents and topics. -/
example : Labelled threeDocs 3 1 ∧ (∀ i < 3, numWords (threeDocs i).words ≤ 46340) ∧
    (∀ w, Occurs threeDocs 3 w → ∃ k, 0 < twoOfFour k w) ∧ (∃ i < 3, 0 ≤ (threeDocs i).cls) ∧
    ∀ i < 3, Iterates demoCfg.iterations demoCfg.computeLikelihood (fun _ : Fin 2 => (1 : ℝ)) (threeDocs i).words := by
  refine ⟨fun i _ => by simp [threeDocs], ?_, fun w _ => ⟨1, ?_⟩, ⟨0, by norm_num, by simp [threeDocs]⟩, fun i _ => ?_⟩
  · intro i hi
    interval_cases i <;> simp [threeDocs, numWords, Fin.sum_univ_four]
  · fin_cases w <;> simp [twoOfFour]
  · refine ⟨by simp [demoCfg], ?_⟩
    have := threeDocs_words i
    simp only [demoCfg, Fin.sum_univ_two, Nat.cast_ofNat]
    linarith

/-- **C118** needs an iteration of the E step: with the limit zero every topic takes up every word of the corpus,
whatever it knew. -/
theorem C118_needs_iteration (hK : 0 < K) (hn : 0 < n) (hw : ∃ w, Occurs corpus n w) (hcfg : cfg.iterations = 0)
    (any : VP K V) {q : Params K V C} (hqb : q.beta.IsReal beta0)
    (ho : ∀ p ∈ orders, ((List.range n).map p).Perm (List.range n)) (hne : orders ≠ [])
    {m : Params K V C × T × Option (Buf K V)}
    (hc : Calls (fitCalls (unsupervised corpus) next
      (libResults (fun _ X _ m => unsupervisedRun P cfg X m) any corpus) W n orders) .empty (q, t, some none) l m logs) :
    ∃ beta, m.1.beta.IsReal beta ∧ ∀ k w, Occurs corpus n w → 0 < beta k w := by
  obtain ⟨w0, hw0⟩ := hw
  have hV : (0 : ℝ) < V := Nat.cast_pos.2 (lt_of_le_of_lt (Nat.zero_le _) w0.2)
  have hu : Agrees (K := K) corpus n (fun _ _ => 1 / (V : ℝ)) fun _ _ => 1 / (V : ℝ) := by
    refine ⟨⟨fun _ _ => by positivity, fun _ => ?_⟩, fun _ _ _ => Iff.rfl⟩
    simp only [Finset.sum_const, card_univ, Fintype.card_fin, nsmul_eq_mul]
    field_simp
  have h := ((unsupervisedFree corpus).fit_sound (Pre := fun q => ∃ beta, q.beta.IsReal beta)
    (Post := fun q => ∃ beta, q.beta.IsReal beta ∧ Restricts corpus n (fun _ _ => 1 / (V : ℝ)) beta)
    (fun q h => h.imp fun _ hb => hb.1) (fun _ _ _ _ _ => trivial) (fun q t s f hq hI => ?_)
    (f := false) ⟨by simp [BufIs], by simp⟩ ⟨beta0, hqb⟩ ho hne hc).2
  · obtain ⟨beta, h1, h2⟩ := h
    exact ⟨beta, h1, fun k w hk => (h2.2 k w).2 ⟨by positivity, hk⟩⟩
  · obtain ⟨b, hb⟩ := hq
    obtain ⟨beta', h1, h2⟩ := restricts_betaOf (r := fun i =>
      libResults (C := C) (fun _ X _ m => unsupervisedRun P cfg X m) any corpus (q, t) i) hu
      (fun k => ⟨w0, by positivity, hw0⟩) fun i hi k w => by
        have hk : (0 : ℝ) < 1 / K := by positivity
        simp only [libResults, realBeta_of hb, Option.bind_some, unsupervisedRun, hcfg, loop, Option.getD_some, initial]
        exact ⟨hk.le, fun _ => iff_of_true hk (by positivity)⟩
    have hb' : uBeta s = _ := hI.1.beta (range_map_ne_nil hn)
    refine ⟨_, _, _, rfl, beta', ?_, h2⟩
    change (uBeta s).IsReal beta'
    rw [hb']
    exact h1

end Verif.Train
