import Verif.Props.Repeat

/-! Property C152: training on a corpus with additional documents that have no words. -/
namespace Verif.Train

open MathUtils EStep MStep Pool Finset

variable {K V C : ℕ} {T R : Type}

/-- A corpus of `n'` documents consists of the `n` documents of another one, each of them once and at any place (`src i = some j`:
number `i` is document `j`), and of documents without words. -/
structure Padded (words : ℕ → Vec V ℕ) (src : ℕ → Option ℕ) (n n' : ℕ) : Prop where
  inside : ∀ i < n', ∀ j, src i = some j → j < n
  once : ∀ j < n, ((range n').filter fun i => src i = some j).card = 1
  blank : ∀ i < n', src i = none → ∀ v, words i v = 0

variable {words : ℕ → Vec V ℕ} {src : ℕ → Option ℕ} {n n' : ℕ}

theorem Padded.sum (h : Padded words src n n') (f f' : ℕ → ℝ) (h1 : ∀ i < n', ∀ j, src i = some j → f' i = f j)
    (h2 : ∀ i < n', src i = none → f' i = 0) : ∑ i ∈ range n', f' i = ∑ j ∈ range n, f j := by
  have e : ∀ i ∈ range n', f' i = ∑ j ∈ range n, if src i = some j then f j else 0 := by
    intro i hi
    have hi := mem_range.1 hi
    cases hs : src i with
    | none => simp [h2 i hi hs]
    | some a =>
      simp only [Option.some.injEq, sum_ite_eq, mem_range, h.inside i hi a hs, if_true]
      exact h1 i hi a hs
  rw [sum_congr rfl e, sum_comm]
  refine sum_congr rfl fun j hj => ?_
  rw [← sum_filter, sum_const, h.once j (mem_range.1 hj), one_smul]

theorem Padded.exists_src (h : Padded words src n n') {j : ℕ} (hj : j < n) : ∃ i < n', src i = some j := by
  obtain ⟨i, hi⟩ := card_pos.1 (by rw [h.once j hj]; exact Nat.one_pos)
  exact ⟨i, mem_range.1 (mem_filter.1 hi).1, (mem_filter.1 hi).2⟩

/-! ### Unsupervised -/

theorem blank_u_epoch {corpus corpus' : ℕ → Doc V} {next : T → T} {eval eval' : Params K V C × T → ℕ → VP K V}
    (hp : Padded (fun i => (corpus' i).words) src n n') (hn : 0 < n)
    (hw : ∀ i < n', ∀ j, src i = some j → (corpus' i).words = (corpus j).words)
    (he : ∀ p, ∀ i < n', ∀ j, src i = some j → eval' p i = eval p j) {s0 : Buf K V} (h0 : Fresh s0) (q : Params K V C) (t : T) :
    epoch (unsupervised corpus') next eval' n' (q, t, some s0) = epoch (unsupervised corpus) next eval n (q, t, some s0) ∧
    ∃ q' t' s', epoch (unsupervised corpus) next eval n (q, t, some s0) = (q', t', some s') ∧ Fresh s' := by
  have hn' : n' ≠ 0 := by
    obtain ⟨i, hi, -⟩ := hp.exists_src hn
    omega
  simp only [epoch, seqEpoch]
  rw [u_fold _ _ h0, u_fold _ _ h0, if_neg hn.ne', if_neg hn']
  have e : ∀ k v, ∑ i ∈ range n', MStep.scaled (eval' (trainParams (q, t, some s0)) i).phi (corpus' i).words k v =
      ∑ i ∈ range n, MStep.scaled (eval (trainParams (q, t, some s0)) i).phi (corpus i).words k v := by
    intro k v
    refine hp.sum _ _ (fun i hi j hj => ?_) fun i hi hj => ?_
    · rw [hw i hi j hj, he _ i hi j hj]
    · have := hp.blank i hi hj v
      simp only [MStep.scaled, this, Nat.cast_zero, mul_zero]
  refine ⟨?_, _, _, _, rfl, .inr rfl⟩
  simp only [trainBatch, unsupervised, uM, Option.bind_some, uBeta, Buf.clear, Option.map_some, e]

/-- **C152**: LDA.  Documents without words, at any places of the corpus, change nothing in the model that training gives;
for every E step whose result depends on the document and not on its place, and whatever it gives for the documents without
words.  (Reported likelihoods are another matter.) -/
theorem C152_lda {corpus corpus' : ℕ → Doc V} {next : T → T} {eval eval' : Params K V C × T → ℕ → VP K V}
    (hp : Padded (fun i => (corpus' i).words) src n n') (hn : 0 < n)
    (hw : ∀ i < n', ∀ j, src i = some j → (corpus' i).words = (corpus j).words)
    (he : ∀ p, ∀ i < n', ∀ j, src i = some j → eval' p i = eval p j) :
    SameFit (unsupervised corpus) (unsupervised corpus') n n' eval eval' next none := by
  intro q t W W' orders orders' m l logs m' l' logs' hlen ho ho' h h'
  have h1 := (C08_unsupervised (K := K) (C := C) corpus (h := []) rfl).2 T next eval q t W n orders m l logs ho h
  have h2 := (C08_unsupervised (K := K) (C := C) corpus' (h := []) rfl).2 T next eval' q t W' n' orders' m' l' logs' ho' h'
  have h3 := iterate_same (f := epoch (unsupervised corpus') next eval' n') (g := epoch (unsupervised corpus) next eval n)
    (P := fun x => ∃ q t s, x = (q, t, some s) ∧ Fresh s) (by
      rintro _ ⟨q, t, s, rfl, hs⟩
      exact blank_u_epoch hp hn hw he hs q t) orders.length (q, t, some none) ⟨q, t, none, rfl, .inl rfl⟩
  rw [← hlen, h3] at h2
  exact ⟨h2.1.trans h1.1.symm, h2.2.trans h1.2.symm⟩

/-! ### Multinomial and correspondence -/

theorem blank_m_epoch {b b' : BatchStep (MultParams K V C) R (MultState K V C)} {cls cls' : ℕ → ℤ} {t t' : ℕ → R → Mat K V ℝ}
    {mu : ℝ} (hb : Adding b mu cls t) (hb' : Adding b' mu cls' t') {next : T → T} {eval eval' : MultParams K V C × T → ℕ → R}
    (hp : Padded words src n n') (hn : 0 < n) (hl : ∀ i < n', ∀ j, src i = some j → cls' i = cls j)
    (hz : ∀ i < n', src i = none → 0 ≤ cls' i ∧ cls' i < C)
    (ht : ∀ p, ∀ i < n', ∀ j, src i = some j → t' i (eval' p i) = t j (eval p j))
    (ht0 : ∀ p, ∀ i < n', src i = none → ∀ k v, t' i (eval' p i) k v = 0)
    {s0 : MultState K V C} (h0 : FreshMult s0) (q : MultParams K V C) (tt : T) :
    epoch b' next eval' n' (q, tt, some s0) = epoch b next eval n (q, tt, some s0) ∧
    ∃ q' t' s', epoch b next eval n (q, tt, some s0) = (q', t', s') ∧ ∀ s, s' = some s → FreshMult s := by
  have hn' : n' ≠ 0 := by
    obtain ⟨i, hi, -⟩ := hp.exists_src hn
    omega
  simp only [epoch, seqEpoch]
  set p0 := trainParams (q, tt, some s0)
  have f1 := m_fold hb (eval p0) h0 q tt n
  have f2 := m_fold hb' (eval' p0) h0 q tt n'
  by_cases hok : ∀ i < n, ∃ p, q.2 = some p ∧ (colAt p.2 (cls i)).isSome
  · have hok' : ∀ i < n', ∃ p, q.2 = some p ∧ (colAt p.2 (cls' i)).isSome := by
      intro i hi
      cases hs : src i with
      | none =>
        obtain ⟨p, h1, -⟩ := hok 0 hn
        refine ⟨p, h1, ?_⟩
        obtain ⟨h2, h3⟩ := hz i hi hs
        unfold colAt
        rw [dif_pos ⟨h2, h3⟩]
        rfl
      | some j =>
        rw [hl i hi j hs]
        exact hok _ (hp.inside i hi j hs)
    obtain ⟨lp, e1⟩ := f1.1 hok
    obtain ⟨lp', e2⟩ := f2.1 hok'
    rw [e1, e2, if_neg hn.ne', if_neg hn']
    have s1 : ∀ k v, ∑ i ∈ range n', t' i (eval' p0 i) k v = ∑ i ∈ range n, t i (eval p0 i) k v := fun k v =>
      hp.sum _ _ (fun i hi j hj => by rw [ht p0 i hi j hj]) fun i hi hj => ht0 p0 i hi hj k v
    have s2 : ∀ k (c : Fin C), (∑ i ∈ range n', if (c : ℤ) = cls' i then ∑ v, t' i (eval' p0 i) k v else 0) =
        ∑ i ∈ range n, if (c : ℤ) = cls i then ∑ v, t i (eval p0 i) k v else 0 := fun k c =>
      hp.sum (fun i => if (c : ℤ) = cls i then ∑ v, t i (eval p0 i) k v else 0) _
        (fun i hi j hj => by rw [ht p0 i hi j hj, hl i hi j hj]) fun i hi hj => by
          rw [sum_eq_zero fun v _ => ht0 p0 i hi hj k v, ite_self]
    simp only [trainBatch, Option.bind_some, hb.step, hb'.step, multM, Option.map_some, s1, s2, true_and]
    exact ⟨_, _, _, rfl, fun s hs => .inr (by rw [← Option.some.inj hs])⟩
  · have hbad : ∃ i < n, ∀ p, q.2 = some p → colAt p.2 (cls i) = none := by
      by_contra hcon
      refine hok fun i hi => ?_
      by_contra hc2
      refine hcon ⟨i, hi, fun p hp => ?_⟩
      by_contra hcol
      exact hc2 ⟨p, hp, Option.isSome_iff_ne_none.2 hcol⟩
    have hbad' : ∃ i < n', ∀ p, q.2 = some p → colAt p.2 (cls' i) = none := by
      obtain ⟨j, hj, h⟩ := hbad
      obtain ⟨i, hi, hs⟩ := hp.exists_src hj
      exact ⟨i, hi, by rw [hl i hi j hs]; exact h⟩
    rw [f1.2 hbad, f2.2 hbad']
    exact ⟨rfl, _, _, _, rfl, fun s hs => by simp at hs⟩

theorem blank_m_fit {b b' : BatchStep (MultParams K V C) R (MultState K V C)} {cls cls' : ℕ → ℤ} {t t' : ℕ → R → Mat K V ℝ}
    {mu : ℝ} (hb : Adding b mu cls t) (hb' : Adding b' mu cls' t') (hi : FitIndependent b .init)
    (hi' : FitIndependent b' .init) {next : T → T} {eval eval' : MultParams K V C × T → ℕ → R}
    (hp : Padded words src n n') (hn : 0 < n) (hl : ∀ i < n', ∀ j, src i = some j → cls' i = cls j)
    (hz : ∀ i < n', src i = none → 0 ≤ cls' i ∧ cls' i < C)
    (ht : ∀ p, ∀ i < n', ∀ j, src i = some j → t' i (eval' p i) = t j (eval p j))
    (ht0 : ∀ p, ∀ i < n', src i = none → ∀ k v, t' i (eval' p i) k v = 0) :
    SameFit b b' n n' eval eval' next .init := by
  intro q tt W W' orders orders' m l logs m' l' logs' hlen ho ho' h h'
  have h1 := hi T next eval q tt W n orders m l logs ho h
  have h2 := hi' T next eval' q tt W' n' orders' m' l' logs' ho' h'
  have h3 := iterate_same (f := epoch b' next eval' n') (g := epoch b next eval n)
    (P := fun x => ∀ s, x.2.2 = some s → FreshMult s) (by
      rintro ⟨q, tt, s⟩ hs
      cases s with
      | none =>
        have keep : ∀ (b : BatchStep (MultParams K V C) R (MultState K V C)) (f : ℕ → R) (l : List ℕ),
            l.foldl (fun x i => (trainDoc b i (f i) x).1) (q, tt, none) = (q, tt, none) := by
          intro b f l
          induction l with
          | nil => rfl
          | cons i l ih => rw [List.foldl_cons]; exact ih
        simp only [epoch, seqEpoch, keep]
        exact ⟨rfl, fun s hs => by simp [trainBatch] at hs⟩
      | some s =>
        obtain ⟨e1, q', t', s', e2, e3⟩ := blank_m_epoch hb hb' hp hn hl hz ht ht0 (hs s rfl) q tt
        exact ⟨e1, by rw [e2]; exact e3⟩) orders.length (q, tt, some .init) (fun s hs => .inl (by rw [← Option.some.inj hs]; rfl))
  rw [← hlen, h3] at h2
  exact ⟨h2.1.trans h1.1.symm, h2.2.trans h1.2.symm⟩

/-- **C152**: the multinomial model, topics and classifier. -/
theorem C152_multinomial {corpus corpus' : ℕ → Doc V} (mu : ℝ) {next : T → T} {eval eval' : MultParams K V C × T → ℕ → VP K V}
    (hp : Padded (fun i => (corpus' i).words) src n n') (hn : 0 < n) (hd : ∀ i < n', ∀ j, src i = some j → corpus' i = corpus j)
    (hz : ∀ i < n', src i = none → 0 ≤ (corpus' i).cls ∧ (corpus' i).cls < C)
    (he : ∀ p, ∀ i < n', ∀ j, src i = some j → eval' p i = eval p j) :
    SameFit (multinomial mu corpus) (multinomial mu corpus') n n' eval eval' next .init :=
  blank_m_fit (cls := fun i => (corpus i).cls) (cls' := fun i => (corpus' i).cls) (t := fun i r => MStep.scaled r.phi (corpus i).words)
    (t' := fun i r => MStep.scaled r.phi (corpus' i).words) ⟨fun _ _ _ _ => rfl, fun _ _ => rfl⟩ ⟨fun _ _ _ _ => rfl, fun _ _ => rfl⟩
    (C08_multinomial mu corpus (h := []) rfl).2 (C08_multinomial mu corpus' (h := []) rfl).2 hp hn
    (fun i hi j hj => by rw [hd i hi j hj]) hz (fun p i hi j hj => by rw [hd i hi j hj, he p i hi j hj])
    (fun p i hi hj k v => by
      have := hp.blank i hi hj v
      simp only [MStep.scaled, this, Nat.cast_zero, mul_zero])

/-- **C152**: the correspondence model. -/
theorem C152_correspondence {corpus corpus' : ℕ → Doc V} (mu : ℝ) {next : T → T}
    {eval eval' : MultParams K V C × T → ℕ → VP K V × Vec V ℝ}
    (hp : Padded (fun i => (corpus' i).words) src n n') (hn : 0 < n) (hd : ∀ i < n', ∀ j, src i = some j → corpus' i = corpus j)
    (hz : ∀ i < n', src i = none → 0 ≤ (corpus' i).cls ∧ (corpus' i).cls < C)
    (he : ∀ p, ∀ i < n', ∀ j, src i = some j → eval' p i = eval p j) :
    SameFit (correspondence mu corpus) (correspondence mu corpus') n n' eval eval' next .init :=
  blank_m_fit (cls := fun i => (corpus i).cls) (cls' := fun i => (corpus' i).cls)
    (t := fun i r k v => r.1.phi k v * ((corpus i).words v * r.2 v))
    (t' := fun i r k v => r.1.phi k v * ((corpus' i).words v * r.2 v)) ⟨fun _ _ _ _ => rfl, fun _ _ => rfl⟩
    ⟨fun _ _ _ _ => rfl, fun _ _ => rfl⟩
    (C08_correspondence mu corpus (h := []) rfl).2 (C08_correspondence mu corpus' (h := []) rfl).2 hp hn
    (fun i hi j hj => by rw [hd i hi j hj]) hz (fun p i hi j hj => by rw [hd i hi j hj, he p i hi j hj])
    (fun p i hi hj k v => by
      have := hp.blank i hi hj v
      simp only [this, Nat.cast_zero, zero_mul, mul_zero])

/-- Documents without words after those of the corpus. -/
theorem padded_append (corpus : ℕ → Doc V) (c : ℤ) (n e : ℕ) :
    Padded (fun i => (if i < n then corpus i else ⟨fun _ => 0, c⟩ : Doc V).words) (fun i => if i < n then some i else none) n (n + e) where
  inside i _ j hj := by
    by_cases h : i < n
    · simp only [h, if_true, Option.some.injEq] at hj
      omega
    · simp [h] at hj
  once j hj := by
    have : (range (n + e)).filter (fun i => (if i < n then some i else none) = some j) = {j} := by
      ext i
      simp only [mem_filter, mem_range, mem_singleton]
      constructor
      · rintro ⟨-, h⟩
        by_cases hi : i < n
        · simpa [hi] using h
        · simp [hi] at h
      · rintro rfl
        exact ⟨by omega, by simp [hj]⟩
    rw [this, card_singleton]
  blank i _ hs v := by
    by_cases h : i < n
    · simp [h] at hs
    · simp [h]

/-- A case of `C152_lda`: three documents and four documents without words. -/
example (corpus : ℕ → Doc 4) (e : Params 2 4 1 × Unit → Doc 4 → VP 2 4) :
    SameFit (unsupervised corpus) (unsupervised fun i => if i < 3 then corpus i else ⟨fun _ => 0, -1⟩) 3 7
      (fun p i => e p (corpus i)) (fun p i => e p (if i < 3 then corpus i else ⟨fun _ => 0, -1⟩)) id none :=
  C152_lda (padded_append corpus (-1) 3 4) (by omega)
    (fun i _ j hj => by
      by_cases h : i < 3
      · simp only [h, if_true, Option.some.injEq] at hj ⊢
        rw [hj]
      · simp [h] at hj)
    (fun p i _ j hj => by
      by_cases h : i < 3
      · simp only [h, if_true, Option.some.injEq] at hj ⊢
        rw [hj]
      · simp [h] at hj)

/-- A case of `C152_multinomial`, with documents without words of the second class. -/
example (corpus : ℕ → Doc 4) (e : MultParams 2 4 2 × Unit → Doc 4 → VP 2 4) :
    SameFit (multinomial 2 corpus) (multinomial 2 fun i => if i < 3 then corpus i else ⟨fun _ => 0, 1⟩) 3 7
      (fun p i => e p (corpus i)) (fun p i => e p (if i < 3 then corpus i else ⟨fun _ => 0, 1⟩)) id .init :=
  C152_multinomial 2 (padded_append corpus 1 3 4) (by omega)
    (fun i _ j hj => by
      by_cases h : i < 3
      · simp only [h, if_true, Option.some.injEq] at hj ⊢
        rw [hj]
      · simp [h] at hj)
    (fun i _ hs => by
      by_cases h : i < 3
      · simp [h] at hs
      · simp [h])
    (fun p i _ j hj => by
      by_cases h : i < 3
      · simp only [h, if_true, Option.some.injEq] at hj ⊢
        rw [hj]
      · simp [h] at hj)

end Verif.Train

namespace Verif.Optim
open MathUtils Finset

/-- **C152**, what does not hold: the classifiers trained by gradient.  A document without words adds a constant to the
objective only as long as the weights of the classes stay (`C81_fast_partial`), and they do not: with two documents of the
first class, one without words of the second class changes the objective by more than a constant. -/
theorem C152_weights_false : ∃ (data : List (Vec 1 ℝ × Fin 2)) (d : Vec 1 ℝ × Fin 2) (pr pr' : Problem 1 2), d.1 = (fun _ => 0) ∧
    logisticDefault 2 (data.map Prod.fst) (data.map fun d => (d.2 : ℤ)) 0 = some pr ∧
    logisticDefault 2 ((d :: data).map Prod.fst) ((d :: data).map fun d => (d.2 : ℤ)) 0 = some pr' ∧
    ¬ ∃ a : ℝ, ∀ eta, ∃ v, pr.value eta = some v ∧ pr'.value eta = some (v + a) := by
  let x : Vec 1 ℝ × Fin 2 := (fun _ => 1, 0)
  let d : Vec 1 ℝ × Fin 2 := (fun _ => 0, 1)
  obtain ⟨pr, w, n, h1, ⟨y, hy, hyn⟩, h3, h4, -, h6, -⟩ := C59_absent_unused (data := [x, x]) (by simp) 0
  obtain ⟨pr', w', n', h1', ⟨y', hy', hyn'⟩, h3', h4', -, h6', -⟩ := C59_absent_unused (data := [d, x, x]) (by simp) 0
  refine ⟨[x, x], d, pr, pr', rfl, h1, h1', ?_⟩
  have hn : n = 1 := by
    simp only [List.mem_cons, List.not_mem_nil, or_false, or_self] at hy
    subst hy
    simpa [x] using hyn.symm
  have hn' : n' = 2 := by
    have := h3' d (by simp)
    have := y'.2.2
    simp only [d] at *
    omega
  have hw : w 0 = 1 := by
    have := h4 x (by simp)
    simpa [x, hn] using this
  have hw' : w' 0 = 3 / 4 := by
    have := h4' x (by simp)
    simp [x, d, hn'] at this
    rw [this]
    norm_num
  rintro ⟨a, ha⟩
  have key : ∀ t : ℝ, (1 : ℝ) / 2 * (Real.log (Real.exp t + Real.exp (-t)) - t) = w' 1 * Real.log 2 - a := by
    intro t
    obtain ⟨v, e1, e2⟩ := ha fun _ => ![t, -t]
    rw [h6, Option.some.injEq] at e1
    rw [h6', Option.some.injEq] at e2
    subst e1
    simp only [logisticObjective, List.map_cons, List.map_nil, List.sum_cons, List.sum_nil, x, d, hw, hw', Fin.sum_univ_two,
      univ_unique, sum_singleton, Matrix.cons_val_zero, Matrix.cons_val_one, mul_one, mul_zero, Real.exp_zero] at e2
    norm_num at e2
    linarith
  have k0 := key 0
  have k1 := key 1
  rw [← k0] at k1
  simp only [neg_zero, Real.exp_zero] at k1
  have h : Real.log (Real.exp 1 + Real.exp (-1)) < Real.log (2 * Real.exp 1) :=
    Real.log_lt_log (by positivity) (by have := Real.exp_lt_exp.2 (show (-1 : ℝ) < 1 by norm_num); linarith)
  rw [Real.log_mul (by norm_num) (Real.exp_pos _).ne', Real.log_exp] at h
  norm_num at k1
  linarith

end Verif.Optim
