import Verif.Props.Schedule
import Verif.Props.Continue

/-! Property C144: training on a corpus with every document repeated the same number of times. -/
namespace Verif.Train

open MathUtils EStep MStep Pool Finset

variable {K V C : ℕ} {T R : Type}

/-- In a corpus of `n'` documents, of which number `i` is a copy of document `src i` of a corpus of `n`, every document of the
latter occurs `r` times. -/
structure Copies (src : ℕ → ℕ) (n n' r : ℕ) : Prop where
  inside : ∀ i < n', src i < n
  times : ∀ j < n, ((range n').filter fun i => src i = j).card = r

theorem Copies.sum {src : ℕ → ℕ} {n n' r : ℕ} (h : Copies src n n' r) (f : ℕ → ℝ) :
    ∑ i ∈ range n', f (src i) = r * ∑ j ∈ range n, f j := by
  rw [← sum_fiberwise_of_maps_to (s := range n') (t := range n) (g := src)
    (fun i hi => mem_range.2 (h.inside i (mem_range.1 hi))), mul_sum]
  refine sum_congr rfl fun j hj => ?_
  rw [sum_congr rfl fun i hi => by rw [(mem_filter.1 hi).2], sum_const, h.times j (mem_range.1 hj), nsmul_eq_mul]

theorem Copies.pos {src : ℕ → ℕ} {n n' r : ℕ} (h : Copies src n n' r) (hr : 0 < r) : n' = 0 ↔ n = 0 := by
  constructor
  · rintro rfl
    by_contra hn
    have := h.times 0 (Nat.pos_of_ne_zero hn)
    simp at this
    omega
  · rintro rfl
    by_contra hn
    exact absurd (h.inside 0 (Nat.pos_of_ne_zero hn)) (by omega)

theorem Copies.exists_src {src : ℕ → ℕ} {n n' r : ℕ} (h : Copies src n n' r) (hr : 0 < r) {j : ℕ} (hj : j < n) :
    ∃ i < n', src i = j := by
  have h1 : 0 < ((range n').filter fun i => src i = j).card := by rw [h.times j hj]; exact hr
  obtain ⟨i, hi⟩ := card_pos.1 h1
  exact ⟨i, mem_range.1 (mem_filter.1 hi).1, (mem_filter.1 hi).2⟩

/-! ### Unsupervised -/

/-- Buffers before the first document of an epoch. -/
def Fresh (s : Buf K V) : Prop := s = none ∨ s = some fun _ _ => 0

theorem u_fold (corpus : ℕ → Doc V) (f : ℕ → VP K V) {s0 : Buf K V} (h0 : Fresh s0) (q : Params K V C) (t : T) (N : ℕ) :
    (List.range N).foldl (fun x i => (trainDoc (unsupervised corpus) i (f i) x).1) (q, t, some s0) =
      (q, t, some (if N = 0 then s0 else some fun k n => ∑ i ∈ range N, scaled (f i).phi (corpus i).words k n)) := by
  induction N with
  | zero => rfl
  | succ N ih =>
    rw [List.range_succ, List.foldl_append, ih, List.foldl_cons, List.foldl_nil, if_neg (Nat.succ_ne_zero N)]
    simp only [trainDoc, unsupervised, Option.bind_some, Prod.mk.injEq, true_and, Option.some.injEq, uDoc, Buf.add]
    funext k n
    rw [sum_range_succ]
    by_cases hN : N = 0
    · subst hN
      rcases h0 with rfl | rfl <;> simp
    · rw [if_neg hN]

theorem quot_scale {c : ℝ} (hc : 0 < c) (x s : ℝ) : quot (c * x) (c * s) = quot x s := by
  unfold quot
  rw [mul_div_mul_left _ _ hc.ne']
  simp only [ne_eq, mul_eq_zero, hc.ne', false_or, mul_pos_iff_of_pos_left hc]

theorem u_epoch {corpus corpus' : ℕ → Doc V} {next : T → T} {eval eval' : Params K V C × T → ℕ → VP K V} {src : ℕ → ℕ}
    {n n' r : ℕ} (hc : Copies src n n' r) (hr : 0 < r) (hw : ∀ i < n', (corpus' i).words = (corpus (src i)).words)
    (he : ∀ p, ∀ i < n', eval' p i = eval p (src i)) {s0 : Buf K V} (h0 : Fresh s0) (q : Params K V C) (t : T) :
    epoch (unsupervised corpus') next eval' n' (q, t, some s0) = epoch (unsupervised corpus) next eval n (q, t, some s0) ∧
    ∃ q' t' s', epoch (unsupervised corpus) next eval n (q, t, some s0) = (q', t', some s') ∧ Fresh s' := by
  simp only [epoch, seqEpoch]
  rw [u_fold _ _ h0, u_fold _ _ h0]
  have hr' : (0 : ℝ) < r := by exact_mod_cast hr
  by_cases hn : n = 0
  · rw [if_pos hn, if_pos ((hc.pos hr).2 hn)]
    refine ⟨rfl, _, _, _, rfl, ?_⟩
    rcases h0 with rfl | rfl
    · exact .inl rfl
    · exact .inr rfl
  · rw [if_neg hn, if_neg fun h => hn ((hc.pos hr).1 h)]
    have e : ∀ k v, ∑ i ∈ range n', scaled (eval' (trainParams (q, t, some s0)) i).phi (corpus' i).words k v =
        r * ∑ i ∈ range n, scaled (eval (trainParams (q, t, some s0)) i).phi (corpus i).words k v := by
      intro k v
      rw [← hc.sum]
      refine sum_congr rfl fun i hi => ?_
      rw [hw i (mem_range.1 hi), he _ i (mem_range.1 hi)]
    refine ⟨?_, _, _, _, rfl, .inr rfl⟩
    simp only [trainBatch, unsupervised, uM, Option.bind_some, uBeta, Buf.clear, Option.map_some, e]
    simp only [← mul_sum, quot_scale hr']

/-- Iterating two maps that agree on a set that is kept. -/
theorem iterate_same {A : Type} {f g : A → A} {P : A → Prop} (h : ∀ a, P a → f a = g a ∧ P (g a)) (i : ℕ) :
    ∀ a, P a → f^[i] a = g^[i] a := by
  induction i with
  | zero => intro a _; rfl
  | succ i ih =>
    intro a ha
    rw [Function.iterate_succ_apply, Function.iterate_succ_apply, (h a ha).1]
    exact ih _ (h a ha).2

/-- Training on the corpus and on the one with the copies, with any schedules, numbers of workers and shuffles and the same
number of iterations, ends with the same parameters, and is defined in the same cases. -/
def SameFit {Q R S : Type} (b b' : BatchStep Q R S) (n n' : ℕ) (eval eval' : Q × T → ℕ → R) (next : T → T) (s0 : S) : Prop :=
  ∀ (q : Q) (t : T) (W W' : ℕ) (orders orders' : List (ℕ → ℕ)) (m : Q × T × Option S) (l : Left R)
    (logs : List (List (Obs R))) (m' : Q × T × Option S) (l' : Left R) (logs' : List (List (Obs R))),
    orders.length = orders'.length →
    (∀ p ∈ orders, ((List.range n).map p).Perm (List.range n)) →
    (∀ p ∈ orders', ((List.range n').map p).Perm (List.range n')) →
    Calls (fitCalls b next eval W n orders) .empty (q, t, some s0) l m logs →
    Calls (fitCalls b' next eval' W' n' orders') .empty (q, t, some s0) l' m' logs' →
    m'.1 = m.1 ∧ (m'.2.2 = none ↔ m.2.2 = none)

/-- **C144**: LDA.  Training on a corpus in which every document occurs `r` times gives the model that training on the
documents gives; for every E step whose result depends on the document and not on its place. -/
theorem C144_lda {corpus corpus' : ℕ → Doc V} {next : T → T} {eval eval' : Params K V C × T → ℕ → VP K V} {src : ℕ → ℕ}
    {n n' r : ℕ} (hc : Copies src n n' r) (hr : 0 < r) (hw : ∀ i < n', (corpus' i).words = (corpus (src i)).words)
    (he : ∀ p, ∀ i < n', eval' p i = eval p (src i)) :
    SameFit (unsupervised corpus) (unsupervised corpus') n n' eval eval' next none := by
  intro q t W W' orders orders' m l logs m' l' logs' hlen ho ho' h h'
  have h1 := (C08_unsupervised (K := K) (C := C) corpus (h := []) rfl).2 T next eval q t W n orders m l logs ho h
  have h2 := (C08_unsupervised (K := K) (C := C) corpus' (h := []) rfl).2 T next eval' q t W' n' orders' m' l' logs' ho' h'
  have h3 := iterate_same (f := epoch (unsupervised corpus') next eval' n') (g := epoch (unsupervised corpus) next eval n)
    (P := fun x => ∃ q t s, x = (q, t, some s) ∧ Fresh s) (by
      rintro _ ⟨q, t, s, rfl, hs⟩
      exact u_epoch hc hr hw he hs q t) orders.length (q, t, some none) ⟨q, t, none, rfl, .inl rfl⟩
  rw [← hlen, h3] at h2
  exact ⟨h2.1.trans h1.1.symm, h2.2.trans h1.2.symm⟩

/-! ### Multinomial and correspondence -/

/-- The steps for the multinomial and correspondence models: `t i r` is what document `i` with the result `r` adds. -/
structure Adding (b : BatchStep (MultParams K V C) R (MultState K V C)) (mu : ℝ) (cls : ℕ → ℤ) (t : ℕ → R → Mat K V ℝ) : Prop where
  doc : ∀ q i r s, b.doc q i r s = q.2.bind fun p => multAdd p.2 (cls i) (t i r) s
  step : ∀ q s, b.step q s = some ((q.1, (multM mu s).1.params), (multM mu s).2, 1)

/-- Members before the first document of an epoch. -/
def FreshMult (s : MultState K V C) : Prop :=
  s.bufs = none ∨ s.bufs = some (fun _ _ => 0, fun _ _ => 0)

theorem m_fold {b : BatchStep (MultParams K V C) R (MultState K V C)} {mu : ℝ} {cls : ℕ → ℤ} {t : ℕ → R → Mat K V ℝ}
    (hb : Adding b mu cls t) (f : ℕ → R) {s0 : MultState K V C} (h0 : FreshMult s0) (q : MultParams K V C) (tt : T) (N : ℕ) :
    ((∀ i < N, ∃ p, q.2 = some p ∧ (colAt p.2 (cls i)).isSome) → ∃ lp,
      (List.range N).foldl (fun x i => (trainDoc b i (f i) x).1) (q, tt, some s0) =
        (q, tt, some (if N = 0 then s0 else ⟨some (fun k n => ∑ i ∈ range N, t i (f i) k n,
          fun k c => ∑ i ∈ range N, if (c : ℤ) = cls i then ∑ n, t i (f i) k n else 0), lp⟩))) ∧
    ((∃ i < N, ∀ p, q.2 = some p → colAt p.2 (cls i) = none) →
      (List.range N).foldl (fun x i => (trainDoc b i (f i) x).1) (q, tt, some s0) = (q, tt, none)) := by
  have keep : ∀ (l : List ℕ), l.foldl (fun x i => (trainDoc b i (f i) x).1) (q, tt, none) = (q, tt, none) := by
    intro l
    induction l with
    | nil => rfl
    | cons i l ih => rw [List.foldl_cons]; exact ih
  induction N with
  | zero => exact ⟨fun _ => ⟨none, rfl⟩, fun ⟨i, hi, _⟩ => absurd hi (by omega)⟩
  | succ N ih =>
    constructor
    · intro hok
      obtain ⟨lp, hlp⟩ := ih.1 fun i hi => hok i (by omega)
      obtain ⟨p, hp, hcol⟩ := hok N (by omega)
      obtain ⟨ey, hey⟩ := Option.isSome_iff_exists.1 hcol
      rw [List.range_succ, List.foldl_append, hlp, List.foldl_cons, List.foldl_nil]
      simp only [trainDoc, hb.doc, hp, Option.bind_some, multAdd, hey, Option.map_some, if_neg (Nat.succ_ne_zero N)]
      simp only [Prod.mk.injEq, true_and, Option.some.injEq, MultState.mk.injEq, exists_and_left, exists_eq', and_true]
      refine ⟨?_, ?_⟩
      · funext k n
        rw [sum_range_succ]
        by_cases hN : N = 0
        · subst hN
          rcases h0 with h0 | h0 <;> simp [h0]
        · rw [if_neg hN]
      · funext k c
        rw [sum_range_succ]
        by_cases hN : N = 0
        · subst hN
          rcases h0 with h0 | h0 <;> simp [h0]
        · rw [if_neg hN]
    · rintro ⟨i, hi, hbad⟩
      rw [List.range_succ, List.foldl_append]
      by_cases hiN : ∃ i < N, ∀ p, q.2 = some p → colAt p.2 (cls i) = none
      · rw [ih.2 hiN]
        exact keep [N]
      · have hiN' : i = N := by
          by_contra hne
          exact hiN ⟨i, by omega, hbad⟩
        subst hiN'
        have hok : ∀ j < i, ∃ p, q.2 = some p ∧ (colAt p.2 (cls j)).isSome := by
          intro j hj
          by_contra hc
          refine hiN ⟨j, hj, fun p hp => ?_⟩
          by_contra hcol
          exact hc ⟨p, hp, Option.isSome_iff_ne_none.2 hcol⟩
        obtain ⟨lp, hlp⟩ := ih.1 hok
        rw [hlp, List.foldl_cons, List.foldl_nil]
        simp only [trainDoc, hb.doc, Option.bind_some, Prod.mk.injEq, true_and]
        cases hq : q.2 with
        | none => rfl
        | some p => simp only [Option.bind_some, multAdd, hbad p hq, Option.map_none]

theorem normalizeRows_scale {r c : ℕ} {x : Mat r c ℝ} (hx : ∀ i j, 0 ≤ x i j) {a : ℝ} (ha : 0 < a) :
    normalizeRows (fun i j => a * x i j) = normalizeRows x := by
  funext i j
  rw [normalizeRows_apply, normalizeRows_apply]
  rw [← mul_sum]
  by_cases h : ∑ j, x i j = 0
  · have := (sum_eq_zero_iff_of_nonneg fun j _ => hx i j).1 h j (mem_univ j)
    rw [h, mul_zero, this, mul_zero]
  · rw [mul_div_mul_left _ _ ha.ne']
    simp only [mul_eq_zero, ha.ne', h, or_self, if_false]

theorem m_epoch {b b' : BatchStep (MultParams K V C) R (MultState K V C)} {cls cls' : ℕ → ℤ} {t t' : ℕ → R → Mat K V ℝ}
    {mu mu' : ℝ} (hmu : 1 ≤ mu) (hb : Adding b mu cls t) (hb' : Adding b' mu' cls' t') {next : T → T} {eval eval' : MultParams K V C × T → ℕ → R} {src : ℕ → ℕ}
    {n n' r : ℕ} (hc : Copies src n n' r) (hr : 0 < r) (hm : mu' - 1 = r * (mu - 1)) (hl : ∀ i < n', cls' i = cls (src i))
    (ht : ∀ p, ∀ i < n', t' i (eval' p i) = t (src i) (eval p (src i))) (hnn : ∀ p, ∀ i < n, ∀ k v, 0 ≤ t i (eval p i) k v)
    {s0 : MultState K V C} (h0 : FreshMult s0) (q : MultParams K V C) (tt : T) :
    epoch b' next eval' n' (q, tt, some s0) = epoch b next eval n (q, tt, some s0) ∧
    ∃ q' t' s', epoch b next eval n (q, tt, some s0) = (q', t', s') ∧ ∀ s, s' = some s → FreshMult s := by
  have hr' : (0 : ℝ) < r := by exact_mod_cast hr
  simp only [epoch, seqEpoch]
  set p0 := trainParams (q, tt, some s0)
  have f1 := m_fold hb (eval p0) h0 q tt n
  have f2 := m_fold hb' (eval' p0) h0 q tt n'
  by_cases hok : ∀ i < n, ∃ p, q.2 = some p ∧ (colAt p.2 (cls i)).isSome
  · have hok' : ∀ i < n', ∃ p, q.2 = some p ∧ (colAt p.2 (cls' i)).isSome := by
      intro i hi
      rw [hl i hi]
      exact hok _ (hc.inside i hi)
    obtain ⟨lp, e1⟩ := f1.1 hok
    obtain ⟨lp', e2⟩ := f2.1 hok'
    rw [e1, e2]
    by_cases hn : n = 0
    · rw [if_pos hn, if_pos ((hc.pos hr).2 hn)]
      have e0 : (multM mu s0).1.params = (multM mu' s0).1.params := by
        rcases h0 with h0 | h0
        · simp only [multM, h0, Option.map_none]
        · have hz := normalizeRows_scale (r := K) (c := C) (x := fun _ _ => mu - 1) (fun _ _ => by linarith) hr'
          simp only [multM, h0, Option.map_some, zero_add, ← hz, hm]
      have e1 : (multM mu s0).2 = (multM mu' s0).2 := rfl
      simp only [trainBatch, Option.bind_some, hb.step, hb'.step, e0, e1, true_and]
      refine ⟨_, _, _, rfl, ?_⟩
      rintro s hs
      obtain rfl := Option.some.inj hs
      rcases h0 with h0 | h0
      · exact .inl (by simp only [multM, h0, Option.map_none])
      · exact .inr (by simp only [multM, h0, Option.map_some])
    · rw [if_neg hn, if_neg fun h => hn ((hc.pos hr).1 h)]
      have s1 : ∀ k v, ∑ i ∈ range n', t' i (eval' p0 i) k v = r * ∑ i ∈ range n, t i (eval p0 i) k v := by
        intro k v
        rw [← hc.sum]
        exact sum_congr rfl fun i hi => by rw [ht p0 i (mem_range.1 hi)]
      have s2 : ∀ k (c : Fin C), (∑ i ∈ range n', if (c : ℤ) = cls' i then ∑ v, t' i (eval' p0 i) k v else 0) =
          r * ∑ i ∈ range n, if (c : ℤ) = cls i then ∑ v, t i (eval p0 i) k v else 0 := by
        intro k c
        rw [← hc.sum fun i => if (c : ℤ) = cls i then ∑ v, t i (eval p0 i) k v else 0]
        exact sum_congr rfl fun i hi => by rw [ht p0 i (mem_range.1 hi), hl i (mem_range.1 hi)]
      have n1 : ∀ k v, 0 ≤ ∑ i ∈ range n, t i (eval p0 i) k v := fun k v =>
        sum_nonneg fun i hi => hnn p0 i (mem_range.1 hi) k v
      have n2 : ∀ k (c : Fin C), 0 ≤ ∑ i ∈ range n, if (c : ℤ) = cls i then ∑ v, t i (eval p0 i) k v else 0 := fun k c =>
        sum_nonneg fun i hi => by
          split_ifs
          · exact sum_nonneg fun v _ => hnn p0 i (mem_range.1 hi) k v
          · exact le_rfl
      have m1 := normalizeRows_scale n1 hr'
      have m2 := normalizeRows_scale (x := fun k (c : Fin C) =>
        (∑ i ∈ range n, if (c : ℤ) = cls i then ∑ v, t i (eval p0 i) k v else 0) + mu - 1)
        (fun k c => by have := n2 k c; linarith) hr'
      have s3 : ∀ x : ℝ, r * x + mu' - 1 = r * (x + mu - 1) := fun x => by linear_combination hm
      simp only [trainBatch, Option.bind_some, hb.step, hb'.step, multM, Option.map_some, s3, s1, s2, m1, m2,
        true_and]
      exact ⟨_, _, _, rfl, fun s hs => .inr (by rw [← Option.some.inj hs])⟩
  · have hbad : ∃ i < n, ∀ p, q.2 = some p → colAt p.2 (cls i) = none := by
      by_contra hcon
      refine hok fun i hi => ?_
      by_contra hc2
      refine hcon ⟨i, hi, fun p hp => ?_⟩
      by_contra hcol
      exact hc2 ⟨p, hp, Option.isSome_iff_ne_none.2 hcol⟩
    have hbad' : ∃ i < n', ∀ p, q.2 = some p → colAt p.2 (cls' i) = none := by
      obtain ⟨j, hj, h⟩ := hbad
      obtain ⟨i, hi, rfl⟩ := hc.exists_src hr hj
      exact ⟨i, hi, by rw [hl i hi]; exact h⟩
    rw [f1.2 hbad, f2.2 hbad']
    exact ⟨rfl, _, _, _, rfl, fun s hs => by simp at hs⟩

theorem m_fit {b b' : BatchStep (MultParams K V C) R (MultState K V C)} {cls cls' : ℕ → ℤ} {t t' : ℕ → R → Mat K V ℝ}
    {mu mu' : ℝ} (hmu : 1 ≤ mu) (hb : Adding b mu cls t) (hb' : Adding b' mu' cls' t') (hi : FitIndependent b .init)
    (hi' : FitIndependent b' .init) {next : T → T} {eval eval' : MultParams K V C × T → ℕ → R} {src : ℕ → ℕ}
    {n n' r : ℕ} (hc : Copies src n n' r) (hr : 0 < r) (hm : mu' - 1 = r * (mu - 1)) (hl : ∀ i < n', cls' i = cls (src i))
    (ht : ∀ p, ∀ i < n', t' i (eval' p i) = t (src i) (eval p (src i))) (hnn : ∀ p, ∀ i < n, ∀ k v, 0 ≤ t i (eval p i) k v) :
    SameFit b b' n n' eval eval' next .init := by
  intro q tt W W' orders orders' m l logs m' l' logs' hlen ho ho' h h'
  have h1 := hi T next eval q tt W n orders m l logs ho h
  have h2 := hi' T next eval' q tt W' n' orders' m' l' logs' ho' h'
  have h3 := iterate_same (f := epoch b' next eval' n') (g := epoch b next eval n)
    (P := fun x => ∀ s, x.2.2 = some s → FreshMult s) (by
      rintro ⟨q, tt, s⟩ hs
      cases s with
      | none =>
        have keep : ∀ (b : BatchStep (MultParams K V C) R (MultState K V C)) (f : ℕ → R) (l : List ℕ),
            l.foldl (fun x i => (trainDoc b i (f i) x).1) (q, tt, none) = (q, tt, none) := by
          intro b f l
          induction l with
          | nil => rfl
          | cons i l ih => rw [List.foldl_cons]; exact ih
        simp only [epoch, seqEpoch, keep]
        exact ⟨rfl, fun s hs => by simp [trainBatch] at hs⟩
      | some s =>
        obtain ⟨e1, q', t', s', e2, e3⟩ := m_epoch hmu hb hb' hc hr hm hl ht hnn (hs s rfl) q tt
        exact ⟨e1, by rw [e2]; exact e3⟩) orders.length (q, tt, some .init) (fun s hs => .inl (by rw [← Option.some.inj hs]; rfl))
  rw [← hlen, h3] at h2
  exact ⟨h2.1.trans h1.1.symm, h2.2.trans h1.2.symm⟩

/-- **C144**: the multinomial supervised model.  Training on a corpus in which every document occurs `r` times gives the
model that training on the documents gives with a smoothing that is larger by the factor `r`: `mu' - 1 = r * (mu - 1)`. -/
theorem C144_multinomial_partial {corpus corpus' : ℕ → Doc V} {mu mu' : ℝ} (hmu : 1 ≤ mu) {next : T → T}
    {eval eval' : MultParams K V C × T → ℕ → VP K V} {src : ℕ → ℕ} {n n' r : ℕ} (hc : Copies src n n' r) (hr : 0 < r)
    (hm : mu' - 1 = r * (mu - 1)) (hd : ∀ i < n', corpus' i = corpus (src i)) (he : ∀ p, ∀ i < n', eval' p i = eval p (src i))
    (hphi : ∀ p, ∀ i < n, ∀ k v, 0 ≤ (eval p i).phi k v) :
    SameFit (multinomial mu corpus) (multinomial mu' corpus') n n' eval eval' next .init :=
  m_fit (cls := fun i => (corpus i).cls) (cls' := fun i => (corpus' i).cls) (t := fun i r => scaled r.phi (corpus i).words)
    (t' := fun i r => scaled r.phi (corpus' i).words) hmu ⟨fun _ _ _ _ => rfl, fun _ _ => rfl⟩ ⟨fun _ _ _ _ => rfl, fun _ _ => rfl⟩
    (C08_multinomial mu corpus (h := []) rfl).2 (C08_multinomial mu' corpus' (h := []) rfl).2 hc hr hm
    (fun i hi => by rw [hd i hi]) (fun p i hi => by rw [hd i hi, he p i hi])
    (fun p i hi k v => mul_nonneg (hphi p i hi k v) (Nat.cast_nonneg _))

/-- **C144**: the correspondence model. -/
theorem C144_correspondence_partial {corpus corpus' : ℕ → Doc V} {mu mu' : ℝ} (hmu : 1 ≤ mu) {next : T → T}
    {eval eval' : MultParams K V C × T → ℕ → VP K V × Vec V ℝ} {src : ℕ → ℕ} {n n' r : ℕ} (hc : Copies src n n' r) (hr : 0 < r)
    (hm : mu' - 1 = r * (mu - 1)) (hd : ∀ i < n', corpus' i = corpus (src i)) (he : ∀ p, ∀ i < n', eval' p i = eval p (src i))
    (hphi : ∀ p, ∀ i < n, ∀ k v, 0 ≤ (eval p i).1.phi k v)
    (htau : ∀ p, ∀ i < n, ∀ v, 0 ≤ (eval p i).2 v) :
    SameFit (correspondence mu corpus) (correspondence mu' corpus') n n' eval eval' next .init :=
  m_fit (cls := fun i => (corpus i).cls) (cls' := fun i => (corpus' i).cls)
    (t := fun i r k v => r.1.phi k v * ((corpus i).words v * r.2 v))
    (t' := fun i r k v => r.1.phi k v * ((corpus' i).words v * r.2 v)) hmu ⟨fun _ _ _ _ => rfl, fun _ _ => rfl⟩
    ⟨fun _ _ _ _ => rfl, fun _ _ => rfl⟩
    (C08_correspondence mu corpus (h := []) rfl).2 (C08_correspondence mu' corpus' (h := []) rfl).2 hc hr hm
    (fun i hi => by rw [hd i hi]) (fun p i hi => by rw [hd i hi, he p i hi])
    (fun p i hi k v => mul_nonneg (hphi p i hi k v) (mul_nonneg (Nat.cast_nonneg _) (htau p i hi v)))

/-- Whole copies of a corpus one after the other. -/
theorem copies_append (n r : ℕ) : Copies (· % n) n (r * n) r where
  inside i hi := Nat.mod_lt _ (Nat.pos_of_ne_zero fun h => by subst h; omega)
  times j hj := by
    have e : (range (r * n)).filter (fun i => i % n = j) = (range r).image fun a => j + a * n := by
      ext i
      simp only [mem_filter, mem_range, mem_image]
      constructor
      · rintro ⟨h1, h2⟩
        refine ⟨i / n, Nat.div_lt_of_lt_mul (by rwa [mul_comm]), ?_⟩
        rw [← h2, mul_comm]
        exact Nat.mod_add_div i n
      · rintro ⟨a, ha, rfl⟩
        refine ⟨?_, by rw [Nat.add_mul_mod_self_right, Nat.mod_eq_of_lt hj]⟩
        calc j + a * n < n + a * n := by omega
          _ = (a + 1) * n := by ring
          _ ≤ r * n := Nat.mul_le_mul_right n ha
    rw [e, card_image_of_injective _ fun a b h => ?_, card_range]
    exact Nat.eq_of_mul_eq_mul_right (show 0 < n by omega) (by simpa using h)

/-- A case of `C144_lda`: three documents, each four times, in any order and with any E step that looks at the document only. -/
example (corpus : ℕ → Doc 4) (e : Params 2 4 1 × Unit → Doc 4 → VP 2 4) (q : Params 2 4 1) :
    ∃ (m m' : Params 2 4 1 × Unit × Option (Buf 2 4)) (logs logs' : List (List (Obs (VP 2 4)))),
      Calls (fitCalls (unsupervised corpus) id (fun p i => e p (corpus i)) 2 3 [id, id]) .empty (q, (), some none) .empty m logs ∧
      Calls (fitCalls (unsupervised fun i => corpus (i % 3)) id (fun p i => e p (corpus (i % 3))) 5 12 [id, id]) .empty
        (q, (), some none) .empty m' logs' ∧ m'.1 = m.1 := by
  obtain ⟨m, logs, h⟩ := calls_exist (unsupervised corpus) id (fun p i => e p (corpus i)) (W := 2) (by omega) 3 [id, id]
    (q, (), some none)
  obtain ⟨m', logs', h'⟩ := calls_exist (unsupervised fun i => corpus (i % 3)) id (fun p i => e p (corpus (i % 3))) (W := 5)
    (by omega) 12 [id, id] (q, (), some none)
  refine ⟨m, m', logs, logs', h, h', ?_⟩
  exact (C144_lda (copies_append 3 4) (by omega) (fun _ _ => rfl) (fun _ _ _ => rfl) q () 2 5 [id, id] [id, id] _ _ _ _ _ _ rfl
    (by simp) (by simp) h h').1

/-- A document with one word, of the first of two classes. -/
def copiedDoc : Doc 1 := ⟨fun _ => 1, 0⟩

/-- **C144**, what does not hold: with the same smoothing `mu > 1`, one iteration on a document twice gives another classifier
than one iteration on the document; so does every number of workers. -/
theorem C144_smoothing {mu : ℝ} (hmu : 1 < mu) : Copies (fun _ => 0) 1 2 2 ∧
    ¬ SameFit (T := Unit) (multinomial (K := 1) (C := 2) mu fun _ => copiedDoc) (multinomial mu fun _ => copiedDoc) 1 2
      (fun _ _ => ⟨fun _ _ => 1, fun _ => 1⟩) (fun _ _ => ⟨fun _ _ => 1, fun _ => 1⟩) id .init := by
  refine ⟨⟨fun _ _ => Nat.one_pos, fun j hj => ?_⟩, fun hs => ?_⟩
  · obtain rfl : j = 0 := by omega
    rfl
  · set b := multinomial (K := 1) (C := 2) mu fun _ => copiedDoc with hb
    set ev : MultParams 1 1 2 × Unit → ℕ → VP 1 1 := fun _ _ => ⟨fun _ _ => 1, fun _ => 1⟩ with hev
    let q : MultParams 1 1 2 := (fun _ => 1, some (fun _ _ => 1, fun _ _ => 1 / 2))
    obtain ⟨m, logs, h⟩ := calls_exist b id ev (W := 1) (by omega) 1 [id] (q, (), some .init)
    obtain ⟨m', logs', h'⟩ := calls_exist b id ev (W := 1) (by omega) 2 [id] (q, (), some .init)
    have e := (hs q () 1 1 [id] [id] _ _ _ _ _ _ rfl (by simp) (by simp) h h').1
    have hi := (C08_multinomial (K := 1) (C := 2) mu (fun _ => copiedDoc) (h := []) rfl).2
    have e1 := (hi Unit id ev q () 1 1 [id] _ _ _ (by simp) h).1
    have e2 := (hi Unit id ev q () 1 2 [id] _ _ _ (by simp) h').1
    rw [e1, e2] at e
    have e3 := congrArg (fun x : MultParams 1 1 2 => x.2.map fun p => p.2 0 1) e
    simp [epoch, seqEpoch, trainDoc, trainBatch, List.range_succ, multinomial, q, multDoc, multAdd, multM, colAt, copiedDoc, hev,
      MultState.init, normalizeRows_apply, scaled, MStep.scaled, Fin.sum_univ_two] at e3
    rw [if_neg (by linarith), if_neg (by linarith), div_eq_div_iff (by linarith) (by linarith)] at e3
    have := mul_left_cancel₀ (show mu - 1 ≠ 0 by linarith) e3
    linarith

/-- A case of `C144_multinomial_partial`: three documents twice with the smoothing 3 and once with the smoothing 2. -/
example (corpus : ℕ → Doc 4) (phi : MultParams 2 4 2 × Unit → Doc 4 → VP 2 4) (h : ∀ p d k v, 0 ≤ (phi p d).phi k v) :
    SameFit (multinomial 2 corpus) (multinomial 3 fun i => corpus (i % 3)) 3 6 (fun p i => phi p (corpus i))
      (fun p i => phi p (corpus (i % 3))) id .init :=
  C144_multinomial_partial (by norm_num) (copies_append 3 2) (by omega) (by norm_num) (fun _ _ => rfl) (fun _ _ _ => rfl)
    (fun p i _ => h p (corpus i))

end Verif.Train
