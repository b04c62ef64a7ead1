import Verif.Model.Passes
import Verif.Props.Corpus
import Mathlib.Data.Fintype.BigOperators
import Mathlib.Data.List.Nodup
import Mathlib.Data.List.NodupEquivFin
import Mathlib.Algebra.BigOperators.Fin

/-! Property C114: all orders of the documents are equally likely. -/
namespace Verif.Corpus

/-! ### Specification -/

/-- The numbers that a shuffle of `n` documents needs: for each `i` one between `0` and `i`. -/
abbrev Deal (n : ℕ) : Type := (i : Fin n) → Fin (i + 1)

/-- As a function on all numbers. -/
def Deal.num {n : ℕ} (d : Deal n) (i : ℕ) : ℕ := if h : i < n then (d ⟨i, h⟩ : ℕ) else 0

/-! ### One step -/

theorem swapAt_get {a b : List ℕ} {i j : ℕ} (h : swapAt a i j = some b) (k : ℕ) :
    b[k]? = if k = j then a[i]? else if k = i then a[j]? else a[k]? := by
  unfold swapAt at h
  cases hi : a[i]? with
  | none => simp [hi] at h
  | some x =>
    cases hj : a[j]? with
    | none => simp [hi, hj] at h
    | some y =>
      simp only [hi, hj, Option.some.injEq] at h
      subst h
      have li : i < a.length := (List.getElem?_eq_some_iff.1 hi).1
      have lj : j < a.length := (List.getElem?_eq_some_iff.1 hj).1
      by_cases h1 : k = j
      · subst h1
        simp [lj]
      · rw [if_neg h1, List.getElem?_set_ne (Ne.symm h1)]
        by_cases h2 : k = i
        · subst h2
          simp [li]
        · rw [if_neg h2, List.getElem?_set_ne (Ne.symm h2)]

/-- Swapping twice. -/
theorem swapAt_back {a b : List ℕ} {i j : ℕ} (h : swapAt a i j = some b) : swapAt b i j = some a := by
  have hp := swapAt_perm h
  have hi : i < a.length := by
    by_contra hc
    simp [swapAt, List.getElem?_eq_none (not_lt.1 hc)] at h
  have hj : j < a.length := by
    by_contra hc
    simp [swapAt, List.getElem?_eq_none (not_lt.1 hc)] at h
  obtain ⟨c, hc⟩ := Option.isSome_iff_exists.1 (swapAt_isSome (a := b) (i := i) (j := j) (by rw [hp.length_eq]; exact hi)
    (by rw [hp.length_eq]; exact hj))
  rw [hc, Option.some.injEq]
  refine List.ext_getElem? fun k => ?_
  rw [swapAt_get hc, swapAt_get h, swapAt_get h, swapAt_get h]
  by_cases h1 : k = j
  · subst h1
    by_cases h2 : i = k <;> simp [h2]
  · by_cases h2 : k = i
    · subst h2
      simp [h1]
    · simp [h1, h2]

/-- The last step of a shuffle. -/
theorem shuffleFrom_last (draw : ℕ → ℕ) : ∀ (k i : ℕ) (a : List ℕ), shuffleFrom draw a i (k + 1) =
    (shuffleFrom draw a i k).bind fun b => swapAt b (i + k) (draw (i + k) % (i + k + 1))
  | 0, i, a => by
    simp only [shuffleFrom, Nat.add_zero, Option.bind_some]
    cases swapAt a i (draw i % (i + 1)) <;> rfl
  | k + 1, i, a => by
    rw [shuffleFrom]
    conv_rhs => rw [shuffleFrom]
    cases h : swapAt a i (draw i % (i + 1)) with
    | none => rfl
    | some b =>
      simp only
      rw [shuffleFrom_last draw k (i + 1) b, show i + 1 + k = i + (k + 1) by ring]

/-- Elements behind the last step are untouched. -/
theorem shuffleFrom_behind (draw : ℕ → ℕ) : ∀ (k : ℕ) {a b : List ℕ}, shuffleFrom draw a 1 k = some b →
    ∀ j, k < j → b[j]? = a[j]?
  | 0, a, b, h, j, _ => by rw [shuffleFrom, Option.some.injEq] at h; rw [h]
  | k + 1, a, b, h, j, hj => by
    rw [shuffleFrom_last, Option.bind_eq_some_iff] at h
    obtain ⟨c, h1, h2⟩ := h
    rw [swapAt_get h2, shuffleFrom_behind draw k h1 j (by omega)]
    have : draw (1 + k) % (1 + k + 1) < 1 + k + 1 := Nat.mod_lt _ (by omega)
    rw [if_neg (by omega), if_neg (by omega)]

/-- Only the numbers that are used matter. -/
theorem shuffleFrom_congr {draw draw' : ℕ → ℕ} : ∀ (k : ℕ) (a : List ℕ), (∀ i, 1 ≤ i → i ≤ k → draw i = draw' i) →
    shuffleFrom draw a 1 k = shuffleFrom draw' a 1 k
  | 0, _, _ => rfl
  | k + 1, a, h => by
    rw [shuffleFrom_last, shuffleFrom_last, shuffleFrom_congr k a fun i h1 h2 => h i h1 (by omega),
      h (1 + k) (by omega) (by omega)]

/-! ### Every order comes from exactly one choice of the numbers -/

theorem shuffleFrom_unique {a : List ℕ} (ha : a.Nodup) : ∀ (k : ℕ), k < a.length → ∀ b : List ℕ, b.Perm a →
    (∀ j, k < j → b[j]? = a[j]?) →
    ∃ draw : ℕ → ℕ, (∀ i, draw i ≤ i) ∧ shuffleFrom draw a 1 k = some b ∧
      ∀ draw' : ℕ → ℕ, (∀ i, draw' i ≤ i) → shuffleFrom draw' a 1 k = some b → ∀ i, 1 ≤ i → i ≤ k → draw' i = draw i
  | 0, _, b, hb, hj => by
    refine ⟨fun _ => 0, fun _ => Nat.zero_le _, ?_, fun _ _ _ i h1 h2 => by omega⟩
    rw [shuffleFrom, Option.some.injEq]
    cases a with
    | nil => exact (List.perm_nil.1 hb).symm
    | cons x a =>
      cases b with
      | nil => simp at hb
      | cons y b =>
        have e : b = a := List.ext_getElem? fun j => by simpa using hj (j + 1) (by omega)
        subst e
        have := hb.mem_iff (a := y)
        have h2 := (hb.nodup_iff).2 ha
        rw [List.nodup_cons] at h2
        simp only [List.mem_cons, true_or, true_iff] at this
        rcases this with rfl | h
        · rfl
        · exact absurd h h2.1
  | k + 1, hk, b, hb, hj => by
    have hbn : b.Nodup := hb.nodup_iff.2 ha
    -- where the element that was last is now
    have hx : a[k + 1] ∈ b := hb.mem_iff.2 (List.getElem_mem hk)
    obtain ⟨p, hp, hpx⟩ := List.mem_iff_getElem.1 hx
    have hpk : p ≤ k + 1 := by
      by_contra hc
      have h1 := hj p (by omega)
      rw [List.getElem?_eq_getElem hp, hpx, eq_comm, List.getElem?_eq_some_iff] at h1
      obtain ⟨h2, h3⟩ := h1
      have := (List.Nodup.getElem_inj_iff ha).1 h3
      omega
    obtain ⟨b', hb'⟩ := Option.isSome_iff_exists.1 (swapAt_isSome (a := b) (i := 1 + k) (j := p)
      (by rw [hb.length_eq]; omega) hp)
    have hbp := (swapAt_perm hb').trans hb
    obtain ⟨draw, hd1, hd2, hd3⟩ := shuffleFrom_unique ha k (by omega) b' hbp (fun j hjk => by
      rw [swapAt_get hb']
      by_cases h1 : j = p
      · subst h1
        have : j = k + 1 := by omega
        subst this
        rw [if_pos rfl, show 1 + k = k + 1 by ring, List.getElem?_eq_getElem hp, hpx, List.getElem?_eq_getElem hk]
      · rw [if_neg h1]
        by_cases h2 : j = 1 + k
        · rw [if_pos h2, h2, List.getElem?_eq_getElem hp, hpx, show 1 + k = k + 1 by ring, List.getElem?_eq_getElem hk]
        · rw [if_neg h2]
          exact hj j (by omega))
    refine ⟨fun i => if i = k + 1 then p else draw i, fun i => ?_, ?_, fun draw' h1 h2 i hi1 hi2 => ?_⟩
    · simp only
      split
      · omega
      · exact hd1 i
    · rw [shuffleFrom_last, shuffleFrom_congr (draw' := draw) k a fun i _ h => by simp [show i ≠ k + 1 by omega], hd2,
        Option.bind_some]
      simp only [show 1 + k = k + 1 by ring, if_true]
      rw [Nat.mod_eq_of_lt (by omega)]
      rw [show 1 + k = k + 1 by ring] at hb'
      exact swapAt_back hb'
    · rw [shuffleFrom_last, Option.bind_eq_some_iff] at h2
      obtain ⟨c, h3, h4⟩ := h2
      have hd : draw' (1 + k) % (1 + k + 1) = draw' (1 + k) := Nat.mod_eq_of_lt (by have := h1 (1 + k); omega)
      rw [hd] at h4
      have h5 : c[1 + k]? = a[1 + k]? := shuffleFrom_behind draw' k h3 (1 + k) (by omega)
      have h6 := swapAt_get h4 (draw' (1 + k))
      rw [if_pos rfl, h5, show 1 + k = k + 1 by ring, List.getElem?_eq_getElem hk, List.getElem?_eq_some_iff] at h6
      obtain ⟨h7, h8⟩ := h6
      have h9 : draw' (k + 1) = p := (List.Nodup.getElem_inj_iff hbn).1 (h8.trans hpx.symm)
      simp only
      split
      · rename_i h10
        rw [h10, h9]
      · refine hd3 draw' h1 ?_ i hi1 (by omega)
        rw [h3]
        have h11 := swapAt_back h4
        rw [show 1 + k = k + 1 by ring] at h11 hb'
        rw [h9, hb'] at h11
        exact h11.symm

theorem Deal.num_le {n : ℕ} (d : Deal n) (i : ℕ) : d.num i ≤ i := by
  unfold Deal.num
  split
  · exact Nat.lt_succ_iff.1 (d ⟨i, _⟩).2
  · exact Nat.zero_le _

/-- **C114**.  For every order of `n` documents, whatever their order was before, exactly one choice of the numbers of
the generator leads to it: equally likely numbers give equally likely orders. -/
theorem C114_every_order_once {a b : List ℕ} (ha : a.Nodup) (hb : b.Perm a) :
    ∃! d : Deal a.length, shuffle d.num a = some b := by
  rcases Nat.eq_zero_or_pos a.length with h0 | h0
  · rw [List.length_eq_zero_iff] at h0
    subst h0
    rw [List.perm_nil.1 hb]
    exact ⟨fun i => i.elim0, rfl, fun d _ => funext fun i => i.elim0⟩
  · obtain ⟨draw, h1, h2, h3⟩ := shuffleFrom_unique ha (a.length - 1) (by omega) b hb (fun j hj => by
      rw [List.getElem?_eq_none (by rw [hb.length_eq]; omega), List.getElem?_eq_none (by omega)])
    refine ⟨fun i => ⟨draw i, Nat.lt_succ_iff.2 (h1 i)⟩, ?_, fun d hd => ?_⟩
    · simp only [shuffle]
      rw [← h2]
      refine shuffleFrom_congr _ _ fun i hi1 hi2 => ?_
      simp [Deal.num, show i < a.length by omega]
    · funext i
      refine Fin.ext ?_
      rcases Nat.eq_zero_or_pos i with hi | hi
      · have e1 := (d i).2
        have e2 := h1 i
        simp only
        omega
      · have := h3 d.num d.num_le hd i hi (by omega)
        simpa [Deal.num] using this

theorem every_order_once {n : ℕ} {a b : List ℕ} (hn : a.length = n) (ha : a.Nodup) (hb : b.Perm a) :
    ∃! d : Deal n, shuffle d.num a = some b := by
  subst hn
  exact C114_every_order_once ha hb

/-! ### The documented probability -/

open Finset in
/-- **C114**, as documented (Document.hpp:75-79): after a shuffle the document at a position is any of the documents with
the same probability, one divided by their number. -/
theorem C114_position {a : List ℕ} (ha : a.Nodup) {p : ℕ} (hp : p < a.length) {x : ℕ} (hx : x ∈ a) :
    a.length * (univ.filter fun d : Deal a.length => ∃ b, shuffle d.num a = some b ∧ b[p]? = some x).card =
      Fintype.card (Deal a.length) := by
  classical
  -- the order that numbers lead to
  have hord : ∀ d : Deal a.length, ∃ b, shuffle d.num a = some b ∧ b.Perm a := fun d => shuffle_perm _ a
  choose ord ho hop using hord
  have hinj : ∀ d d', ord d = ord d' → d = d' := fun d d' h =>
    (C114_every_order_once ha (hop d)).unique (ho d) (by rw [ho d', h])
  have hsur : ∀ b, b.Perm a → ∃ d, ord d = b := fun b hb => by
    obtain ⟨d, hd, _⟩ := C114_every_order_once ha hb
    exact ⟨d, Option.some.inj ((ho d).symm.trans hd)⟩
  have hS : ∀ z, (univ.filter fun d : Deal a.length => ∃ b, shuffle d.num a = some b ∧ b[p]? = some z) =
      univ.filter fun d => (ord d)[p]? = some z := fun z => by
    ext d
    simp only [mem_filter, mem_univ, true_and, ho d, Option.some.injEq, exists_eq_left']
  rw [hS]
  -- exchanging two documents
  have hle : ∀ z ∈ a, ∀ w ∈ a, (univ.filter fun d => (ord d)[p]? = some z).card ≤
      (univ.filter fun d => (ord d)[p]? = some w).card := fun z hz w hw => by
    have hperm : ∀ b : List ℕ, b.Perm a → (b.map (Equiv.swap z w)).Perm a := fun b hb => by
      refine (hb.map _).trans ((List.perm_ext_iff_of_nodup (ha.map (Equiv.injective _)) ha).2 fun t => ?_)
      simp only [List.mem_map]
      have key : ∀ u ∈ a, Equiv.swap z w u ∈ a := fun u hu => by
        rw [Equiv.swap_apply_def]
        split
        · exact hw
        · split
          · exact hz
          · exact hu
      exact ⟨fun ⟨u, hu, h⟩ => h ▸ key u hu, fun h => ⟨Equiv.swap z w t, key t h, Equiv.swap_apply_self z w t⟩⟩
    choose φ hφ using fun d => hsur _ (hperm _ (hop d))
    refine card_le_card_of_injOn φ (fun d hd => ?_) fun d _ d' _ h => ?_
    · simp only [coe_filter, mem_univ, true_and, Set.mem_setOf_eq] at hd ⊢
      rw [hφ, List.getElem?_map, hd]
      simp
    · refine hinj _ _ (List.map_injective_iff.2 (Equiv.swap z w).injective ?_)
      rw [← hφ d, ← hφ d', h]
  have hsum : Fintype.card (Deal a.length) = ∑ z ∈ a.toFinset, (univ.filter fun d => (ord d)[p]? = some z).card := by
    have hget : ∀ d, (ord d)[p]? = some (((ord d)[p]?).getD 0) := fun d => by
      rw [List.getElem?_eq_getElem (by rw [(hop d).length_eq]; exact hp)]
      rfl
    rw [← card_univ, card_eq_sum_card_fiberwise (f := fun d => ((ord d)[p]?).getD 0) (t := a.toFinset) fun d _ => by
      have h := hget d
      simp only [List.coe_toFinset, Set.mem_setOf_eq]
      exact (hop d).mem_iff.1 (List.mem_of_getElem? h)]
    refine sum_congr rfl fun z _ => congrArg card (filter_congr fun d _ => ?_)
    rw [hget d]
    simp
  rw [hsum, sum_congr rfl fun z hz => le_antisymm (hle z (List.mem_toFinset.1 hz) x hx) (hle x hx z (List.mem_toFinset.1 hz)),
    sum_const, List.toFinset_card_of_nodup ha, nsmul_eq_mul, Nat.cast_id]

/-! ### The epochs of a training -/

/-- A generator that hands out given numbers. -/
def tape {n : ℕ} (ds : ℕ → Deal n) : Gen ℕ := ⟨fun _ => 0, fun g _ => ((ds g).num, g + 1)⟩

theorem passes_congr {n : ℕ} {ds ds' : ℕ → Deal n} : ∀ (k : ℕ) (c : Indexes ℕ),
    (∀ i, c.prng ≤ i → i < c.prng + k → ds i = ds' i) → passes (tape ds) c k = passes (tape ds') c k
  | 0, _, _ => rfl
  | k + 1, c, h => by
    have e : c.shuffle (tape ds) = c.shuffle (tape ds') := by
      simp only [Indexes.shuffle, tape, h c.prng le_rfl (by omega)]
    simp only [passes, e]
    cases h1 : c.shuffle (tape ds') with
    | none => rfl
    | some c' =>
      have h2 : c'.prng = c.prng + 1 := by
        simp only [Indexes.shuffle, tape] at h1
        split at h1
        · simp at h1
        · rw [Option.some.injEq] at h1
          rw [← h1]
      simp only
      rw [passes_congr k c' fun i h3 h4 => h i (by omega) (by omega)]

theorem passes_unique {n : ℕ} : ∀ (bs : List (List ℕ)) (c : Indexes ℕ), c.indices.Perm (List.range n) →
    (∀ b ∈ bs, b.Perm (List.range n)) → ∃ ds : ℕ → Deal n, passes (tape ds) c bs.length = some bs ∧
      ∀ ds' : ℕ → Deal n, passes (tape ds') c bs.length = some bs → ∀ i, c.prng ≤ i → i < c.prng + bs.length → ds' i = ds i
  | [], c, _, _ => ⟨fun _ _ => 0, rfl, fun _ _ i h1 h2 => by simp at h2; omega⟩
  | b :: bs, c, hc, hbs => by
    have hb : b.Perm c.indices := (hbs b List.mem_cons_self).trans hc.symm
    obtain ⟨d, hd, hdu⟩ := every_order_once (n := n) (by rw [hc.length_eq, List.length_range])
      (hc.nodup_iff.2 List.nodup_range) hb
    simp only at hd hdu
    obtain ⟨ds, h1, h2⟩ := passes_unique bs ⟨b, c.prng + 1⟩ (hbs b List.mem_cons_self)
      fun b' hb' => hbs b' (List.mem_cons_of_mem _ hb')
    simp only at h2
    have hstep : ∀ ds' : ℕ → Deal n, ds' c.prng = d → c.shuffle (tape ds') = some ⟨b, c.prng + 1⟩ := fun ds' h => by
      simp only [Indexes.shuffle, tape, h, hd]
    refine ⟨Function.update ds c.prng d, ?_, fun ds' h i hi1 hi2 => ?_⟩
    · rw [List.length_cons, passes, hstep _ (Function.update_self ..)]
      simp only
      rw [passes_congr (ds' := ds) bs.length _ fun i h3 h4 => Function.update_of_ne (by simp only at h3; omega) _ _, h1]
    · rw [List.length_cons, passes] at h
      cases h3 : c.shuffle (tape ds') with
      | none => simp [h3] at h
      | some c' =>
        rw [h3] at h
        simp only at h
        cases h4 : passes (tape ds') c' bs.length with
        | none => simp [h4] at h
        | some l =>
          rw [h4] at h
          simp only [Option.some.injEq, List.cons.injEq] at h
          obtain ⟨h5, rfl⟩ := h
          have h6 : shuffle (ds' c.prng).num c.indices = some b ∧ c' = ⟨b, c.prng + 1⟩ := by
            simp only [Indexes.shuffle, tape] at h3
            cases h7 : shuffle (ds' c.prng).num c.indices with
            | none => simp [h7] at h3
            | some idx =>
              simp only [h7, Option.some.injEq] at h3
              subst h3
              simp only at h5
              subst h5
              exact ⟨rfl, rfl⟩
          obtain ⟨h7, rfl⟩ := h6
          by_cases h8 : i = c.prng
          · subst h8
            rw [Function.update_self]
            exact hdu _ h7
          · rw [Function.update_of_ne h8]
            refine h2 ds' h4 i (by omega) ?_
            rw [List.length_cons] at hi2
            omega

/-- **C114**, `fit`: for every sequence of orders, one for each epoch, exactly one choice of the numbers of the generator
makes the epochs go through the documents in these orders. Equally likely numbers thus give orders that are equally likely
and independent of each other. -/
theorem C114_fit_partial {n : ℕ} (bs : List (List ℕ)) (hbs : ∀ b ∈ bs, b.Perm (List.range n)) :
    ∃ ds : ℕ → Deal n, fitPasses (tape ds) n bs.length = some bs ∧
      ∀ ds' : ℕ → Deal n, fitPasses (tape ds') n bs.length = some bs → ∀ i < bs.length, ds' i = ds i := by
  obtain ⟨ds, h1, h2⟩ := passes_unique bs ⟨List.range n, 0⟩ (List.Perm.refl _) hbs
  exact ⟨ds, h1, fun ds' h i hi => h2 ds' h i (Nat.zero_le _) (by simpa using hi)⟩

/-- **C114** is false for `partial_fit(X, y)`: all calls go through the documents in one and the same order, whatever the
generator; it is the order of the first epoch of `fit`. -/
theorem C114_partial_fit_same_order {G : Type} (gen : Gen G) (n : ℕ) : ∃ b, b.Perm (List.range n) ∧
    fitPasses gen n 1 = some [b] ∧ ∀ calls, partialFitPasses gen n calls = some (List.replicate calls b) := by
  obtain ⟨b, h1, h2⟩ := shuffle_perm (gen.deal (gen.seed 0) n).1 (List.range n)
  have hf : fitPasses gen n 1 = some [b] := by
    simp only [fitPasses, passes, Indexes.new, Indexes.shuffle, List.length_range, h1]
  refine ⟨b, h2, hf, fun calls => ?_⟩
  induction calls with
  | zero => rfl
  | succ k ih =>
    simp only [fitPasses] at hf
    rw [partialFitPasses, hf, ih]
    rfl

/-! ### Examples -/

/-- Three documents: six choices of the numbers. -/
example : Fintype.card (Deal 3) = 6 := by
  simp only [Fintype.card_pi, Fintype.card_fin, Fin.prod_univ_three]
  rfl

/-- Two of them put the first document in the last place. -/
example : (Finset.univ.filter fun d : Deal 3 => ∃ b, shuffle d.num [0, 1, 2] = some b ∧ b[2]? = some 0).card = 2 := by
  have h := C114_position (a := [0, 1, 2]) (by decide) (p := 2) (by decide) (x := 0) (by decide)
  have h2 : Fintype.card (Deal 3) = 6 := by
    simp only [Fintype.card_pi, Fintype.card_fin, Fin.prod_univ_three]
    rfl
  exact Nat.eq_of_mul_eq_mul_left (show 0 < 3 by decide) (h.trans h2)

/-- Two epochs with different orders. -/
example : ∃ ds : ℕ → Deal 3, fitPasses (tape ds) 3 2 = some [[2, 0, 1], [1, 2, 0]] := by
  obtain ⟨ds, h, _⟩ := C114_fit_partial (n := 3) [[2, 0, 1], [1, 2, 0]] (by decide)
  exact ⟨ds, h⟩

end Verif.Corpus
