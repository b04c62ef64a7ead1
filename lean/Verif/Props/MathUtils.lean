import Verif.Model.MathUtils
import Mathlib.Algebra.Order.Field.Basic
import Mathlib.Algebra.Order.BigOperators.Group.Finset
import Mathlib.Algebra.BigOperators.Field
import Mathlib.Algebra.BigOperators.Fin
import Mathlib.Algebra.Order.Field.Rat
import Mathlib.Tactic.FieldSimp
import Mathlib.Tactic.Ring
import Mathlib.Tactic.NormNum

/-! Properties C27, C28, C33 and C34 of the matrix helpers. -/
namespace Verif.MathUtils

open Finset

variable {K : Type} {r c n : Nat}

/-! ### C27 -/

section Normalize

variable [Field K] [DecidableEq K]

theorem normalizeRow_same (x : Mat r c K) (i : Fin r) (j : Fin c) :
    normalizeRow x i i j = if (∑ j, x i j) = 0 then x i j else x i j / ∑ j, x i j := by
  unfold normalizeRow
  by_cases h : (∑ j, x i j) = 0 <;> simp [h]

theorem normalizeRow_other (x : Mat r c K) {i k : Fin r} (h : k ≠ i) : normalizeRow x i k = x k := by
  unfold normalizeRow
  split
  · rw [Function.update_of_ne h]
  · rfl

theorem foldl_normalizeRow (l : List (Fin r)) (hl : l.Nodup) (x : Mat r c K) (i : Fin r) :
    l.foldl normalizeRow x i = if i ∈ l then normalizeRow x i i else x i := by
  induction l generalizing x with
  | nil => simp
  | cons a l ih =>
    rw [List.nodup_cons] at hl
    rw [List.foldl_cons, ih hl.2]
    by_cases hia : i = a
    · subst hia
      simp [hl.1]
    · have h1 : normalizeRow x a i = x i := normalizeRow_other x hia
      by_cases hil : i ∈ l
      · simp only [hil, if_true, List.mem_cons, or_true]
        funext j
        rw [normalizeRow_same, normalizeRow_same, h1]
      · simp [hil, hia, h1]

/-- The loop of `normalize_rows` divides every row by its sum, unless that is zero. -/
theorem normalizeRows_apply (x : Mat r c K) (i : Fin r) (j : Fin c) :
    normalizeRows x i j = if (∑ j, x i j) = 0 then x i j else x i j / ∑ j, x i j := by
  unfold normalizeRows
  rw [foldl_normalizeRow _ (List.nodup_finRange r), if_pos (List.mem_finRange i), normalizeRow_same]

/-- `normalize_cols` is `normalize_rows` of the transpose. -/
theorem normalizeCols_transpose (x : Mat r c K) (i : Fin r) (j : Fin c) :
    normalizeCols x i j = normalizeRows (fun j i => x i j) j i := by
  unfold normalizeCols normalizeRows
  generalize List.finRange c = l
  induction l generalizing x with
  | nil => rfl
  | cons a l ih =>
    rw [List.foldl_cons, ih, List.foldl_cons]
    have : (fun j i => normalizeCol x a i j) = normalizeRow (fun j i => x i j) a := by
      funext j i
      by_cases h : j = a
      · subst h
        rw [normalizeRow_same]
        unfold normalizeCol
        by_cases hs : (∑ k, x k j) = 0 <;> simp [hs]
      · rw [normalizeRow_other _ h]
        unfold normalizeCol
        by_cases hs : (∑ k, x k a) = 0 <;> simp [hs, h]
    rw [this]

theorem normalizeCols_apply (x : Mat r c K) (i : Fin r) (j : Fin c) :
    normalizeCols x i j = if (∑ k, x k j) = 0 then x i j else x i j / ∑ k, x k j := by
  rw [normalizeCols_transpose, normalizeRows_apply]

/-- **C27**.  A row with nonzero sum sums to one afterwards and is a multiple of what it was; a row
with sum zero is unchanged. -/
theorem C27_normalize_rows (x : Mat r c K) (i : Fin r) :
    ((∑ j, x i j) ≠ 0 → (∑ j, normalizeRows x i j) = 1 ∧
      ∀ j, normalizeRows x i j * (∑ j, x i j) = x i j) ∧
    ((∑ j, x i j) = 0 → ∀ j, normalizeRows x i j = x i j) := by
  refine ⟨fun h => ⟨?_, fun j => ?_⟩, fun h j => ?_⟩
  · simp only [normalizeRows_apply, if_neg h]
    rw [← Finset.sum_div, div_self h]
  · rw [normalizeRows_apply, if_neg h, div_mul_cancel₀ _ h]
  · rw [normalizeRows_apply, if_pos h]

/-- **C27**, columns. -/
theorem C27_normalize_cols (x : Mat r c K) (j : Fin c) :
    ((∑ i, x i j) ≠ 0 → (∑ i, normalizeCols x i j) = 1 ∧
      ∀ i, normalizeCols x i j * (∑ i, x i j) = x i j) ∧
    ((∑ i, x i j) = 0 → ∀ i, normalizeCols x i j = x i j) := by
  simp only [normalizeCols_transpose]
  exact C27_normalize_rows (fun j i => x i j) j

/-- **C27**.  Normalising twice is normalising once. -/
theorem C27_idempotent (x : Mat r c K) :
    normalizeRows (normalizeRows x) = normalizeRows x ∧
    normalizeCols (normalizeCols x) = normalizeCols x := by
  have h : ∀ {r c : Nat} (x : Mat r c K) (i : Fin r) (j : Fin c),
      normalizeRows (normalizeRows x) i j = normalizeRows x i j := by
    intro r c x i j
    obtain ⟨h1, h2⟩ := C27_normalize_rows x i
    by_cases hs : (∑ j, x i j) = 0
    · have he : (∑ j, normalizeRows x i j) = 0 := by
        rw [← hs]; exact Finset.sum_congr rfl fun j _ => h2 hs j
      rw [normalizeRows_apply (normalizeRows x), if_pos he]
    · rw [normalizeRows_apply (normalizeRows x), (h1 hs).1, if_neg one_ne_zero, div_one]
  refine ⟨?_, ?_⟩
  · funext i j; exact h x i j
  · funext i j
    rw [normalizeCols_transpose]
    have : (fun j i => normalizeCols x i j) = normalizeRows (fun j i => x i j) := by
      funext j i; exact normalizeCols_transpose x i j
    rw [this, h, ← normalizeCols_transpose]

end Normalize

/-- **C27**.  Nonnegative matrices stay nonnegative. -/
theorem C27_nonneg [Field K] [LinearOrder K] [IsStrictOrderedRing K] (x : Mat r c K)
    (h : ∀ i j, 0 ≤ x i j) :
    (∀ i j, 0 ≤ normalizeRows x i j) ∧ ∀ i j, 0 ≤ normalizeCols x i j := by
  refine ⟨fun i j => ?_, fun i j => ?_⟩
  · rw [normalizeRows_apply]
    split
    · exact h i j
    · exact div_nonneg (h i j) (Finset.sum_nonneg fun k _ => h i k)
  · rw [normalizeCols_apply]
    split
    · exact h i j
    · exact div_nonneg (h i j) (Finset.sum_nonneg fun k _ => h k j)

example : normalizeRows (fun i j => if i = 0 then (if j = 0 then 1 else 3) else 0 : Mat 2 2 ℚ) 0 1 =
    3 / 4 := by
  rw [normalizeRows_apply]
  simp [Fin.sum_univ_two]
  norm_num

/-! ### C28 -/

theorem foldl_scaled [Semiring K] [DecidableEq K] {m : Nat} (l : List (Fin m)) (y : Fin m → K)
    (x : Fin m → Fin n → K) (res : Vec n K) (j : Fin n) :
    l.foldl (fun res i => if y i = 0 then res else fun j => res j + y i * x i j) res j =
      res j + (l.map fun i => y i * x i j).sum := by
  induction l generalizing res with
  | nil => simp
  | cons a l ih =>
    rw [List.foldl_cons, ih, List.map_cons, List.sum_cons]
    by_cases h : y a = 0
    · simp [h]
    · simp [h, add_assoc]

theorem sumColsScaled_apply [Semiring K] [DecidableEq K] (x : Mat r c K) (y : Vec c K)
    (res : Vec r K) (j : Fin r) :
    sumColsScaled x y res j = res j + ∑ i, y i * x j i := by
  unfold sumColsScaled
  rw [foldl_scaled _ y (fun i j => x j i), Fin.sum_univ_def]

/-- **C28**.  With finite numbers the sums are what their names say. -/
theorem C28_sums [Semiring K] [DecidableEq K] (x : Mat r c K) :
    (∀ (y : Vec c K) (res : Vec r K) j, sumColsScaled x y res j = res j + ∑ i, y i * x j i) ∧
    (∀ (y : Vec r K) (res : Vec c K) j, sumRowsScaled x y res j = res j + ∑ i, y i * x i j) := by
  refine ⟨sumColsScaled_apply x, fun y res j => ?_⟩
  unfold sumRowsScaled
  rw [foldl_scaled _ y x, Fin.sum_univ_def]

theorem foldl_scaled_congr [Add K] [Mul K] [Zero K] [DecidableEq K] {m : Nat} (l : List (Fin m))
    (y : Fin m → K) (x x' : Fin m → Fin n → K) (h : ∀ i, y i ≠ 0 → x i = x' i) (res : Vec n K) :
    l.foldl (fun res i => if y i = 0 then res else fun j => res j + y i * x i j) res =
    l.foldl (fun res i => if y i = 0 then res else fun j => res j + y i * x' i j) res := by
  induction l generalizing res with
  | nil => rfl
  | cons a l ih =>
    rw [List.foldl_cons, List.foldl_cons]
    by_cases ha : y a = 0
    · simp only [ha, if_true]; exact ih res
    · rw [if_neg ha, if_neg ha, h a ha]; exact ih _

/-- **C28**.  What stands in a column (row) of weight zero is irrelevant, even if it is NaN or
infinite. -/
theorem C28_zero_weight_ignored [Field K] [LinearOrder K] :
    (∀ (x x' : Mat r c (Ieee K)) (y : Vec c (Ieee K)) (res : Vec r (Ieee K)),
      (∀ i, y i ≠ .fin 0 → ∀ j, x j i = x' j i) → sumColsScaled x y res = sumColsScaled x' y res) ∧
    (∀ (x x' : Mat r c (Ieee K)) (y : Vec r (Ieee K)) (res : Vec c (Ieee K)),
      (∀ i, y i ≠ .fin 0 → ∀ j, x i j = x' i j) → sumRowsScaled x y res = sumRowsScaled x' y res) :=
  ⟨fun x x' y res h => foldl_scaled_congr _ y (fun i j => x j i) (fun i j => x' j i)
      (fun i hi => funext fun j => h i hi j) res,
   fun x x' y res h => foldl_scaled_congr _ y x x' (fun i hi => funext fun j => h i hi j) res⟩

theorem foldl_scaled_finite [Field K] [LinearOrder K] {m : Nat} (l : List (Fin m))
    (y : Fin m → Ieee K) (x : Fin m → Fin n → Ieee K) (res : Vec n (Ieee K))
    (hres : ∀ j, (res j).Finite) (hy : ∀ i, (y i).Finite)
    (h : ∀ i, y i ≠ .fin 0 → ∀ j, (x i j).Finite) (j : Fin n) :
    (l.foldl (fun res i => if y i = 0 then res else fun j => res j + y i * x i j) res j).Finite := by
  induction l generalizing res with
  | nil => exact hres j
  | cons a l ih =>
    rw [List.foldl_cons]
    apply ih
    intro k
    by_cases ha : y a = 0
    · rw [if_pos ha]; exact hres k
    · rw [if_neg ha]
      have h1 := hres k
      have h2 := hy a
      have h3 := h a ha k
      show ((res k).add ((y a).mul (x a k))).Finite
      cases hr : res k <;> cases hya : y a <;> cases hx : x a k <;>
        simp_all [Ieee.Finite, Ieee.add, Ieee.mul]

/-- **C28**.  The result is finite whenever the weights, the start value and the columns (rows) of
nonzero weight are, and is then the sum over those. -/
theorem C28_finite [Field K] [LinearOrder K] :
    (∀ (x : Mat r c (Ieee K)) (y : Vec c (Ieee K)) (res : Vec r (Ieee K)),
      (∀ j, (res j).Finite) → (∀ i, (y i).Finite) → (∀ i, y i ≠ .fin 0 → ∀ j, (x j i).Finite) →
      ∀ j, (sumColsScaled x y res j).Finite) ∧
    (∀ (x : Mat r c (Ieee K)) (y : Vec r (Ieee K)) (res : Vec c (Ieee K)),
      (∀ j, (res j).Finite) → (∀ i, (y i).Finite) → (∀ i, y i ≠ .fin 0 → ∀ j, (x i j).Finite) →
      ∀ j, (sumRowsScaled x y res j).Finite) :=
  ⟨fun x y res h1 h2 h3 => foldl_scaled_finite _ y (fun i j => x j i) res h1 h2 h3,
   fun x y res h1 h2 h3 => foldl_scaled_finite _ y x res h1 h2 h3⟩

/-- The value in that case: the sum over the columns of nonzero weight, NaN elsewhere or not. -/
theorem C28_value [Field K] [LinearOrder K] (x : Mat r c (Ieee K)) (a : Mat r c K) (y : Vec c K)
    (res : Vec r K) (h : ∀ i, y i ≠ 0 → ∀ j, x j i = .fin (a j i)) (j : Fin r) :
    sumColsScaled x (fun i => .fin (y i)) (fun j => .fin (res j)) j =
      .fin (res j + ∑ i, y i * a j i) := by
  have key : ∀ (l : List (Fin c)) (res : Vec r K),
      l.foldl (fun (res : Vec r (Ieee K)) i => if (Ieee.fin (y i) : Ieee K) = 0 then res else
        fun j => res j + Ieee.fin (y i) * x j i) (fun j => .fin (res j)) j =
      .fin (res j + (l.map fun i => y i * a j i).sum) := by
    intro l
    induction l with
    | nil => intro res; simp
    | cons b l ih =>
      intro res
      rw [List.foldl_cons, List.map_cons, List.sum_cons]
      by_cases hb : y b = 0
      · rw [if_pos (by rw [hb]; rfl), ih]; simp [hb]
      · rw [if_neg (by intro h0; apply hb; injection h0)]
        have : (fun j => (Ieee.fin (res j) : Ieee K) + Ieee.fin (y b) * x j b) =
            fun j => Ieee.fin (res j + y b * a j b) := by
          funext j
          rw [h b hb j]
          rfl
        rw [this, ih]
        simp [add_assoc]
  unfold sumColsScaled
  rw [key, Fin.sum_univ_def]

/-- A column of NaN with weight zero. -/
example : sumColsScaled (fun _ i => if i = 0 then .nan else .fin 2 : Mat 1 2 (Ieee ℚ))
    (fun i => .fin (if i = 0 then 0 else 3)) (fun _ => .fin 1) 0 = .fin 7 := by
  rw [C28_value _ (fun _ _ => 2) (fun i => if i = 0 then 0 else 3) (fun _ => 1)]
  · simp [Fin.sum_univ_two]; norm_num
  · intro i hi j
    have : i ≠ 0 := by rintro rfl; exact hi rfl
    simp [this]

/-! ### C34 -/

theorem foldl_nonzeros [Field K] [DecidableEq K] {m : Nat} (l : List (Fin m)) (f : Fin m → K) (p : K) :
    l.foldl (fun p i => if f i ≠ 0 then p * f i else p) p =
      p * (l.map fun i => if f i = 0 then 1 else f i).prod := by
  induction l generalizing p with
  | nil => simp
  | cons a l ih =>
    rw [List.foldl_cons, ih, List.map_cons, List.prod_cons]
    by_cases h : f a = 0
    · simp [h]
    · simp [h, mul_assoc]

/-- The loop multiplies the nonzero entries. -/
theorem productOfNonzeros_eq [Field K] [DecidableEq K] (x : Mat r c K) :
    productOfNonzeros x = ∏ j, ∏ i, if x i j = 0 then 1 else x i j := by
  have key : ∀ (l : List (Fin c)) (p : K),
      l.foldl (fun p j => (List.finRange r).foldl (fun p i => if x i j ≠ 0 then p * x i j else p) p) p =
      p * (l.map fun j => ∏ i, if x i j = 0 then 1 else x i j).prod := by
    intro l
    induction l with
    | nil => intro p; simp
    | cons a l ih =>
      intro p
      rw [List.foldl_cons, ih, List.map_cons, List.prod_cons, foldl_nonzeros _ (fun i => x i a),
        Fin.prod_univ_def, mul_assoc]
  unfold productOfNonzeros
  rw [key, one_mul, Fin.prod_univ_def]

/-- **C34**.  The product over exactly the nonzero entries; never zero; the ordinary product if no
entry is zero; the same for the transpose. -/
theorem C34_product_of_nonzeros [Field K] [DecidableEq K] (x : Mat r c K) :
    productOfNonzeros x =
      (∏ e ∈ (Finset.univ : Finset (Fin r × Fin c)).filter (fun e => x e.1 e.2 ≠ 0), x e.1 e.2) ∧
    productOfNonzeros x ≠ 0 ∧
    ((∀ i j, x i j ≠ 0) → productOfNonzeros x = ∏ i, ∏ j, x i j) ∧
    productOfNonzeros (fun j i => x i j) = productOfNonzeros x := by
  have hf : ∀ i j, (if x i j = 0 then (1 : K) else x i j) ≠ 0 := by
    intro i j; split <;> simp_all
  refine ⟨?_, ?_, ?_, ?_⟩
  · rw [productOfNonzeros_eq, Finset.prod_comm, ← Finset.prod_product', Finset.prod_filter]
    refine Finset.prod_congr rfl fun e _ => ?_
    by_cases h : x e.1 e.2 = 0 <;> simp [h]
  · rw [productOfNonzeros_eq]
    exact Finset.prod_ne_zero_iff.2 fun j _ => Finset.prod_ne_zero_iff.2 fun i _ => hf i j
  · intro h
    rw [productOfNonzeros_eq, Finset.prod_comm]
    exact Finset.prod_congr rfl fun i _ => Finset.prod_congr rfl fun j _ => by simp [h i j]
  · rw [productOfNonzeros_eq, productOfNonzeros_eq, Finset.prod_comm]

example : productOfNonzeros (fun i j => if i = j then 0 else (i : ℚ) + 2 * j : Mat 2 2 ℚ) = 2 := by
  rw [productOfNonzeros_eq]
  simp [Fin.prod_univ_two]

/-! ### C33 -/

theorem colIdx_lt {i j : Nat} (hi : i < r) (hj : j < c) : j * r + i < r * c := by
  calc j * r + i < j * r + r := by omega
    _ = (j + 1) * r := by ring
    _ ≤ c * r := Nat.mul_le_mul_right _ hj
    _ = r * c := Nat.mul_comm _ _

theorem colIdx_inj {i i' j j' : Nat} (hi : i < r) (hi' : i' < r) (h : j * r + i = j' * r + i') :
    j = j' ∧ i = i' := by
  have hr : 0 < r := by omega
  have h1 : (j * r + i) / r = j := by
    rw [Nat.mul_comm, Nat.mul_add_div hr, Nat.div_eq_of_lt hi, Nat.add_zero]
  have h2 : (j' * r + i') / r = j' := by
    rw [Nat.mul_comm, Nat.mul_add_div hr, Nat.div_eq_of_lt hi', Nat.add_zero]
  have : j = j' := by rw [← h1, ← h2, h]
  subst this
  exact ⟨rfl, by omega⟩

/-- The columns already copied are in place, the other entries are untouched. -/
theorem reshapeToVecLoop_spec (src : Mat r c K) (hn : r * c ≤ n) (js : List (Fin c)) :
    ∀ (dst : Vec n K), ∃ v, reshapeToVecLoop src dst js = some v ∧
      (∀ j ∈ js, ∀ i : Fin r, v ⟨j * r + i, (colIdx_lt i.2 j.2).trans_le hn⟩ = src i j) ∧
      ∀ k : Fin n, (∀ j ∈ js, ∀ i : Fin r, (k : Nat) ≠ j * r + i) → v k = dst k := by
  induction js with
  | nil => intro dst; exact ⟨dst, rfl, fun j h => absurd h List.not_mem_nil, fun k _ => rfl⟩
  | cons j js ih =>
    intro dst
    have hb : j * r + r ≤ n := by
      calc (j : Nat) * r + r = (j + 1) * r := by ring
        _ ≤ c * r := Nat.mul_le_mul_right _ j.2
        _ = r * c := Nat.mul_comm _ _
        _ ≤ n := hn
    obtain ⟨dst', hd⟩ : ∃ d, setSegment dst (j * r) (fun i => src i j) = some d :=
      ⟨_, by rw [setSegment, if_pos hb]⟩
    have hd' : ∀ k : Fin n, dst' k = if h : (j : Nat) * r ≤ k ∧ (k : Nat) < j * r + r
        then src ⟨k - j * r, by omega⟩ j else dst k := by
      rw [setSegment, if_pos hb, Option.some.injEq] at hd
      intro k; rw [← hd]
    obtain ⟨v, hv, h1, h2⟩ := ih dst'
    refine ⟨v, by simp only [reshapeToVecLoop, hd, hv], ?_, ?_⟩
    · intro j' hj' i
      by_cases hmem : j' ∈ js
      · exact h1 j' hmem i
      · have hjj : j' = j := by
          rcases List.mem_cons.1 hj' with h | h
          · exact h
          · exact absurd h hmem
        subst hjj
        rw [h2, hd', dif_pos ⟨by simp, by simp⟩]
        · simp
        · intro j'' hj'' i' he
          have := colIdx_inj i.2 i'.2 he
          exact hmem (by rw [Fin.ext this.1]; exact hj'')
    · intro k hk
      rw [h2 k (fun j' hj' => hk j' (List.mem_cons_of_mem _ hj')), hd', dif_neg]
      rintro ⟨ha, hb'⟩
      exact hk j List.mem_cons_self ⟨k - j * r, by omega⟩ (by simp; omega)

/-- **C33**.  Entry `(i, j)` of the matrix arrives at position `j * rows + i`; the rest of a longer
vector is untouched. -/
theorem C33_matrix_to_vector (src : Mat r c K) (dst : Vec n K) (hn : r * c ≤ n) :
    ∃ v, reshapeToVec src dst = some v ∧
      (∀ (i : Fin r) (j : Fin c), v ⟨j * r + i, (colIdx_lt i.2 j.2).trans_le hn⟩ = src i j) ∧
      ∀ k : Fin n, r * c ≤ k → v k = dst k := by
  obtain ⟨v, hv, h1, h2⟩ := reshapeToVecLoop_spec src hn (List.finRange c) dst
  refine ⟨v, hv, fun i j => h1 j (List.mem_finRange j) i, fun k hk => h2 k fun j _ i he => ?_⟩
  have := colIdx_lt i.2 j.2
  omega

theorem reshapeToMatLoop_spec (src : Vec n K) (hn : r * c ≤ n) (js : List (Fin c)) :
    ∀ (dst : Mat r c K), ∃ m, reshapeToMatLoop src dst js = some m ∧
      ∀ (i : Fin r) (j : Fin c), m i j = if j ∈ js then src ⟨j * r + i, (colIdx_lt i.2 j.2).trans_le hn⟩ else dst i j := by
  induction js with
  | nil => intro dst; exact ⟨dst, rfl, fun i j => by simp⟩
  | cons a js ih =>
    intro dst
    have hb : a * r + r ≤ n := by
      calc (a : Nat) * r + r = (a + 1) * r := by ring
        _ ≤ c * r := Nat.mul_le_mul_right _ a.2
        _ = r * c := Nat.mul_comm _ _
        _ ≤ n := hn
    obtain ⟨m, hm, h⟩ := ih (fun i => Function.update (dst i) a (src ⟨a * r + i, by omega⟩))
    refine ⟨m, by simp only [reshapeToMatLoop, getSegment, dif_pos hb, hm], ?_⟩
    intro i j
    rw [h i j]
    by_cases hj : j ∈ js
    · simp [hj]
    · by_cases ha : j = a
      · subst ha; simp [hj]
      · simp [hj, ha]

/-- **C33**.  Position `j * rows + i` of the vector arrives at entry `(i, j)`. -/
theorem C33_vector_to_matrix (src : Vec n K) (dst : Mat r c K) (hn : r * c ≤ n) :
    ∃ m, reshapeToMat src dst = some m ∧
      ∀ (i : Fin r) (j : Fin c), m i j = src ⟨j * r + i, (colIdx_lt i.2 j.2).trans_le hn⟩ := by
  obtain ⟨m, hm, h⟩ := reshapeToMatLoop_spec src hn (List.finRange c) dst
  exact ⟨m, hm, fun i j => by rw [h i j, if_pos (List.mem_finRange j)]⟩

/-- **C33**.  Matrix to vector and back is the identity. -/
theorem C33_round_trip (src dst' : Mat r c K) (dst : Vec (r * c) K) :
    ∃ v, reshapeToVec src dst = some v ∧ reshapeToMat v dst' = some src := by
  obtain ⟨v, hv, h1, _⟩ := C33_matrix_to_vector src dst (Nat.le_refl _)
  obtain ⟨m, hm, h2⟩ := C33_vector_to_matrix v dst' (Nat.le_refl _)
  refine ⟨v, hv, ?_⟩
  rw [hm]
  congr 1
  funext i j
  rw [h2, h1]

/-- Copying into a vector that is too short is undefined behaviour. -/
theorem C33_too_short (src : Mat r c K) (dst : Vec n K) (hn : n < r * c) :
    reshapeToVec src dst = none := by
  have hc : 0 < c := by
    rcases Nat.eq_zero_or_pos c with h | h
    · subst h; omega
    · exact h
  have key : ∀ (js : List (Fin c)) (dst : Vec n K), ⟨c - 1, by omega⟩ ∈ js →
      reshapeToVecLoop src dst js = none := by
    intro js
    induction js with
    | nil => intro _ h; cases h
    | cons a js ih =>
      intro dst h
      rw [reshapeToVecLoop]
      by_cases hb : a * r + r ≤ n
      · simp only [setSegment, if_pos hb]
        rcases List.mem_cons.1 h with rfl | h
        · exfalso
          have : (c - 1) * r + r = r * c := by
            obtain ⟨c', rfl⟩ : ∃ c', c = c' + 1 := ⟨c - 1, by omega⟩
            simp; ring
          simp only at hb
          omega
        · exact ih _ h
      · simp only [setSegment, if_neg hb]
  exact key _ dst (List.mem_finRange _)

example : ∃ v, reshapeToVec (fun i j => (i : ℕ) + 10 * j : Mat 2 3 ℕ) (fun _ => 0 : Vec 6 ℕ) = some v ∧
    v 3 = 11 := by
  obtain ⟨v, hv, h, _⟩ := C33_matrix_to_vector (fun i j => (i : ℕ) + 10 * j : Mat 2 3 ℕ)
    (fun _ => 0 : Vec 6 ℕ) (by decide)
  exact ⟨v, hv, h 1 1⟩

end Verif.MathUtils
