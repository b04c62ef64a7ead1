import Verif.Props.Decision

/-! Property C28, infinite and NaN entries with a weight other than zero; the division of C34. -/
namespace Verif.MathUtils

open Finset

variable {r c : Nat}

/-- The extended real number that a value which is not NaN stands for. -/
noncomputable def Ieee.val : Ieee ℝ → EReal
  | .fin a => a
  | .pinf => ⊤
  | .ninf => ⊥
  | .nan => 0

theorem val_add (a b : Ieee ℝ) :
    (a + b = .nan ↔ a = .nan ∨ b = .nan ∨ a = .pinf ∧ b = .ninf ∨ a = .ninf ∧ b = .pinf) ∧
    (a + b ≠ .nan → (a + b).val = a.val + b.val) := by
  change (Ieee.add a b = .nan ↔ _) ∧ (Ieee.add a b ≠ .nan → (Ieee.add a b).val = _)
  cases a <;> cases b <;> simp [Ieee.add, Ieee.val]

/-- The product of a weight and an entry: NaN exactly if one of them is or if zero meets infinity, and otherwise the
product of the extended real numbers. -/
theorem C28_product (a b : Ieee ℝ) :
    (a * b = .nan ↔ a = .nan ∨ b = .nan ∨ a = .fin 0 ∧ ¬ b.Finite ∨ ¬ a.Finite ∧ b = .fin 0) ∧
    (a * b ≠ .nan → (a * b).val = a.val * b.val) := by
  change (Ieee.mul a b = .nan ↔ _) ∧ (Ieee.mul a b ≠ .nan → (Ieee.mul a b).val = _)
  have top : ∀ x : ℝ, 0 < x → (⊤ : EReal) * x = ⊤ := fun x hx => EReal.top_mul_coe_of_pos hx
  have top' : ∀ x : ℝ, x < 0 → (⊤ : EReal) * x = ⊥ := fun x hx => EReal.top_mul_coe_of_neg hx
  have bot : ∀ x : ℝ, 0 < x → (⊥ : EReal) * x = ⊥ := fun x hx => EReal.bot_mul_coe_of_pos hx
  have bot' : ∀ x : ℝ, x < 0 → (⊥ : EReal) * x = ⊤ := fun x hx => EReal.bot_mul_coe_of_neg hx
  cases a with
  | nan => simp [Ieee.mul]
  | fin a =>
    cases b with
    | nan => simp [Ieee.mul]
    | fin b => simp [Ieee.mul, Ieee.val, Ieee.Finite]
    | pinf =>
      rcases lt_trichotomy a 0 with h | h | h
      · simp [Ieee.mul, Ieee.infMul, Ieee.val, h.ne, h.not_gt, mul_comm (a : EReal) ⊤, top' a h]
      · simp [Ieee.mul, Ieee.infMul, Ieee.Finite, h]
      · simp [Ieee.mul, Ieee.infMul, Ieee.val, h.ne', h, mul_comm (a : EReal) ⊤, top a h]
    | ninf =>
      rcases lt_trichotomy a 0 with h | h | h
      · simp [Ieee.mul, Ieee.infMul, Ieee.val, h.ne, h.not_gt, mul_comm (a : EReal) ⊥, bot' a h]
      · simp [Ieee.mul, Ieee.infMul, Ieee.Finite, h]
      · simp [Ieee.mul, Ieee.infMul, Ieee.val, h.ne', h, mul_comm (a : EReal) ⊥, bot a h]
  | pinf =>
    cases b with
    | nan => simp [Ieee.mul]
    | fin a =>
      rcases lt_trichotomy a 0 with h | h | h
      · simp [Ieee.mul, Ieee.infMul, Ieee.val, h.ne, h.not_gt, top' a h]
      · simp [Ieee.mul, Ieee.infMul, Ieee.Finite, h]
      · simp [Ieee.mul, Ieee.infMul, Ieee.val, h.ne', h, top a h]
    | pinf => simp [Ieee.mul, Ieee.val]
    | ninf => simp [Ieee.mul, Ieee.val]
  | ninf =>
    cases b with
    | nan => simp [Ieee.mul]
    | fin a =>
      rcases lt_trichotomy a 0 with h | h | h
      · simp [Ieee.mul, Ieee.infMul, Ieee.val, h.ne, h.not_gt, bot' a h]
      · simp [Ieee.mul, Ieee.infMul, Ieee.Finite, h]
      · simp [Ieee.mul, Ieee.infMul, Ieee.val, h.ne', h, bot a h]
    | pinf => simp [Ieee.mul, Ieee.val]
    | ninf => simp [Ieee.mul, Ieee.val]

theorem val_cons (a b : Ieee ℝ) (out : Ieee ℝ) (ts : List (Ieee ℝ))
    (h : (out = .nan ↔ .nan ∈ (a + b) :: ts ∨ .pinf ∈ (a + b) :: ts ∧ .ninf ∈ (a + b) :: ts) ∧
      (out ≠ .nan → out.val = (((a + b) :: ts).map Ieee.val).sum)) :
    (out = .nan ↔ .nan ∈ a :: b :: ts ∨ .pinf ∈ a :: b :: ts ∧ .ninf ∈ a :: b :: ts) ∧
      (out ≠ .nan → out.val = ((a :: b :: ts).map Ieee.val).sum) := by
  have hv := (val_add a b).2
  have e : out ≠ .nan → a + b ≠ .nan := by
    intro h1 h2
    exact h1 (h.1.2 (.inl (by rw [h2]; exact List.mem_cons_self)))
  refine ⟨h.1.trans ?_, fun h1 => ?_⟩
  · change .nan ∈ (Ieee.add a b) :: ts ∨ .pinf ∈ (Ieee.add a b) :: ts ∧ .ninf ∈ (Ieee.add a b) :: ts ↔ _
    cases a <;> cases b <;> simp [Ieee.add] <;> tauto
  · rw [h.2 h1, List.map_cons, List.sum_cons, hv (e h1), List.map_cons, List.map_cons, List.sum_cons, List.sum_cons,
      add_assoc]

theorem val_fold {m n : Nat} (y : Fin m → Ieee ℝ) (x : Fin m → Fin n → Ieee ℝ) (j : Fin n) (l : List (Fin m)) :
    ∀ res : Vec n (Ieee ℝ),
    let out := l.foldl (fun res i => if y i = 0 then res else fun j => res j + y i * x i j) res j
    let ts := res j :: (l.filter fun i => decide (y i ≠ 0)).map fun i => y i * x i j
    (out = .nan ↔ .nan ∈ ts ∨ .pinf ∈ ts ∧ .ninf ∈ ts) ∧ (out ≠ .nan → out.val = (ts.map Ieee.val).sum) := by
  induction l with
  | nil =>
    intro res
    simp only [List.foldl_nil, List.filter_nil, List.map_nil, List.mem_singleton, List.map_cons, List.sum_cons,
      List.sum_nil, add_zero]
    refine ⟨⟨fun h => .inl h.symm, ?_⟩, fun _ => trivial⟩
    rintro (h | ⟨h, h'⟩)
    · exact h.symm
    · rw [← h] at h'
      cases h'
  | cons i l ih =>
    intro res
    by_cases hi : y i = 0
    · simpa only [List.foldl_cons, hi, if_true, List.filter_cons, ne_eq, not_true_eq_false, decide_false,
        Bool.false_eq_true, if_false] using ih res
    · have h := ih fun j => res j + y i * x i j
      simp only [List.foldl_cons, hi, if_false, List.filter_cons, ne_eq, not_false_eq_true, decide_true, if_true,
        List.map_cons (l := List.filter _ _)]
      exact val_cons _ _ _ _ h

/-- **C28**, infinite and NaN entries under weights other than zero: the result is NaN exactly if one of the products
that are added (or the start value) is, or if both infinities are among them; otherwise it is the sum of the extended
real numbers. -/
theorem C28_special (x : Mat r c (Ieee ℝ)) (y : Vec c (Ieee ℝ)) (res : Vec r (Ieee ℝ)) (j : Fin r) :
    let ts := res j :: ((List.finRange c).filter fun i => decide (y i ≠ .fin 0)).map fun i => y i * x j i
    (sumColsScaled x y res j = .nan ↔ .nan ∈ ts ∨ .pinf ∈ ts ∧ .ninf ∈ ts) ∧
    (sumColsScaled x y res j ≠ .nan → (sumColsScaled x y res j).val = (ts.map Ieee.val).sum) :=
  val_fold y (fun i j => x j i) j (List.finRange c) res

/-- The same for rows. -/
theorem C28_special_rows (x : Mat r c (Ieee ℝ)) (y : Vec r (Ieee ℝ)) (res : Vec c (Ieee ℝ)) (j : Fin c) :
    let ts := res j :: ((List.finRange r).filter fun i => decide (y i ≠ .fin 0)).map fun i => y i * x i j
    (sumRowsScaled x y res j = .nan ↔ .nan ∈ ts ∨ .pinf ∈ ts ∧ .ninf ∈ ts) ∧
    (sumRowsScaled x y res j ≠ .nan → (sumRowsScaled x y res j).val = (ts.map Ieee.val).sum) :=
  val_fold y x j (List.finRange r) res

/-- Opposite infinities under weights of opposite signs add up, under weights of one sign they give NaN. -/
example : sumColsScaled (fun _ i => if i = 0 then .pinf else .ninf : Mat 1 2 (Ieee ℝ))
      (fun i => .fin (if i = 0 then 2 else -3)) (fun _ => .fin 1) 0 = .pinf ∧
    sumColsScaled (fun _ i => if i = 0 then .pinf else .ninf : Mat 1 2 (Ieee ℝ))
      (fun _ => .fin 2) (fun _ => .fin 1) 0 = .nan := by
  have hz : ∀ a : ℝ, a ≠ 0 → (Ieee.fin a : Ieee ℝ) ≠ 0 := fun a ha h => ha (by injection h)
  have h1 : (Ieee.fin 2 : Ieee ℝ) * .pinf = .pinf := by
    change Ieee.infMul true 2 = _
    simp [Ieee.infMul]
  have h2 : (Ieee.fin (-3) : Ieee ℝ) * .ninf = .pinf := by
    change Ieee.infMul false (-3) = _
    simp [Ieee.infMul]
  have h3 : (Ieee.fin 2 : Ieee ℝ) * .ninf = .ninf := by
    change Ieee.infMul false 2 = _
    simp [Ieee.infMul]
  constructor
  · simp only [sumColsScaled, List.finRange_succ, List.finRange_zero, List.map_cons, List.map_nil, List.foldl_cons,
      List.foldl_nil, Fin.succ_zero_eq_one, one_ne_zero, if_true, if_false, hz 2 two_ne_zero, hz (-3) (by norm_num), h1, h2]
    rfl
  · simp only [sumColsScaled, List.finRange_succ, List.finRange_zero, List.map_cons, List.map_nil, List.foldl_cons,
      List.foldl_nil, Fin.succ_zero_eq_one, one_ne_zero, if_true, if_false, hz 2 two_ne_zero, h1, h3]
    rfl

/-- **C34**, division by the entries of a matrix: zero where the entry is zero, and otherwise the quotient. -/
theorem C34_divide {K : Type} [Field K] [DecidableEq K] (y x : K) :
    (x = 0 → scalarDivide y x = 0) ∧ (x ≠ 0 → scalarDivide y x * x = y) := by
  unfold scalarDivide
  constructor
  · intro h
    rw [if_neg (by simpa using h)]
  · intro h
    rw [if_pos h, div_mul_cancel₀ _ h]

end Verif.MathUtils
