import Verif.Model.FastExp
import Mathlib.Analysis.Complex.Exponential
import Mathlib.Analysis.Complex.ExponentialBounds
import Mathlib.Tactic.Positivity
import Mathlib.Tactic.GCongr

/-! Lemmas on `fast_exp`. -/
namespace Verif.FastExp

/-! ### The table -/

/-- Every two neighbours have a ratio between the two bounds (in units of 10^-22). -/
def ratiosOk : List Nat → Bool
  | a :: b :: l =>
    decide (10009779950321100880176 * a ≤ 10 ^ 22 * b) &&
      decide (10 ^ 22 * b ≤ 10009779950321104642039 * a) && ratiosOk (b :: l)
  | _ => true

theorem lutNat_length : lutNat.length = 1024 := by decide +kernel

theorem lutNat_ratios : ratiosOk lutNat = true := by decide +kernel

theorem ratiosOk_get : ∀ (l : List Nat), ratiosOk l = true → ∀ i (h : i + 1 < l.length),
    10009779950321100880176 * l[i] ≤ 10 ^ 22 * l[i + 1] ∧
    10 ^ 22 * l[i + 1] ≤ 10009779950321104642039 * l[i] := by
  intro l
  induction l with
  | nil => intro _ i h; simp at h
  | cons a l ih =>
    intro hr i h
    cases l with
    | nil => simp at h
    | cons b l =>
      simp only [ratiosOk, Bool.and_eq_true, decide_eq_true_eq] at hr
      cases i with
      | zero => exact hr.1
      | succ i => exact ih hr.2 i (by simpa using h)

/-- The real value of table entry `i`. -/
noncomputable def T (i : ℕ) (h : i < 1024) : ℝ := (lutNat[i]'(by rw [lutNat_length]; exact h) : ℝ) / 10 ^ 18

theorem lut_eq (i : ℕ) (h : i < 1024) : lut i = some (T i h) := by
  unfold lut T
  rw [List.getElem?_eq_getElem (by rw [lutNat_length]; exact h)]
  rfl

theorem lut_none (i : ℕ) (h : 1024 ≤ i) : lut i = none := by
  unfold lut
  rw [List.getElem?_eq_none (by rw [lutNat_length]; exact h)]
  rfl

theorem T_zero : T 0 (by norm_num) = 1 := by
  unfold T
  have : lutNat[0]'(by rw [lutNat_length]; norm_num) = 1000000000000000000 := by decide +kernel
  rw [this]
  norm_num

theorem T_ratio (i : ℕ) (h : i + 1 < 1024) :
    10009779950321100880176 / 10 ^ 22 * T i (by omega) ≤ T (i + 1) h ∧
    T (i + 1) h ≤ 10009779950321104642039 / 10 ^ 22 * T i (by omega) := by
  obtain ⟨h1, h2⟩ := ratiosOk_get lutNat lutNat_ratios i (by rw [lutNat_length]; exact h)
  unfold T
  generalize lutNat[i]'(by rw [lutNat_length]; omega) = a at *
  generalize lutNat[i + 1]'(by rw [lutNat_length]; omega) = b at *
  have h1' : (10009779950321100880176 : ℝ) * a ≤ 10 ^ 22 * b := by exact_mod_cast h1
  have h2' : (10 : ℝ) ^ 22 * b ≤ 10009779950321104642039 * a := by exact_mod_cast h2
  constructor
  · rw [← mul_div_assoc]
    apply div_le_div_of_nonneg_right _ (by positivity)
    rw [div_mul_eq_mul_div, div_le_iff₀ (by positivity)]
    linarith
  · rw [← mul_div_assoc]
    apply div_le_div_of_nonneg_right _ (by positivity)
    rw [div_mul_eq_mul_div, le_div_iff₀ (by positivity)]
    linarith

theorem T_pos (i : ℕ) (h : i < 1024) : 0 < T i h := by
  induction i with
  | zero => rw [T_zero]; norm_num
  | succ i ih =>
    have h1 := (T_ratio i h).1
    have h2 := ih (by omega)
    exact lt_of_lt_of_le (by positivity) h1

theorem T_lt_succ (i : ℕ) (h : i + 1 < 1024) : T i (by omega) < T (i + 1) h := by
  have h1 := (T_ratio i h).1
  have h2 := T_pos i (by omega)
  have : T i (by omega) * 1 < T i (by omega) * (10009779950321100880176 / 10 ^ 22) :=
    mul_lt_mul_of_pos_left (by norm_num) h2
  linarith

theorem T_mono {i j : ℕ} (h : i ≤ j) (hj : j < 1024) : T i (by omega) ≤ T j hj := by
  induction j with
  | zero =>
    have : i = 0 := by omega
    subst this
    exact le_refl _
  | succ j ih =>
    rcases Nat.lt_or_ge i (j + 1) with h1 | h1
    · exact (ih (by omega) (by omega)).trans (T_lt_succ j hj).le
    · have : i = j + 1 := by omega
      subst this
      exact le_refl _

/-! ### Logarithms of the table -/

/-- exp(1/1023) to 18 digits. -/
theorem exp_step : 1.000977995032110279 ≤ Real.exp (1 / 1023) ∧
    Real.exp (1 / 1023) ≤ 1.000977995032110281 := by
  have h := Real.exp_bound (x := 1 / 1023) (by rw [abs_of_nonneg] <;> norm_num) (n := 6) (by norm_num)
  rw [abs_le] at h
  simp only [Finset.sum_range_succ, Finset.sum_range_zero, Nat.factorial] at h
  rw [abs_of_nonneg (by norm_num)] at h
  constructor
  · have := h.1
    norm_num at this ⊢
    linarith
  · have := h.2
    norm_num at this ⊢
    linarith

theorem log_step (i : ℕ) (h : i + 1 < 1024) :
    |Real.log (T (i + 1) h) - Real.log (T i (by omega)) - 1 / 1023| ≤ 22 / 10 ^ 17 := by
  obtain ⟨h1, h2⟩ := T_ratio i h
  have hp := T_pos i (by omega)
  have hp1 := T_pos (i + 1) h
  obtain ⟨e1, e2⟩ := exp_step
  have he : 0 < Real.exp (1 / 1023) := Real.exp_pos _
  set q := T (i + 1) h / T i (by omega) / Real.exp (1 / 1023) with hq
  have hqpos : 0 < q := by positivity
  have hlog : Real.log (T (i + 1) h) - Real.log (T i (by omega)) - 1 / 1023 = Real.log q := by
    rw [hq, Real.log_div (by positivity) he.ne', Real.log_div hp1.ne' hp.ne', Real.log_exp]
  rw [hlog, abs_le]
  have hr1 : 10009779950321100880176 / 10 ^ 22 ≤ T (i + 1) h / T i (by omega) := by
    rwa [le_div_iff₀ hp]
  have hr2 : T (i + 1) h / T i (by omega) ≤ 10009779950321104642039 / 10 ^ 22 := by
    rwa [div_le_iff₀ hp]
  have hq2 : q ≤ 1 + 22 / 10 ^ 17 := by
    rw [hq, div_le_iff₀ he]
    refine hr2.trans ?_
    calc (10009779950321104642039 / 10 ^ 22 : ℝ) ≤ (1 + 22 / 10 ^ 17) * 1.000977995032110279 := by norm_num
      _ ≤ (1 + 22 / 10 ^ 17) * Real.exp (1 / 1023) := by gcongr
  have hq1 : 1 / (1 + 22 / 10 ^ 17) ≤ q := by
    rw [hq, le_div_iff₀ he]
    refine le_trans ?_ hr1
    calc 1 / (1 + 22 / 10 ^ 17) * Real.exp (1 / 1023) ≤ 1 / (1 + 22 / 10 ^ 17) * 1.000977995032110281 := by
          gcongr
      _ ≤ _ := by norm_num
  constructor
  · have h3 := Real.one_sub_inv_le_log_of_pos hqpos
    have h4 : q⁻¹ ≤ 1 + 22 / 10 ^ 17 := by
      rw [inv_le_comm₀ hqpos (by norm_num)]
      rw [one_div] at hq1
      exact hq1
    linarith
  · have := Real.log_le_sub_one_of_pos hqpos
    linarith

/-- The table entry is `exp (i / 1023)` up to a relative error of about 2.3e-13. -/
theorem log_T (i : ℕ) (h : i < 1024) :
    |Real.log (T i h) - i / 1023| ≤ i * (22 / 10 ^ 17) := by
  induction i with
  | zero => rw [T_zero]; simp
  | succ i ih =>
    have h1 := ih (by omega)
    have h2 := log_step i h
    rw [abs_le] at *
    push_cast
    constructor <;> linarith [h1.1, h1.2, h2.1, h2.2]

theorem log_T' (i : ℕ) (h : i < 1024) : |Real.log (T i h) - i / 1023| ≤ 23 / 10 ^ 14 := by
  refine (log_T i h).trans ?_
  have : (i : ℝ) ≤ 1023 := by exact_mod_cast Nat.lt_succ_iff.1 h
  nlinarith

/-! ### The loops -/

theorem halve_spec (x : ℝ) (hx : 0 ≤ x) : 0 ≤ (halve x).1 ∧ (halve x).1 < 1 ∧
    x = (halve x).1 * 2 ^ (halve x).2 ∧ ((halve x).2 ≠ 0 → 1 / 2 ≤ (halve x).1) := by
  fun_induction halve x with
  | case1 x h ih =>
    obtain ⟨h1, h2, h3, h4⟩ := ih (by linarith)
    refine ⟨h1, h2, ?_, ?_⟩
    · rw [pow_succ, ← mul_assoc, ← h3]; ring
    · intro _
      by_cases h0 : (halve (x / 2)).2 = 0
      · rw [h0] at h3
        simp at h3
        dsimp only
        linarith
      · exact h4 h0
  | case2 x h =>
    push Not at h
    exact ⟨hx, h, by simp, fun h => absurd rfl h⟩

theorem squareLoop_eq (n : ℕ) (x : ℝ) : squareLoop n x = x ^ (2 ^ n) := by
  induction n generalizing x with
  | zero => simp [squareLoop]
  | succ n ih => rw [squareLoop, ih, ← pow_two, ← pow_mul, pow_succ, Nat.mul_comm]

/-- The index read. -/
noncomputable def idx (x : ℝ) : ℕ := ⌊(halve x).1 * 1024⌋₊

theorem idx_lt (x : ℝ) (hx : 0 ≤ x) : idx x < 1024 := by
  obtain ⟨h0, h1, _⟩ := halve_spec x hx
  unfold idx
  rw [Nat.floor_lt (by positivity)]
  push_cast
  linarith

theorem fastExpPos_small (x : ℝ) (hx : 0 ≤ x) (h : x ≤ 100) :
    fastExpPos x = some (T (idx x) (idx_lt x hx) ^ (2 ^ (halve x).2)) := by
  unfold fastExpPos
  rw [if_neg (not_lt.2 h)]
  rw [show ⌊(halve x).1 * 1024⌋₊ = idx x from rfl, lut_eq _ (idx_lt x hx)]
  simp [squareLoop_eq]

theorem two_pow_halve (x : ℝ) (hx : 0 ≤ x) : (2 : ℝ) ^ (halve x).2 ≤ max 1 (2 * x) := by
  obtain ⟨h0, h1, h2, h3⟩ := halve_spec x hx
  by_cases hn : (halve x).2 = 0
  · rw [hn]; simp
  · have := h3 hn
    have hp : (0 : ℝ) < 2 ^ (halve x).2 := by positivity
    refine le_max_of_le_right ?_
    nlinarith

/-- The error of the logarithm. -/
theorem log_fastExpPos (x : ℝ) (hx : 0 ≤ x) :
    |2 ^ (halve x).2 * Real.log (T (idx x) (idx_lt x hx)) - x| ≤
      max 1 (2 * x) * (1 / 1023 + 23 / 10 ^ 14) := by
  obtain ⟨h0, h1, h2, _⟩ := halve_spec x hx
  have ht := log_T' (idx x) (idx_lt x hx)
  have hfl : (idx x : ℝ) ≤ (halve x).1 * 1024 := Nat.floor_le (by positivity)
  have hfl2 : (halve x).1 * 1024 < idx x + 1 := Nat.lt_floor_add_one _
  have hmax := two_pow_halve x hx
  have hp : (0 : ℝ) < 2 ^ (halve x).2 := by positivity
  generalize Real.log (T (idx x) (idx_lt x hx)) = L at *
  have hy : |L - (halve x).1| ≤ 1 / 1023 + 23 / 10 ^ 14 := by
    rw [abs_le] at *
    constructor <;> linarith
  have : 2 ^ (halve x).2 * L - x = 2 ^ (halve x).2 * (L - (halve x).1) := by
    nth_rewrite 2 [h2]; ring
  rw [this, abs_mul, abs_of_pos hp]
  exact mul_le_mul hmax hy (abs_nonneg _) (by positivity)

end Verif.FastExp
