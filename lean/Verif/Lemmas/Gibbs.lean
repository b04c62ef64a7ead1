import Mathlib.Analysis.SpecialFunctions.Log.Basic
import Mathlib.Algebra.BigOperators.Field

/-! Gibbs' inequality. -/
namespace Verif

open Finset

theorem gibbs_term {q w Z : ℝ} (hq : 0 ≤ q) (hw : 0 ≤ w) (hZ : 0 < Z) (hs : w = 0 → q = 0) :
    q * (Real.log w - Real.log q) ≤ q * Real.log Z + (w / Z - q) := by
  rcases hq.eq_or_lt with rfl | hq
  · simp; positivity
  have hw' : 0 < w := lt_of_le_of_ne hw fun h => hq.ne' (hs h.symm)
  have h1 : Real.log w - Real.log q - Real.log Z = Real.log (w / (q * Z)) := by
    rw [Real.log_div hw'.ne' (mul_pos hq hZ).ne', Real.log_mul hq.ne' hZ.ne']; ring
  have h2 := Real.log_le_sub_one_of_pos (div_pos hw' (mul_pos hq hZ))
  have h3 : q * (w / (q * Z) - 1) = w / Z - q := by field_simp
  have h4 := mul_le_mul_of_nonneg_left h2 hq.le
  rw [h3, ← h1] at h4
  linarith

/-- Gibbs' inequality for weights `w` that need not be normalised. -/
theorem gibbs {ι : Type} [Fintype ι] {q w : ι → ℝ} (hq : ∀ k, 0 ≤ q k) (hq1 : ∑ k, q k = 1)
    (hw : ∀ k, 0 ≤ w k) (hs : ∀ k, w k = 0 → q k = 0) :
    ∑ k, q k * (Real.log (w k) - Real.log (q k)) ≤ Real.log (∑ k, w k) := by
  have hZ : 0 < ∑ k, w k := by
    refine lt_of_le_of_ne (Finset.sum_nonneg fun k _ => hw k) fun h => ?_
    have h0 := (Finset.sum_eq_zero_iff_of_nonneg fun k _ => hw k).1 h.symm
    have : ∑ k, q k = 0 := Finset.sum_eq_zero fun k _ => hs k (h0 k (mem_univ k))
    linarith
  calc ∑ k, q k * (Real.log (w k) - Real.log (q k))
      ≤ ∑ k, (q k * Real.log (∑ j, w j) + (w k / (∑ j, w j) - q k)) :=
        Finset.sum_le_sum fun k _ => gibbs_term (hq k) (hw k) hZ (hs k)
    _ = Real.log (∑ k, w k) := by
        rw [Finset.sum_add_distrib, Finset.sum_sub_distrib, ← Finset.sum_mul, ← Finset.sum_div, hq1,
          div_self hZ.ne']
        ring

/-- Equality for the normalised weights. -/
theorem gibbs_eq {ι : Type} [Fintype ι] {w : ι → ℝ} (hw : ∀ k, 0 ≤ w k) (hZ : 0 < ∑ k, w k) :
    ∑ k, w k / (∑ j, w j) * (Real.log (w k) - Real.log (w k / ∑ j, w j)) = Real.log (∑ k, w k) := by
  have : ∀ k, w k / (∑ j, w j) * (Real.log (w k) - Real.log (w k / ∑ j, w j)) =
      w k / (∑ j, w j) * Real.log (∑ j, w j) := by
    intro k
    rcases (hw k).eq_or_lt with h | h
    · rw [← h]; simp
    · rw [Real.log_div h.ne' hZ.ne']; ring
  rw [Finset.sum_congr rfl fun k _ => this k, ← Finset.sum_mul, ← Finset.sum_div, div_self hZ.ne', one_mul]

end Verif
