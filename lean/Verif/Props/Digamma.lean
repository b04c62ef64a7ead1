import Mathlib.NumberTheory.Harmonic.GammaDeriv
import Verif.Lemmas.Digamma
import Verif.Props.FastExp

/-! Property C88: the accuracy of `digamma`. -/
namespace Verif.FastExp

/-- **C88**: wherever the digamma function (the logarithmic derivative of the Gamma function) is defined, the
value returned is not larger than it and smaller by at most `5.7 * 10⁻¹¹`. -/
theorem C88_accuracy (x : ℝ) (hx : ∀ n : ℕ, x ≠ -n) :
    ∃ v, digamma x = some v ∧ v ≤ logDeriv Real.Gamma x ∧
      logDeriv Real.Gamma x ≤ v + 57 / 1000000000000 := by
  by_cases h : x < 7
  · have h0 : x ≠ 0 := by simpa using hx 0
    obtain ⟨v, h1, h2, h3⟩ := C88_accuracy (x + 1) fun n hn => hx (n + 1) (by push_cast; linarith)
    have := Digamma.psi_add_one hx
    simp only [Digamma.psi] at this
    refine ⟨v - 1 / x, ?_, by linarith, by linarith⟩
    rw [C32_recurrence x h h0, h1]
    rfl
  · have h7 : 7 ≤ x := not_lt.1 h
    obtain ⟨h1, h2⟩ := Digamma.series_bounds (x := x) (by linarith)
    have h3 : Digamma.omitted (x - 1 / 2) ≤ 57 / 1000000000000 := by
      have hp : ((13 / 2 : ℝ)) ^ 10 ≤ (x - 1 / 2) ^ 10 := pow_le_pow_left₀ (by norm_num) (by linarith) 10
      rw [Digamma.omitted, div_le_iff₀ (by positivity)]
      norm_num at hp ⊢
      linarith
    refine ⟨_, C32_large x h7, ?_, ?_⟩ <;>
      simp only [Digamma.psi, Digamma.series, Digamma.tail] at h1 h2 <;> linarith
termination_by ⌈7 - x⌉₊
decreasing_by
  have h1 : 0 < 7 - x := by linarith
  have h2 : 7 - (x + 1) = 7 - x - 1 := by ring
  rw [h2, Nat.ceil_sub_one]
  have := Nat.ceil_pos.2 h1
  omega

/-- **C88**: for large arguments the error is at most the first term that the series leaves out, so it is of
the order `x⁻¹⁰`. -/
theorem C88_large (x : ℝ) (hx : 7 ≤ x) :
    ∃ v, digamma x = some v ∧ v ≤ logDeriv Real.Gamma x ∧
      logDeriv Real.Gamma x ≤ v + 511 / 67584 / (x - 1 / 2) ^ 10 := by
  obtain ⟨h1, h2⟩ := Digamma.series_bounds (x := x) (by linarith)
  refine ⟨_, C32_large x hx, ?_, ?_⟩ <;>
    simp only [Digamma.psi, Digamma.series, Digamma.tail, Digamma.omitted] at h1 h2 <;> linarith

/-- The digamma function at one is minus the Euler-Mascheroni constant, which the value returned is close to. -/
example : ∃ v, digamma 1 = some v ∧ |v + Real.eulerMascheroniConstant| ≤ 57 / 1000000000000 := by
  obtain ⟨v, h1, h2, h3⟩ := C88_accuracy 1 fun n h => by
    have : (0 : ℝ) ≤ n := Nat.cast_nonneg n
    linarith
  refine ⟨v, h1, ?_⟩
  have e : logDeriv Real.Gamma 1 = -Real.eulerMascheroniConstant := by
    rw [logDeriv_apply, Real.Gamma_one, div_one, Real.eulerMascheroniConstant_eq_neg_deriv]
    ring
  rw [e] at h2 h3
  rw [abs_le]
  constructor <;> linarith

example : ∀ n : ℕ, (-5 / 2 : ℝ) ≠ -n := by
  intro n h
  have h1 : (5 : ℝ) = 2 * n := by linarith
  have h2 : 5 = 2 * n := by exact_mod_cast h1
  omega

end Verif.FastExp
