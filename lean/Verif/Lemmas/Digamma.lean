import Mathlib.Analysis.SpecialFunctions.Gamma.BohrMollerup
import Mathlib.Analysis.SpecialFunctions.Gamma.Deriv
import Mathlib.Analysis.Calculus.LogDeriv
import Mathlib.Analysis.Convex.Deriv
import Mathlib.Analysis.SpecialFunctions.Log.Deriv
import Mathlib.Tactic.FieldSimp
import Mathlib.Tactic.Linarith
import Mathlib.Tactic.Positivity

/-! The digamma function of a real argument and its asymptotic series. -/
namespace Verif.Digamma

open Real Filter Topology

/-- The digamma function: the logarithmic derivative of the Gamma function. -/
noncomputable def psi (x : ℝ) : ℝ := logDeriv Real.Gamma x

theorem psi_add_one {x : ℝ} (hx : ∀ m : ℕ, x ≠ -m) : psi (x + 1) = psi x + 1 / x := by
  have h0 : x ≠ 0 := by simpa using hx 0
  have hx1 : ∀ m : ℕ, x + 1 ≠ -m := fun m h => hx (m + 1) (by push_cast; linarith)
  have hG := Real.Gamma_ne_zero hx
  have hd : HasDerivAt Real.Gamma (deriv Real.Gamma x) x := (Real.differentiableAt_Gamma hx).hasDerivAt
  have hd1 : HasDerivAt Real.Gamma (deriv Real.Gamma (x + 1)) (x + 1) :=
    (Real.differentiableAt_Gamma hx1).hasDerivAt
  have e1 : HasDerivAt (fun y => Real.Gamma (y + 1)) (deriv Real.Gamma (x + 1)) x := by
    simpa using hd1.comp_add_const x 1
  have e2 : HasDerivAt (fun y => y * Real.Gamma y) (1 * Real.Gamma x + x * deriv Real.Gamma x) x :=
    (hasDerivAt_id x).mul hd
  have e3 : (fun y => Real.Gamma (y + 1)) =ᶠ[𝓝 x] fun y => y * Real.Gamma y := by
    filter_upwards [isOpen_ne.mem_nhds h0] with y hy using Real.Gamma_add_one hy
  have e4 := (e1.congr_of_eventuallyEq e3.symm).unique e2
  rw [psi, psi, logDeriv_apply, logDeriv_apply, e4, Real.Gamma_add_one h0]
  field_simp
  ring

theorem pos_ne_neg {x : ℝ} (hx : 0 < x) (m : ℕ) : x ≠ -m := fun h => by
  have : (0 : ℝ) ≤ m := Nat.cast_nonneg m
  linarith

theorem hasDerivAt_logGamma {x : ℝ} (hx : 0 < x) : HasDerivAt (Real.log ∘ Real.Gamma) (psi x) x := by
  have := (Real.differentiableAt_Gamma (pos_ne_neg hx)).hasDerivAt.log (Real.Gamma_pos_of_pos hx).ne'
  rw [psi, logDeriv_apply]
  exact this

theorem slope_logGamma {x : ℝ} (hx : 0 < x) : slope (Real.log ∘ Real.Gamma) x (x + 1) = Real.log x := by
  rw [slope_def_field]
  simp only [Function.comp, Real.Gamma_add_one hx.ne']
  rw [Real.log_mul hx.ne' (Real.Gamma_pos_of_pos hx).ne']
  simp

theorem psi_le_log {x : ℝ} (hx : 0 < x) : psi x ≤ Real.log x := by
  rw [← slope_logGamma hx]
  exact Real.convexOn_log_Gamma.le_slope_of_hasDerivAt hx (by simp; linarith) (by linarith)
    (hasDerivAt_logGamma hx)

theorem log_le_psi {x : ℝ} (hx : 0 < x) : Real.log x - 1 / x ≤ psi x := by
  have h : Real.log x ≤ psi (x + 1) := by
    rw [← slope_logGamma hx]
    exact Real.convexOn_log_Gamma.slope_le_of_hasDerivAt hx (by simp; linarith) (by linarith)
      (hasDerivAt_logGamma (by linarith))
  rw [psi_add_one (pos_ne_neg hx)] at h
  linarith

/-- The rational part of the asymptotic series. -/
noncomputable def tail (z : ℝ) : ℝ := 1 / 24 / z ^ 2 - 7 / 960 / z ^ 4 + 31 / 8064 / z ^ 6 - 127 / 30720 / z ^ 8

/-- The asymptotic series, up to the eighth power. -/
noncomputable def series (x : ℝ) : ℝ := Real.log (x - 1 / 2) + tail (x - 1 / 2)

/-- The first term that is left out. -/
noncomputable def omitted (z : ℝ) : ℝ := 511 / 67584 / z ^ 10

theorem artanh_bounds {v : ℝ} (h0 : 0 < v) (h1 : v < 1) :
    2 * (v + v ^ 3 / 3 + v ^ 5 / 5 + v ^ 7 / 7 + v ^ 9 / 9 + v ^ 11 / 11 + v ^ 13 / 13) ≤
      Real.log (1 + v) - Real.log (1 - v) ∧
    Real.log (1 + v) - Real.log (1 - v) ≤
      2 * (v + v ^ 3 / 3 + v ^ 5 / 5 + v ^ 7 / 7 + v ^ 9 / 9 + v ^ 11 / 11 + v ^ 13 / 13) +
        2 / 15 * v ^ 15 / (1 - v ^ 2) := by
  have hs := Real.hasSum_log_sub_log_of_abs_lt_one (x := v) (by rw [abs_of_pos h0]; exact h1)
  have h7 : ∑ k ∈ Finset.range 7, (2 : ℝ) * (1 / (2 * (k : ℝ) + 1)) * v ^ (2 * k + 1) =
      2 * (v + v ^ 3 / 3 + v ^ 5 / 5 + v ^ 7 / 7 + v ^ 9 / 9 + v ^ 11 / 11 + v ^ 13 / 13) := by
    simp only [Finset.sum_range_succ, Finset.sum_range_zero]
    norm_num
    ring
  constructor
  · rw [← h7]
    exact sum_le_hasSum _ (fun k _ => by positivity) hs
  · have ht := (hasSum_nat_add_iff' 7).2 hs
    rw [h7] at ht
    have hv2 : v ^ 2 < 1 := by nlinarith
    have hg := (hasSum_geometric_of_lt_one (by positivity) hv2).mul_left (2 / 15 * v ^ 15)
    have := hasSum_le (fun k => ?_) ht hg
    · rw [div_eq_mul_inv (2 / 15 * v ^ 15)]
      linarith
    · have e : v ^ (2 * (k + 7) + 1) = v ^ 15 * (v ^ 2) ^ k := by rw [← pow_mul, ← pow_add]; congr 1; ring
      rw [e]
      have hk : (1 : ℝ) / (2 * ((k + 7 : ℕ) : ℝ) + 1) ≤ 1 / 15 := by
        apply one_div_le_one_div_of_le (by norm_num)
        push_cast
        have : (0 : ℝ) ≤ k := Nat.cast_nonneg k
        linarith
      have : 0 ≤ v ^ 15 * (v ^ 2) ^ k := by positivity
      nlinarith

theorem lower_poly {w : ℝ} (h0 : 0 ≤ w) (h1 : w ≤ 1) :
    0 ≤ 2555 / 33 + (238701 / 5005) * w + (493918 / 45045) * w ^ 2 - (1454 / 6435) * w ^ 3 - (9221 / 6435) * w ^ 4 + (110899 / 45045) * w ^ 5 - (22597 / 9009) * w ^ 6 + (1979 / 1287) * w ^ 7 - (75 / 143) * w ^ 8 + (1 / 13) * w ^ 9 := by
  have h2 : w ^ 2 ≤ 1 := pow_le_one₀ h0 h1
  have p := fun n => pow_nonneg h0 n
  have q := fun n => pow_le_one₀ (n := n) h0 h1
  linarith [p 1, p 2, p 3, p 4, p 5, p 6, p 7, p 8, p 9, q 3, q 4, q 6, q 8]

theorem upper_poly {w : ℝ} (h0 : 0 ≤ w) (h1 : w ≤ 1) :
    0 ≤ 1414477 / 1365 + (8018092 / 4095) * w + (3702512 / 4095) * w ^ 2 + (17756 / 273) * w ^ 3 + (2493 / 5005) * w ^ 4 + (2328 / 5005) * w ^ 5 - (3084 / 5005) * w ^ 6 + (22888 / 45045) * w ^ 7 - (1696 / 6435) * w ^ 8 + (56 / 715) * w ^ 9 - (2 / 195) * w ^ 10 := by
  have p := fun n => pow_nonneg h0 n
  have q := fun n => pow_le_one₀ (n := n) h0 h1
  linarith [p 1, p 2, p 3, p 4, p 5, p 6, p 7, p 8, p 9, p 10, q 6, q 8, q 10]

theorem lower_identity {v w : ℝ} (h0 : 0 < v) (h1 : v < 1) (hw : w = v ^ 2) :
    2 * (v ^ 3 / 3 + v ^ 5 / 5 + v ^ 7 / 7 + v ^ 9 / 9 + v ^ 11 / 11 + v ^ 13 / 13) +
      tail ((1 + v) / (2 * v)) - tail ((1 - v) / (2 * v)) =
    2 * v * w ^ 5 * (2555 / 33 + (238701 / 5005) * w + (493918 / 45045) * w ^ 2 - (1454 / 6435) * w ^ 3 - (9221 / 6435) * w ^ 4 + (110899 / 45045) * w ^ 5 - (22597 / 9009) * w ^ 6 + (1979 / 1287) * w ^ 7 - (75 / 143) * w ^ 8 + (1 / 13) * w ^ 9) / (1 - w) ^ 8 := by
  have a : 1 - v ≠ 0 := by linarith
  have b : 1 + v ≠ 0 := by linarith
  have c : 1 - w = (1 - v) * (1 + v) := by rw [hw]; ring
  rw [c, hw, tail, tail]
  field_simp
  ring

theorem upper_identity {v w : ℝ} (h0 : 0 < v) (h1 : v < 1) (hw : w = v ^ 2) :
    omitted ((1 - v) / (2 * v)) - omitted ((1 + v) / (2 * v)) -
    (2 * (v ^ 3 / 3 + v ^ 5 / 5 + v ^ 7 / 7 + v ^ 9 / 9 + v ^ 11 / 11 + v ^ 13 / 13) +
      2 / 15 * v ^ 15 / (1 - w) + tail ((1 + v) / (2 * v)) - tail ((1 - v) / (2 * v))) =
    2 * v * w ^ 6 * (1414477 / 1365 + (8018092 / 4095) * w + (3702512 / 4095) * w ^ 2 + (17756 / 273) * w ^ 3 + (2493 / 5005) * w ^ 4 + (2328 / 5005) * w ^ 5 - (3084 / 5005) * w ^ 6 + (22888 / 45045) * w ^ 7 - (1696 / 6435) * w ^ 8 + (56 / 715) * w ^ 9 - (2 / 195) * w ^ 10) / (1 - w) ^ 10 := by
  have a : 1 - v ≠ 0 := by linarith
  have b : 1 + v ≠ 0 := by linarith
  have c : 1 - w = (1 - v) * (1 + v) := by rw [hw]; ring
  rw [c, hw, tail, tail, omitted, omitted]
  field_simp
  ring

/-- The error of one step of the recurrence is at least zero and at most the difference of the omitted
terms. -/
theorem step_bounds {y : ℝ} (hy : 1 / 2 < y) :
    0 ≤ series (y + 1) - series y - 1 / y ∧
    series (y + 1) - series y - 1 / y ≤ omitted (y - 1 / 2) - omitted (y + 1 / 2) := by
  have hy0 : 0 < y := by linarith
  obtain ⟨v, hv⟩ : ∃ v, v = 1 / (2 * y) := ⟨_, rfl⟩
  have h0 : 0 < v := by rw [hv]; positivity
  have h1 : v < 1 := by rw [hv, div_lt_one (by positivity)]; linarith
  have e1 : y + 1 / 2 = (1 + v) / (2 * v) := by rw [hv]; field_simp
  have e2 : y - 1 / 2 = (1 - v) / (2 * v) := by rw [hv]; field_simp
  have e3 : 1 / y = 2 * v := by rw [hv]; field_simp
  have e4 : y + 1 - 1 / 2 = y + 1 / 2 := by ring
  have hl : Real.log (y + 1 / 2) - Real.log (y - 1 / 2) = Real.log (1 + v) - Real.log (1 - v) := by
    rw [e1, e2, Real.log_div (by linarith) (by positivity), Real.log_div (by linarith) (by positivity)]
    ring
  have hw1 : v ^ 2 ≤ 1 := pow_le_one₀ h0.le h1.le
  have hw2 : 0 < 1 - v ^ 2 := by nlinarith
  obtain ⟨b1, b2⟩ := artanh_bounds h0 h1
  have i1 := lower_identity h0 h1 rfl
  have i2 := upper_identity h0 h1 rfl
  have n1 := lower_poly (sq_nonneg v) hw1
  have n2 := upper_poly (sq_nonneg v) hw1
  have d1 := div_nonneg (mul_nonneg (by positivity : 0 ≤ 2 * v * (v ^ 2) ^ 5) n1) (pow_pos hw2 8).le
  have d2 := div_nonneg (mul_nonneg (by positivity : 0 ≤ 2 * v * (v ^ 2) ^ 6) n2) (pow_pos hw2 10).le
  rw [← i1] at d1
  rw [← i2] at d2
  rw [series, series, e4, e3]
  rw [← e1, ← e2] at d1 d2
  constructor <;> linarith

theorem tendsto_shift (x : ℝ) (c : ℝ) : Tendsto (fun n : ℕ => x + n + c) atTop atTop := by
  have : Tendsto (fun n : ℕ => (x + c) + (n : ℝ)) atTop atTop :=
    tendsto_atTop_add_const_left _ _ tendsto_natCast_atTop_atTop
  exact this.congr fun n => by ring

theorem tendsto_const_div_pow {f : ℕ → ℝ} (hf : Tendsto f atTop atTop) (c : ℝ) {k : ℕ} (hk : k ≠ 0) :
    Tendsto (fun n => c / f n ^ k) atTop (𝓝 0) :=
  ((tendsto_pow_atTop hk).comp hf).const_div_atTop c

theorem tendsto_tail {f : ℕ → ℝ} (hf : Tendsto f atTop atTop) : Tendsto (fun n => tail (f n)) atTop (𝓝 0) := by
  have := (((tendsto_const_div_pow hf (1 / 24) (k := 2) (by norm_num)).sub
    (tendsto_const_div_pow hf (7 / 960) (k := 4) (by norm_num))).add
    (tendsto_const_div_pow hf (31 / 8064) (k := 6) (by norm_num))).sub
    (tendsto_const_div_pow hf (127 / 30720) (k := 8) (by norm_num))
  simpa [tail] using this

theorem tendsto_log_sub (x : ℝ) :
    Tendsto (fun n : ℕ => Real.log (x + n + 0) - Real.log (x + n + (-(1 / 2)))) atTop (𝓝 0) := by
  have h1 : Tendsto (fun n : ℕ => 1 - 1 / 2 / (x + n + 0) ^ 1) atTop (𝓝 (1 - 0)) :=
    tendsto_const_nhds.sub (tendsto_const_div_pow (tendsto_shift x 0) (1 / 2) (k := 1) (by norm_num))
  have h2 := ((Real.continuousAt_log (by norm_num : (1 - 0 : ℝ) ≠ 0)).tendsto.comp h1).neg
  simp only [sub_zero, Real.log_one, neg_zero] at h2
  refine h2.congr' ?_
  filter_upwards [(tendsto_shift x 0).eventually_gt_atTop 1] with n hn
  have hp : 0 < x + n + 0 := by linarith
  have hq : 0 < x + n + (-(1 / 2)) := by linarith
  simp only [Function.comp]
  rw [show 1 - 1 / 2 / (x + n + 0) ^ 1 = (x + n + (-(1 / 2))) / (x + n + 0) by field_simp; ring,
    Real.log_div hq.ne' hp.ne']
  ring

/-- The error of the series vanishes at infinity. -/
theorem tendsto_error (x : ℝ) : Tendsto (fun n : ℕ => psi (x + n) - series (x + n)) atTop (𝓝 0) := by
  have hlog := tendsto_log_sub x
  have ht := tendsto_tail (tendsto_shift x (-(1 / 2)))
  have hinv := tendsto_const_div_pow (tendsto_shift x 0) 1 (k := 1) (by norm_num)
  have hup := hlog.sub ht
  have hlow := (hlog.sub ht).sub hinv
  simp only [sub_zero] at hup hlow
  refine tendsto_of_tendsto_of_tendsto_of_le_of_le' hlow hup ?_ ?_
  · filter_upwards [(tendsto_shift x 0).eventually_gt_atTop 1] with n hn
    have hp : 0 < x + n := by linarith
    have := log_le_psi hp
    simp only [series, pow_one, add_zero, ← sub_eq_add_neg]
    linarith
  · filter_upwards [(tendsto_shift x 0).eventually_gt_atTop 1] with n hn
    have hp : 0 < x + n := by linarith
    have := psi_le_log hp
    simp only [series, add_zero, ← sub_eq_add_neg]
    linarith

theorem series_bounds {x : ℝ} (hx : 1 / 2 < x) :
    0 ≤ psi x - series x ∧ psi x - series x ≤ omitted (x - 1 / 2) := by
  have hstep : ∀ n : ℕ, 0 ≤ (psi (x + n) - series (x + n)) - (psi (x + (n + 1 : ℕ)) - series (x + (n + 1 : ℕ))) ∧
      (psi (x + n) - series (x + n)) - (psi (x + (n + 1 : ℕ)) - series (x + (n + 1 : ℕ))) ≤
        omitted (x + n - 1 / 2) - omitted (x + (n + 1 : ℕ) - 1 / 2) := by
    intro n
    have hn : (0 : ℝ) ≤ n := Nat.cast_nonneg n
    have hy : 1 / 2 < x + n := by linarith
    have e : x + ((n + 1 : ℕ) : ℝ) = x + n + 1 := by push_cast; ring
    obtain ⟨h1, h2⟩ := step_bounds hy
    have e' : x + n + 1 - 1 / 2 = x + n + 1 / 2 := by ring
    rw [e, psi_add_one (pos_ne_neg (by linarith)), e']
    constructor <;> linarith
  have herr := tendsto_error x
  constructor
  · have hanti : Antitone fun n : ℕ => psi (x + n) - series (x + n) :=
      antitone_nat_of_succ_le fun n => by linarith [(hstep n).1]
    have := hanti.le_of_tendsto herr 0
    simpa using this
  · have hmono : Monotone fun n : ℕ => psi (x + n) - series (x + n) - omitted (x + n - 1 / 2) :=
      monotone_nat_of_le_succ fun n => by linarith [(hstep n).2]
    have ho : Tendsto (fun n : ℕ => omitted (x + n - 1 / 2)) atTop (𝓝 0) := by
      have := tendsto_const_div_pow (tendsto_shift x (-(1 / 2))) (511 / 67584) (k := 10) (by norm_num)
      simpa [omitted, sub_eq_add_neg] using this
    have h := hmono.ge_of_tendsto (herr.sub ho) 0
    simp only [Nat.cast_zero, add_zero, sub_zero] at h
    linarith

end Verif.Digamma
