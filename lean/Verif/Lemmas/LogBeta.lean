import Verif.Lemmas.Digamma
import Mathlib.Probability.Distributions.Beta
import Mathlib.Analysis.MeanInequalities

/-! The logarithm of the (multivariate) Beta function is convex. -/
namespace Verif.Digamma

open MeasureTheory Set ProbabilityTheory

theorem beta_integrable {x y : ℝ} (hx : 0 < x) (hy : 0 < y) :
    IntegrableOn (fun t : ℝ => t ^ (x - 1) * (1 - t) ^ (y - 1)) (Ioc 0 1) := by
  have h := Complex.betaIntegral_convergent (u := x) (v := y) (by simpa) (by simpa)
  rw [intervalIntegrable_iff_integrableOn_Ioc_of_le (by simp), IntegrableOn] at h
  have h' : Integrable _ (volume.restrict (Ioc (0 : ℝ) 1)) := h.re
  refine h'.congr ?_
  refine (ae_restrict_iff' measurableSet_Ioc).2 (ae_of_all _ fun t ht => ?_)
  have h1 : (0 : ℝ) ≤ 1 - t := by linarith [ht.2]
  simp only [RCLike.re_to_complex]
  rw [show (x : ℂ) - 1 = ((x - 1 : ℝ) : ℂ) by push_cast; rfl, show (y : ℂ) - 1 = ((y - 1 : ℝ) : ℂ) by push_cast; rfl,
    show (1 : ℂ) - t = ((1 - t : ℝ) : ℂ) by push_cast; rfl, ← Complex.ofReal_cpow ht.1.le,
    ← Complex.ofReal_cpow h1, ← Complex.ofReal_mul, Complex.ofReal_re]

theorem beta_integral {x y : ℝ} (hx : 0 < x) (hy : 0 < y) :
    ∫ t in Ioc (0 : ℝ) 1, t ^ (x - 1) * (1 - t) ^ (y - 1) = beta x y := by
  rw [beta_eq_betaIntegralReal x y hx hy, Complex.betaIntegral, intervalIntegral.integral_of_le (by norm_num),
    ← RCLike.re_to_complex, ← integral_re]
  · refine setIntegral_congr_fun measurableSet_Ioc fun t ht => ?_
    have h1 : (0 : ℝ) ≤ 1 - t := by linarith [ht.2]
    simp only [RCLike.re_to_complex]
    rw [show (x : ℂ) - 1 = ((x - 1 : ℝ) : ℂ) by push_cast; rfl, show (y : ℂ) - 1 = ((y - 1 : ℝ) : ℂ) by push_cast; rfl,
      show (1 : ℂ) - t = ((1 - t : ℝ) : ℂ) by push_cast; rfl, ← Complex.ofReal_cpow ht.1.le,
      ← Complex.ofReal_cpow h1, ← Complex.ofReal_mul, Complex.ofReal_re]
  · have h := Complex.betaIntegral_convergent (u := x) (v := y) (by simpa) (by simpa)
    rwa [intervalIntegrable_iff_integrableOn_Ioc_of_le (by simp), IntegrableOn] at h

theorem beta_integrable' {x y : ℝ} (hx : 0 < x) (hy : 0 < y) :
    IntegrableOn (fun t : ℝ => t ^ (x - 1) * (1 - t) ^ (y - 1)) (Ioo 0 1) :=
  (beta_integrable hx hy).mono_set Ioo_subset_Ioc_self

theorem beta_integral' {x y : ℝ} (hx : 0 < x) (hy : 0 < y) :
    ∫ t in Ioo (0 : ℝ) 1, t ^ (x - 1) * (1 - t) ^ (y - 1) = beta x y := by
  rw [← integral_Ioc_eq_integral_Ioo, beta_integral hx hy]

/-- The Beta function is logarithmically convex in both arguments together. -/
theorem beta_log_convex {x y x' y' a b : ℝ} (hx : 0 < x) (hy : 0 < y) (hx' : 0 < x') (hy' : 0 < y')
    (ha : 0 ≤ a) (hb : 0 ≤ b) (hab : a + b = 1) :
    Real.log (beta (a * x + b * x') (a * y + b * y')) ≤ a * Real.log (beta x y) + b * Real.log (beta x' y') := by
  have hB := beta_pos hx hy
  have hB' := beta_pos hx' hy'
  have hX : 0 < a * x + b * x' := by
    rcases ha.eq_or_lt with rfl | ha
    · rw [zero_add] at hab; subst hab; linarith
    · positivity
  have hY : 0 < a * y + b * y' := by
    rcases ha.eq_or_lt with rfl | ha
    · rw [zero_add] at hab; subst hab; linarith
    · positivity
  have hM := beta_pos hX hY
  have hC : 0 < beta x y ^ a * beta x' y' ^ b := mul_pos (Real.rpow_pos_of_pos hB _) (Real.rpow_pos_of_pos hB' _)
  have key : beta (a * x + b * x') (a * y + b * y') / (beta x y ^ a * beta x' y' ^ b) ≤ 1 := by
    have e1 : beta (a * x + b * x') (a * y + b * y') / (beta x y ^ a * beta x' y' ^ b) =
        ∫ t in Ioo (0 : ℝ) 1, t ^ (a * x + b * x' - 1) * (1 - t) ^ (a * y + b * y' - 1) /
          (beta x y ^ a * beta x' y' ^ b) := by
      rw [integral_div, beta_integral' hX hY]
    have e2 : ∫ t in Ioo (0 : ℝ) 1, (a * (t ^ (x - 1) * (1 - t) ^ (y - 1) / beta x y) +
        b * (t ^ (x' - 1) * (1 - t) ^ (y' - 1) / beta x' y')) = 1 := by
      rw [integral_add (((beta_integrable' hx hy).div_const _).const_mul a)
        (((beta_integrable' hx' hy').div_const _).const_mul b), integral_const_mul, integral_const_mul, integral_div,
        integral_div, beta_integral' hx hy, beta_integral' hx' hy', div_self hB.ne', div_self hB'.ne']
      linarith
    rw [e1]
    refine le_trans (setIntegral_mono_on ((beta_integrable' hX hY).div_const _)
      ((((beta_integrable' hx hy).div_const (beta x y)).const_mul a).add
        (((beta_integrable' hx' hy').div_const (beta x' y')).const_mul b)) measurableSet_Ioo fun t ht => ?_) e2.le
    have h0 : 0 < t := ht.1
    have h1 : 0 < 1 - t := by linarith [ht.2]
    have hn : ∀ u v : ℝ, 0 < t ^ (u - 1) * (1 - t) ^ (v - 1) := fun u v =>
      mul_pos (Real.rpow_pos_of_pos h0 _) (Real.rpow_pos_of_pos h1 _)
    have := Real.geom_mean_le_arith_mean2_weighted (p₁ := t ^ (x - 1) * (1 - t) ^ (y - 1) / beta x y)
      (p₂ := t ^ (x' - 1) * (1 - t) ^ (y' - 1) / beta x' y') ha hb (div_pos (hn x y) hB).le
      (div_pos (hn x' y') hB').le hab
    refine le_trans (le_of_eq ?_) this
    rw [Real.div_rpow (hn x y).le hB.le, Real.div_rpow (hn x' y').le hB'.le, div_mul_div_comm,
      Real.mul_rpow (Real.rpow_nonneg h0.le _) (Real.rpow_nonneg h1.le _),
      Real.mul_rpow (Real.rpow_nonneg h0.le _) (Real.rpow_nonneg h1.le _), ← Real.rpow_mul h0.le,
      ← Real.rpow_mul h0.le, ← Real.rpow_mul h1.le, ← Real.rpow_mul h1.le]
    congr 1
    have p1 : t ^ (a * x + b * x' - 1) = t ^ ((x - 1) * a) * t ^ ((x' - 1) * b) := by
      rw [← Real.rpow_add h0]
      congr 1
      linear_combination hab
    have p2 : (1 - t) ^ (a * y + b * y' - 1) = (1 - t) ^ ((y - 1) * a) * (1 - t) ^ ((y' - 1) * b) := by
      rw [← Real.rpow_add h1]
      congr 1
      linear_combination hab
    rw [p1, p2]
    ring
  rw [div_le_one hC] at key
  have := Real.log_le_log hM key
  rwa [Real.log_mul (Real.rpow_pos_of_pos hB _).ne' (Real.rpow_pos_of_pos hB' _).ne', Real.log_rpow hB,
    Real.log_rpow hB'] at this

/-- The logarithm of the Beta function. -/
noncomputable def logBeta (x y : ℝ) : ℝ :=
  Real.log (Real.Gamma x) + Real.log (Real.Gamma y) - Real.log (Real.Gamma (x + y))

theorem log_beta {x y : ℝ} (hx : 0 < x) (hy : 0 < y) : Real.log (beta x y) = logBeta x y := by
  have h1 := (Real.Gamma_pos_of_pos hx).ne'
  have h2 := (Real.Gamma_pos_of_pos hy).ne'
  have h3 := (Real.Gamma_pos_of_pos (add_pos hx hy)).ne'
  rw [beta, logBeta, Real.log_div (mul_ne_zero h1 h2) h3, Real.log_mul h1 h2]

/-- It lies above its tangents. -/
theorem logBeta_tangent {x y x' y' : ℝ} (hx : 0 < x) (hy : 0 < y) (hx' : 0 < x') (hy' : 0 < y') :
    logBeta x y + ((x' - x) * (psi x - psi (x + y)) + (y' - y) * (psi y - psi (x + y))) ≤ logBeta x' y' := by
  let g : ℝ → ℝ := fun s => logBeta (x + s * (x' - x)) (y + s * (y' - y))
  have pos : ∀ {u v : ℝ}, 0 < u → 0 < v → ∀ s ∈ Icc (0 : ℝ) 1, 0 < u + s * (v - u) := by
    intro u v hu hv s hs
    have : u + s * (v - u) = (1 - s) * u + s * v := by ring
    rw [this]
    rcases hs.1.eq_or_lt with h | h
    · rw [← h]; linarith
    · have := mul_pos h hv
      have := mul_nonneg (sub_nonneg.2 hs.2) hu.le
      linarith
  have hconv : ConvexOn ℝ (Icc (0 : ℝ) 1) g := by
    refine ⟨convex_Icc 0 1, fun s hs s' hs' a b ha hb hab => ?_⟩
    have := beta_log_convex (pos hx hx' s hs) (pos hy hy' s hs) (pos hx hx' s' hs') (pos hy hy' s' hs') ha hb hab
    have e1 : a * (x + s * (x' - x)) + b * (x + s' * (x' - x)) = x + (a * s + b * s') * (x' - x) := by
      linear_combination x * hab
    have e2 : a * (y + s * (y' - y)) + b * (y + s' * (y' - y)) = y + (a * s + b * s') * (y' - y) := by
      linear_combination y * hab
    have hm : a * s + b * s' ∈ Icc (0 : ℝ) 1 := (convex_Icc (0 : ℝ) 1) hs hs' ha hb hab
    rw [e1, e2, log_beta (pos hx hx' _ hm) (pos hy hy' _ hm), log_beta (pos hx hx' s hs) (pos hy hy' s hs),
      log_beta (pos hx hx' s' hs') (pos hy hy' s' hs')] at this
    simpa [g] using this
  have hlin : ∀ u v : ℝ, HasDerivAt (fun s : ℝ => u + s * v) v 0 := by
    intro u v
    simpa using ((hasDerivAt_id (0 : ℝ)).mul_const v).const_add u
  have hcomp : ∀ {u v : ℝ}, 0 < u → HasDerivAt (fun s : ℝ => Real.log (Real.Gamma (u + s * v))) (psi u * v) 0 := by
    intro u v hu
    have h := hasDerivAt_logGamma (x := u + 0 * v) (by simpa using hu)
    have h2 := HasDerivAt.comp (0 : ℝ) h (hlin u v)
    simpa [Function.comp_def] using h2
  have hder : HasDerivAt g ((x' - x) * (psi x - psi (x + y)) + (y' - y) * (psi y - psi (x + y))) 0 := by
    have h3 := hcomp (v := (x' - x) + (y' - y)) (add_pos hx hy)
    have h := ((hcomp (v := x' - x) hx).add (hcomp (v := y' - y) hy)).sub h3
    have e : (fun s : ℝ => Real.log (Real.Gamma (x + y + s * ((x' - x) + (y' - y))))) =
        fun s => Real.log (Real.Gamma (x + s * (x' - x) + (y + s * (y' - y)))) := by
      funext s
      congr 2
      ring
    rw [e] at h
    exact h.congr_deriv (by ring)
  have := hconv.le_slope_of_hasDerivAt (x := 0) (y := 1) (by simp) (by simp) one_pos hder
  rw [slope_def_field] at this
  simp only [g, sub_zero, div_one, zero_mul, add_zero, one_mul] at this
  rw [show x + (x' - x) = x' by ring, show y + (y' - y) = y' by ring] at this
  linarith

/-- The logarithm of the multivariate Beta function lies above its tangents. -/
theorem logMultiBeta_tangent {ι : Type} [DecidableEq ι] (S : Finset ι) (hS : S.Nonempty) {g a : ι → ℝ}
    (hg : ∀ k ∈ S, 0 < g k) (ha : ∀ k ∈ S, 0 < a k) :
    (∑ k ∈ S, Real.log (Real.Gamma (g k))) - Real.log (Real.Gamma (∑ k ∈ S, g k)) +
      ∑ k ∈ S, (a k - g k) * (psi (g k) - psi (∑ k ∈ S, g k)) ≤
    (∑ k ∈ S, Real.log (Real.Gamma (a k))) - Real.log (Real.Gamma (∑ k ∈ S, a k)) := by
  induction hS using Finset.Nonempty.cons_induction with
  | singleton i => simp
  | cons i S hi hS ih =>
    have ih := ih (fun k hk => hg k (Finset.mem_cons_of_mem hk)) (fun k hk => ha k (Finset.mem_cons_of_mem hk))
    have hgi := hg i (Finset.mem_cons_self i S)
    have hai := ha i (Finset.mem_cons_self i S)
    have hgS : 0 < ∑ k ∈ S, g k := Finset.sum_pos (fun k hk => hg k (Finset.mem_cons_of_mem hk)) hS
    have haS : 0 < ∑ k ∈ S, a k := Finset.sum_pos (fun k hk => ha k (Finset.mem_cons_of_mem hk)) hS
    have h2 := logBeta_tangent hgi hgS hai haS
    simp only [logBeta] at h2
    simp only [Finset.sum_cons]
    have e : ∑ k ∈ S, (a k - g k) * (psi (g k) - psi (g i + ∑ k ∈ S, g k)) =
        (∑ k ∈ S, (a k - g k) * (psi (g k) - psi (∑ k ∈ S, g k))) +
          ((∑ k ∈ S, a k) - ∑ k ∈ S, g k) * (psi (∑ k ∈ S, g k) - psi (g i + ∑ k ∈ S, g k)) := by
      rw [← Finset.sum_sub_distrib, Finset.sum_mul, ← Finset.sum_add_distrib]
      exact Finset.sum_congr rfl fun k _ => by ring
    rw [e]
    linarith

end Verif.Digamma
