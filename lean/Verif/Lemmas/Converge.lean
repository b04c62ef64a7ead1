import Verif.Lemmas.Gibbs
import Mathlib.Analysis.SpecialFunctions.Sqrt
import Mathlib.MeasureTheory.Integral.IntervalIntegral.Basic
import Mathlib.Algebra.Order.Chebyshev

/-! Repeated proportional updates settle: the sum of the squares of all changes is bounded. -/
namespace Verif.Converge

open Finset

variable {K V : ℕ}

theorem kl_term {q r : ℝ} (hq : 0 ≤ q) (hr : 0 ≤ r) (hs : r = 0 → q = 0) :
    2 * (q - √q * √r) ≤ q * (Real.log q - Real.log r) := by
  rcases hq.eq_or_lt with rfl | hq
  · simp
  have hr' : 0 < r := lt_of_le_of_ne hr fun h => hq.ne' (hs h.symm)
  have h1 : Real.log (√r / √q) ≤ √r / √q - 1 :=
    Real.log_le_sub_one_of_pos (div_pos (Real.sqrt_pos.2 hr') (Real.sqrt_pos.2 hq))
  rw [Real.log_div (Real.sqrt_pos.2 hr').ne' (Real.sqrt_pos.2 hq).ne', Real.log_sqrt hr'.le, Real.log_sqrt hq.le] at h1
  have h2 : q * (√r / √q) = √q * √r := by
    rw [mul_div_assoc', div_eq_iff (Real.sqrt_pos.2 hq).ne']
    nth_rewrite 1 [← Real.mul_self_sqrt hq.le]
    ring
  have h3 := mul_le_mul_of_nonneg_left h1 hq.le
  rw [mul_sub, mul_sub, h2] at h3
  nlinarith

/-- The Kullback-Leibler divergence bounds the distance. -/
theorem kl_ge {q r : Fin K → ℝ} (hq : ∀ k, 0 ≤ q k) (hq1 : ∑ k, q k = 1) (hr : ∀ k, 0 ≤ r k) (hr1 : ∑ k, r k = 1)
    (hs : ∀ k, r k = 0 → q k = 0) :
    (∑ k, |q k - r k|) ^ 2 / 4 ≤ ∑ k, q k * (Real.log (q k) - Real.log (r k)) := by
  have h1 : 2 * (1 - ∑ k, √(q k) * √(r k)) ≤ ∑ k, q k * (Real.log (q k) - Real.log (r k)) := by
    rw [← hq1, ← Finset.sum_sub_distrib, Finset.mul_sum]
    exact Finset.sum_le_sum fun k _ => kl_term (hq k) (hr k) (hs k)
  have h2 : ∑ k, |q k - r k| = ∑ k, |√(q k) - √(r k)| * (√(q k) + √(r k)) := by
    refine Finset.sum_congr rfl fun k _ => ?_
    rw [← abs_of_nonneg (add_nonneg (Real.sqrt_nonneg (q k)) (Real.sqrt_nonneg (r k))), ← abs_mul]
    congr 1
    nlinarith [Real.mul_self_sqrt (hq k), Real.mul_self_sqrt (hr k)]
  have h3 := Finset.sum_mul_sq_le_sq_mul_sq univ (fun k => |√(q k) - √(r k)|) fun k => √(q k) + √(r k)
  have h4 : ∑ k, |√(q k) - √(r k)| ^ 2 = 2 * (1 - ∑ k, √(q k) * √(r k)) := by
    have : ∀ k, |√(q k) - √(r k)| ^ 2 = q k + r k - 2 * (√(q k) * √(r k)) := fun k => by
      rw [sq_abs]
      nlinarith [Real.mul_self_sqrt (hq k), Real.mul_self_sqrt (hr k)]
    simp only [this, Finset.sum_sub_distrib, Finset.sum_add_distrib, hq1, hr1, ← Finset.mul_sum]
    ring
  have h5 : ∑ k, (√(q k) + √(r k)) ^ 2 = 2 + 2 * ∑ k, √(q k) * √(r k) := by
    have : ∀ k, (√(q k) + √(r k)) ^ 2 = q k + r k + 2 * (√(q k) * √(r k)) := fun k => by
      nlinarith [Real.mul_self_sqrt (hq k), Real.mul_self_sqrt (hr k)]
    simp only [this, Finset.sum_add_distrib, hq1, hr1, ← Finset.mul_sum]
    ring
  have h6 : 0 ≤ ∑ k, |√(q k) - √(r k)| ^ 2 := Finset.sum_nonneg fun k _ => sq_nonneg _
  rw [← h2, h4, h5] at h3
  rw [h4] at h6
  nlinarith

/-- One word: how much the weighted entropy grows when the responsibilities become proportional to the weights. -/
theorem word_gain {b e q r : Fin K → ℝ} (hb : ∀ k, 0 ≤ b k) (he : ∀ k, 0 < e k) (hq : ∀ k, 0 ≤ q k)
    (hq1 : ∑ k, q k = 1) (hs : ∀ k, b k = 0 → q k = 0) (hr1 : ∑ k, r k = 1)
    (hr : ∀ k, r k * ∑ j, b j * e j = b k * e k) :
    (∑ k, q k * (Real.log (b k) - Real.log (q k))) + (∑ k, q k * Real.log (e k)) + (∑ k, |q k - r k|) ^ 2 / 4 ≤
      (∑ k, r k * (Real.log (b k) - Real.log (r k))) + ∑ k, r k * Real.log (e k) := by
  have hv : ∀ k, 0 ≤ b k * e k := fun k => mul_nonneg (hb k) (he k).le
  have hZ : 0 < ∑ j, b j * e j := by
    refine lt_of_le_of_ne (Finset.sum_nonneg fun k _ => hv k) fun h => ?_
    have h0 := (Finset.sum_eq_zero_iff_of_nonneg fun k _ => hv k).1 h.symm
    have : ∑ k, q k = 0 := Finset.sum_eq_zero fun k _ => hs k
      ((mul_eq_zero.1 (h0 k (mem_univ k))).resolve_right (he k).ne')
    rw [hq1] at this
    exact one_ne_zero this
  set Z := ∑ j, b j * e j
  have hrk : ∀ k, r k = b k * e k / Z := fun k => by rw [eq_div_iff hZ.ne', hr k]
  have hrn : ∀ k, 0 ≤ r k := fun k => by rw [hrk]; exact div_nonneg (hv k) hZ.le
  have hr0 : ∀ k, r k = 0 → b k = 0 := fun k h => by
    rw [hrk, div_eq_zero_iff] at h
    exact (mul_eq_zero.1 (h.resolve_right hZ.ne')).resolve_right (he k).ne'
  have hlog : ∀ k, b k ≠ 0 → Real.log (b k) + Real.log (e k) = Real.log (r k) + Real.log Z := fun k h => by
    rw [hrk, Real.log_div (mul_ne_zero h (he k).ne') hZ.ne', Real.log_mul h (he k).ne']
    ring
  have h1 := kl_ge hq hq1 hrn hr1 fun k h => hs k (hr0 k h)
  have h2 : (∑ k, r k * (Real.log (b k) - Real.log (r k))) + (∑ k, r k * Real.log (e k)) = Real.log Z := by
    rw [← Finset.sum_add_distrib, ← one_mul (Real.log Z), ← hr1, Finset.sum_mul]
    refine Finset.sum_congr rfl fun k _ => ?_
    by_cases hbk : b k = 0
    · have : r k = 0 := by rw [hrk, hbk]; simp
      rw [this]; simp
    · rw [← mul_add]
      congr 1
      linarith [hlog k hbk]
  have h3 : (∑ k, q k * (Real.log (b k) - Real.log (q k))) + (∑ k, q k * Real.log (e k)) +
      ∑ k, q k * (Real.log (q k) - Real.log (r k)) = Real.log Z := by
    rw [← Finset.sum_add_distrib, ← Finset.sum_add_distrib, ← one_mul (Real.log Z), ← hq1, Finset.sum_mul]
    refine Finset.sum_congr rfl fun k _ => ?_
    by_cases hbk : b k = 0
    · rw [hs k hbk]; simp
    · rw [← mul_add, ← mul_add]
      congr 1
      linarith [hlog k hbk]
  linarith

/-- An antiderivative of a monotone function lies above its tangents. -/
theorem tangent {g : ℝ → ℝ} {A B : ℝ} (hg : MonotoneOn g (Set.Icc A B)) {x y : ℝ} (hx : x ∈ Set.Icc A B)
    (hy : y ∈ Set.Icc A B) : g x * (y - x) ≤ (∫ t in A..y, g t) - ∫ t in A..x, g t := by
  have hA : A ∈ Set.Icc A B := ⟨le_rfl, hx.1.trans hx.2⟩
  have hint : ∀ {u v : ℝ}, u ∈ Set.Icc A B → v ∈ Set.Icc A B → IntervalIntegrable g MeasureTheory.volume u v :=
    fun hu hv => (hg.mono (Set.uIcc_subset_Icc hu hv)).intervalIntegrable
  rw [intervalIntegral.integral_interval_sub_left (hint hA hy) (hint hA hx)]
  rcases le_total x y with h | h
  · have := intervalIntegral.integral_mono_on h (intervalIntegrable_const (c := g x)) (hint hx hy)
      fun t ht => hg hx ⟨hx.1.trans ht.1, ht.2.trans hy.2⟩ ht.1
    rw [intervalIntegral.integral_const, smul_eq_mul] at this
    linarith
  · have := intervalIntegral.integral_mono_on h (hint hy hx) (intervalIntegrable_const (c := g x))
      fun t ht => hg ⟨hy.1.trans ht.1, ht.2.trans hx.2⟩ hx ht.2
    rw [intervalIntegral.integral_const, smul_eq_mul] at this
    rw [intervalIntegral.integral_symm]
    linarith

/-- Responsibilities `phi t` that are proportional to `b` times a weight that depends on `gamma t`, where `gamma` adds up
the responsibilities of the words with their frequencies `c`. -/
structure Updates (c : Fin V → ℝ) (alpha : Fin K → ℝ) (b : Fin K → Fin V → ℝ) (wt : ℝ → ℝ) (A B : ℝ) (T : ℕ)
    (g0 : Fin K → ℝ) (phi : ℕ → Fin K → Fin V → ℝ) (gam : ℕ → Fin K → ℝ) : Prop where
  c_nonneg : ∀ n, 0 ≤ c n
  b_nonneg : ∀ k n, 0 ≤ b k n
  known : ∀ n, c n ≠ 0 → ∃ k, b k n ≠ 0
  wt_pos : ∀ x ∈ Set.Icc A B, 0 < wt x
  mono : MonotoneOn wt (Set.Icc A B)
  low : ∀ k, A ≤ alpha k
  high : ∀ k, alpha k + ∑ n, c n ≤ B
  start : ∀ k, g0 k ∈ Set.Icc A B
  gam_eq : ∀ t ≤ T, ∀ k, gam t k = alpha k + ∑ n, c n * phi t k n
  dist : ∀ t ≤ T, ∀ n, c n ≠ 0 → (∀ k, 0 ≤ phi t k n) ∧ ∑ k, phi t k n = 1
  first : ∀ n, c n ≠ 0 → ∀ k, phi 0 k n * ∑ j, b j n * wt (g0 j) = b k n * wt (g0 k)
  step : ∀ t < T, ∀ n, c n ≠ 0 → ∀ k, phi (t + 1) k n * ∑ j, b j n * wt (gam t j) = b k n * wt (gam t k)

namespace Updates

variable {c : Fin V → ℝ} {alpha : Fin K → ℝ} {b : Fin K → Fin V → ℝ} {wt : ℝ → ℝ} {A B : ℝ} {T : ℕ}
  {g0 : Fin K → ℝ} {phi : ℕ → Fin K → Fin V → ℝ} {gam : ℕ → Fin K → ℝ}

theorem sum_le (h : Updates c alpha b wt A B T g0 phi gam) {t : ℕ} (ht : t ≤ T) (k : Fin K) :
    0 ≤ ∑ n, c n * phi t k n ∧ ∑ n, c n * phi t k n ≤ ∑ n, c n := by
  have : ∀ n, 0 ≤ c n * phi t k n ∧ c n * phi t k n ≤ c n := fun n => by
    by_cases hc : c n = 0
    · simp [hc]
    · obtain ⟨h1, h2⟩ := h.dist t ht n hc
      have h3 : phi t k n ≤ 1 := by
        rw [← h2]
        exact Finset.single_le_sum (f := fun k => phi t k n) (fun k _ => h1 k) (mem_univ k)
      exact ⟨mul_nonneg (h.c_nonneg n) (h1 k), by nlinarith [h.c_nonneg n]⟩
  exact ⟨Finset.sum_nonneg fun n _ => (this n).1, Finset.sum_le_sum fun n _ => (this n).2⟩

theorem mem (h : Updates c alpha b wt A B T g0 phi gam) {t : ℕ} (ht : t ≤ T) (k : Fin K) : gam t k ∈ Set.Icc A B := by
  rw [h.gam_eq t ht k]
  obtain ⟨h1, h2⟩ := h.sum_le ht k
  exact ⟨by linarith [h.low k], by linarith [h.high k]⟩

theorem mono_log (h : Updates c alpha b wt A B T g0 phi gam) : MonotoneOn (fun x => Real.log (wt x)) (Set.Icc A B) :=
  fun _ hx _ hy hxy => Real.log_le_log (h.wt_pos _ hx) (h.mono hx hy hxy)

theorem bounds (h : Updates c alpha b wt A B T g0 phi gam) {x : ℝ} (hx : x ∈ Set.Icc A B) :
    Real.log (wt A) ≤ Real.log (wt x) ∧ Real.log (wt x) ≤ Real.log (wt B) :=
  ⟨h.mono_log ⟨le_rfl, hx.1.trans hx.2⟩ hx hx.1, h.mono_log hx ⟨hx.1.trans hx.2, le_rfl⟩ hx.2⟩

/-- A word is only ascribed to topics that know it. -/
theorem support (h : Updates c alpha b wt A B T g0 phi gam) {t : ℕ} (ht : t ≤ T) {n : Fin V} (hc : c n ≠ 0) {k : Fin K}
    (hb : b k n = 0) : phi t k n = 0 := by
  have key : ∀ (g : Fin K → ℝ), (∀ k, g k ∈ Set.Icc A B) →
      phi t k n * ∑ j, b j n * wt (g j) = b k n * wt (g k) → phi t k n = 0 := by
    intro g hg he
    obtain ⟨j, hj⟩ := h.known n hc
    have hpos : 0 < ∑ j, b j n * wt (g j) :=
      Finset.sum_pos' (fun k _ => mul_nonneg (h.b_nonneg k n) (h.wt_pos _ (hg k)).le)
        ⟨j, mem_univ _, mul_pos (lt_of_le_of_ne (h.b_nonneg j n) hj.symm) (h.wt_pos _ (hg j))⟩
    rw [hb, zero_mul] at he
    exact (mul_eq_zero.1 he).resolve_right hpos.ne'
  cases t with
  | zero => exact key g0 h.start (h.first n hc k)
  | succ t => exact key (gam t) (fun k => h.mem (by omega) k) (h.step t (by omega) n hc k)

/-- The quantity that grows. -/
noncomputable def value (c : Fin V → ℝ) (b : Fin K → Fin V → ℝ) (wt : ℝ → ℝ) (A : ℝ) (phi : Fin K → Fin V → ℝ)
    (gam : Fin K → ℝ) : ℝ :=
  (∑ n, c n * ∑ k, phi k n * (Real.log (b k n) - Real.log (phi k n))) + ∑ k, ∫ t in A..gam k, Real.log (wt t)

theorem swap (f : Fin K → ℝ) (phi : Fin K → Fin V → ℝ) :
    ∑ k, f k * ∑ n, c n * phi k n = ∑ n, c n * ∑ k, phi k n * f k := by
  simp only [Finset.mul_sum]
  rw [Finset.sum_comm]
  exact Finset.sum_congr rfl fun n _ => Finset.sum_congr rfl fun k _ => by ring

theorem gain (h : Updates c alpha b wt A B T g0 phi gam) {t : ℕ} (ht : t < T) :
    value c b wt A (phi t) (gam t) + (∑ n, c n * ((∑ k, |phi t k n - phi (t + 1) k n|) ^ 2 / 4)) ≤
      value c b wt A (phi (t + 1)) (gam (t + 1)) := by
  have h1 : ∀ k, Real.log (wt (gam t k)) * (gam (t + 1) k - gam t k) ≤
      (∫ u in A..gam (t + 1) k, Real.log (wt u)) - ∫ u in A..gam t k, Real.log (wt u) := fun k =>
    tangent h.mono_log (h.mem (by omega) k) (h.mem (by omega) k)
  have h2 := Finset.sum_le_sum fun k (_ : k ∈ (univ : Finset (Fin K))) => h1 k
  have h3 : ∑ k, Real.log (wt (gam t k)) * (gam (t + 1) k - gam t k) =
      (∑ n, c n * ∑ k, phi (t + 1) k n * Real.log (wt (gam t k))) -
        ∑ n, c n * ∑ k, phi t k n * Real.log (wt (gam t k)) := by
    rw [← swap, ← swap, ← Finset.sum_sub_distrib]
    refine Finset.sum_congr rfl fun k _ => ?_
    rw [← mul_sub, h.gam_eq (t + 1) (by omega), h.gam_eq t (by omega)]
    ring
  have h4 : ∀ n, c n * ((∑ k, phi t k n * (Real.log (b k n) - Real.log (phi t k n))) +
        (∑ k, phi t k n * Real.log (wt (gam t k))) + (∑ k, |phi t k n - phi (t + 1) k n|) ^ 2 / 4) ≤
      c n * ((∑ k, phi (t + 1) k n * (Real.log (b k n) - Real.log (phi (t + 1) k n))) +
        ∑ k, phi (t + 1) k n * Real.log (wt (gam t k))) := fun n => by
    by_cases hc : c n = 0
    · simp [hc]
    · obtain ⟨d1, d2⟩ := h.dist t (by omega) n hc
      obtain ⟨d3, d4⟩ := h.dist (t + 1) (by omega) n hc
      exact mul_le_mul_of_nonneg_left (word_gain (fun k => h.b_nonneg k n)
        (fun k => h.wt_pos _ (h.mem (by omega) k)) d1 d2 (fun k hb => h.support (by omega) hc hb) d4
        (h.step t ht n hc)) (h.c_nonneg n)
  have h5 := Finset.sum_le_sum fun n (_ : n ∈ (univ : Finset (Fin V))) => h4 n
  simp only [mul_add, Finset.sum_add_distrib] at h5
  rw [h3, Finset.sum_sub_distrib] at h2
  unfold value
  linarith

theorem value_le (h : Updates c alpha b wt A B T g0 phi gam) {t : ℕ} (ht : t ≤ T) :
    value c b wt A (phi t) (gam t) ≤ (∑ n, c n * Real.log (∑ k, b k n)) +
      (∑ k, ∫ u in A..alpha k, Real.log (wt u)) + (∑ n, c n) * Real.log (wt B) := by
  have h1 : ∀ n, c n * ∑ k, phi t k n * (Real.log (b k n) - Real.log (phi t k n)) ≤ c n * Real.log (∑ k, b k n) :=
    fun n => by
      by_cases hc : c n = 0
      · simp [hc]
      · obtain ⟨d1, d2⟩ := h.dist t ht n hc
        exact mul_le_mul_of_nonneg_left (gibbs d1 d2 (fun k => h.b_nonneg k n) fun k hb => h.support ht hc hb)
          (h.c_nonneg n)
  have hA : ∀ k, alpha k ∈ Set.Icc A B := fun k => ⟨h.low k, by
    have := h.high k
    have := Finset.sum_nonneg fun n (_ : n ∈ (univ : Finset (Fin V))) => h.c_nonneg n
    linarith⟩
  have h2 : ∀ k, (∫ u in A..gam t k, Real.log (wt u)) ≤ (∫ u in A..alpha k, Real.log (wt u)) +
      Real.log (wt B) * ∑ n, c n * phi t k n := fun k => by
    have := tangent h.mono_log (h.mem ht k) (hA k)
    have h3 := (h.bounds (h.mem ht k)).2
    rw [h.gam_eq t ht k] at this h3 ⊢
    nlinarith [(h.sum_le ht k).1]
  have h3 := Finset.sum_le_sum fun k (_ : k ∈ (univ : Finset (Fin K))) => h2 k
  rw [Finset.sum_add_distrib, swap (fun _ => Real.log (wt B))] at h3
  have h4 : ∑ n, c n * ∑ k, phi t k n * Real.log (wt B) = (∑ n, c n) * Real.log (wt B) := by
    rw [Finset.sum_mul]
    refine Finset.sum_congr rfl fun n _ => ?_
    by_cases hc : c n = 0
    · simp [hc]
    · rw [← Finset.sum_mul, (h.dist t ht n hc).2, one_mul]
  have h5 := Finset.sum_le_sum fun n (_ : n ∈ (univ : Finset (Fin V))) => h1 n
  unfold value
  linarith

theorem le_value (h : Updates c alpha b wt A B T g0 phi gam) :
    (∑ n, c n * Real.log (∑ k, b k n)) + (∑ k, ∫ u in A..alpha k, Real.log (wt u)) +
      (∑ n, c n) * (2 * Real.log (wt A) - Real.log (wt B)) ≤ value c b wt A (phi 0) (gam 0) := by
  have h1 : ∀ n, c n * (Real.log (∑ k, b k n) + Real.log (wt A) - Real.log (wt B)) ≤
      c n * ∑ k, phi 0 k n * (Real.log (b k n) - Real.log (phi 0 k n)) := fun n => by
    by_cases hc : c n = 0
    · simp [hc]
    refine mul_le_mul_of_nonneg_left ?_ (h.c_nonneg n)
    obtain ⟨d1, d2⟩ := h.dist 0 (Nat.zero_le _) n hc
    obtain ⟨j, hj⟩ := h.known n hc
    have hbpos : 0 < ∑ k, b k n := Finset.sum_pos' (fun k _ => h.b_nonneg k n)
      ⟨j, mem_univ _, lt_of_le_of_ne (h.b_nonneg j n) hj.symm⟩
    have hwA : 0 < wt A := h.wt_pos A ⟨le_rfl, (h.start j).1.trans (h.start j).2⟩
    have hge : (∑ k, b k n) * wt A ≤ ∑ k, b k n * wt (g0 k) := by
      rw [Finset.sum_mul]
      exact Finset.sum_le_sum fun k _ => mul_le_mul_of_nonneg_left
        (h.mono ⟨le_rfl, (h.start k).1.trans (h.start k).2⟩ (h.start k) (h.start k).1) (h.b_nonneg k n)
    have hZ : 0 < ∑ k, b k n * wt (g0 k) := (mul_pos hbpos hwA).trans_le hge
    have hlogZ : Real.log (∑ k, b k n) + Real.log (wt A) ≤ Real.log (∑ k, b k n * wt (g0 k)) := by
      rw [← Real.log_mul hbpos.ne' hwA.ne']
      exact Real.log_le_log (mul_pos hbpos hwA) hge
    have hterm : ∀ k, phi 0 k n * (Real.log (∑ j, b j n * wt (g0 j)) - Real.log (wt B)) ≤
        phi 0 k n * (Real.log (b k n) - Real.log (phi 0 k n)) := fun k => by
      rcases (d1 k).eq_or_lt with h0 | h0
      · rw [← h0]; simp
      refine mul_le_mul_of_nonneg_left ?_ (d1 k)
      have hb : b k n ≠ 0 := fun hb => h0.ne' (h.support (Nat.zero_le _) hc hb)
      have he := congrArg Real.log (h.first n hc k)
      rw [Real.log_mul h0.ne' hZ.ne', Real.log_mul hb (h.wt_pos _ (h.start k)).ne'] at he
      linarith [(h.bounds (h.start k)).2]
    have := Finset.sum_le_sum fun k (_ : k ∈ (univ : Finset (Fin K))) => hterm k
    rw [← Finset.sum_mul, d2, one_mul] at this
    linarith
  have hA : ∀ k, alpha k ∈ Set.Icc A B := fun k => ⟨h.low k, by
    have := h.high k
    have := Finset.sum_nonneg fun n (_ : n ∈ (univ : Finset (Fin V))) => h.c_nonneg n
    linarith⟩
  have h2 : ∀ k, (∫ u in A..alpha k, Real.log (wt u)) + Real.log (wt A) * (∑ n, c n * phi 0 k n) ≤
      ∫ u in A..gam 0 k, Real.log (wt u) := fun k => by
    have := tangent h.mono_log (hA k) (h.mem (Nat.zero_le _) k)
    have h3 := (h.bounds (hA k)).1
    rw [h.gam_eq 0 (Nat.zero_le _) k] at this ⊢
    nlinarith [(h.sum_le (Nat.zero_le _) k).1]
  have h3 := Finset.sum_le_sum fun k (_ : k ∈ (univ : Finset (Fin K))) => h2 k
  rw [Finset.sum_add_distrib, swap (fun _ => Real.log (wt A))] at h3
  have h4 : ∑ n, c n * ∑ k, phi 0 k n * Real.log (wt A) = (∑ n, c n) * Real.log (wt A) := by
    rw [Finset.sum_mul]
    refine Finset.sum_congr rfl fun n _ => ?_
    by_cases hc : c n = 0
    · simp [hc]
    · rw [← Finset.sum_mul, (h.dist 0 (Nat.zero_le _) n hc).2, one_mul]
  have h5 := Finset.sum_le_sum fun n (_ : n ∈ (univ : Finset (Fin V))) => h1 n
  have h6 : ∑ n, c n * (Real.log (∑ k, b k n) + Real.log (wt A) - Real.log (wt B)) =
      (∑ n, c n * Real.log (∑ k, b k n)) + (∑ n, c n) * (Real.log (wt A) - Real.log (wt B)) := by
    rw [Finset.sum_mul, ← Finset.sum_add_distrib]
    exact Finset.sum_congr rfl fun n _ => by ring
  unfold value
  linarith

/-- The change of `gamma` is bounded by the changes of the responsibilities. -/
theorem change_sq (h : Updates c alpha b wt A B T g0 phi gam) {t : ℕ} (ht : t < T) :
    (∑ k, |gam (t + 1) k - gam t k|) ^ 2 ≤
      4 * (∑ n, c n) * ∑ n, c n * ((∑ k, |phi t k n - phi (t + 1) k n|) ^ 2 / 4) := by
  have h1 : ∑ k, |gam (t + 1) k - gam t k| ≤ ∑ n, c n * ∑ k, |phi t k n - phi (t + 1) k n| := by
    have : ∀ k, |gam (t + 1) k - gam t k| ≤ ∑ n, c n * |phi t k n - phi (t + 1) k n| := fun k => by
      rw [h.gam_eq (t + 1) (by omega), h.gam_eq t (by omega), add_sub_add_left_eq_sub, ← Finset.sum_sub_distrib]
      refine (Finset.abs_sum_le_sum_abs _ _).trans (Finset.sum_le_sum fun n _ => ?_)
      rw [← mul_sub, abs_mul, abs_of_nonneg (h.c_nonneg n), abs_sub_comm]
    refine (Finset.sum_le_sum fun k _ => this k).trans (le_of_eq ?_)
    simp only [Finset.mul_sum]
    exact Finset.sum_comm
  have h0 : 0 ≤ ∑ k, |gam (t + 1) k - gam t k| := Finset.sum_nonneg fun k _ => abs_nonneg _
  have h2 := Finset.sum_mul_sq_le_sq_mul_sq univ (fun n => √(c n)) fun n =>
    √(c n) * ∑ k, |phi t k n - phi (t + 1) k n|
  have e1 : ∀ n, √(c n) * (√(c n) * ∑ k, |phi t k n - phi (t + 1) k n|) =
      c n * ∑ k, |phi t k n - phi (t + 1) k n| := fun n => by
    rw [← mul_assoc, Real.mul_self_sqrt (h.c_nonneg n)]
  have e2 : ∀ n, √(c n) ^ 2 = c n := fun n => Real.sq_sqrt (h.c_nonneg n)
  simp only [e1, mul_pow, e2] at h2
  have e3 : ∑ n, c n * ((∑ k, |phi t k n - phi (t + 1) k n|) ^ 2 / 4) =
      (∑ n, c n * (∑ k, |phi t k n - phi (t + 1) k n|) ^ 2) / 4 := by
    rw [Finset.sum_div]
    exact Finset.sum_congr rfl fun n _ => by ring
  rw [e3]
  calc _ ≤ (∑ n, c n * ∑ k, |phi t k n - phi (t + 1) k n|) ^ 2 := by gcongr
    _ ≤ _ := h2
    _ = _ := by ring

/-- The squares of all changes add up to a bounded number. -/
theorem total (h : Updates c alpha b wt A B T g0 phi gam) :
    ∑ t ∈ range T, (∑ k, |gam (t + 1) k - gam t k|) ^ 2 ≤
      8 * (∑ n, c n) ^ 2 * (Real.log (wt B) - Real.log (wt A)) := by
  have hN := Finset.sum_nonneg fun n (_ : n ∈ (univ : Finset (Fin V))) => h.c_nonneg n
  have key : ∀ T' ≤ T, ∑ t ∈ range T', (∑ k, |gam (t + 1) k - gam t k|) ^ 2 ≤
      4 * (∑ n, c n) * (value c b wt A (phi T') (gam T') - value c b wt A (phi 0) (gam 0)) := by
    intro T' hT'
    induction T' with
    | zero => simp
    | succ t ih =>
      rw [Finset.sum_range_succ]
      have h1 := ih (by omega)
      have h2 := h.change_sq (t := t) (by omega)
      have h3 := mul_le_mul_of_nonneg_left (h.gain (t := t) (by omega)) (by positivity : 0 ≤ 4 * ∑ n, c n)
      linarith
  refine (key T le_rfl).trans ?_
  have h1 := h.value_le le_rfl
  have h2 := h.le_value
  have h3 : value c b wt A (phi T) (gam T) - value c b wt A (phi 0) (gam 0) ≤
      2 * (∑ n, c n) * (Real.log (wt B) - Real.log (wt A)) := by linarith
  have := mul_le_mul_of_nonneg_left h3 (by positivity : 0 ≤ 4 * ∑ n, c n)
  linarith

end Updates

end Verif.Converge
