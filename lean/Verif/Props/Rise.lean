import Mathlib.Analysis.Calculus.Deriv.MeanValue
import Verif.Lemmas.WeightMono
import Verif.Props.Digamma

/-! Property C151: whether `digamma` gives larger values for larger arguments. -/
namespace Verif.FastExp
open Digamma Filter Topology

/-- The series increases for the arguments it is used for. -/
theorem series_strictMono {x y : ℝ} (hx : 7 ≤ x) (hxy : x < y) : series x < series y := by
  have hd : ∀ t : ℝ, 7 ≤ t → HasDerivAt series (1 / (t - 1 / 2) + (-(1 / 12) / (t - 1 / 2) ^ 3 +
      7 / 240 / (t - 1 / 2) ^ 5 - 31 / 1344 / (t - 1 / 2) ^ 7 + 127 / 3840 / (t - 1 / 2) ^ 9)) t := by
    intro t ht
    have hz : t - 1 / 2 ≠ 0 := by intro h; linarith
    have h1 : HasDerivAt (fun s : ℝ => s - 1 / 2) 1 t := (hasDerivAt_id t).sub_const _
    have hp : ∀ (c : ℝ) (k : ℕ), HasDerivAt (fun s : ℝ => c / (s - 1 / 2) ^ k)
        (-(c * (k * (t - 1 / 2) ^ (k - 1) * 1)) / ((t - 1 / 2) ^ k) ^ 2) t := by
      intro c k
      have := (hasDerivAt_const t c).div (h1.pow k) (pow_ne_zero k hz)
      refine HasDerivAt.congr_deriv (f := fun s : ℝ => c / (s - 1 / 2) ^ k) this ?_
      rw [zero_mul, zero_sub]
      rfl
    have h2 := h1.log hz
    have h3 := ((((hp (1 / 24) 2).sub (hp (7 / 960) 4)).add (hp (31 / 8064) 6)).sub (hp (127 / 30720) 8))
    have h4 := h2.add h3
    refine HasDerivAt.congr_deriv (f := series) h4 ?_
    obtain ⟨z, e⟩ : ∃ z, z = t - 1 / 2 := ⟨_, rfl⟩
    rw [← e] at hz ⊢
    push_cast
    norm_num
    field_simp
    ring
  have hm : StrictMonoOn series (Set.Ici 7) := by
    apply strictMonoOn_of_deriv_pos (convex_Ici 7)
    · exact fun t ht => (hd t ht).continuousAt.continuousWithinAt
    · intro t ht
      rw [interior_Ici] at ht
      have ht : 7 < t := ht
      rw [(hd t ht.le).deriv]
      obtain ⟨z, hz⟩ : ∃ z, z = t - 1 / 2 := ⟨_, rfl⟩
      have h6 : 6 ≤ z := by linarith
      rw [← hz]
      have e : 1 / z + (-(1 / 12) / z ^ 3 + 7 / 240 / z ^ 5 - 31 / 1344 / z ^ 7 + 127 / 3840 / z ^ 9) =
          (z ^ 8 - 1 / 12 * z ^ 6 + 7 / 240 * z ^ 4 - 31 / 1344 * z ^ 2 + 127 / 3840) / z ^ 9 := by
        have : z ≠ 0 := by intro h; linarith
        field_simp
        ring
      rw [e]
      apply div_pos _ (by positivity)
      have a : 36 ≤ z ^ 2 := by nlinarith
      have b : z ^ 8 - 1 / 12 * z ^ 6 = z ^ 6 * (z ^ 2 - 1 / 12) := by ring
      have c : 7 / 240 * z ^ 4 - 31 / 1344 * z ^ 2 = z ^ 2 * (7 / 240 * z ^ 2 - 31 / 1344) := by ring
      have d : 0 < z ^ 6 * (z ^ 2 - 1 / 12) := mul_pos (by positivity) (by linarith)
      have f : 0 < z ^ 2 * (7 / 240 * z ^ 2 - 31 / 1344) := mul_pos (by positivity) (by linarith)
      linarith
  exact hm hx (hx.trans hxy.le) hxy

theorem digamma_large {x : ℝ} (hx : 7 ≤ x) : digamma x = some (series x) := by
  rw [C32_large x hx]
  simp only [series, tail, Option.some.injEq]
  ring

/-- **C151**: between two neighbouring integers, and for all arguments not below seven, a larger argument has a
larger value. Missing for the property: arguments on the two sides of one of the integers 1 to 7 (`C151_drops`). -/
theorem C151_pieces_partial {x y : ℝ} (hx : 0 < x) (hxy : x < y)
    (h : 7 ≤ x ∨ ∃ n : ℕ, (n : ℝ) ≤ x ∧ y < n + 1) :
    ∃ u v, digamma x = some u ∧ digamma y = some v ∧ u < v := by
  have main : ∀ k n : ℕ, n + k = 7 → ∀ x y : ℝ, 0 < x → x < y → (n : ℝ) ≤ x → y < n + 1 →
      ∃ u v, digamma x = some u ∧ digamma y = some v ∧ u < v := by
    intro k
    induction k with
    | zero =>
      intro n hn x y _ hxy h1 _
      have hn : (n : ℝ) = 7 := by exact_mod_cast (by omega : n = 7)
      rw [hn] at h1
      exact ⟨_, _, digamma_large h1, digamma_large (h1.trans hxy.le), series_strictMono h1 hxy⟩
    | succ k ih =>
      intro n hn x y h0 hxy h1 h2
      have hn' : (n : ℝ) + 1 ≤ 7 := by exact_mod_cast (by omega : n + 1 ≤ 7)
      obtain ⟨u, v, hu, hv, huv⟩ := ih (n + 1) (by omega) (x + 1) (y + 1) (by linarith) (by linarith)
        (by push_cast; linarith) (by push_cast; linarith)
      refine ⟨u - 1 / x, v - 1 / y, ?_, ?_, ?_⟩
      · rw [C32_recurrence x (by linarith) h0.ne', hu]; rfl
      · rw [C32_recurrence y (by linarith) (h0.trans hxy).ne', hv]; rfl
      · have := one_div_lt_one_div_of_lt h0 hxy
        linarith
  rcases h with h | ⟨n, h1, h2⟩
  · exact ⟨_, _, digamma_large h, digamma_large (h.trans hxy.le), series_strictMono h hxy⟩
  · by_cases hn : n ≤ 7
    · exact main (7 - n) n (by omega) x y hx hxy h1 h2
    · have h7 : (7 : ℝ) ≤ n := by exact_mod_cast (by omega : 7 ≤ n)
      have h := h7.trans h1
      exact ⟨_, _, digamma_large h, digamma_large (h.trans hxy.le), series_strictMono h hxy⟩

/-- The error of the last step of the recurrence before the series is used. -/
noncomputable def drop : ℝ := series 8 - series 7 - 1 / 7

theorem drop_bounds : 3 / 100000000000 < drop ∧ drop < 5 / 100000000000 := by
  constructor
  · have h0 : (0 : ℝ) < 1 / 14 := by norm_num
    have h1 : (1 / 14 : ℝ) < 1 := by norm_num
    obtain ⟨b1, -⟩ := artanh_bounds h0 h1
    have hl : Real.log (15 / 2) - Real.log (13 / 2) = Real.log (1 + 1 / 14) - Real.log (1 - 1 / 14) := by
      rw [show (15 / 2 : ℝ) = (1 + 1 / 14) * 7 by norm_num, show (13 / 2 : ℝ) = (1 - 1 / 14) * 7 by norm_num,
        Real.log_mul (by norm_num) (by norm_num), Real.log_mul (by norm_num) (by norm_num)]
      ring
    rw [drop, series, series, show (8 - 1 / 2 : ℝ) = 15 / 2 by norm_num,
      show (7 - 1 / 2 : ℝ) = 13 / 2 by norm_num]
    have e : tail (15 / 2) - tail (13 / 2) + 2 * ((1 / 14) ^ 3 / 3 + (1 / 14) ^ 5 / 5 + (1 / 14) ^ 7 / 7 +
        (1 / 14) ^ 9 / 9 + (1 / 14) ^ 11 / 11 + (1 / 14) ^ 13 / 13) > 3 / 100000000000 := by
      rw [tail, tail]
      norm_num
    linarith
  · have h := (step_bounds (y := 7) (by norm_num)).2
    have e : omitted (7 - 1 / 2) - omitted (7 + 1 / 2) < 5 / 100000000000 := by
      rw [omitted, omitted]
      norm_num
    rw [show (7 : ℝ) + 1 = 8 by norm_num] at h
    exact h.trans_lt e

theorem series_continuousAt {x : ℝ} (hx : 1 / 2 < x) : ContinuousAt series x := by
  have hz : x - 1 / 2 ≠ 0 := by intro h; linarith
  have h1 : ContinuousAt (fun s : ℝ => s - 1 / 2) x := by fun_prop
  have hp : ∀ (c : ℝ) (k : ℕ), ContinuousAt (fun s : ℝ => c / (s - 1 / 2) ^ k) x := fun c k =>
    continuousAt_const.div (h1.pow k) (pow_ne_zero k hz)
  exact (h1.log hz).add ((((hp _ 2).sub (hp _ 4)).add (hp _ 6)).sub (hp _ 8))

/-- **C151**: at each of the integers 1 to 7 the function falls: when the argument tends to the integer from
below, the value tends to the one at the integer plus an amount that is the same for all seven, between
`3 * 10⁻¹¹` and `5 * 10⁻¹¹`. -/
theorem C151_drops : ∃ J : ℝ, 3 / 100000000000 < J ∧ J < 5 / 100000000000 ∧ ∀ n : ℕ, 1 ≤ n → n ≤ 7 →
    ∃ v, digamma n = some v ∧ ∀ ε > 0, ∃ δ > 0, ∀ x : ℝ, n - δ < x → x < n →
      ∃ u, digamma x = some u ∧ |u - (v + J)| < ε := by
  refine ⟨drop, drop_bounds.1, drop_bounds.2, ?_⟩
  have main : ∀ k n : ℕ, n + k = 7 → 1 ≤ n → ∃ v, digamma n = some v ∧
      ∃ f : ℝ → ℝ, ContinuousAt f n ∧ f n = v + drop ∧
        ∀ x : ℝ, (n : ℝ) - 1 < x → x < n → 0 < x → digamma x = some (f x) := by
    intro k
    induction k with
    | zero =>
      intro n hn _
      have hn : (n : ℝ) = 7 := by exact_mod_cast (by omega : n = 7)
      rw [hn]
      refine ⟨_, digamma_large le_rfl, fun x => series (x + 1) - 1 / x, ?_, ?_, ?_⟩
      · apply ContinuousAt.sub
        · apply ContinuousAt.comp (g := series) (series_continuousAt (by norm_num)) (by fun_prop)
        · exact continuousAt_const.div continuousAt_id (by norm_num)
      · beta_reduce
        rw [drop, show (7 : ℝ) + 1 = 8 by norm_num]
        ring
      · intro x h1 h2 h0
        rw [C32_recurrence x h2 h0.ne', digamma_large (by linarith)]
        rfl
    | succ k ih =>
      intro n hn h1
      obtain ⟨v, hv, f, hc, hf, hx⟩ := ih (n + 1) (by omega) (by omega)
      push_cast at hv hc hf hx
      have hn0 : (0 : ℝ) < n := by exact_mod_cast h1
      have hn7 : (n : ℝ) + 1 ≤ 7 := by exact_mod_cast (by omega : n + 1 ≤ 7)
      refine ⟨v - 1 / n, ?_, fun x => f (x + 1) - 1 / x, ?_, ?_, ?_⟩
      · rw [C32_recurrence n (by linarith) hn0.ne', hv]; rfl
      · apply ContinuousAt.sub
        · exact ContinuousAt.comp (g := f) hc (by fun_prop)
        · exact continuousAt_const.div continuousAt_id hn0.ne'
      · beta_reduce
        rw [hf]; ring
      · intro x h2 h3 h0
        rw [C32_recurrence x (by linarith) h0.ne', hx (x + 1) (by linarith) (by linarith) (by linarith)]
        rfl
  intro n h1 h7
  obtain ⟨v, hv, f, hc, hf, hx⟩ := main (7 - n) n (by omega) h1
  refine ⟨v, hv, fun ε hε => ?_⟩
  obtain ⟨δ, hδ, h⟩ := Metric.continuousAt_iff.1 hc ε hε
  have hn : (1 : ℝ) ≤ n := by exact_mod_cast h1
  refine ⟨min δ 1, lt_min hδ one_pos, fun x a b => ?_⟩
  have c1 := min_le_left δ 1
  have c2 := min_le_right δ 1
  refine ⟨f x, hx x (by linarith) b (by linarith), ?_⟩
  rw [← hf, ← Real.dist_eq]
  apply h
  rw [Real.dist_eq, abs_lt]
  constructor <;> linarith

/-- **C151** is false: there is an argument just below seven whose value is larger than the one at seven. -/
theorem C151_rises_false : ¬ ∀ x y u v : ℝ, 0 < x → x ≤ y → digamma x = some u → digamma y = some v → u ≤ v := by
  intro h
  obtain ⟨J, hJ, -, hd⟩ := C151_drops
  obtain ⟨v, hv, hd⟩ := hd 7 (by norm_num) le_rfl
  have hJ0 : 0 < J := lt_trans (by norm_num) hJ
  obtain ⟨δ, hδ, hx⟩ := hd J hJ0
  push_cast at hv hx
  have c1 := min_le_left δ 1
  have c2 := min_le_right δ 1
  have c3 : 0 < min δ 1 := lt_min hδ one_pos
  obtain ⟨u, hu, hl⟩ := hx (7 - min δ 1 / 2) (by linarith) (by linarith)
  have := h _ 7 u v (by linarith) (by linarith) hu hv
  rw [abs_lt] at hl
  linarith

/-- **C151**: over any distance the value falls by at most `5.7 * 10⁻¹¹`. -/
theorem C151_nearly_partial {x y : ℝ} (hx : 0 < x) (hxy : x ≤ y) :
    ∃ u v, digamma x = some u ∧ digamma y = some v ∧ u ≤ v + 57 / 1000000000000 := by
  obtain ⟨u, hu, h1, -⟩ := C88_accuracy x (pos_ne_neg hx)
  obtain ⟨v, hv, -, h2⟩ := C88_accuracy y (pos_ne_neg (hx.trans_le hxy))
  have := psi_mono hx hxy
  simp only [psi] at this
  exact ⟨u, v, hu, hv, by linarith⟩

example : ∃ u v, digamma (1 / 10) = some u ∧ digamma (9 / 10) = some v ∧ u < v :=
  C151_pieces_partial (by norm_num) (by norm_num) (.inr ⟨0, by norm_num, by norm_num⟩)

end Verif.FastExp
