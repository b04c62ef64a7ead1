import Verif.Props.Digamma

/-! `fast_exp` of `digamma` grows with its argument, although `digamma` itself does not. -/
namespace Verif.FastExp

theorem psi_mono {x y : ℝ} (hx : 0 < x) (hxy : x ≤ y) : Digamma.psi x ≤ Digamma.psi y := by
  rcases hxy.eq_or_lt with rfl | h
  · exact le_rfl
  · exact (Real.convexOn_log_Gamma.le_slope_of_hasDerivAt hx (hx.trans h) h (Digamma.hasDerivAt_logGamma hx)).trans
      (Real.convexOn_log_Gamma.slope_le_of_hasDerivAt hx (hx.trans h) h (Digamma.hasDerivAt_logGamma (hx.trans h)))

/-- Values of `digamma` are in the right order up to its error. -/
theorem digamma_almost {x y u v : ℝ} (hx : 0 < x) (hxy : x ≤ y) (hu : digamma x = some u) (hv : digamma y = some v) :
    u ≤ v + 57 / 1000000000000 := by
  obtain ⟨u', h1, h2, _⟩ := C88_accuracy x (Digamma.pos_ne_neg hx)
  obtain ⟨v', h3, _, h4⟩ := C88_accuracy y (Digamma.pos_ne_neg (hx.trans_le hxy))
  rw [hu, Option.some.injEq] at h1
  rw [hv, Option.some.injEq] at h3
  subst h1 h3
  have := psi_mono hx hxy
  simp only [Digamma.psi] at this
  linarith

theorem series_mono {u v : ℝ} (hu : 13 / 2 ≤ u) (huv : u ≤ v) :
    Real.log u + 1 / 24 / u ^ 2 - 7 / 960 / u ^ 4 + 31 / 8064 / u ^ 6 - 127 / 30720 / u ^ 8 ≤
      Real.log v + 1 / 24 / v ^ 2 - 7 / 960 / v ^ 4 + 31 / 8064 / v ^ 6 - 127 / 30720 / v ^ 8 := by
  have hu0 : 0 < u := by linarith
  have hv0 : 0 < v := by linarith
  set t := u / v with ht
  have ht0 : 0 < t := div_pos hu0 hv0
  have ht1 : t ≤ 1 := (div_le_one hv0).2 huv
  have hlog : Real.log u + (1 - t) ≤ Real.log v := by
    have h1 := Real.log_le_sub_one_of_pos ht0
    rw [ht, Real.log_div hu0.ne' hv0.ne'] at h1
    linarith
  have e : ∀ n : ℕ, (1 : ℝ) / v ^ n = t ^ n / u ^ n := fun n => by
    rw [ht, div_pow]
    field_simp
  have e2 := e 2
  have e4 := e 4
  have e6 := e 6
  have e8 := e 8
  have p2 : 1 / u ^ 2 ≤ 4 / 169 := by
    rw [div_le_div_iff₀ (by positivity) (by norm_num)]
    nlinarith
  have p6 : 1 / u ^ 6 ≤ 1 := by
    rw [div_le_one (by positivity)]
    exact one_le_pow₀ (by linarith)
  have q2 : 0 ≤ 1 / u ^ 2 := by positivity
  have q6 : 0 ≤ 1 / u ^ 6 := by positivity
  have b4 : t ^ 4 / u ^ 4 ≤ 1 / u ^ 4 := by
    gcongr
    exact pow_le_one₀ ht0.le ht1
  have b8 : t ^ 8 / u ^ 8 ≤ 1 / u ^ 8 := by
    gcongr
    exact pow_le_one₀ ht0.le ht1
  have b2 : 1 / u ^ 2 - t ^ 2 / u ^ 2 ≤ 4 / 169 * (2 * (1 - t)) := by
    have : 1 / u ^ 2 - t ^ 2 / u ^ 2 = 1 / u ^ 2 * (1 - t ^ 2) := by ring
    rw [this]
    have h1 : 1 - t ^ 2 ≤ 2 * (1 - t) := by nlinarith [sq_nonneg (1 - t)]
    have h2 : 0 ≤ 1 - t ^ 2 := by nlinarith
    calc 1 / u ^ 2 * (1 - t ^ 2) ≤ 4 / 169 * (1 - t ^ 2) := by gcongr
      _ ≤ _ := by gcongr
  have b6 : 1 / u ^ 6 - t ^ 6 / u ^ 6 ≤ 6 * (1 - t) := by
    have : 1 / u ^ 6 - t ^ 6 / u ^ 6 = 1 / u ^ 6 * (1 - t ^ 6) := by ring
    rw [this]
    have h1 : 1 - t ^ 6 ≤ 6 * (1 - t) := by
      have := one_add_mul_le_pow (a := t - 1) (by linarith) 6
      rw [add_sub_cancel] at this
      push_cast at this
      linarith
    have h2 : 0 ≤ 1 - t ^ 6 := sub_nonneg.2 (pow_le_one₀ ht0.le ht1)
    calc 1 / u ^ 6 * (1 - t ^ 6) ≤ 1 * (1 - t ^ 6) := by gcongr
      _ ≤ _ := by linarith
  have f : ∀ (a : ℝ) (n : ℕ) (w : ℝ), a / w ^ n = a * (1 / w ^ n) := fun a n w => by ring
  rw [f (1 / 24), f (7 / 960), f (31 / 8064), f (127 / 30720), f (1 / 24) 2 v, f (7 / 960) 4 v, f (31 / 8064) 6 v,
    f (127 / 30720) 8 v, e2, e4, e6, e8]
  have ht1' : 0 ≤ 1 - t := by linarith
  nlinarith

/-- Between two integers, and from seven on, `digamma` grows. -/
theorem digamma_mono {x y u v : ℝ} (hx : 0 < x) (hxy : x ≤ y) (hp : 7 ≤ x ∨ ⌊y⌋₊ = ⌊x⌋₊) (hu : digamma x = some u)
    (hv : digamma y = some v) : u ≤ v := by
  by_cases h7 : x < 7
  · have hf : ⌊y⌋₊ = ⌊x⌋₊ := hp.resolve_left (not_le.2 h7)
    have hy7 : y < 7 := by
      have h1 := Nat.floor_lt hx.le |>.2 (show x < (7 : ℕ) by exact_mod_cast h7)
      have h2 := Nat.lt_floor_add_one y
      have : (⌊y⌋₊ : ℝ) + 1 ≤ 7 := by exact_mod_cast (by omega : ⌊y⌋₊ + 1 ≤ 7)
      linarith
    have hy : 0 < y := hx.trans_le hxy
    obtain ⟨u', hu'⟩ := C32_positive (x + 1) (by linarith)
    obtain ⟨v', hv'⟩ := C32_positive (y + 1) (by linarith)
    have h1 := digamma_mono (x := x + 1) (y := y + 1) (by linarith) (by linarith)
      (.inr (by rw [Nat.floor_add_one hy.le, Nat.floor_add_one hx.le, hf])) hu' hv'
    rw [C32_recurrence x h7 hx.ne', hu', Option.map_some, Option.some.injEq] at hu
    rw [C32_recurrence y hy7 hy.ne', hv', Option.map_some, Option.some.injEq] at hv
    have h2 : 1 / y ≤ 1 / x := one_div_le_one_div_of_le hx hxy
    linarith
  · rw [C32_large x (not_lt.1 h7), Option.some.injEq] at hu
    rw [C32_large y ((not_lt.1 h7).trans hxy), Option.some.injEq] at hv
    rw [← hu, ← hv]
    exact series_mono (by linarith [not_lt.1 h7]) (by linarith)
termination_by ⌈7 - x⌉₊
decreasing_by
  have h1 : 0 < 7 - x := by linarith
  have h2 : 7 - (x + 1) = 7 - x - 1 := by ring
  rw [h2, Nat.ceil_sub_one]
  have := Nat.ceil_pos.2 h1
  omega

/-! ### The steps of `fast_exp` -/

theorem cell_small {x y : ℝ} {i : ℕ} (hx : (i : ℝ) / 1024 ≤ x) (hxy : x ≤ y) (hy : y < (i + 1) / 1024) (hi : i < 1024) :
    fastExp x = fastExp y := by
  have h0 : 0 ≤ x := le_trans (by positivity) hx
  have hi' : ((i : ℝ) + 1) / 1024 ≤ 1 := by
    rw [div_le_one (by norm_num)]
    exact_mod_cast hi
  have key : ∀ z : ℝ, (i : ℝ) / 1024 ≤ z → z < (i + 1) / 1024 → fastExp z = lut i := fun z h1 h2 => by
    have hz : 0 ≤ z := le_trans (by positivity) h1
    rw [fastExp_nonneg z hz, fastExpPos, if_neg (by linarith), halve, if_neg (by linarith)]
    have : ⌊z * 1024⌋₊ = i := by
      rw [Nat.floor_eq_iff (by positivity)]
      constructor <;> linarith
    simp only [this]
    cases lut i <;> simp [squareLoop]
  rw [key x hx (hxy.trans_lt hy), key y (hx.trans hxy) hy]

theorem cell_large {x y : ℝ} {i : ℕ} (hx : (i : ℝ) / 512 ≤ x) (hxy : x ≤ y) (hy : y < (i + 1) / 512) (h1 : 512 ≤ i)
    (hi : i < 1024) : fastExp x = fastExp y := by
  have hi' : ((i : ℝ) + 1) / 512 ≤ 2 := by
    rw [div_le_iff₀ (by norm_num)]
    have : (i : ℝ) + 1 ≤ 1024 := by exact_mod_cast hi
    linarith
  have hlow : (1 : ℝ) ≤ (i : ℝ) / 512 := by
    rw [le_div_iff₀ (by norm_num)]
    have : (512 : ℝ) ≤ i := by exact_mod_cast h1
    linarith
  have key : ∀ z : ℝ, (i : ℝ) / 512 ≤ z → z < (i + 1) / 512 → fastExp z = (lut i).map (squareLoop 1) := fun z h1 h2 => by
    rw [fastExp_nonneg z (by linarith), fastExpPos, if_neg (by linarith)]
    have e : halve z = (z / 2, 1) := by
      rw [halve, if_pos (by linarith), halve, if_neg (by linarith)]
    rw [e]
    have : ⌊z / 2 * 1024⌋₊ = i := by
      rw [Nat.floor_eq_iff (by linarith)]
      constructor <;> linarith
    simp only [this]
  rw [key x hx (hxy.trans_lt hy), key y (hx.trans hxy) hy]

theorem cell_negative {x y : ℝ} {i : ℕ} (hx : -((i + 1 : ℝ) / 1024) < x) (hxy : x ≤ y) (hy : y ≤ -((i : ℝ) / 1024))
    (hy0 : y < 0) (hi : i < 1024) : fastExp x = fastExp y := by
  have h := cell_small (x := -y) (y := -x) (i := i) (by linarith) (by linarith) (by linarith) hi
  rw [fastExp_nonneg _ (by linarith), fastExp_nonneg _ (by linarith)] at h
  unfold fastExp
  rw [if_pos hy0, if_pos (by linarith), h]

/-! ### The values at the first integers -/

theorem log_six_and_half : 187180 / 100000 ≤ Real.log (13 / 2) ∧ Real.log (13 / 2) ≤ 187181 / 100000 := by
  have l1 := Real.log_two_gt_d9
  have l2 := Real.log_two_lt_d9
  have e : 10 * Real.log (13 / 2) = 27 * Real.log 2 + Real.log ((13 / 2) ^ 10 / 2 ^ 27) := by
    rw [Real.log_div (x := (13 / 2) ^ 10) (by positivity) (by positivity), Real.log_pow, Real.log_pow]
    push_cast
    ring
  have h1 := Real.log_le_sub_one_of_pos (show (0 : ℝ) < (13 / 2) ^ 10 / 2 ^ 27 by positivity)
  have h2 := Real.one_sub_inv_le_log_of_pos (show (0 : ℝ) < (13 / 2) ^ 10 / 2 ^ 27 by positivity)
  norm_num at h1 h2 l1 l2 e
  constructor <;> linarith

theorem digamma_seven : ∃ v, digamma 7 = some v ∧ 187278 / 100000 ≤ v ∧ v ≤ 187280 / 100000 := by
  refine ⟨_, C32_large 7 le_rfl, ?_, ?_⟩ <;>
  · have := log_six_and_half
    norm_num at this ⊢
    linarith

theorem digamma_down {x d lo hi : ℝ} (hx : 0 < x) (h7 : x < 7) (h : ∃ v, digamma (x + 1) = some v ∧ lo ≤ v ∧ v ≤ hi)
    (hd : 1 / x = d) : ∃ v, digamma x = some v ∧ lo - d ≤ v ∧ v ≤ hi - d := by
  obtain ⟨v, h1, h2, h3⟩ := h
  refine ⟨v - d, ?_, by linarith, by linarith⟩
  rw [C32_recurrence x h7 hx.ne', h1, hd]
  rfl

/-- The error of `digamma` at the first integers does not reach the next step of `fast_exp`. -/
theorem digamma_integers {j : ℕ} (h1 : 1 ≤ j) (h7 : j ≤ 7) :
    ∃ v, digamma j = some v ∧ fastExp v = fastExp (v + 57 / 1000000000000) ∧ |v| ≤ 99 := by
  have d7 := digamma_seven
  have e7 : (7 : ℝ) = 6 + 1 := by norm_num
  have e6 : (6 : ℝ) = 5 + 1 := by norm_num
  have e5 : (5 : ℝ) = 4 + 1 := by norm_num
  have e4 : (4 : ℝ) = 3 + 1 := by norm_num
  have e3 : (3 : ℝ) = 2 + 1 := by norm_num
  have e2 : (2 : ℝ) = 1 + 1 := by norm_num
  have d6 := digamma_down (x := 6) (by norm_num) (by norm_num) (e7 ▸ d7) rfl
  have d5 := digamma_down (x := 5) (by norm_num) (by norm_num) (e6 ▸ d6) rfl
  have d4 := digamma_down (x := 4) (by norm_num) (by norm_num) (e5 ▸ d5) rfl
  have d3 := digamma_down (x := 3) (by norm_num) (by norm_num) (e4 ▸ d4) rfl
  have d2 := digamma_down (x := 2) (by norm_num) (by norm_num) (e3 ▸ d3) rfl
  have d1 := digamma_down (x := 1) (by norm_num) (by norm_num) (e2 ▸ d2) rfl
  interval_cases j
  · obtain ⟨v, h1, h2, h3⟩ := d1
    norm_num at h2 h3
    exact ⟨v, by exact_mod_cast h1, cell_negative (i := 591) (by norm_num; linarith) (by norm_num) (by norm_num; linarith)
      (by norm_num; linarith) (by norm_num), abs_le.2 ⟨by linarith, by linarith⟩⟩
  · obtain ⟨v, h1, h2, h3⟩ := d2
    norm_num at h2 h3
    exact ⟨v, by exact_mod_cast h1, cell_small (i := 432) (by norm_num; linarith) (by norm_num) (by norm_num; linarith)
      (by norm_num), abs_le.2 ⟨by linarith, by linarith⟩⟩
  · obtain ⟨v, h1, h2, h3⟩ := d3
    norm_num at h2 h3
    exact ⟨v, by exact_mod_cast h1, cell_small (i := 944) (by norm_num; linarith) (by norm_num) (by norm_num; linarith)
      (by norm_num), abs_le.2 ⟨by linarith, by linarith⟩⟩
  · obtain ⟨v, h1, h2, h3⟩ := d4
    norm_num at h2 h3
    exact ⟨v, by exact_mod_cast h1, cell_large (i := 643) (by norm_num; linarith) (by norm_num) (by norm_num; linarith)
      (by norm_num) (by norm_num), abs_le.2 ⟨by linarith, by linarith⟩⟩
  · obtain ⟨v, h1, h2, h3⟩ := d5
    norm_num at h2 h3
    exact ⟨v, by exact_mod_cast h1, cell_large (i := 771) (by norm_num; linarith) (by norm_num) (by norm_num; linarith)
      (by norm_num) (by norm_num), abs_le.2 ⟨by linarith, by linarith⟩⟩
  · obtain ⟨v, h1, h2, h3⟩ := d6
    norm_num at h2 h3
    exact ⟨v, by exact_mod_cast h1, cell_large (i := 873) (by norm_num; linarith) (by norm_num) (by norm_num; linarith)
      (by norm_num) (by norm_num), abs_le.2 ⟨by linarith, by linarith⟩⟩
  · obtain ⟨v, h1, h2, h3⟩ := d7
    norm_num at h2 h3
    exact ⟨v, by exact_mod_cast h1, cell_large (i := 958) (by norm_num; linarith) (by norm_num) (by norm_num; linarith)
      (by norm_num) (by norm_num), abs_le.2 ⟨by linarith, by linarith⟩⟩

/-- From one integer to a later argument. -/
theorem weight_mono_integer {x u a b : ℝ} {j : ℕ} (h1 : 1 ≤ j) (h7 : j ≤ 7) (hx : 0 < x) (hxj : x ≤ j)
    (hu : digamma x = some u) (hu100 : |u| ≤ 100) (ha : fastExp u = some a) (hb : (digamma j).bind fastExp = some b) :
    a ≤ b := by
  obtain ⟨v, h2, h3, h4⟩ := digamma_integers h1 h7
  rw [h2, Option.bind_some, h3] at hb
  rw [abs_le] at h4
  exact C31_monotone_partial u (v + 57 / 1000000000000) a b (digamma_almost hx hxj hu h2)
    (.inl ⟨hu100, abs_le.2 ⟨by norm_num; linarith, by norm_num; linarith⟩⟩) ha hb

/-- `fast_exp (digamma x)` grows with `x`, as long as no value of `digamma` leaves the range of the table. -/
theorem weight_mono {x y u v a b : ℝ} (hx : 0 < x) (hxy : x ≤ y) (hu : digamma x = some u) (hv : digamma y = some v)
    (hu100 : |u| ≤ 100) (hv100 : |v| ≤ 100) (ha : fastExp u = some a) (hb : fastExp v = some b) : a ≤ b := by
  by_cases hp : 7 ≤ x ∨ ⌊y⌋₊ = ⌊x⌋₊
  · exact C31_monotone_partial u v a b (digamma_mono hx hxy hp hu hv) (.inl ⟨hu100, hv100⟩) ha hb
  · push Not at hp
    obtain ⟨hx7, hf⟩ := hp
    have hlt : ⌊x⌋₊ < ⌊y⌋₊ := lt_of_le_of_ne (Nat.floor_mono hxy) hf.symm
    have hy0 : 0 ≤ y := hx.le.trans hxy
    have hmin1 : 1 ≤ min ⌊y⌋₊ 7 := le_min (by omega) (by norm_num)
    obtain ⟨w, h2, _, h4⟩ := digamma_integers hmin1 (min_le_right _ _)
    obtain ⟨c, h5, _⟩ := C29_total w
    have hxj : x ≤ ((min ⌊y⌋₊ 7 : ℕ) : ℝ) := by
      have h6 : x < ⌊x⌋₊ + 1 := Nat.lt_floor_add_one x
      rcases le_total ⌊y⌋₊ 7 with h | h
      · rw [min_eq_left h]
        have : (⌊x⌋₊ : ℝ) + 1 ≤ ⌊y⌋₊ := by exact_mod_cast hlt
        linarith
      · rw [min_eq_right h]
        exact_mod_cast hx7.le
    have hjy : ((min ⌊y⌋₊ 7 : ℕ) : ℝ) ≤ y :=
      le_trans (Nat.cast_le.2 (min_le_left _ _)) (Nat.floor_le hy0)
    have s1 := weight_mono_integer hmin1 (min_le_right _ _) hx hxj hu hu100 ha (by rw [h2, Option.bind_some, h5])
    have s2 : c ≤ b := by
      refine C31_monotone_partial w v c b (digamma_mono (by exact_mod_cast hmin1) hjy ?_ h2 hv)
        (.inl ⟨by linarith, hv100⟩) h5 hb
      rcases le_total ⌊y⌋₊ 7 with h | h
      · right
        rw [min_eq_left h, Nat.floor_natCast]
      · left
        rw [min_eq_right h]
        norm_num
    exact s1.trans s2

end Verif.FastExp
