import Verif.Model.Limits
import Verif.Props.Bitwise

/-
Rounding to a binary format with a smallest number (Model/Limits).
-/
namespace Verif.Limits

open MathUtils EStep Rounded

theorem floor_le_nearest (x : ℝ) : ⌊x⌋ ≤ nearest x ∧ nearest x ≤ ⌊x⌋ + 1 := by
  unfold nearest
  split_ifs <;> constructor <;> omega

theorem nearest_mono {x y : ℝ} (h : x ≤ y) : nearest x ≤ nearest y := by
  have hf := Int.floor_mono h
  rcases hf.eq_or_lt with e | hlt
  · unfold nearest
    rw [← e]
    split_ifs <;> first | omega | (exfalso; linarith)
  · have := (floor_le_nearest x).2
    have := (floor_le_nearest y).1
    omega

/-- The conditions on a format that the proofs use. -/
structure Format.Ok (F : Format) : Prop where
  prec : 2 ≤ F.prec
  low : F.low + F.prec ≤ 0

theorem float_ok : float.Ok := ⟨by decide, by decide⟩

theorem double_ok : double.Ok := ⟨by decide, by decide⟩

variable {F : Format}

/-- The exponent of the last bit of `x`. -/
noncomputable def unit (F : Format) (x : ℝ) : ℤ := max (Int.log 2 |x| - ((F.prec : ℤ) - 1)) F.low

theorem fl_eq (x : ℝ) : fl F x = nearest (x / 2 ^ unit F x) * 2 ^ unit F x := rfl

theorem low_le_unit (x : ℝ) : F.low ≤ unit F x := le_max_right _ _

theorem two_zpow_pos (j : ℤ) : (0 : ℝ) < 2 ^ j := zpow_pos (by norm_num) _

theorem zpow_int {i j : ℤ} (h : i ≤ j) : ∃ m : ℤ, (2 : ℝ) ^ j = m * 2 ^ i := by
  refine ⟨2 ^ (j - i).toNat, ?_⟩
  have : ((2 ^ (j - i).toNat : ℤ) : ℝ) = 2 ^ (j - i) := by
    push_cast
    rw [← zpow_natCast, Int.toNat_of_nonneg (by omega)]
  rw [this, ← zpow_add₀ (by norm_num)]
  congr 1; omega

/-- A multiple of the unit is not rounded. -/
theorem fl_mul {z j : ℤ} (h : unit F (z * 2 ^ j) ≤ j) : fl F (z * 2 ^ j) = z * 2 ^ j := by
  obtain ⟨m, hm⟩ := zpow_int h
  rw [fl_eq]
  have e : (z : ℝ) * 2 ^ j / 2 ^ unit F (z * 2 ^ j) = ((z * m : ℤ) : ℝ) := by
    rw [div_eq_iff (two_zpow_pos _).ne']
    conv_lhs => rw [hm]
    push_cast; ring
  rw [e, nearest_int]
  conv_rhs => rw [hm]
  push_cast; ring

@[simp] theorem fl_zero : fl F 0 = 0 := by
  have : nearest 0 = 0 := by simpa using nearest_int 0
  simp [fl_eq, this]

theorem log_le {x : ℝ} (hx : 0 < x) : (2 : ℝ) ^ Int.log 2 x ≤ x := by
  have := Int.zpow_log_le_self (b := 2) (r := x) (by norm_num) hx
  exact_mod_cast this

theorem lt_log (x : ℝ) : x < (2 : ℝ) ^ (Int.log 2 x + 1) := by
  have := Int.lt_zpow_succ_log_self (b := 2) (by norm_num) x
  exact_mod_cast this

theorem log_le_of_le {x : ℝ} {j : ℤ} (hx : 0 < x) (h : x ≤ 2 ^ j) : Int.log 2 x ≤ j := by
  by_contra hc
  have h1 := log_le hx
  have h2 : (2 : ℝ) ^ j < 2 ^ Int.log 2 x := zpow_lt_zpow_right₀ (by norm_num) (by omega)
  linarith

theorem le_log_of_le {x : ℝ} {j : ℤ} (h : 2 ^ j ≤ x) : j ≤ Int.log 2 x := by
  by_contra hc
  have h1 := lt_log x
  have h2 : (2 : ℝ) ^ (Int.log 2 x + 1) ≤ 2 ^ j := zpow_le_zpow_right₀ (by norm_num) (by omega)
  linarith

theorem log_two (j : ℤ) : Int.log 2 ((2 : ℝ) ^ j) = j :=
  le_antisymm (log_le_of_le (two_zpow_pos j) le_rfl) (le_log_of_le le_rfl)

theorem fl_nonneg {x : ℝ} (hx : 0 ≤ x) : 0 ≤ fl F x := by
  rw [fl_eq]
  have h : nearest 0 ≤ nearest (x / 2 ^ unit F x) := nearest_mono (by positivity)
  have h0 : nearest 0 = 0 := by simpa using nearest_int 0
  rw [h0] at h
  have : (0 : ℝ) ≤ nearest (x / 2 ^ unit F x) := by exact_mod_cast h
  have := two_zpow_pos (unit F x)
  positivity

/-- Rounding does not pass a power of two downwards. -/
theorem le_fl (hF : F.Ok) {x : ℝ} {j : ℤ} (hj : F.low ≤ j) (h : 2 ^ j ≤ x) : 2 ^ j ≤ fl F x := by
  have hx : 0 < x := (two_zpow_pos j).trans_le h
  have hl := le_log_of_le h
  have hp := hF.prec
  have hu : unit F x ≤ Int.log 2 x := by
    unfold unit
    rw [abs_of_pos hx]
    exact max_le (by omega) (by omega)
  obtain ⟨m, hm⟩ := zpow_int hu
  have h1 : (m : ℝ) ≤ x / 2 ^ unit F x := by
    rw [le_div_iff₀ (two_zpow_pos _), ← hm]
    exact log_le hx
  have h2 : m ≤ nearest (x / 2 ^ unit F x) := by
    have := nearest_mono h1
    rwa [nearest_int] at this
  have h3 : (m : ℝ) ≤ nearest (x / 2 ^ unit F x) := by exact_mod_cast h2
  calc (2 : ℝ) ^ j ≤ 2 ^ Int.log 2 x := zpow_le_zpow_right₀ (by norm_num) hl
    _ = m * 2 ^ unit F x := hm
    _ ≤ _ := by rw [fl_eq]; exact mul_le_mul_of_nonneg_right h3 (two_zpow_pos _).le

/-- Rounding does not pass a power of two upwards. -/
theorem fl_le (hF : F.Ok) {x : ℝ} {j : ℤ} (hx : 0 ≤ x) (hj : F.low ≤ j) (h : x ≤ 2 ^ j) : fl F x ≤ 2 ^ j := by
  rcases hx.eq_or_lt with rfl | hx
  · simpa using (two_zpow_pos j).le
  have hl := log_le_of_le hx h
  have hp := hF.prec
  have hu : unit F x ≤ j := by
    unfold unit
    rw [abs_of_pos hx]
    exact max_le (by omega) hj
  obtain ⟨m, hm⟩ := zpow_int hu
  have h1 : x / 2 ^ unit F x ≤ m := by
    rw [div_le_iff₀ (two_zpow_pos _), ← hm]
    exact h
  have h2 : nearest (x / 2 ^ unit F x) ≤ m := by
    have := nearest_mono h1
    rwa [nearest_int] at this
  have h3 : (nearest (x / 2 ^ unit F x) : ℝ) ≤ m := by exact_mod_cast h2
  rw [fl_eq, hm]
  exact mul_le_mul_of_nonneg_right h3 (two_zpow_pos _).le

theorem unit_mono {x y : ℝ} (hx : 0 < x) (h : x ≤ y) : unit F x ≤ unit F y := by
  unfold unit
  rw [abs_of_pos hx, abs_of_pos (hx.trans_le h)]
  have := le_log_of_le ((log_le hx).trans h)
  omega

theorem fl_mono (hF : F.Ok) {x y : ℝ} (hx : 0 ≤ x) (h : x ≤ y) : fl F x ≤ fl F y := by
  rcases hx.eq_or_lt with rfl | hx
  · rw [fl_zero]; exact fl_nonneg h
  have hy := hx.trans_le h
  rcases (unit_mono (F := F) hx h).eq_or_lt with e | hlt
  · rw [fl_eq, fl_eq, ← e]
    apply mul_le_mul_of_nonneg_right _ (two_zpow_pos _).le
    exact_mod_cast nearest_mono (div_le_div_of_nonneg_right h (two_zpow_pos _).le)
  · have h0 := low_le_unit (F := F) x
    have hp := hF.prec
    have ux : unit F x = max (Int.log 2 x - ((F.prec : ℤ) - 1)) F.low := by rw [unit, abs_of_pos hx]
    have uy : unit F y = max (Int.log 2 y - ((F.prec : ℤ) - 1)) F.low := by rw [unit, abs_of_pos hy]
    have hlow : F.low ≤ Int.log 2 y := by omega
    have h1 : x ≤ 2 ^ Int.log 2 y :=
      (lt_log x).le.trans (zpow_le_zpow_right₀ (by norm_num) (by omega))
    exact (fl_le hF hx.le hlow h1).trans (le_fl hF hlow (log_le hy))

/-- The error of rounding: half a unit in the last place. -/
theorem fl_half (x : ℝ) : |fl F x - x| ≤ 2 ^ unit F x / 2 := by
  have hu := two_zpow_pos (unit F x)
  have e : fl F x - x = (nearest (x / 2 ^ unit F x) - x / 2 ^ unit F x) * 2 ^ unit F x := by
    rw [sub_mul, div_mul_cancel₀ _ hu.ne', fl_eq]
  rw [e, abs_mul, abs_of_pos hu]
  have := mul_le_mul_of_nonneg_right (nearest_err (x / 2 ^ unit F x)) hu.le
  linarith

/-- The unit roundoff of the format. -/
noncomputable def Format.u (F : Format) : ℝ := (1 / 2) ^ F.prec

/-- Half of the smallest positive number of the format. -/
noncomputable def Format.tiny (F : Format) : ℝ := 2 ^ F.low / 2

theorem tiny_pos : 0 < F.tiny := by
  have := two_zpow_pos F.low
  unfold Format.tiny
  positivity

theorem u_pos : 0 < F.u := by unfold Format.u; positivity

theorem u_le (hF : F.Ok) : F.u ≤ 1 / 4 := by
  have : (1 / 2 : ℝ) ^ F.prec ≤ (1 / 2) ^ 2 := pow_le_pow_of_le_one (by norm_num) (by norm_num) hF.prec
  unfold Format.u
  linarith

theorem fl_err_normal {x : ℝ} (hx : 0 < x) (h : F.low ≤ Int.log 2 x - ((F.prec : ℤ) - 1)) :
    |fl F x - x| ≤ F.u * x := by
  have hu : unit F x = Int.log 2 x - ((F.prec : ℤ) - 1) := by
    rw [unit, abs_of_pos hx]; exact max_eq_left h
  have h1 := fl_half (F := F) x
  rw [hu] at h1
  have e2 : (2 : ℝ) ^ (Int.log 2 x - ((F.prec : ℤ) - 1)) / 2 = F.u * 2 ^ Int.log 2 x := by
    have : Int.log 2 x - ((F.prec : ℤ) - 1) = Int.log 2 x + 1 + -(F.prec : ℤ) := by ring
    rw [this, zpow_add₀ (by norm_num), zpow_add₀ (by norm_num), zpow_neg, zpow_natCast, zpow_one, Format.u, one_div_pow]
    ring
  rw [e2] at h1
  exact h1.trans (mul_le_mul_of_nonneg_left (log_le hx) u_pos.le)

/-- Rounding has a relative error, or an absolute one for small numbers. -/
theorem fl_err {x : ℝ} (hx : 0 ≤ x) : |fl F x - x| ≤ F.u * x + F.tiny := by
  rcases hx.eq_or_lt with rfl | hx
  · simpa using tiny_pos.le
  by_cases h : F.low ≤ Int.log 2 x - ((F.prec : ℤ) - 1)
  · have := fl_err_normal hx h
    have := tiny_pos (F := F)
    linarith
  · have hu : unit F x = F.low := by
      rw [unit, abs_of_pos hx]; exact max_eq_right (by omega)
    have h1 := fl_half (F := F) x
    rw [hu] at h1
    have := mul_nonneg (u_pos (F := F)).le hx.le
    unfold Format.tiny
    linarith

/-- Numbers that are not too small have a relative error. -/
theorem fl_err_big {x : ℝ} {j : ℤ} (hj : F.low + F.prec ≤ j + 1) (h : 2 ^ j ≤ x) : |fl F x - x| ≤ F.u * x := by
  have := le_log_of_le h
  exact fl_err_normal ((two_zpow_pos j).trans_le h) (by omega)

theorem fl_pow (hF : F.Ok) {j : ℤ} (hj : F.low ≤ j) : fl F (2 ^ j) = 2 ^ j :=
  le_antisymm (fl_le hF (two_zpow_pos j).le hj le_rfl) (le_fl hF hj le_rfl)

/-- Numbers of the format are multiples of the smallest one. -/
theorem fl_multiple (x : ℝ) : ∃ z : ℤ, fl F x = z * 2 ^ F.low := by
  obtain ⟨m, hm⟩ := zpow_int (low_le_unit (F := F) x)
  refine ⟨nearest (x / 2 ^ unit F x) * m, ?_⟩
  rw [fl_eq]
  conv_lhs => rw [hm]
  rw [← hm]
  push_cast
  rw [hm]; ring

theorem fl_fl (hF : F.Ok) {x : ℝ} (hx : 0 ≤ x) : fl F (fl F x) = fl F x := by
  rcases hx.eq_or_lt with rfl | hx
  · simp
  rcases (fl_nonneg (F := F) hx.le).eq_or_lt with e | hy
  · rw [← e, fl_zero]
  by_cases h : unit F (fl F x) ≤ unit F x
  · have e := fl_eq (F := F) x
    have := fl_mul (F := F) (z := nearest (x / 2 ^ unit F x)) (j := unit F x) (by rw [← e]; exact h)
    rwa [← e] at this
  · have hp := hF.prec
    have ux : unit F x = max (Int.log 2 x - ((F.prec : ℤ) - 1)) F.low := by rw [unit, abs_of_pos hx]
    have uy : unit F (fl F x) = max (Int.log 2 (fl F x) - ((F.prec : ℤ) - 1)) F.low := by
      rw [unit, abs_of_pos hy]
    have hlog : Int.log 2 x + 1 ≤ Int.log 2 (fl F x) := by omega
    have hlow : F.low ≤ Int.log 2 x + 1 := by
      by_contra hc
      have h1 : x ≤ 2 ^ F.low := (lt_log x).le.trans (zpow_le_zpow_right₀ (by norm_num) (by omega))
      have h2 := log_le_of_le hy (fl_le hF hx.le le_rfl h1)
      omega
    have h1 := fl_le hF hx.le hlow (lt_log x).le
    have h2 : (2 : ℝ) ^ (Int.log 2 x + 1) ≤ fl F x :=
      (zpow_le_zpow_right₀ (by norm_num) hlog).trans (log_le hy)
    rw [le_antisymm h1 h2, fl_pow hF hlow]

/-- A sum of two numbers of the format has a relative error, however small it is. -/
theorem fl_add_err {a b : ℝ} (ha : 0 ≤ a) (hb : 0 ≤ b) (ra : fl F a = a) (rb : fl F b = b) :
    |fl F (a + b) - (a + b)| ≤ F.u * (a + b) := by
  rcases (add_nonneg ha hb).eq_or_lt with e | hpos
  · rw [← e]; simp
  by_cases h : F.low ≤ Int.log 2 (a + b) - ((F.prec : ℤ) - 1)
  · exact fl_err_normal hpos h
  · have hu : unit F (a + b) = F.low := by
      rw [unit, abs_of_pos hpos]; exact max_eq_right (by omega)
    obtain ⟨z, hz⟩ := fl_multiple (F := F) a
    obtain ⟨w, hw⟩ := fl_multiple (F := F) b
    rw [ra] at hz
    rw [rb] at hw
    have e : a + b = ((z + w : ℤ) : ℝ) * 2 ^ F.low := by rw [hz, hw]; push_cast; ring
    have := fl_mul (F := F) (z := z + w) (j := F.low) (by rw [← e, hu])
    rw [← e] at this
    rw [this, sub_self, abs_zero]
    exact mul_nonneg u_pos.le hpos.le

end Verif.Limits
