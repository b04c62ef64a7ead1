import Verif.Model.Ending
import Verif.Lemmas.Reports

/-! Property C142: how often the loop of `digamma` is run through. -/
namespace Verif.Overflow

open MathUtils EStep Limits

variable {K V : ℕ} {F : Format}

/-! ### Rounding of the sum with one -/

theorem nearest_below {z : ℤ} {d : ℝ} (h0 : 0 < d) (h : d < 1 / 2) : Rounded.nearest (z - d) = z := by
  have hf : ⌊(z : ℝ) - d⌋ = z - 1 := by
    rw [Int.floor_eq_iff]
    push_cast
    constructor <;> linarith
  unfold Rounded.nearest
  rw [hf]
  push_cast
  rw [if_neg (by linarith), if_pos (by linarith)]
  ring

theorem nearest_tie (z : ℤ) : Rounded.nearest ((z : ℝ) - 1 / 2) = if Even z then z else z - 1 := by
  have hf : ⌊(z : ℝ) - 1 / 2⌋ = z - 1 := by
    rw [Int.floor_eq_iff]
    push_cast
    constructor <;> linarith
  unfold Rounded.nearest
  rw [hf]
  push_cast
  rw [if_neg (by linarith), if_neg (by linarith)]
  have e : Even (z - 1) ↔ ¬ Even z := by
    rw [Int.even_sub_one]
  by_cases hz : Even z
  · rw [if_neg (by rw [e]; simpa using hz), if_pos hz]; ring
  · rw [if_pos (e.2 hz), if_neg hz]

/-- Numbers of the format are multiples of their unit. -/
theorem fl_units {y : ℝ} (h : fl F y = y) : ∃ z : ℤ, y = z * 2 ^ unit F y := ⟨_, h ▸ (fl_eq (F := F) y)⟩

theorem unit_big (hF : F.Ok) {y : ℝ} {i : ℤ} (hi : F.prec ≤ i) (h : 2 ^ i ≤ y) (h' : y < 2 ^ (i + 1)) :
    unit F y = i - (F.prec - 1) := by
  have hy : 0 < y := (two_zpow_pos i).trans_le h
  have h1 := le_log_of_le h
  have h2 : Int.log 2 y < i + 1 := by
    by_contra hc
    have := log_le hy
    have h3 : (2 : ℝ) ^ (i + 1) ≤ 2 ^ Int.log 2 y := zpow_le_zpow_right₀ (by norm_num) (by omega)
    linarith
  have hl := hF.low
  rw [unit, abs_of_pos hy, max_eq_left (by omega)]
  omega

/-- A large number of the format is not changed by the subtraction of one. -/
theorem fl_pred (hF : F.Ok) {y : ℝ} (hy : fl F y = y) (h : 2 ^ (F.prec + 1) ≤ y) : fl F (y - 1) = y := by
  have hp := hF.prec
  have hy0 : (0 : ℝ) < 2 ^ F.prec := by positivity
  have ht : (2 : ℝ) ^ (F.prec : ℤ) ≤ y - 1 := by
    rw [zpow_natCast]
    have : (1 : ℝ) ≤ 2 ^ F.prec := one_le_pow₀ (by norm_num)
    rw [pow_succ] at h
    linarith
  have ht0 : 0 < y - 1 := (two_zpow_pos _).trans_le ht
  set i := Int.log 2 (y - 1) with hi
  have hip : (F.prec : ℤ) ≤ i := le_log_of_le ht
  have hu := unit_big hF hip (log_le ht0) (lt_log _)
  have hum := unit_mono (F := F) ht0 (by linarith : y - 1 ≤ y)
  obtain ⟨z', hz'⟩ := fl_units hy
  obtain ⟨m, hm⟩ := zpow_int hum
  have hz : y = ((z' * m : ℤ) : ℝ) * 2 ^ unit F (y - 1) := by
    conv_lhs => rw [hz', hm]
    push_cast; ring
  set z := z' * m with hzz
  have e : (y - 1) / 2 ^ unit F (y - 1) = z - 2 ^ (-unit F (y - 1)) := by
    rw [sub_div, zpow_neg, ← one_div]
    congr 1
    rw [div_eq_iff (two_zpow_pos _).ne']
    exact hz
  rw [fl_eq, e]
  rcases hip.eq_or_lt with hi1 | hi2
  · -- the largest power of two below
    have hu1 : unit F (y - 1) = 1 := by omega
    have lt : y - 1 < 2 ^ (F.prec + 1) := by
      have := lt_log (y - 1)
      rw [← hi, ← hi1] at this
      exact_mod_cast this
    have le2 : (2 : ℤ) ≤ unit F y := by
      have h1 : ((F.prec + 1 : ℕ) : ℤ) ≤ Int.log 2 y := le_log_of_le (by rw [zpow_natCast]; exact h)
      have : Int.log 2 |y| - ((F.prec : ℤ) - 1) ≤ unit F y := le_max_left _ _
      rw [abs_of_pos (by linarith)] at this
      push_cast at h1
      omega
    obtain ⟨q, hq⟩ := zpow_int le2
    have y4 : y = ((z' * q * 4 : ℤ) : ℝ) := by
      conv_lhs => rw [hz', hq]
      push_cast
      norm_num
      ring
    have yi : z' * q * 4 = 2 ^ (F.prec + 1) := by
      have a1 : ((2 ^ (F.prec + 1) : ℤ) : ℝ) ≤ ((z' * q * 4 : ℤ) : ℝ) := by rw [← y4]; push_cast; exact h
      have a2 : ((z' * q * 4 : ℤ) : ℝ) < ((2 ^ (F.prec + 1) + 1 : ℤ) : ℝ) := by rw [← y4]; push_cast; linarith
      have b1 : (2 ^ (F.prec + 1) : ℤ) ≤ z' * q * 4 := by exact_mod_cast a1
      have b2 : z' * q * 4 < (2 ^ (F.prec + 1) + 1 : ℤ) := by exact_mod_cast a2
      omega
    have z2 : z * 2 = 2 ^ (F.prec + 1) := by
      have : ((z * 2 : ℤ) : ℝ) = ((2 ^ (F.prec + 1) : ℤ) : ℝ) := by
        rw [← yi, ← y4]
        rw [hu1] at hz
        push_cast
        rw [zpow_one] at hz
        rw [hz]
      exact_mod_cast this
    have ze : Even z := by
      have : z = 2 * 2 ^ (F.prec - 1) := by
        have h5 : F.prec + 1 = (F.prec - 1) + 1 + 1 := by omega
        rw [h5, pow_succ, pow_succ] at z2
        omega
      rw [this]
      exact even_two_mul _
    rw [hu1]
    have h6 : (2 : ℝ) ^ (-(1 : ℤ)) = 1 / 2 := by norm_num
    rw [h6, nearest_tie, if_pos ze]
    rw [hu1] at hz
    exact hz.symm
  · have h7 : (2 : ℝ) ^ (-unit F (y - 1)) < 1 / 2 := by
      have : (2 : ℝ) ^ (-unit F (y - 1)) ≤ 2 ^ (-2 : ℤ) := zpow_le_zpow_right₀ (by norm_num) (by omega)
      have h8 : (2 : ℝ) ^ (-2 : ℤ) = 1 / 4 := by norm_num
      rw [h8] at this
      linarith
    rw [nearest_below (two_zpow_pos _) h7]
    exact hz.symm

/-- The even numbers between the two last powers of two that matter. -/
theorem fl_pred_mid (hF : F.Ok) {j : ℤ} (h1 : 2 ^ (F.prec - 1) < j) (h2 : j < 2 ^ F.prec) :
    fl F ((j : ℝ) * 2 - 1) = if Even j then (j : ℝ) * 2 else (j : ℝ) * 2 - 2 := by
  have hp := hF.prec
  have e1 : F.prec = (F.prec - 1) + 1 := by omega
  have a1 : ((2 ^ (F.prec - 1) + 1 : ℤ) : ℝ) ≤ (j : ℝ) := by exact_mod_cast h1
  have a2 : (j : ℝ) + 1 ≤ ((2 ^ F.prec : ℤ) : ℝ) := by exact_mod_cast h2
  push_cast at a1 a2
  have hu : unit F ((j : ℝ) * 2 - 1) = 1 := by
    rw [unit_big hF (i := F.prec) (le_refl _)]
    · omega
    · rw [zpow_natCast]
      conv_lhs => rw [e1, pow_succ]
      linarith
    · have : (2 : ℝ) ^ ((F.prec : ℤ) + 1) = 2 ^ F.prec * 2 := by
        rw [zpow_add₀ (by norm_num), zpow_natCast, zpow_one]
      rw [this]
      linarith
  rw [fl_eq, hu, zpow_one]
  have e2 : ((j : ℝ) * 2 - 1) / 2 = j - 1 / 2 := by ring
  rw [e2, nearest_tie]
  split_ifs
  · rfl
  · push_cast; ring

/-- Numbers of the format between the two powers of two are even. -/
theorem fl_even (hF : F.Ok) {y : ℝ} (hy : fl F y = y) (h1 : 2 ^ F.prec ≤ y) (h2 : y < 2 ^ (F.prec + 1)) :
    ∃ j : ℤ, y = j * 2 := by
  obtain ⟨z, hz⟩ := fl_units hy
  have : unit F y = 1 := by
    rw [unit_big hF (i := F.prec) (le_refl _) (by rw [zpow_natCast]; exact h1) (by exact_mod_cast h2)]
    omega
  rw [this, zpow_one] at hz
  exact ⟨z, hz⟩

/-! ### The loop -/

/-- The formats in question: `float` and `double`. -/
structure Stepped (F : Format) : Prop where
  ok : F.Ok
  prec : 4 ≤ F.prec
  high : F.prec + 2 ≤ F.high

theorem float_stepped : Stepped float := ⟨float_ok, by decide, by decide⟩

theorem double_stepped : Stepped double := ⟨⟨by decide, by decide⟩, by decide, by decide⟩

/-- Small sums are finite. -/
theorem next_fin (hF : Stepped F) {x : ℝ} (h1 : -2 ^ F.prec ≤ x) (h2 : x < 7) :
    nAdd F (.fin x) (.fin 1) = .fin (fl F (x + 1)) ∧ x + 1 / 2 ≤ fl F (x + 1) := by
  have hl := hF.ok.low
  have hp := hF.prec
  have p4 : (16 : ℝ) ≤ 2 ^ F.prec := by
    calc (16 : ℝ) = 2 ^ 4 := by norm_num
      _ ≤ 2 ^ F.prec := pow_le_pow_right₀ (by norm_num) hp
  have habs : |x + 1| < 2 ^ F.prec := by rw [abs_lt]; constructor <;> linarith
  have hu : unit F (x + 1) ≤ 0 := by
    rcases eq_or_ne (x + 1) 0 with h0 | h0
    · rw [unit, h0, abs_zero, Int.log_zero_right]
      exact max_le (by omega) (by omega)
    · have hpos : 0 < |x + 1| := abs_pos.2 h0
      have : Int.log 2 |x + 1| < F.prec := by
        by_contra hc
        have h3 := log_le hpos
        have h4 : (2 : ℝ) ^ (F.prec : ℤ) ≤ 2 ^ Int.log 2 |x + 1| := zpow_le_zpow_right₀ (by norm_num) (by omega)
        rw [zpow_natCast] at h4
        linarith
      exact max_le (by omega) (by omega)
  have he := fl_half (F := F) (x + 1)
  have hz : (2 : ℝ) ^ unit F (x + 1) ≤ 1 := by
    calc (2 : ℝ) ^ unit F (x + 1) ≤ 2 ^ (0 : ℤ) := zpow_le_zpow_right₀ (by norm_num) hu
      _ = 1 := zpow_zero _
  have he' := abs_le.1 (he.trans (by linarith : (2 : ℝ) ^ unit F (x + 1) / 2 ≤ 1 / 2))
  have hi : (2 : ℝ) ^ F.prec * 4 ≤ 2 ^ F.high := by
    calc (2 : ℝ) ^ F.prec * 4 = 2 ^ (F.prec + 2) := by rw [pow_add]; norm_num
      _ ≤ 2 ^ F.high := pow_le_pow_right₀ (by norm_num) hF.high
  have hab := abs_lt.1 habs
  constructor
  · simp only [nAdd, toNum]
    rw [if_neg (by linarith), if_neg (by linarith)]
  · linarith

theorem counted_add (x : Num) (i j : ℕ) : counted F x (i + j) = counted F (counted F x i) j := by
  induction j with
  | zero => rfl
  | succ j ih => rw [← add_assoc, counted, ih, counted]

theorem Rounds.succ {x : Num} {n : ℕ} (hb : Below x) (h : Rounds F (nAdd F x (.fin 1)) n) : Rounds F x (n + 1) := by
  have e : ∀ i, counted F x (i + 1) = counted F (nAdd F x (.fin 1)) i := by
    intro i
    rw [add_comm, counted_add]
    rfl
  refine ⟨fun i hi => ?_, ?_⟩
  · cases i with
    | zero => exact hb
    | succ i => rw [e]; exact h.1 i (by omega)
  · rw [e]; exact h.2

theorem rounds_zero {x : Num} (h : ¬ Below x) : Rounds F x 0 := ⟨fun i hi => absurd hi (by omega), h⟩

/-- **C142**: for a number that is not negative, which is what the steps hand to `digamma` if `alpha` is not negative, the
loop is left after at most seven rounds. -/
theorem C142_nonneg (hF : Stepped F) {x : ℝ} (hx : 0 ≤ x) : ∃ n ≤ 7, Rounds F (.fin x) n := by
  have p4 : (16 : ℝ) ≤ 2 ^ F.prec := by
    calc (16 : ℝ) = 2 ^ 4 := by norm_num
      _ ≤ 2 ^ F.prec := pow_le_pow_right₀ (by norm_num) hF.prec
  have key : ∀ k : ℕ, k ≤ 7 → ∀ x : ℝ, ((7 - k : ℕ) : ℝ) ≤ x → ∃ n ≤ k, Rounds F (.fin x) n := by
    intro k
    induction k with
    | zero =>
      intro _ x hx
      exact ⟨0, le_refl _, rounds_zero (by simp only [Below]; push_cast at hx; linarith)⟩
    | succ k ih =>
      intro hk x hx
      by_cases hb : x < 7
      · have hx0 : (0 : ℝ) ≤ x := le_trans (Nat.cast_nonneg _) hx
        obtain ⟨h1, -⟩ := next_fin hF (by linarith) hb
        have hs : ((7 - k : ℕ) : ℝ) ≤ x + 1 := by
          have : 7 - k = (7 - (k + 1)) + 1 := by omega
          rw [this, Nat.cast_add, Nat.cast_one]
          linarith
        have h2 : ((7 - k : ℕ) : ℝ) ≤ fl F (x + 1) := by
          have h3 := fl_mono hF.ok (Nat.cast_nonneg _) hs
          have h4 := fl_count hF.ok (s := 7 - k) (e := 0) (by
            have : 16 ≤ 2 ^ F.prec := by exact_mod_cast p4
            omega)
          rw [pow_zero, mul_one] at h4
          rwa [h4] at h3
        obtain ⟨n, hn, hr⟩ := ih (by omega) _ h2
        exact ⟨n + 1, by omega, Rounds.succ hb (by rw [h1]; exact hr)⟩
      · exact ⟨0, by omega, rounds_zero hb⟩
  exact key 7 (le_refl _) x (by simpa using hx)

/-- **C142**, for negative numbers that are not too large: the number of rounds is bounded by twice the distance. -/
theorem C142_negative_partial (hF : Stepped F) {x : ℝ} (h : -2 ^ F.prec ≤ x) :
    ∃ n : ℕ, (n : ℝ) ≤ 2 * |x| + 15 ∧ Rounds F (.fin x) n := by
  have key : ∀ k : ℕ, ∀ x : ℝ, -2 ^ F.prec ≤ x → 7 - x ≤ k / 2 → ∃ n ≤ k, Rounds F (.fin x) n := by
    intro k
    induction k with
    | zero =>
      intro x _ hk
      exact ⟨0, le_refl _, rounds_zero (by simp only [Below]; norm_num at hk; linarith)⟩
    | succ k ih =>
      intro x hx hk
      by_cases hb : x < 7
      · obtain ⟨h1, h2⟩ := next_fin hF hx hb
        obtain ⟨n, hn, hr⟩ := ih (fl F (x + 1)) (by linarith) (by push_cast at hk; linarith)
        exact ⟨n + 1, by omega, Rounds.succ hb (by rw [h1]; exact hr)⟩
      · exact ⟨0, by omega, rounds_zero hb⟩
  obtain ⟨n, hn, hr⟩ := key ⌈2 * (|x| + 7)⌉₊ x h (by
    have := Nat.le_ceil (2 * (|x| + 7))
    have := neg_abs_le x
    linarith)
  refine ⟨n, ?_, hr⟩
  have h1 : (n : ℝ) ≤ ⌈2 * (|x| + 7)⌉₊ := by exact_mod_cast hn
  have h2 := Nat.ceil_lt_add_one (show 0 ≤ 2 * (|x| + 7) by positivity)
  linarith

/-- A number that is its own successor is never left. -/
theorem stuck_never {x : Num} (hb : Below x) (h : nAdd F x (.fin 1) = x) (n : ℕ) : ¬ Rounds F x n := by
  have e : ∀ i, counted F x i = x := by
    intro i
    induction i with
    | zero => rfl
    | succ i ih => rw [counted, ih, h]
  intro hr
  exact hr.2 (by rw [e]; exact hb)

/-- **C142**, false for minus infinity. -/
theorem C142_ninf (n : ℕ) : ¬ Rounds F .ninf n := stuck_never (x := .ninf) trivial rfl n

theorem sum_fin {x : ℝ} (h1 : -2 ^ F.high < fl F (x + 1)) (h2 : fl F (x + 1) < 0) :
    nAdd F (.fin x) (.fin 1) = .fin (fl F (x + 1)) := by
  have : (0 : ℝ) < 2 ^ F.high := by positivity
  simp only [nAdd, toNum]
  rw [if_neg (by linarith), if_neg (by linarith)]

/-- **C142**, exactly: `digamma` of a finite negative number of the machine ends if and only if the number is at least
`-2^prec - 2`. -/
theorem C142_iff (hF : Stepped F) {x : ℝ} (hx : fl F x = x) (hr : -2 ^ F.high < x) :
    (∃ n, Rounds F (.fin x) n) ↔ -2 ^ F.prec - 2 ≤ x := by
  have p4 : (16 : ℝ) ≤ 2 ^ F.prec := by
    calc (16 : ℝ) = 2 ^ 4 := by norm_num
      _ ≤ 2 ^ F.prec := pow_le_pow_right₀ (by norm_num) hF.prec
  have hp := hF.prec
  have hpe : (2 : ℝ) ^ F.prec = 2 ^ (F.prec - 1) * 2 := by
    rw [← pow_succ]; congr 1; omega
  have fneg : ∀ y : ℝ, fl F (-y + 1) = -fl F (y - 1) := fun y => by rw [← fl_neg]; congr 1; ring
  -- large numbers are stuck
  have big : ∀ y : ℝ, fl F y = y → 2 ^ (F.prec + 1) ≤ y → y < 2 ^ F.high → ∀ n, ¬ Rounds F (.fin (-y)) n := by
    intro y hy h1 h2 n
    have h3 := fl_pred hF.ok hy h1
    have hy0 : (0 : ℝ) < y := lt_of_lt_of_le (by positivity) h1
    refine stuck_never (by simp only [Below]; linarith) ?_ n
    rw [sum_fin (by rw [fneg, h3]; linarith) (by rw [fneg, h3]; linarith), fneg, h3]
  have hi : (2 : ℝ) ^ F.prec * 4 ≤ 2 ^ F.high := by
    calc (2 : ℝ) ^ F.prec * 4 = 2 ^ (F.prec + 2) := by rw [pow_add]; norm_num
      _ ≤ 2 ^ F.high := pow_le_pow_right₀ (by norm_num) hF.high
  have mid : ∀ j : ℤ, 2 ^ (F.prec - 1) < j → j < 2 ^ F.prec → Even j → ∀ n, ¬ Rounds F (.fin (-((j : ℝ) * 2))) n := by
    intro j h1 h2 he n
    have h3 := fl_pred_mid hF.ok h1 h2
    rw [if_pos he] at h3
    have a1 : ((2 ^ (F.prec - 1) : ℤ) : ℝ) < (j : ℝ) := by exact_mod_cast h1
    have a2 : (j : ℝ) < ((2 ^ F.prec : ℤ) : ℝ) := by exact_mod_cast h2
    push_cast at a1 a2
    refine stuck_never (by simp only [Below]; linarith) ?_ n
    rw [sum_fin (by rw [fneg, h3]; linarith) (by rw [fneg, h3]; linarith), fneg, h3]
  constructor
  · rintro ⟨n, hn⟩
    by_contra hc
    push Not at hc
    have hy : fl F (-x) = -x := by rw [fl_neg, hx]
    rcases le_or_gt (2 ^ (F.prec + 1)) (-x) with hb | hb
    · have := big (-x) hy hb (by linarith) n
      rw [neg_neg] at this
      exact this hn
    · obtain ⟨j, hj⟩ := fl_even hF.ok hy (by linarith) hb
      rw [pow_succ] at hb
      have h1 : (2 ^ (F.prec - 1) + 1 : ℤ) < j := by
        have : ((2 ^ (F.prec - 1) + 1 : ℤ) : ℝ) < (j : ℝ) := by push_cast; linarith
        exact_mod_cast this
      have h2 : j < 2 ^ F.prec := by
        have : (j : ℝ) < ((2 ^ F.prec : ℤ) : ℝ) := by push_cast; linarith
        exact_mod_cast this
      have hxj : x = -((j : ℝ) * 2) := by linarith
      rw [hxj] at hn
      by_cases he : Even j
      · exact mid j (by omega) h2 he n hn
      · have h3 := fl_pred_mid hF.ok (by omega) h2
        rw [if_neg he] at h3
        have a1 : ((2 ^ (F.prec - 1) + 1 : ℤ) : ℝ) < (j : ℝ) := by exact_mod_cast h1
        have a2 : (j : ℝ) < ((2 ^ F.prec : ℤ) : ℝ) := by exact_mod_cast h2
        push_cast at a1 a2
        have hs : nAdd F (.fin (-((j : ℝ) * 2))) (.fin 1) = .fin (-(((j - 1 : ℤ) : ℝ) * 2)) := by
          rw [sum_fin (by rw [fneg, h3]; linarith) (by rw [fneg, h3]; linarith), fneg, h3]
          congr 1
          push_cast
          ring
        cases n with
        | zero => exact hn.2 (by simp only [counted, Below]; linarith)
        | succ n =>
          refine mid (j - 1) (by omega) (by omega) (by rw [Int.even_sub_one]; exact he) n ?_
          have e : ∀ i, counted F (.fin (-((j : ℝ) * 2))) (i + 1) = counted F (.fin (-(((j - 1 : ℤ) : ℝ) * 2))) i := by
            intro i
            rw [add_comm, counted_add, ← hs]
            rfl
          exact ⟨fun i hi => by rw [← e]; exact hn.1 (i + 1) (by omega), by rw [← e]; exact hn.2⟩
  · intro h
    rcases le_or_gt (-2 ^ F.prec) x with hb | hb
    · obtain ⟨n, -, hn⟩ := C142_negative_partial hF hb
      exact ⟨n, hn⟩
    · have hy : fl F (-x) = -x := by rw [fl_neg, hx]
      obtain ⟨j, hj⟩ := fl_even hF.ok hy (by linarith) (by rw [pow_succ]; linarith)
      have h1 : (2 ^ (F.prec - 1) : ℤ) < j := by
        have : ((2 ^ (F.prec - 1) : ℤ) : ℝ) < (j : ℝ) := by push_cast; linarith
        exact_mod_cast this
      have h2 : j ≤ 2 ^ (F.prec - 1) + 1 := by
        have : (j : ℝ) ≤ ((2 ^ (F.prec - 1) + 1 : ℤ) : ℝ) := by push_cast; linarith
        exact_mod_cast this
      have hj1 : j = 2 ^ (F.prec - 1) + 1 := by omega
      have he : ¬ Even j := by
        rw [hj1, Int.even_add_one, not_not]
        have : F.prec - 1 = (F.prec - 2) + 1 := by omega
        rw [this, pow_succ]
        rw [mul_comm]; exact even_two_mul _
      have hlt : j < 2 ^ F.prec := by
        have : (2 : ℤ) ^ F.prec = 2 ^ (F.prec - 1) * 2 := by rw [← pow_succ]; congr 1; omega
        have h16 : (8 : ℤ) ≤ 2 ^ (F.prec - 1) := by
          calc (8 : ℤ) = 2 ^ 3 := by norm_num
            _ ≤ 2 ^ (F.prec - 1) := pow_le_pow_right₀ (by norm_num) (by omega)
        omega
      have h3 := fl_pred_mid hF.ok h1 hlt
      rw [if_neg he] at h3
      have hxj : x = -((j : ℝ) * 2) := by linarith
      have ev : fl F (x + 1) = -2 ^ F.prec := by
        rw [hxj, fneg, h3, hj1]
        push_cast
        linarith
      obtain ⟨n, -, hn⟩ := C142_negative_partial hF (le_refl (-2 ^ F.prec : ℝ))
      refine ⟨n + 1, Rounds.succ (by simp only [Below]; linarith) ?_⟩
      rw [sum_fin (by rw [ev]; linarith) (by rw [ev]; linarith), ev]
      exact hn

/-- `digamma` of NaN and of infinity makes no round. -/
theorem C142_special : Rounds F .nan 0 ∧ Rounds F .pinf 0 := ⟨rounds_zero id, rounds_zero id⟩

end Verif.Overflow
