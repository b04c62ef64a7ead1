import Verif.Model.RoundedSearch
import Verif.Props.Bitwise

/-! Property C110: the Armijo line search and gradient descent in floating point. -/
namespace Verif.Rounded

open MathUtils Optim

variable {r c : ℕ}

/-! ### Rounding -/

/-- A set of numbers and a rounding that never jumps over one of them: every rounding mode of IEEE 754. -/
structure Faithful (fl : ℝ → ℝ) (Rep : ℝ → Prop) : Prop where
  rep : ∀ x, Rep (fl x)
  le : ∀ {x v : ℝ}, Rep v → x ≤ v → fl x ≤ v
  ge : ∀ {x v : ℝ}, Rep v → v ≤ x → v ≤ fl x
  zero : Rep 0

theorem Faithful.eq {fl : ℝ → ℝ} {Rep : ℝ → Prop} (h : Faithful fl Rep) {v : ℝ} (hv : Rep v) : fl v = v :=
  le_antisymm (h.le hv le_rfl) (h.ge hv le_rfl)

/-- The numbers with `p` bits that are multiples of `2 ^ e`. -/
def Rep (p : ℕ) (e : ℤ) (v : ℝ) : Prop := ∃ z k : ℤ, e ≤ k ∧ |(z : ℝ)| ≤ 2 ^ p ∧ v = z * 2 ^ k

theorem nearest_le {x : ℝ} {n : ℤ} (h : x ≤ n) : nearest x ≤ n := by
  unfold nearest
  have h1 := Int.floor_le x
  have h2 : ⌊x⌋ ≤ n := by exact_mod_cast h1.trans h
  split_ifs with a b d
  · exact h2
  · rcases h2.lt_or_eq with h3 | h3
    · omega
    · rw [h3] at b
      linarith
  · exact h2
  · rcases h2.lt_or_eq with h3 | h3
    · omega
    · rw [h3] at a
      linarith

theorem le_nearest {x : ℝ} {n : ℤ} (h : (n : ℝ) ≤ x) : n ≤ nearest x := by
  unfold nearest
  have h2 : n ≤ ⌊x⌋ := Int.le_floor.2 h
  split_ifs <;> omega

theorem two_zpow_pos (k : ℤ) : (0 : ℝ) < 2 ^ k := zpow_pos (by norm_num) k

/-- The exponent of the last place. -/
noncomputable def place (p : ℕ) (e : ℤ) (x : ℝ) : ℤ := max (Int.log 2 |x| - (p - 1)) e

theorem roundSub_eq (p : ℕ) (e : ℤ) (x : ℝ) : roundSub p e x = nearest (x / 2 ^ place p e x) * 2 ^ place p e x := rfl

theorem abs_lt_place (p : ℕ) (e : ℤ) (x : ℝ) : |x| < 2 ^ p * 2 ^ place p e x := by
  have h1 := Int.lt_zpow_succ_log_self (b := 2) (by norm_num) |x|
  refine h1.trans_le ?_
  have h2 : (2 : ℝ) ^ p * 2 ^ place p e x = 2 ^ ((p : ℤ) + place p e x) := by
    rw [zpow_add₀ (by norm_num), zpow_natCast]
  rw [h2, Nat.cast_ofNat]
  refine zpow_le_zpow_right₀ (by norm_num) ?_
  have := le_max_left (Int.log 2 |x| - ((p : ℤ) - 1)) e
  unfold place
  omega

/-- A number that is not a multiple of the last place of `x` is closer to zero than any of the binade of `x`. -/
theorem rep_cases {p : ℕ} {e : ℤ} {x v : ℝ} (hx : x ≠ 0) (hv : Rep p e v) :
    (∃ z : ℤ, v = z * 2 ^ place p e x) ∨ (|v| ≤ 2 ^ ((p : ℤ) - 1) * 2 ^ place p e x ∧
      2 ^ ((p : ℤ) - 1) * 2 ^ place p e x ≤ |x|) := by
  obtain ⟨z, k, hk, hz, rfl⟩ := hv
  rcases le_or_gt (place p e x) k with h | h
  · left
    refine ⟨z * 2 ^ (k - place p e x).toNat, ?_⟩
    push_cast
    rw [mul_assoc, ← zpow_natCast (2 : ℝ) (k - place p e x).toNat, ← zpow_add₀ (by norm_num)]
    congr 2
    omega
  · right
    have hm : place p e x = Int.log 2 |x| - (p - 1) := by
      unfold place at h ⊢
      rcases le_total (Int.log 2 |x| - ((p : ℤ) - 1)) e with h1 | h1
      · rw [max_eq_right h1] at h
        omega
      · exact max_eq_left h1
    constructor
    · rw [abs_mul, abs_of_pos (two_zpow_pos k)]
      calc |(z : ℝ)| * 2 ^ k ≤ 2 ^ p * 2 ^ k := mul_le_mul_of_nonneg_right hz (two_zpow_pos k).le
        _ = 2 ^ ((p : ℤ) + k) := by rw [zpow_add₀ (by norm_num), zpow_natCast]
        _ ≤ 2 ^ ((p : ℤ) - 1 + place p e x) := zpow_le_zpow_right₀ (by norm_num) (by omega)
        _ = _ := by rw [zpow_add₀ (by norm_num)]
    · rw [← zpow_add₀ (by norm_num), hm]
      have := Int.zpow_log_le_self (b := 2) (r := |x|) (by norm_num) (abs_pos.2 hx)
      rwa [Nat.cast_ofNat, ← show (p : ℤ) - 1 + (Int.log 2 |x| - (p - 1)) = Int.log 2 |x| by ring] at this

theorem rep_zero (p : ℕ) (e : ℤ) : Rep p e 0 := ⟨0, e, le_rfl, by simp, by simp⟩

theorem roundSub_zero (p : ℕ) (e : ℤ) : roundSub p e 0 = 0 := by
  rw [roundSub_eq, zero_div]
  have : nearest 0 = 0 := by
    have := nearest_int 0
    exact_mod_cast this
  rw [this, Int.cast_zero, zero_mul]

theorem rep_neg {p : ℕ} {e : ℤ} {v : ℝ} (h : Rep p e v) : Rep p e (-v) := by
  obtain ⟨z, k, hk, hz, rfl⟩ := h
  exact ⟨-z, k, hk, by simpa using hz, by push_cast; ring⟩

theorem pow_pred_int {p : ℕ} (hp : 0 < p) : ((2 ^ (p - 1) : ℤ) : ℝ) = 2 ^ ((p : ℤ) - 1) := by
  push_cast
  rw [← zpow_natCast (2 : ℝ) (p - 1)]
  congr 1
  omega

theorem faithful_roundSub {p : ℕ} (hp : 0 < p) (e : ℤ) : Faithful (roundSub p e) (Rep p e) where
  rep x := by
    have hu := two_zpow_pos (place p e x)
    refine ⟨nearest (x / 2 ^ place p e x), place p e x, le_max_right _ _, ?_, roundSub_eq p e x⟩
    have h := abs_lt_place p e x
    have h1 : |x / 2 ^ place p e x| ≤ 2 ^ p := by
      rw [abs_div, abs_of_pos hu, div_le_iff₀ hu]
      exact h.le
    rw [abs_le] at h1 ⊢
    constructor
    · have : -(2 ^ p : ℤ) ≤ nearest (x / 2 ^ place p e x) := le_nearest (by push_cast; exact h1.1)
      have h2 : ((-(2 ^ p : ℤ) : ℤ) : ℝ) ≤ nearest (x / 2 ^ place p e x) := Int.cast_le.2 this
      push_cast at h2
      exact h2
    · have : nearest (x / 2 ^ place p e x) ≤ (2 ^ p : ℤ) := nearest_le (by push_cast; exact h1.2)
      have h2 : (nearest (x / 2 ^ place p e x) : ℝ) ≤ ((2 ^ p : ℤ) : ℝ) := Int.cast_le.2 this
      push_cast at h2
      exact h2
  le {x v} hv h := by
    rcases eq_or_ne x 0 with rfl | hx
    · rw [roundSub_zero]
      exact h
    have hu := two_zpow_pos (place p e x)
    rw [roundSub_eq]
    rcases rep_cases hx hv with ⟨z, rfl⟩ | ⟨h1, h2⟩
    · refine mul_le_mul_of_nonneg_right (Int.cast_le.2 (nearest_le ?_)) hu.le
      rwa [div_le_iff₀ hu]
    · rcases lt_or_gt_of_ne hx with h0 | h0
      · rw [abs_of_neg h0] at h2
        have h3 : nearest (x / 2 ^ place p e x) ≤ -(2 ^ (p - 1) : ℤ) := by
          refine nearest_le ?_
          rw [Int.cast_neg, pow_pred_int hp, div_le_iff₀ hu]
          linarith
        have h4 : (nearest (x / 2 ^ place p e x) : ℝ) ≤ -2 ^ ((p : ℤ) - 1) := by
          rw [← pow_pred_int hp, ← Int.cast_neg]
          exact Int.cast_le.2 h3
        have h5 := mul_le_mul_of_nonneg_right h4 hu.le
        have := neg_abs_le v
        linarith
      · rw [abs_of_pos h0] at h2
        have h6 : x = v := by
          have := le_abs_self v
          linarith
        have h7 : x = 2 ^ ((p : ℤ) - 1) * 2 ^ place p e x := by
          have := le_abs_self v
          linarith
        have h8 : nearest (x / 2 ^ place p e x) ≤ (2 ^ (p - 1) : ℤ) := by
          refine nearest_le ?_
          rw [pow_pred_int hp, div_le_iff₀ hu, ← h7]
        have h4 : (nearest (x / 2 ^ place p e x) : ℝ) ≤ 2 ^ ((p : ℤ) - 1) := by
          rw [← pow_pred_int hp]
          exact Int.cast_le.2 h8
        have h5 := mul_le_mul_of_nonneg_right h4 hu.le
        linarith
  ge {x v} hv h := by
    rcases eq_or_ne x 0 with rfl | hx
    · rw [roundSub_zero]
      exact h
    have hu := two_zpow_pos (place p e x)
    rw [roundSub_eq]
    rcases rep_cases hx hv with ⟨z, rfl⟩ | ⟨h1, h2⟩
    · refine mul_le_mul_of_nonneg_right (Int.cast_le.2 (le_nearest ?_)) hu.le
      rwa [le_div_iff₀ hu]
    · rcases lt_or_gt_of_ne hx with h0 | h0
      · rw [abs_of_neg h0] at h2
        have h7 : -x = 2 ^ ((p : ℤ) - 1) * 2 ^ place p e x := by
          have := neg_abs_le v
          linarith
        have h8 : -(2 ^ (p - 1) : ℤ) ≤ nearest (x / 2 ^ place p e x) := by
          refine le_nearest ?_
          rw [Int.cast_neg, pow_pred_int hp, le_div_iff₀ hu]
          linarith
        have h4 : -2 ^ ((p : ℤ) - 1) ≤ (nearest (x / 2 ^ place p e x) : ℝ) := by
          rw [← pow_pred_int hp, ← Int.cast_neg]
          exact Int.cast_le.2 h8
        have h5 := mul_le_mul_of_nonneg_right h4 hu.le
        linarith
      · rw [abs_of_pos h0] at h2
        have h3 : (2 ^ (p - 1) : ℤ) ≤ nearest (x / 2 ^ place p e x) := by
          refine le_nearest ?_
          rw [pow_pred_int hp, le_div_iff₀ hu]
          linarith
        have h4 : (2 : ℝ) ^ ((p : ℤ) - 1) ≤ (nearest (x / 2 ^ place p e x) : ℝ) := by
          rw [← pow_pred_int hp]
          exact Int.cast_le.2 h3
        have h5 := mul_le_mul_of_nonneg_right h4 hu.le
        have := le_abs_self v
        linarith
  zero := rep_zero p e

theorem roundSub_err {p : ℕ} {e : ℤ} (x : ℝ) : |roundSub p e x - x| ≤ 2 ^ place p e x / 2 := by
  have hu := two_zpow_pos (place p e x)
  have h : roundSub p e x - x = (nearest (x / 2 ^ place p e x) - x / 2 ^ place p e x) * 2 ^ place p e x := by
    rw [roundSub_eq, sub_mul, div_mul_cancel₀ _ hu.ne']
  rw [h, abs_mul, abs_of_pos hu]
  have := mul_le_mul_of_nonneg_right (nearest_err (x / 2 ^ place p e x)) hu.le
  linarith

/-- A number is absorbed by one whose last place is four times as large. -/
theorem roundSub_absorb {p : ℕ} (hp : 0 < p) {e : ℤ} {v t : ℝ} (hv : Rep p e v) (h0 : 0 < v) (ht : 0 ≤ t)
    (h : t < 2 ^ (Int.log 2 v - p - 1)) : roundSub p e (v - t) = v := by
  have hF := faithful_roundSub hp e
  refine le_antisymm (hF.le hv (by linarith)) ?_
  have hlog : (2 : ℝ) ^ Int.log 2 v ≤ v := by
    have := Int.zpow_log_le_self (b := 2) (r := v) (by norm_num) h0
    exact_mod_cast this
  have hsmall : (2 : ℝ) ^ (Int.log 2 v - p - 1) ≤ 2 ^ (Int.log 2 v - 1) :=
    zpow_le_zpow_right₀ (by norm_num) (by omega)
  have hhalf : (2 : ℝ) ^ Int.log 2 v = 2 ^ (Int.log 2 v - 1) * 2 := by
    rw [← zpow_add_one₀ (by norm_num)]
    congr 1
    ring
  have hy : (2 : ℝ) ^ (Int.log 2 v - 1) ≤ v - t := by linarith
  have hpos : 0 < v - t := (two_zpow_pos _).trans_le hy
  have hl : Int.log 2 v - 1 ≤ Int.log 2 (v - t) := by
    rw [← Int.zpow_le_iff_le_log (by norm_num) hpos]
    exact_mod_cast hy
  have hm : Int.log 2 v - p ≤ place p e (v - t) := by
    have := le_max_left (Int.log 2 |v - t| - ((p : ℤ) - 1)) e
    unfold place
    rw [abs_of_pos hpos] at this ⊢
    omega
  have hu := two_zpow_pos (place p e (v - t))
  rcases rep_cases hpos.ne' hv with ⟨z, hz⟩ | ⟨h1, h2⟩
  · have hs : t < 2 ^ place p e (v - t) / 2 := by
      refine h.trans_le ?_
      rw [le_div_iff₀ (by norm_num), ← zpow_add_one₀ (by norm_num)]
      exact zpow_le_zpow_right₀ (by norm_num) (by omega)
    have hn := nearest_err ((v - t) / 2 ^ place p e (v - t))
    have hd : (v - t) / 2 ^ place p e (v - t) = z - t / 2 ^ place p e (v - t) := by
      rw [sub_div]
      congr 1
      rw [div_eq_iff hu.ne']
      exact hz
    have hs' : t / 2 ^ place p e (v - t) < 1 / 2 := by
      rw [div_lt_iff₀ hu]
      linarith
    have hge : z ≤ nearest ((v - t) / 2 ^ place p e (v - t)) := by
      have h3 : (z : ℝ) - 1 < nearest ((v - t) / 2 ^ place p e (v - t)) := by
        rw [hd] at hn ⊢
        rw [abs_le] at hn
        linarith [hn.1]
      have h4 : z - 1 < nearest ((v - t) / 2 ^ place p e (v - t)) := by exact_mod_cast h3
      omega
    rw [roundSub_eq]
    calc v = z * 2 ^ place p e (v - t) := hz
      _ ≤ _ := mul_le_mul_of_nonneg_right (Int.cast_le.2 hge) hu.le
  · refine hF.ge hv ?_
    rw [abs_of_pos hpos] at h2
    have := le_abs_self v
    linarith

/-! ### The search -/

theorem rLoop_value {fl : ℝ → ℝ} {Rep : ℝ → Prop} (hF : Faithful fl Rep) {f : Mat r c ℝ → Option ℝ}
    {x p : Mat r c ℝ} {v0 dec tau a v a' v' : ℝ} (hv : Rep v0) (hd : 0 ≤ dec) (ha : 0 ≤ a) (ht : 0 ≤ tau)
    (hf : f (rMove fl x a p) = some v) (h : RArmijoLoop fl f x p v0 dec tau a v a' v') :
    f (rMove fl x a' p) = some v' ∧ v' ≤ v0 := by
  induction h with
  | @exit a v h =>
    refine ⟨hf, (not_lt.1 h).trans (hF.le hv ?_)⟩
    have : 0 ≤ fl (a * dec) := hF.ge hF.zero (mul_nonneg ha hd)
    linarith
  | again h1 h2 _ ih => exact ih (hF.ge hF.zero (mul_nonneg ha ht)) h2

theorem summation_nonneg {fl : ℝ → ℝ} {Rep : ℝ → Prop} (hF : Faithful fl Rep) {l : List ℝ} {S : ℝ}
    (h : Summation fl l S) (hl : ∀ y ∈ l, 0 ≤ y) : 0 ≤ S := by
  induction h with
  | nil => exact le_rfl
  | one x => exact hl x (by simp)
  | add _ _ _ _ hp ih1 ih2 =>
    exact hF.ge hF.zero (add_nonneg (ih1 fun y hy => hl y (hp.mem_iff.2 (List.mem_append_left _ hy)))
      (ih2 fun y hy => hl y (hp.mem_iff.2 (List.mem_append_right _ hy))))

/-- The test of the line search, at its first step, cannot tell the value it demands from the value it has. -/
def Absorbed (fl fld : ℝ → ℝ) (beta tau : ℝ) (f : Mat r c ℝ → Option ℝ) (x g : Mat r c ℝ) : Prop :=
  ∃ v S : ℝ, f x = some v ∧ Summation fl (rProducts fl g g) S ∧
    v = fl (v - fl (fl (fld (1 / tau)) * fl (beta * S)))

/-- `C110`, the part that holds, for one search: the value returned is that of the position returned and not above
that of the position given, unless the decrease demanded of the first step is too small to change the value, in which
case that step is made without looking at the function. -/
theorem C110_search_partial {fl fld : ℝ → ℝ} {Rep RepD : ℝ → Prop} (hF : Faithful fl Rep) (hD : Faithful fld RepD)
    {beta tau : ℝ} (hb : 0 ≤ beta) (ht : 0 < tau) {f : Mat r c ℝ → Option ℝ} {x g x' : Mat r c ℝ} {v0 v : ℝ}
    (h0 : f x = some v0) (hv : Rep v0) (h : RArmijoSearch fl fld beta tau f x g g x' v) :
    f x' = some v ∧ v ≤ v0 ∨
      Absorbed fl fld beta tau f x g ∧ v = v0 ∧ x' = rMove fl x (fl (fld (1 / tau))) g := by
  obtain ⟨v1, S, a, h1, -, hS, hl, rfl⟩ := h
  obtain rfl : v0 = v1 := by
    rw [h0] at h1
    exact Option.some.inj h1
  have ha : 0 ≤ fl (fld (1 / tau)) := hF.ge hF.zero (hD.ge hD.zero (by positivity))
  have hS0 : 0 ≤ S := summation_nonneg hF hS fun y hy => by
    simp only [rProducts, List.mem_flatMap, List.mem_map, List.mem_finRange, true_and] at hy
    obtain ⟨i, j, rfl⟩ := hy
    exact hF.ge hF.zero (mul_self_nonneg _)
  have hd : 0 ≤ fl (beta * S) := hF.ge hF.zero (mul_nonneg hb hS0)
  cases hl with
  | exit hn =>
    right
    refine ⟨⟨v0, S, h0, hS, le_antisymm (not_lt.1 hn) (hF.le hv ?_)⟩, rfl, rfl⟩
    have : 0 ≤ fl (fl (fld (1 / tau)) * fl (beta * S)) := hF.ge hF.zero (mul_nonneg ha hd)
    linarith
  | again h2 h3 h4 =>
    left
    exact rLoop_value hF hv hd (hF.ge hF.zero (mul_nonneg ha ht.le)) ht.le h3 h4

theorem rDescent {T : Type} {fl fld : ℝ → ℝ} {Rep RepD : ℝ → Prop} (hF : Faithful fl Rep) (hD : Faithful fld RepD)
    {beta tau : ℝ} (hb : 0 ≤ beta) (ht : 0 < tau) {pr : Problem r c} (hpr : ∀ y v, pr.value y = some v → Rep v)
    {progress : Progress T} {x x' : Mat r c ℝ} {v : ℝ} {g : Option (Mat r c ℝ)} {i : ℕ} {s s' : T}
    (h : DescentLoop (RArmijoSearch fl fld beta tau) pr progress x v g i s x' s') (hv : pr.value x = some v) :
    (∃ v', pr.value x' = some v' ∧ v' ≤ v) ∨
      ∃ y g, pr.gradient y = some g ∧ Absorbed fl fld beta tau pr.value y g ∧
        rMove fl y (fl (fld (1 / tau))) g ≠ y := by
  induction h with
  | stop _ => exact .inl ⟨_, hv, le_rfl⟩
  | @again x x' xf v v' g g' i s s' sf h1 h2 h3 _ ih =>
    rcases C110_search_partial hF hD hb ht hv (hpr _ _ hv) h3 with ⟨h4, h5⟩ | ⟨h4, h5, h6⟩
    · rcases ih h4 with ⟨w, h7, h8⟩ | h7
      · exact .inl ⟨w, h7, h8.trans h5⟩
      · exact .inr h7
    · by_cases h7 : rMove fl x (fl (fld (1 / tau))) g' = x
      · rw [h7] at h6
        subst h6 h5
        exact ih hv
      · exact .inr ⟨x, g', h2, h4, h7⟩

/-- `C110`, the part that holds, for `minimize()` with any callback: the value of the final position is not above that
of the first one, unless a step was made without looking at the function. -/
theorem C110_minimize_partial {T : Type} {fl fld : ℝ → ℝ} {Rep RepD : ℝ → Prop} (hF : Faithful fl Rep)
    (hD : Faithful fld RepD) {beta tau : ℝ} (hb : 0 ≤ beta) (ht : 0 < tau) {pr : Problem r c}
    (hpr : ∀ y v, pr.value y = some v → Rep v) {progress : Progress T} {x x' : Mat r c ℝ} {s s' : T}
    (h : Minimize (RArmijoSearch fl fld beta tau) pr progress x s x' s') :
    (∃ v v', pr.value x = some v ∧ pr.value x' = some v' ∧ v' ≤ v) ∨
      ∃ y g, pr.gradient y = some g ∧ Absorbed fl fld beta tau pr.value y g ∧
        rMove fl y (fl (fld (1 / tau))) g ≠ y := by
  obtain ⟨v, hv, h⟩ := h
  rcases rDescent hF hD hb ht hpr h hv with ⟨v', h1, h2⟩ | h1
  · exact .inl ⟨v, v', hv, h1, h2⟩
  · exact .inr h1

/-- When the decrease demanded of the first step is less than a quarter of the last place of the value, the search
makes that step and returns the value it started from, whatever the function is elsewhere. -/
theorem C110_unchecked {p : ℕ} (hp : 0 < p) {e : ℤ} {fld : ℝ → ℝ} {RepD : ℝ → Prop} (hD : Faithful fld RepD)
    {beta tau : ℝ} (hb : 0 ≤ beta) (ht : 0 < tau) {f : Mat r c ℝ → Option ℝ} {x g x' : Mat r c ℝ} {v0 v : ℝ}
    (h0 : f x = some v0) (hv : Rep p e v0) (hpos : 0 < v0)
    (hsmall : ∀ S, Summation (roundSub p e) (rProducts (roundSub p e) g g) S →
      roundSub p e (roundSub p e (fld (1 / tau)) * roundSub p e (beta * S)) < 2 ^ (Int.log 2 v0 - p - 1)) :
    RArmijoSearch (roundSub p e) fld beta tau f x g g x' v ↔
      v = v0 ∧ x' = rMove (roundSub p e) x (roundSub p e (fld (1 / tau))) g := by
  have hF := faithful_roundSub hp e
  have ha : 0 ≤ roundSub p e (fld (1 / tau)) := hF.ge hF.zero (hD.ge hD.zero (by positivity))
  have key : ∀ S, Summation (roundSub p e) (rProducts (roundSub p e) g g) S →
      roundSub p e (v0 - roundSub p e (roundSub p e (fld (1 / tau)) * roundSub p e (beta * S))) = v0 := by
    intro S hS
    refine roundSub_absorb hp hv hpos (hF.ge hF.zero (mul_nonneg ha (hF.ge hF.zero (mul_nonneg hb ?_)))) (hsmall S hS)
    refine summation_nonneg hF hS fun y hy => ?_
    simp only [rProducts, List.mem_flatMap, List.mem_map, List.mem_finRange, true_and] at hy
    obtain ⟨i, j, rfl⟩ := hy
    exact hF.ge hF.zero (mul_self_nonneg _)
  constructor
  · rintro ⟨v1, S, a, h1, -, hS, hl, rfl⟩
    obtain rfl : v0 = v1 := by
      rw [h0] at h1
      exact Option.some.inj h1
    cases hl with
    | exit hn => exact ⟨rfl, rfl⟩
    | again h2 _ _ =>
      rw [key S hS] at h2
      exact absurd h2 (lt_irrefl _)
  · rintro ⟨rfl, rfl⟩
    have hS := summation_left (roundSub p e) (rProducts (roundSub p e) g g)
    exact ⟨v, _, _, h0, ht.ne', hS, .exit (by rw [key _ hS]; exact lt_irrefl _), rfl⟩

/-! ### Termination -/

theorem roundSub_halve {p : ℕ} (hp : 0 < p) {e : ℤ} {a tau : ℝ} (h0 : 0 ≤ tau) (ht : tau ≤ 1 / 2) (ha : 0 ≤ a)
    (n : ℕ) (h : a ≤ 2 ^ (e + n + 1)) : roundSub p e (a * tau) ≤ 2 ^ (e + n) := by
  refine (faithful_roundSub hp e).le ⟨1, e + n, by omega, ?_, by simp⟩ ?_
  · rw [Int.cast_one, abs_one]
    exact one_le_pow₀ (by norm_num)
  · have : (2 : ℝ) ^ (e + n + 1) = 2 ^ (e + n) * 2 := zpow_add_one₀ (by norm_num) _
    nlinarith

theorem roundSub_vanish {p : ℕ} (hp : 0 < p) {e : ℤ} {x : ℝ} (h0 : 0 ≤ x) (h : x ≤ 2 ^ e / 2) : roundSub p e x = 0 := by
  rcases h0.eq_or_lt with rfl | h0
  · exact roundSub_zero p e
  have hlog : Int.log 2 x < e := by
    rw [← Int.lt_zpow_iff_log_lt (by norm_num) h0]
    have := two_zpow_pos e
    rw [Nat.cast_ofNat]
    linarith
  have hm : place p e x = e := by
    unfold place
    rw [abs_of_pos h0]
    exact max_eq_right (by omega)
  have he := two_zpow_pos e
  have hn : nearest (x / 2 ^ e) = 0 := by
    have h1 : x / 2 ^ e ≤ 1 / 2 := by
      rw [div_le_iff₀ he]
      linarith
    have h2 : 0 < x / 2 ^ e := div_pos h0 he
    have hfl : ⌊x / 2 ^ e⌋ = 0 := by
      rw [Int.floor_eq_iff]
      constructor
      · simpa using h2.le
      · simp only [Int.cast_zero]
        linarith
    unfold nearest
    rw [hfl]
    simp only [Int.cast_zero, sub_zero]
    split_ifs with a b d
    · rfl
    · linarith
    · rfl
    · exact absurd (by decide : Even (0 : ℤ)) d
  rw [roundSub_eq, hm, hn]
  simp

/-- The loop ends when the step has become zero. -/
theorem rLoop_ends {p : ℕ} (hp : 0 < p) {e : ℤ} {tau : ℝ} (h0 : 0 ≤ tau) (ht : tau ≤ 1 / 2)
    {f : Mat r c ℝ → Option ℝ} (hf : ∀ y, ∃ v, f y = some v) {x g : Mat r c ℝ} (hx : ∀ i j, Rep p e (x i j)) {v0 : ℝ}
    (hv0 : f x = some v0) (hv : Rep p e v0) (dec : ℝ) :
    ∀ (n : ℕ) (a v : ℝ), 0 ≤ a → a ≤ 2 ^ (e + n) →
      ∃ a' v', RArmijoLoop (roundSub p e) f x g v0 dec tau a v a' v' := by
  have hF := faithful_roundSub hp e
  have hzero : ∀ v, ∃ a' v', f (rMove (roundSub p e) x 0 g) = some v →
      RArmijoLoop (roundSub p e) f x g v0 dec tau 0 v a' v' := by
    intro v
    refine ⟨0, v, fun h => .exit ?_⟩
    have hm : rMove (roundSub p e) x 0 g = x := by
      funext i j
      simp only [rMove, zero_mul, roundSub_zero, sub_zero]
      exact hF.eq (hx i j)
    rw [hm, hv0] at h
    rw [zero_mul, roundSub_zero, sub_zero, hF.eq hv, ← Option.some.inj h]
    exact lt_irrefl _
  intro n
  induction n with
  | zero =>
    intro a v ha h
    by_cases hc : v > roundSub p e (v0 - roundSub p e (a * dec))
    · obtain ⟨w, hw⟩ := hf (rMove (roundSub p e) x (roundSub p e (a * tau)) g)
      have hz : roundSub p e (a * tau) = 0 := by
        refine roundSub_vanish hp (mul_nonneg ha h0) ?_
        simp only [Nat.cast_zero, add_zero] at h
        nlinarith
      obtain ⟨a', v', h'⟩ := hzero w
      refine ⟨a', v', .again hc hw ?_⟩
      rw [hz] at hw ⊢
      exact h' hw
    · exact ⟨a, v, .exit hc⟩
  | succ n ih =>
    intro a v ha h
    by_cases hc : v > roundSub p e (v0 - roundSub p e (a * dec))
    · obtain ⟨w, hw⟩ := hf (rMove (roundSub p e) x (roundSub p e (a * tau)) g)
      obtain ⟨a', v', h'⟩ := ih (roundSub p e (a * tau)) w (hF.ge hF.zero (mul_nonneg ha h0))
        (roundSub_halve hp h0 ht ha n (by push_cast at h; rwa [← add_assoc] at h))
      exact ⟨a', v', .again hc hw h'⟩
    · exact ⟨a, v, .exit hc⟩

/-- In floating point a search whose step is at least halved (the default: `tau` is `0.5`) ends for every function that
has values, whatever gradient and direction it is given: at the latest when the step has become zero. -/
theorem C110_terminates {p : ℕ} (hp : 0 < p) (e : ℤ) {fld : ℝ → ℝ} {RepD : ℝ → Prop} (hD : Faithful fld RepD)
    (beta : ℝ) {tau : ℝ} (h0 : 0 < tau) (ht : tau ≤ 1 / 2) {f : Mat r c ℝ → Option ℝ}
    (hf : ∀ y, ∃ v, f y = some v ∧ Rep p e v) {x : Mat r c ℝ} (hx : ∀ i j, Rep p e (x i j)) (g d : Mat r c ℝ) :
    ∃ x' v, RArmijoSearch (roundSub p e) fld beta tau f x g d x' v := by
  have hF := faithful_roundSub hp e
  obtain ⟨v0, hv0, hv⟩ := hf x
  have ha : 0 ≤ roundSub p e (fld (1 / tau)) := hF.ge hF.zero (hD.ge hD.zero (by positivity))
  obtain ⟨n, hn⟩ : ∃ n : ℕ, roundSub p e (fld (1 / tau)) ≤ 2 ^ (e + n) := by
    obtain ⟨n, hn⟩ := pow_unbounded_of_one_lt (roundSub p e (fld (1 / tau)) / 2 ^ e) (by norm_num : (1 : ℝ) < 2)
    refine ⟨n, ?_⟩
    rw [zpow_add₀ (by norm_num), zpow_natCast]
    rw [div_lt_iff₀ (two_zpow_pos e)] at hn
    linarith
  have hS := summation_left (roundSub p e) (rProducts (roundSub p e) g d)
  obtain ⟨a', v', h⟩ := rLoop_ends hp h0.le ht (fun y => (hf y).imp fun _ h => h.1) (g := d) hx hv0 hv
    (roundSub p e (beta * sumLeft (roundSub p e) (rProducts (roundSub p e) g d))) n _ v0 ha hn
  exact ⟨_, v', v0, _, a', hv0, h0.ne', hS, h, rfl⟩

/-! ### Examples -/

theorem rep_small {p : ℕ} {e : ℤ} (hp : 7 ≤ p) (he : e ≤ -10) (z k : ℤ) (hz : |z| ≤ 128) (hk : -10 ≤ k) {v : ℝ}
    (hv : v = z * 2 ^ k) : Rep p e v := by
  refine ⟨z, k, he.trans hk, ?_, hv⟩
  have h1 : ((|z| : ℤ) : ℝ) ≤ ((128 : ℤ) : ℝ) := Int.cast_le.2 hz
  rw [Int.cast_abs] at h1
  refine h1.trans ?_
  calc ((128 : ℤ) : ℝ) = 2 ^ 7 := by norm_num
    _ ≤ 2 ^ p := pow_le_pow_right₀ (by norm_num) hp

/-- `b + 2 * x * x` and its derivative, computed in floating point, for one parameter. -/
noncomputable def bowl (fl : ℝ → ℝ) (b : ℝ) : Problem 1 1 where
  value x := some (fl (b + 2 * x 0 0 ^ 2))
  gradient x := some fun _ _ => fl (4 * x 0 0)

theorem products_one (fl : ℝ → ℝ) (g : Mat 1 1 ℝ) : rProducts fl g g = [fl (g 0 0 * g 0 0)] := by
  simp [rProducts, List.finRange_succ]

theorem summation_single {fl : ℝ → ℝ} {l : List ℝ} {S : ℝ} (h : Summation fl l S) (hl : l.length = 1) : l = [S] := by
  cases h with
  | nil => simp at hl
  | one x => rfl
  | @add l1 l2 _ _ _ h1 h2 _ _ hp =>
    have := hp.length_eq
    rw [List.length_append] at this
    have := List.length_pos_iff.2 h1
    have := List.length_pos_iff.2 h2
    omega

theorem rep_big {p : ℕ} {e : ℤ} (hp : 7 ≤ p) (he : e ≤ -10) {m : ℕ} (hm : m ≤ 49) :
    Rep p e (2 ^ p + 2 * m) := by
  refine ⟨2 ^ (p - 1) + m, 1, by omega, ?_, ?_⟩
  · rw [abs_of_nonneg (by positivity)]
    push_cast
    obtain ⟨q, rfl⟩ : ∃ q, p = q + 7 := ⟨p - 7, by omega⟩
    have h1 : (m : ℝ) ≤ 49 := by exact_mod_cast hm
    have h2 : (1 : ℝ) ≤ 2 ^ q := one_le_pow₀ (by norm_num)
    have h3 : q + 7 - 1 = q + 6 := rfl
    rw [h3, pow_add, pow_add]
    norm_num
    linarith
  · push_cast
    rw [zpow_one, add_mul, ← pow_succ, Nat.sub_add_cancel (by omega)]
    ring

theorem log_big {p : ℕ} (hp : 7 ≤ p) : Int.log 2 ((2 : ℝ) ^ p + 2) = p := by
  have hpos : (0 : ℝ) < 2 ^ p + 2 := by positivity
  have h8 : (2 : ℝ) < 2 ^ p := by
    calc (2 : ℝ) < 2 ^ 7 := by norm_num
      _ ≤ 2 ^ p := pow_le_pow_right₀ (by norm_num) hp
  have a1 : (p : ℤ) ≤ Int.log 2 ((2 : ℝ) ^ p + 2) := by
    rw [← Int.zpow_le_iff_le_log (by norm_num) hpos]
    push_cast
    rw [zpow_natCast]
    linarith
  have a2 : Int.log 2 ((2 : ℝ) ^ p + 2) < p + 1 := by
    rw [← Int.lt_zpow_iff_log_lt (by norm_num) hpos]
    push_cast
    rw [zpow_add_one₀ (by norm_num), zpow_natCast]
    linarith
  omega

theorem faithful_double : Faithful (roundSub 53 (-1074)) (Rep 53 (-1074)) := faithful_roundSub (by norm_num) _

theorem first_step {p : ℕ} {e : ℤ} (hp : 7 ≤ p) (he : e ≤ -10) :
    roundSub p e (roundSub 53 (-1074) (1 / (1 / 2))) = 2 := by
  have h1 : (1 : ℝ) / (1 / 2) = 2 := by norm_num
  rw [h1, faithful_double.eq (rep_small (by norm_num) (by norm_num) 1 1 (by norm_num) (by norm_num) (by norm_num)),
    (faithful_roundSub (by omega) e).eq (rep_small hp he 1 1 (by norm_num) (by norm_num) (by norm_num))]

/-- The only result of the search at `1`, with the default parameters. -/
theorem bowl_search {p : ℕ} {e : ℤ} (hp : 7 ≤ p) (he : e ≤ -10) (x' : Mat 1 1 ℝ) (v : ℝ) :
    RArmijoSearch (roundSub p e) (roundSub 53 (-1074)) (roundSub p e (roundSub 53 (-1074) (1 / 1000))) (1 / 2)
      (bowl (roundSub p e) (2 ^ p)).value (fun _ _ => 1) (fun _ _ => 4) (fun _ _ => 4) x' v ↔
    v = 2 ^ p + 2 ∧ x' = fun _ _ => -7 := by
  have hp0 : 0 < p := by omega
  have hF := faithful_roundSub hp0 e
  have hrep : Rep p e ((2 : ℝ) ^ p + 2) := by
    have := rep_big (p := p) (e := e) hp he (m := 1) (by norm_num)
    simpa using this
  have hval : (bowl (roundSub p e) (2 ^ p)).value (fun _ _ => 1) = some (2 ^ p + 2) := by
    simp only [bowl]
    norm_num
    exact hF.eq hrep
  have hb0 : 0 ≤ roundSub p e (roundSub 53 (-1074) (1 / 1000)) :=
    hF.ge hF.zero (faithful_double.ge faithful_double.zero (by norm_num))
  have hb1 : roundSub p e (roundSub 53 (-1074) (1 / 1000)) ≤ 1 / 256 :=
    hF.le (rep_small hp he 1 (-8) (by norm_num) (by norm_num) (by norm_num))
      (faithful_double.le (rep_small (by norm_num) (by norm_num) 1 (-8) (by norm_num) (by norm_num) (by norm_num))
        (by norm_num))
  have hS : ∀ S, Summation (roundSub p e) (rProducts (roundSub p e) (fun _ _ : Fin 1 => (4 : ℝ)) fun _ _ => 4) S →
      S = 16 := by
    intro S hS
    rw [products_one] at hS
    have h1 := summation_single hS rfl
    simp only [List.cons.injEq, and_true] at h1
    rw [← h1, show (4 : ℝ) * 4 = 16 by norm_num]
    exact hF.eq (rep_small hp he 16 0 (by norm_num) (by norm_num) (by norm_num))
  rw [C110_unchecked hp0 faithful_double hb0 (by norm_num) hval hrep (by positivity)]
  · rw [first_step hp he]
    have hm : rMove (roundSub p e) (fun _ _ : Fin 1 => (1 : ℝ)) 2 (fun _ _ => 4) = fun _ _ => -7 := by
      funext i j
      simp only [rMove]
      rw [show (2 : ℝ) * 4 = 8 by norm_num,
        hF.eq (rep_small hp he 8 0 (by norm_num) (by norm_num) (by norm_num : (8 : ℝ) = _)),
        show (1 : ℝ) - 8 = -7 by norm_num]
      exact hF.eq (rep_small hp he (-7) 0 (by norm_num) (by norm_num) (by norm_num))
    rw [hm]
  · intro S h
    rw [hS S h, log_big hp, first_step hp he]
    have h1 : roundSub p e (roundSub p e (roundSub 53 (-1074) (1 / 1000)) * 16) ≤ 1 / 16 :=
      hF.le (rep_small hp he 1 (-4) (by norm_num) (by norm_num) (by norm_num)) (by linarith)
    have h2 : roundSub p e (2 * roundSub p e (roundSub p e (roundSub 53 (-1074) (1 / 1000)) * 16)) ≤ 1 / 8 :=
      hF.le (rep_small hp he 1 (-3) (by norm_num) (by norm_num) (by norm_num)) (by linarith)
    refine h2.trans_lt ?_
    rw [sub_self, zero_sub]
    norm_num

/-- `C110` fails: minimising `2 ^ p + 2 * x * x` from `1` with the default line search and the callback of the M
steps (any limit, any tolerance), in `float`, `double` or any other precision, ends at `-7`, where the function is
larger, in the same numbers; and nothing else can happen. -/
theorem C110_increases {p : ℕ} {e : ℤ} (hp : 7 ≤ p) (he : e ≤ -10) {limit : ℕ} (hl : 0 < limit) {tol : ℝ}
    (ht : 0 ≤ tol) :
    (∀ y v, (bowl (roundSub p e) (2 ^ p)).value y = some v → Rep p e v) ∧
    (bowl (roundSub p e) (2 ^ p)).value (fun _ _ => 1) = some (2 ^ p + 2) ∧
    (bowl (roundSub p e) (2 ^ p)).value (fun _ _ => -7) = some (2 ^ p + 98) ∧
    (∃ s', Minimize (RArmijoSearch (roundSub p e) (roundSub 53 (-1074))
      (roundSub p e (roundSub 53 (-1074) (1 / 1000))) (1 / 2)) (bowl (roundSub p e) (2 ^ p)) (mStepProgress limit tol)
      (fun _ _ => 1) (none, []) (fun _ _ => -7) s') ∧
    ∀ x' s', Minimize (RArmijoSearch (roundSub p e) (roundSub 53 (-1074))
      (roundSub p e (roundSub 53 (-1074) (1 / 1000))) (1 / 2)) (bowl (roundSub p e) (2 ^ p)) (mStepProgress limit tol)
      (fun _ _ => 1) (none, []) x' s' → x' = fun _ _ => -7 := by
  have hp0 : 0 < p := by omega
  have hF := faithful_roundSub hp0 e
  have hval : (bowl (roundSub p e) (2 ^ p)).value (fun _ _ => 1) = some (2 ^ p + 2) := by
    have hrep := rep_big (p := p) (e := e) hp he (m := 1) (by norm_num)
    simp only [bowl]
    norm_num at hrep ⊢
    exact hF.eq hrep
  have hval' : (bowl (roundSub p e) (2 ^ p)).value (fun _ _ => -7) = some (2 ^ p + 98) := by
    have hrep := rep_big (p := p) (e := e) hp he (m := 49) (by norm_num)
    simp only [bowl]
    norm_num at hrep ⊢
    exact hF.eq hrep
  have hgrad : (bowl (roundSub p e) (2 ^ p)).gradient (fun _ _ => 1) = some fun _ _ => 4 := by
    simp only [bowl, mul_one]
    rw [hF.eq (rep_small hp he 4 0 (by norm_num) (by norm_num) (by norm_num))]
  have hpos : (0 : ℝ) < 2 ^ p + 2 := by positivity
  have hgo : ∀ n, mStepProgress limit tol (none, []) (2 ^ p + 2) n 0 = ((some (2 ^ p + 2), [-(2 ^ p + 2)]), true) := by
    intro n
    simp [mStepProgress, improves, hl, hpos.le]
  have hstop : ∀ l n i, mStepProgress limit tol (some (2 ^ p + 2), l) (2 ^ p + 2) n i =
      ((some (2 ^ p + 2), l ++ [-(2 ^ p + 2)]), false) := by
    intro l n i
    simp only [mStepProgress, improves, if_neg hpos.ne', sub_self, zero_div]
    simp [ht]
  refine ⟨?_, hval, hval', ⟨_, 2 ^ p + 2, hval, .again (hgo _) hgrad ((bowl_search hp he _ _).2 ⟨rfl, rfl⟩)
    (.stop (hstop _ _ _))⟩, ?_⟩
  · intro y v h
    simp only [bowl, Option.some.injEq] at h
    rw [← h]
    exact hF.rep _
  · rintro x' s' ⟨v, hv, h⟩
    rw [hval] at hv
    obtain rfl := Option.some.inj hv
    cases h with
    | stop h1 =>
      rw [hgo] at h1
      simp at h1
    | again h1 h2 h3 h4 =>
      rw [hgrad] at h2
      obtain rfl := Option.some.inj h2
      rw [bowl_search hp he] at h3
      obtain ⟨rfl, rfl⟩ := h3
      rw [hgo] at h1
      obtain ⟨rfl, -⟩ := Prod.mk.inj h1
      cases h4 with
      | stop _ => rfl
      | again h5 _ _ _ =>
        rw [hstop] at h5
        simp at h5

/-- `C110_increases` for single and double precision. -/
example : (7 ≤ 24 ∧ (-149 : ℤ) ≤ -10) ∧ (7 ≤ 53 ∧ (-1074 : ℤ) ≤ -10) := by norm_num

/-- A search that looks at the function, as in `C110_search_partial` and `C110_minimize_partial`: from `1` on `2 * x * x`,
whose values are representable, it tries `-3`, `-1` and `0`, and `1` is not absorbed. -/
example {p : ℕ} {e : ℤ} (hp : 7 ≤ p) (he : e ≤ -10) :
    RArmijoSearch (roundSub p e) (roundSub 53 (-1074)) (1 / 64) (1 / 2) (bowl (roundSub p e) 0).value
      (fun _ _ => 1) (fun _ _ => 4) (fun _ _ => 4) (fun _ _ => 0) 0 ∧
    ¬ Absorbed (roundSub p e) (roundSub 53 (-1074)) (1 / 64) (1 / 2) (bowl (roundSub p e) 0).value
      (fun _ _ => 1) (fun _ _ => 4) := by
  have hF := faithful_roundSub (by omega : 0 < p) e
  have k : ∀ (z k : ℤ) (v : ℝ), |z| ≤ 128 → -10 ≤ k → v = z * 2 ^ k → roundSub p e v = v :=
    fun z k v h1 h2 h3 => hF.eq (rep_small hp he z k h1 h2 h3)
  have f2 : roundSub p e 2 = 2 := k 1 1 _ (by norm_num) (by norm_num) (by norm_num)
  have f1 : roundSub p e 1 = 1 := k 1 0 _ (by norm_num) (by norm_num) (by norm_num)
  have f4 : roundSub p e 4 = 4 := k 4 0 _ (by norm_num) (by norm_num) (by norm_num)
  have f16 : roundSub p e 16 = 16 := k 16 0 _ (by norm_num) (by norm_num) (by norm_num)
  have f18 : roundSub p e 18 = 18 := k 18 0 _ (by norm_num) (by norm_num) (by norm_num)
  have fh : roundSub p e (1 / 2) = 1 / 2 := k 1 (-1) _ (by norm_num) (by norm_num) (by norm_num)
  have fq : roundSub p e (1 / 4) = 1 / 4 := k 1 (-2) _ (by norm_num) (by norm_num) (by norm_num)
  have fe : roundSub p e (1 / 8) = 1 / 8 := k 1 (-3) _ (by norm_num) (by norm_num) (by norm_num)
  have fs : roundSub p e (1 / 16) = 1 / 16 := k 1 (-4) _ (by norm_num) (by norm_num) (by norm_num)
  have fm3 : roundSub p e (-3) = -3 := k (-3) 0 _ (by norm_num) (by norm_num) (by norm_num)
  have fm1 : roundSub p e (-1) = -1 := k (-1) 0 _ (by norm_num) (by norm_num) (by norm_num)
  have g1 : roundSub p e (3 / 2) = 3 / 2 := k 3 (-1) _ (by norm_num) (by norm_num) (by norm_num)
  have g2 : roundSub p e (7 / 4) = 7 / 4 := k 7 (-2) _ (by norm_num) (by norm_num) (by norm_num)
  have g3 : roundSub p e (15 / 8) = 15 / 8 := k 15 (-3) _ (by norm_num) (by norm_num) (by norm_num)
  have g4 : roundSub p e (31 / 16) = 31 / 16 := k 31 (-4) _ (by norm_num) (by norm_num) (by norm_num)
  have f0 := roundSub_zero p e
  have hS : Summation (roundSub p e) (rProducts (roundSub p e) (fun _ _ : Fin 1 => (4 : ℝ)) fun _ _ => 4) 16 := by
    rw [products_one, show (4 : ℝ) * 4 = 16 by norm_num, f16]
    exact .one 16
  have hd : roundSub p e (1 / 64 * 16) = 1 / 4 := by rw [show (1 : ℝ) / 64 * 16 = 1 / 4 by norm_num, fq]
  have m1 : ∀ a : ℝ, rMove (roundSub p e) (fun _ _ : Fin 1 => (1 : ℝ)) a (fun _ _ : Fin 1 => 4) =
      fun _ _ => roundSub p e (1 - roundSub p e (a * 4)) := fun a => rfl
  have hv : ∀ y w : ℝ, roundSub p e (0 + 2 * y ^ 2) = w →
      (bowl (roundSub p e) 0).value (fun _ _ => y) = some w := fun y w h => by simp only [bowl, h]
  have v1 : (bowl (roundSub p e) 0).value (fun _ _ => 1) = some 2 := hv 1 2 (by norm_num; exact f2)
  constructor
  · refine ⟨2, 16, 1 / 4, v1, by norm_num, hS, ?_, ?_⟩
    · rw [hd, first_step hp he]
      have s1 : roundSub p e (2 * (1 / 2)) = 1 := by norm_num; exact f1
      have s2 : roundSub p e (1 * (1 / 2)) = 1 / 2 := by norm_num at fh ⊢; exact fh
      have s3 : roundSub p e (1 / 2 * (1 / 2)) = 1 / 4 := by norm_num at fq ⊢; exact fq
      refine .again (v' := 18) ?_ ?_ (.again (v' := 2) ?_ ?_ (.again (v' := 0) ?_ ?_ ?_))
      · norm_num at fh g1 ⊢
        rw [fh]
        norm_num
        rw [g1]
        norm_num
      · rw [s1, m1, one_mul, f4, show (1 : ℝ) - 4 = -3 by norm_num, fm3]
        exact hv _ _ (by norm_num; exact f18)
      · rw [s1, one_mul, fq, show (2 : ℝ) - 1 / 4 = 7 / 4 by norm_num, g2]
        norm_num
      · rw [s1, s2, m1, show (1 : ℝ) / 2 * 4 = 2 by norm_num, f2, show (1 : ℝ) - 2 = -1 by norm_num, fm1]
        exact hv _ _ (by norm_num; exact f2)
      · rw [s1, s2, show (1 : ℝ) / 2 * (1 / 4) = 1 / 8 by norm_num, fe, show (2 : ℝ) - 1 / 8 = 15 / 8 by norm_num, g3]
        norm_num
      · rw [s1, s2, s3, m1, show (1 : ℝ) / 4 * 4 = 1 by norm_num, f1, sub_self, f0]
        exact hv _ _ (by norm_num; exact f0)
      · rw [s1, s2, s3]
        refine .exit ?_
        rw [show (1 : ℝ) / 4 * (1 / 4) = 1 / 16 by norm_num, fs, show (2 : ℝ) - 1 / 16 = 31 / 16 by norm_num, g4]
        norm_num
    · rw [m1, show (1 : ℝ) / 4 * 4 = 1 by norm_num, f1, sub_self, f0]
  · rintro ⟨v, S, h1, h2, h3⟩
    rw [v1] at h1
    obtain rfl := Option.some.inj h1
    rw [products_one] at h2
    have h4 := summation_single h2 rfl
    simp only [List.cons.injEq, and_true] at h4
    rw [show (4 : ℝ) * 4 = 16 by norm_num, f16] at h4
    rw [← h4, hd, first_step hp he, show (2 : ℝ) * (1 / 4) = 1 / 2 by norm_num, fh,
      show (2 : ℝ) - 1 / 2 = 3 / 2 by norm_num, g1] at h3
    norm_num at h3

/-- `C110_terminates` for a function with a jump, where no step gives a decrease: the gradient given is not one. -/
example {p : ℕ} (hp : 0 < p) (e : ℤ) : ∃ x' v, RArmijoSearch (r := 1) (c := 1) (roundSub p e) (roundSub 53 (-1074))
    (1 / 4) (1 / 2) (fun y => some (roundSub p e (if y 0 0 = 0 then 0 else 1))) (fun _ _ => 0) (fun _ _ => 1)
    (fun _ _ => 1) x' v :=
  C110_terminates hp e faithful_double _ (by norm_num) (by norm_num)
    (fun _ => ⟨_, rfl, (faithful_roundSub hp e).rep _⟩) (fun _ _ => rep_zero p e) _ _

end Verif.Rounded
