import Verif.Props.OverflowSafe
import Verif.Props.Sweep

/-
C136: class weights for which all numbers of the supervised step are finite, and weights for which they are not.
-/
namespace Verif.Overflow

open MathUtils EStep Limits Finset
open Rounded hiding fl_nonneg fl_zero

variable {K V C : ℕ} {F : Format} {D : Device F}

/-! ### Numbers that differ by a factor -/

/-- `x` and `y` differ by a factor of at most `exp d`. -/
def Rel (d x y : ℝ) : Prop := Real.exp (-d) * y ≤ x ∧ x ≤ Real.exp d * y

theorem Rel.refl' {d x : ℝ} (hd : 0 ≤ d) (hx : 0 ≤ x) : Rel d x x := by
  have h1 : Real.exp (-d) ≤ 1 := Real.exp_le_one_iff.2 (by linarith)
  have h2 : 1 ≤ Real.exp d := Real.one_le_exp hd
  constructor <;> nlinarith

theorem Rel.mono {d d' x y : ℝ} (h : Rel d x y) (hd : d ≤ d') (hy : 0 ≤ y) : Rel d' x y := by
  have h1 : Real.exp (-d') ≤ Real.exp (-d) := Real.exp_le_exp.2 (by linarith)
  have h2 : Real.exp d ≤ Real.exp d' := Real.exp_le_exp.2 hd
  exact ⟨(mul_le_mul_of_nonneg_right h1 hy).trans h.1, h.2.trans (mul_le_mul_of_nonneg_right h2 hy)⟩

theorem Rel.trans {d d' x y z : ℝ} (h : Rel d x y) (h' : Rel d' y z) : Rel (d + d') x z := by
  constructor
  · rw [neg_add, Real.exp_add, mul_assoc]
    exact (mul_le_mul_of_nonneg_left h'.1 (Real.exp_pos _).le).trans h.1
  · rw [Real.exp_add, mul_assoc]
    exact h.2.trans (mul_le_mul_of_nonneg_left h'.2 (Real.exp_pos _).le)

theorem Rel.mul {d d' x y z w : ℝ} (h : Rel d x y) (h' : Rel d' z w) (hy : 0 ≤ y) (hw : 0 ≤ w) :
    Rel (d + d') (x * z) (y * w) := by
  have hz : 0 ≤ z := (mul_nonneg (Real.exp_pos _).le hw).trans h'.1
  have hx : 0 ≤ x := (mul_nonneg (Real.exp_pos _).le hy).trans h.1
  constructor
  · rw [neg_add, Real.exp_add, mul_mul_mul_comm]
    exact mul_le_mul h.1 h'.1 (mul_nonneg (Real.exp_pos _).le hw) hx
  · rw [Real.exp_add, mul_mul_mul_comm]
    exact mul_le_mul h.2 h'.2 hz (mul_nonneg (Real.exp_pos _).le hy)

theorem Rel.pos {d x y : ℝ} (h : Rel d x y) (hy : 0 < y) : 0 < x := (mul_pos (Real.exp_pos _) hy).trans_le h.1

theorem Rel.inv {d x y : ℝ} (h : Rel d x y) (hy : 0 < y) : Rel d x⁻¹ y⁻¹ := by
  have hx := h.pos hy
  constructor
  · rw [Real.exp_neg, ← mul_inv]
    exact inv_anti₀ hx h.2
  · have := h.1
    rw [Real.exp_neg] at this
    have e : Real.exp d * y⁻¹ = ((Real.exp d)⁻¹ * y)⁻¹ := by rw [mul_inv, inv_inv]
    rw [e]
    exact inv_anti₀ (mul_pos (inv_pos.2 (Real.exp_pos _)) hy) this

theorem Rel.div {d d' x y z w : ℝ} (h : Rel d x y) (h' : Rel d' z w) (hy : 0 ≤ y) (hw : 0 < w) :
    Rel (d + d') (x / z) (y / w) := by
  rw [div_eq_mul_inv, div_eq_mul_inv]
  exact h.mul (h'.inv hw) hy (inv_pos.2 hw).le

/-- A weighted sum of numbers near one. -/
theorem Rel.sum {m : ℕ} {d : ℝ} {e p : Vec m ℝ} (he : ∀ i, Rel d (e i) 1) (hp : ∀ i, 0 ≤ p i) :
    Rel d (∑ i, e i * p i) (∑ i, p i) := by
  constructor
  · rw [mul_sum]
    exact sum_le_sum fun i _ => mul_le_mul_of_nonneg_right (by simpa using (he i).1) (hp i)
  · rw [mul_sum]
    exact sum_le_sum fun i _ => mul_le_mul_of_nonneg_right (by simpa using (he i).2) (hp i)

theorem two_pow_of_exp {x : ℝ} (n : ℕ) (h : x ≤ n * 0.6931471803) : (2 : ℝ) ^ (-(n : ℤ)) ≤ Real.exp (-x) := by
  rw [zpow_neg, zpow_natCast, Real.exp_neg]
  exact inv_anti₀ (Real.exp_pos _) (exp_le_two_pow n h)

theorem Wide.rel_fl (h : Wide F) {x : ℝ} (hx : Real.exp (-69) ≤ x) : Rel (2 * F.u) (fl F x) x := by
  have h1 : (2 : ℝ) ^ (-((100 : ℕ) : ℤ)) ≤ x := (two_pow_of_exp 100 (by norm_num)).trans hx
  have x0 : 0 < x := (Real.exp_pos _).trans_le hx
  have e := fl_err_big (F := F) (j := -((100 : ℕ) : ℤ)) (by have := h.sub; push_cast; omega) h1
  rw [abs_le] at e
  have hu := u_pos (F := F)
  have hu' := h.u
  constructor
  · have h2 : Real.exp (-(2 * F.u)) ≤ 1 - F.u := by
      rw [Real.exp_neg]
      have h3 := Real.add_one_le_exp (2 * F.u)
      rw [inv_le_comm₀ (Real.exp_pos _) (by linarith)]
      refine le_trans ?_ h3
      rw [inv_le_iff_one_le_mul₀ (by linarith)]
      nlinarith
    have := mul_le_mul_of_nonneg_right h2 x0.le
    linarith [e.1]
  · have h2 : 1 + F.u ≤ Real.exp (2 * F.u) := by
      have := Real.add_one_le_exp (2 * F.u)
      linarith
    have := mul_le_mul_of_nonneg_right h2 x0.le
    linarith [e.2]

theorem Wide.exp_pow (h : Wide F) (m : ℕ) : Real.exp (-(2 * m * F.u)) ≤ (1 - F.u) ^ m := by
  have hu := u_pos (F := F)
  have hu' := h.u
  have h2 : Real.exp (-(2 * F.u)) ≤ 1 - F.u := by
    rw [Real.exp_neg]
    have h3 := Real.add_one_le_exp (2 * F.u)
    rw [inv_le_comm₀ (Real.exp_pos _) (by linarith)]
    refine le_trans ?_ h3
    rw [inv_le_iff_one_le_mul₀ (by linarith)]
    nlinarith
  have := pow_le_pow_left₀ (Real.exp_pos _).le h2 m
  rw [← Real.exp_nat_mul] at this
  refine le_trans (le_of_eq ?_) this
  congr 1
  ring

/-- The smallest numbers are far below the precision. -/
theorem Wide.tiny_u (h : Wide F) : F.tiny ≤ F.u / 2 ^ 101 := by
  have e : F.tiny = F.u * 2 ^ (F.low + F.prec - 1) := by
    unfold Format.tiny Format.u
    rw [show F.low + (F.prec : ℤ) - 1 = F.low + (F.prec : ℤ) + (-1) by ring, zpow_add₀ (by norm_num), zpow_add₀ (by norm_num),
      zpow_natCast]
    have : (1 / 2 : ℝ) ^ F.prec * 2 ^ F.prec = 1 := by rw [← mul_pow]; norm_num
    rw [zpow_neg_one]
    linear_combination (-(2 : ℝ) ^ F.low / 2) * this
  have h1 : (2 : ℝ) ^ (F.low + F.prec - 1) ≤ 2 ^ (-101 : ℤ) := zpow_le_zpow_right₀ (by norm_num) (by have := h.sub; omega)
  have h2 : (2 : ℝ) ^ (-101 : ℤ) = 1 / 2 ^ 101 := by rw [zpow_neg, one_div]; norm_cast
  rw [h2] at h1
  rw [e]
  have := mul_le_mul_of_nonneg_left h1 (u_pos (F := F)).le
  rw [mul_one_div] at this
  exact this

/-- A product of two vectors of nonnegative numbers. -/
theorem dot_fin (h : Wide F) {m : ℕ} (hm : m ≤ 2 ^ 20) {e p : Vec m ℝ} (he : ∀ i, 0 ≤ e i) (hp : ∀ i, 0 ≤ p i)
    (h1 : Real.exp (-50) ≤ ∑ i, e i * p i) (h2 : ∑ i, e i * p i ≤ Real.exp 50) :
    ∃ s : ℝ, D.nsum (fun i => nMul F (.fin (e i)) (.fin (p i))) = .fin s ∧
      Rel ((2 * m + 4) * F.u) s (∑ i, e i * p i) := by
  have hF := h.ok
  have hu := u_pos (F := F)
  have hu' := h.u
  have hq := h.pow_count' hm
  have q0 : ∀ i, 0 ≤ e i * p i := fun i => mul_nonneg (he i) (hp i)
  have hbig : Real.exp 50 ≤ 2 ^ 73 := exp_le_two_pow 73 (by norm_num)
  have t0 : ∀ i, 0 ≤ fl F (e i * p i) := fun i => fl_nonneg (q0 i)
  have hterm : ∀ i, fl F (e i * p i) ≤ 2 ^ 73 := by
    intro i
    have h3 : e i * p i ≤ 2 ^ (73 : ℤ) := by
      have : e i * p i ≤ ∑ i, e i * p i := single_le_sum (f := fun i => e i * p i) (fun j _ => q0 j) (mem_univ i)
      exact_mod_cast (this.trans h2).trans hbig
    exact_mod_cast fl_le hF (q0 i) (by have := h.low; omega) h3
  have e1 : (fun i => nMul F (.fin (e i)) (.fin (p i))) = fun i => Ieee.fin (fl F (e i * p i)) := by
    funext i
    apply nMul_fin
    rw [abs_of_nonneg (t0 i)]
    refine h.small_lt ((hterm i).trans ?_)
    norm_num
  have habs : ∑ i, |fl F (e i * p i)| = ∑ i, fl F (e i * p i) := sum_congr rfl fun i _ => abs_of_nonneg (t0 i)
  have hmt : (m : ℝ) * F.tiny ≤ F.u * Real.exp (-50) := by
    have a1 := h.tiny_u
    have a2 : (m : ℝ) * F.tiny ≤ 2 ^ 20 * (F.u / 2 ^ 101) := mul_le_mul (million hm) a1 tiny_pos.le (by positivity)
    have a3 : (2 : ℝ) ^ (-((80 : ℕ) : ℤ)) ≤ Real.exp (-50) := two_pow_of_exp 80 (by norm_num)
    have a4 := mul_le_mul_of_nonneg_left a3 hu.le
    refine (a2.trans (le_of_eq ?_)).trans ((mul_le_mul_of_nonneg_left (?_ : (1 : ℝ) / 2 ^ 81 ≤ 2 ^ (-((80 : ℕ) : ℤ))) hu.le).trans a4)
    · ring
    · rw [zpow_neg, zpow_natCast, ← one_div]
      norm_num
  have hsum : |∑ i, fl F (e i * p i) - ∑ i, e i * p i| ≤ 2 * F.u * ∑ i, e i * p i := by
    rw [← sum_sub_distrib]
    refine (abs_sum_le_sum_abs _ _).trans ?_
    refine (sum_le_sum fun i _ => fl_err (F := F) (q0 i)).trans ?_
    rw [sum_add_distrib, ← mul_sum, sum_const, card_univ, Fintype.card_fin, nsmul_eq_mul]
    have := mul_le_mul_of_nonneg_left h1 hu.le
    linarith
  rw [abs_le] at hsum
  have S0 : 0 < ∑ i, e i * p i := (Real.exp_pos _).trans_le h1
  obtain ⟨s, r', s1, s2, _, _⟩ := nsum_fin (D := D) (v := fun i => fl F (e i * p i)) hF (fun i => fl_fl' hF _) (by
    rw [habs]
    have b1 := h.big
    have b2 : (2 : ℝ) ^ 74 ≤ 2 ^ 128 / 2 * (93 / 100) := by norm_num
    have b3 : (2 : ℝ) ^ 128 / 2 * (93 / 100) ≤ 2 ^ F.high / 2 * (1 - F.u) ^ m :=
      mul_le_mul (by linarith) hq (by norm_num) (by positivity)
    have b4 : (2 : ℝ) ^ 74 = 2 * 2 ^ 73 := by norm_num
    have b5 : 2 * F.u * ∑ i, e i * p i ≤ 1 * ∑ i, e i * p i := mul_le_mul_of_nonneg_right (by linarith) S0.le
    linarith [hsum.2])
  refine ⟨s, by rw [e1]; exact s1, ?_⟩
  obtain ⟨p0, _, n1, n2⟩ := near_summation hF s2
    (by intro x hx; obtain ⟨i, rfl⟩ := (List.mem_ofFn' _ _).1 hx; exact t0 i)
    (by intro x hx; obtain ⟨i, rfl⟩ := (List.mem_ofFn' _ _).1 hx; exact fl_fl' hF _)
  rw [List.length_ofFn, List.sum_ofFn, add_zero] at n1 n2
  have hE := h.exp_pow m
  have r1 : Rel (2 * m * F.u) s (∑ i, fl F (e i * p i)) := by
    have T0 : 0 ≤ ∑ i, fl F (e i * p i) := sum_nonneg fun i _ => t0 i
    constructor
    · exact (mul_le_mul_of_nonneg_right hE T0).trans n1
    · have := (mul_le_mul_of_nonneg_right hE p0).trans n2
      rw [Real.exp_neg, inv_mul_le_iff₀ (Real.exp_pos _)] at this
      exact this
  have r2 : Rel (4 * F.u) (∑ i, fl F (e i * p i)) (∑ i, e i * p i) := by
    constructor
    · have b1 : Real.exp (-(4 * F.u)) ≤ 1 - 2 * F.u := by
        rw [Real.exp_neg]
        have h3 := Real.add_one_le_exp (4 * F.u)
        rw [inv_le_comm₀ (Real.exp_pos _) (by linarith)]
        refine le_trans ?_ h3
        rw [inv_le_iff_one_le_mul₀ (by linarith)]
        nlinarith
      have := mul_le_mul_of_nonneg_right b1 S0.le
      linarith [hsum.1]
    · have b1 := Real.add_one_le_exp (4 * F.u)
      have b2 : 1 + 2 * F.u ≤ Real.exp (4 * F.u) := by linarith
      have := mul_le_mul_of_nonneg_right b2 S0.le
      linarith [hsum.2]
  have := r1.trans r2
  rw [show 2 * (m : ℝ) * F.u + 4 * F.u = (2 * m + 4) * F.u by ring] at this
  exact this

/-! ### `fast_exp` near zero -/

theorem lut_start : FastExp.lut 0 = some 1 := by
  rw [FastExp.lut]
  have : FastExp.lutNat[0]? = some 1000000000000000000 := rfl
  rw [this]
  norm_num

/-- `fast_exp` of small numbers is not far from one, and exactly one at zero. -/
theorem lExpPos_rate (h : Wide F) {M : Machine F} {x : ℝ} (h0 : 0 ≤ x) (h1 : x ≤ 60) :
    ∃ v, lExpPos M x = some v ∧ 1 ≤ v ∧ v ≤ Real.exp (x * (1002 / 1000)) := by
  have hF := h.ok
  obtain ⟨a0, a1, a2, a3⟩ := FastExp.halve_spec x h0
  have hu0 := u_pos (F := F)
  have hu := h.u
  have hidx := index_lt h0
  have hr := lut_range hidx
  have hs := start_range hF h0
  have hfloor : ((⌊(FastExp.halve x).1 * 1024⌋₊ : ℕ) : ℝ) ≤ (FastExp.halve x).1 * 1024 := Nat.floor_le (by positivity)
  have hcnt : ⌊(FastExp.halve x).1 * 1024⌋₊ = 0 → (FastExp.halve x).2 = 0 := by
    intro hz
    by_contra hne
    have := a3 hne
    have h5 : (512 : ℕ) ≤ ⌊(FastExp.halve x).1 * 1024⌋₊ := Nat.le_floor (by push_cast; linarith)
    omega
  have hlt : Real.exp (x * (1002 / 1000)) < 2 ^ F.high := by
    refine lt_of_le_of_lt (exp_le_two_pow 90 (by norm_num; linarith)) (h.small_lt ?_)
    norm_num
  unfold lExpPos
  rw [if_neg (by linarith)]
  generalize ⌊(FastExp.halve x).1 * 1024⌋₊ = i at *
  rcases Nat.eq_zero_or_pos i with hi | hi
  · rw [hcnt hi, hi, lut_start, Option.getD_some]
    have e1 : fl F (1 : ℝ) = 1 := by
      have := fl_pow hF (j := 0) (by have := h.low; omega)
      rwa [zpow_zero] at this
    rw [e1]
    exact ⟨1, rfl, le_rfl, Real.one_le_exp (by positivity)⟩
  obtain ⟨v, hv, hp, hl⟩ := FastExp.C30_table i hidx
  rw [hv, Option.getD_some] at hs hr ⊢
  rw [abs_le] at hl
  apply lSquare_upper hF _ _ hs.1 _ hlt
  have e1 := fl_err_big (F := F) (x := v) (j := 0) (by have := hF.low; omega) (by rw [zpow_zero]; exact hr.1)
  rw [abs_le] at e1
  have e2 : fl F v * (1 + F.u) ≤ Real.exp (Real.log v + 2 * F.u) := by
    rw [Real.exp_add, Real.exp_log hp]
    have h3 : (1 + F.u) * (1 + F.u) ≤ Real.exp (2 * F.u) := by
      rw [two_mul, Real.exp_add]
      have := Real.add_one_le_exp F.u
      exact mul_le_mul (by linarith) (by linarith) (by linarith) (Real.exp_pos _).le
    calc fl F v * (1 + F.u) ≤ v * (1 + F.u) * (1 + F.u) := mul_le_mul_of_nonneg_right (by linarith [e1.2]) (by linarith)
      _ = v * ((1 + F.u) * (1 + F.u)) := by ring
      _ ≤ _ := mul_le_mul_of_nonneg_left h3 hp.le
  refine le_trans (pow_le_pow_left₀ (by nlinarith [hs.1]) e2 _) ?_
  rw [← Real.exp_nat_mul]
  apply Real.exp_le_exp.2
  push_cast
  have hpp : (0 : ℝ) < 2 ^ (FastExp.halve x).2 := by positivity
  have hx1 : 1 / 1024 ≤ (FastExp.halve x).1 := by
    have : (1 : ℝ) ≤ i := by exact_mod_cast hi
    linarith
  have h5 : Real.log v + 2 * F.u ≤ (FastExp.halve x).1 * (1002 / 1000) := by
    have : (i : ℝ) / 1023 ≤ (FastExp.halve x).1 * 1024 / 1023 := by gcongr
    norm_num at hl hu ⊢
    linarith
  calc 2 ^ (FastExp.halve x).2 * (Real.log v + 2 * F.u) ≤ 2 ^ (FastExp.halve x).2 * ((FastExp.halve x).1 * (1002 / 1000)) :=
        mul_le_mul_of_nonneg_left h5 hpp.le
    _ = x * (1002 / 1000) := by
      conv_rhs => rw [a2]
      ring

theorem nExp_rate (h : Wide F) {x : ℝ} (hx : |x| ≤ 60) :
    ∃ v : ℝ, nExp D (.fin x) = some (.fin v) ∧ Rel (|x| * (1002 / 1000) + 2 * F.u) v 1 := by
  have hu := u_pos (F := F)
  have key : nExp D (.fin x) = some (match lExp D.toMachine x with | none => Ieee.pinf | some v => Ieee.fin v) := rfl
  rw [key]
  unfold lExp
  split_ifs with h0
  · rw [abs_of_neg h0] at hx ⊢
    obtain ⟨v, hv, v1, v2⟩ := lExpPos_rate h (M := D.toMachine) (x := -x) (by linarith) hx
    rw [hv]
    refine ⟨fl F (1 / v), rfl, ?_⟩
    have r1 : Rel (-x * (1002 / 1000)) v 1 := by
      constructor
      · rw [mul_one]
        exact (Real.exp_le_one_iff.2 (by linarith)).trans v1
      · rw [mul_one]
        exact v2
    have r2 := r1.inv one_pos
    rw [inv_one, ← one_div] at r2
    have r3 := (h.rel_fl (x := 1 / v) (by
      have := r2.1
      rw [mul_one] at this
      exact (Real.exp_le_exp.2 (by linarith)).trans this)).trans r2
    rwa [add_comm] at r3
  · rw [abs_of_nonneg (by linarith)] at hx ⊢
    obtain ⟨v, hv, v1, v2⟩ := lExpPos_rate h (M := D.toMachine) (x := x) (by linarith) hx
    rw [hv]
    refine ⟨v, rfl, ?_, ?_⟩
    · rw [mul_one]
      exact (Real.exp_le_one_iff.2 (by linarith)).trans v1
    · rw [mul_one]
      exact v2.trans (Real.exp_le_exp.2 (by linarith))

/-! ### Columns that sum to one -/

theorem share_fin (h : Wide F) {m : ℕ} (hm : m ≤ 2 ^ 20) {v : Vec m ℝ} (hv : ∀ i, 0 ≤ v i) (hr : ∀ i, fl F (v i) = v i)
    (hb : ∑ i, v i ≤ 2 ^ F.high / 4) (hpos : ∃ i, 0 < v i) :
    ∃ p : Vec m ℝ, (∀ i, nDiv F (.fin (v i)) (D.nsum fun i => .fin (v i)) = .fin (p i)) ∧ (∀ i, 0 ≤ p i) ∧
      Rel ((2 * m + 3) * F.u) (∑ i, p i) 1 := by
  have hF := h.ok
  have hu := u_pos (F := F)
  have hu' := h.u
  have hq := h.pow_count' hm
  obtain ⟨i0, hi0⟩ := hpos
  have S0 : 0 < ∑ j, v j := hi0.trans_le (single_le_sum (fun j _ => hv j) (mem_univ i0))
  have habs : ∑ i, |v i| = ∑ i, v i := sum_congr rfl fun i _ => abs_of_nonneg (hv i)
  obtain ⟨s, _, h1, h2, _, _⟩ := nsum_fin (D := D) hF hr (by
    rw [habs]
    have h0 : (0 : ℝ) < 2 ^ F.high := by positivity
    have := mul_le_mul_of_nonneg_left hq (by positivity : (0 : ℝ) ≤ 2 ^ F.high / 2)
    linarith)
  obtain ⟨s', h1', _, _, h4⟩ := normalize_fin (D := D) h hm hv hr hb
  have es : s' = s := by
    rw [h1] at h1'
    exact (Ieee.fin.inj h1').symm
  subst es
  obtain ⟨s0, _, n1, n2⟩ := near_summation hF h2
    (by intro x hx; obtain ⟨i, rfl⟩ := (List.mem_ofFn' _ _).1 hx; exact hv i)
    (by intro x hx; obtain ⟨i, rfl⟩ := (List.mem_ofFn' _ _).1 hx; exact hr i)
  rw [List.length_ofFn, List.sum_ofFn, add_zero] at n1 n2
  have spos : 0 < s' := (mul_pos (pow_pos (base hF).1 _) S0).trans_le n1
  obtain ⟨h5, _, _⟩ := h4 spos.ne'
  have q0 : ∀ i, 0 ≤ v i / s' := fun i => div_nonneg (hv i) s0
  refine ⟨fun i => fl F (v i / s'), fun i => by rw [h1]; exact h5 i, fun i => fl_nonneg (q0 i), ?_⟩
  have hE := h.exp_pow m
  have r1 : Rel (2 * m * F.u) ((∑ i, v i) / s') 1 := by
    constructor
    · rw [mul_one, le_div_iff₀ spos]
      exact (mul_le_mul_of_nonneg_right hE s0).trans n2
    · rw [mul_one, div_le_iff₀ spos]
      have := (mul_le_mul_of_nonneg_right hE S0.le).trans n1
      rwa [Real.exp_neg, inv_mul_le_iff₀ (Real.exp_pos _)] at this
  have hmu : 2 * (m : ℝ) * F.u ≤ 1 / 8 := by
    have := mul_le_mul (million hm) hu' hu.le (by positivity)
    linarith
  have S1 : 1 / 2 ≤ (∑ i, v i) / s' := by
    have a1 := r1.1
    have a2 := Real.add_one_le_exp (-(2 * (m : ℝ) * F.u))
    linarith
  have hsum : |∑ i, fl F (v i / s') - (∑ i, v i) / s'| ≤ 3 / 2 * F.u * ((∑ i, v i) / s') := by
    rw [sum_div, ← sum_sub_distrib]
    refine (abs_sum_le_sum_abs _ _).trans ((sum_le_sum fun i _ => fl_err (F := F) (q0 i)).trans ?_)
    rw [sum_add_distrib, ← mul_sum, sum_const, card_univ, Fintype.card_fin, nsmul_eq_mul, ← sum_div]
    have a1 : (m : ℝ) * F.tiny ≤ 2 ^ 20 * (F.u / 2 ^ 101) := mul_le_mul (million hm) h.tiny_u tiny_pos.le (by positivity)
    have a2 : (2 : ℝ) ^ 20 * (F.u / 2 ^ 101) ≤ F.u * (1 / 4) := by
      have : (2 : ℝ) ^ 20 * (F.u / 2 ^ 101) = F.u * (1 / 2 ^ 81) := by ring
      rw [this]
      exact mul_le_mul_of_nonneg_left (by norm_num) hu.le
    have a3 := mul_le_mul_of_nonneg_left S1 hu.le
    linarith
  rw [abs_le] at hsum
  have r2 : Rel (3 * F.u) (∑ i, fl F (v i / s')) ((∑ i, v i) / s') := by
    constructor
    · have b1 : Real.exp (-(3 * F.u)) ≤ 1 - 3 / 2 * F.u := by
        rw [Real.exp_neg]
        have h3 := Real.add_one_le_exp (3 * F.u)
        rw [inv_le_comm₀ (Real.exp_pos _) (by linarith)]
        refine le_trans ?_ h3
        rw [inv_le_iff_one_le_mul₀ (by linarith)]
        nlinarith
      have := mul_le_mul_of_nonneg_right b1 (by linarith : 0 ≤ (∑ i, v i) / s')
      linarith [hsum.1]
    · have b1 := Real.add_one_le_exp (3 * F.u)
      have b2 : 1 + 3 / 2 * F.u ≤ Real.exp (3 * F.u) := by linarith
      have := mul_le_mul_of_nonneg_right b2 (by linarith : 0 ≤ (∑ i, v i) / s')
      linarith [hsum.2]
  have := r2.trans r1
  rw [show 3 * F.u + 2 * (m : ℝ) * F.u = (2 * m + 3) * F.u by ring] at this
  exact this

/-! ### The factors of a word -/

/-- Sizes of the corpus and bounds on the weights: `M` for the weights, `T` for the weights times the share of a word. -/
structure Small (F : Format) (X : Vec V ℕ) (eta : Mat K C ℝ) (M T : ℝ) : Prop where
  wide : Wide F
  words : 0 < numWords X
  words' : numWords X ≤ 2 ^ 31
  topics : K ≤ 2 ^ 20
  vocabulary : V ≤ 2 ^ 20
  classes : C ≤ 2 ^ 16
  count : V * (K + 6) * F.u ≤ 1 / 16
  weights : ∀ k c, |eta k c| ≤ M
  weights' : M ≤ 8
  share : ∀ k c n, |eta k c| * X n ≤ T * numWords X
  share' : T ≤ 3

/-- What a word adds to the logarithm of the products. -/
noncomputable def step (F : Format) (K : ℕ) (X : Vec V ℕ) (M : ℝ) (n : Fin V) : ℝ :=
  1003 / 1000 * M * rRatio F X n + (4 * K + 12) * F.u

variable {X : Vec V ℕ} {eta : Mat K C ℝ} {M T : ℝ}

theorem Small.ratio (h : Small F X eta M T) (n : Fin V) : 0 ≤ rRatio F X n ∧ rRatio F X n ≤ 1001 / 1000 := by
  obtain ⟨_, h1, _⟩ := near_ratio h.wide h.words h.words'
  obtain ⟨_, h2⟩ := ratio_sum h.wide h.words h.words' h.vocabulary
  exact ⟨h1 n, (single_le_sum (f := fun n => rRatio F X n) (fun j _ => h1 j) (mem_univ n)).trans h2⟩

theorem Small.topics_u (h : Small F X eta M T) (n : Fin V) : (K + 6) * F.u ≤ 1 / 16 := by
  have hu := u_pos (F := F)
  have hV : (1 : ℝ) ≤ V := by exact_mod_cast n.pos
  have h1 : 0 ≤ (K + 6) * F.u := by positivity
  have := mul_le_mul_of_nonneg_right hV h1
  linarith [h.count]

/-- A word of the document has at least its part of it. -/
theorem Small.ratio_near (h : Small F X eta M T) (n : Fin V) : rRatio F X n ≤ 1001 / 1000 * (X n / numWords X) + 1 / 2 ^ 100 := by
  have hF := h.wide.ok
  have hu := u_pos (F := F)
  have hu' := h.wide.u
  have hN : (0 : ℝ) < numWords X := Nat.cast_pos.2 h.words
  obtain ⟨n0, n1, n2⟩ := near_nat hF (numWords X)
  obtain ⟨x0, x1, x2⟩ := near_nat hF (X n)
  have npos : 0 < fl F (numWords X : ℝ) := lt_of_lt_of_le (mul_pos (base hF).1 hN) n1
  have q0 : 0 ≤ fl F (X n : ℝ) / fl F (numWords X) := div_nonneg x0 n0
  have e := (abs_le.1 (fl_err (F := F) q0)).2
  have e2 : fl F (X n : ℝ) / fl F (numWords X) ≤ 10001 / 10000 * (X n / numWords X) := by
    rw [← mul_div_assoc, div_le_div_iff₀ npos hN]
    have a1 : fl F (X n : ℝ) ≤ 1 / (1 - F.u) * X n := by
      rw [one_div_mul_eq_div, le_div_iff₀ (base hF).1]
      linarith
    have a2 : (numWords X : ℝ) ≤ 1 / (1 - F.u) * fl F (numWords X : ℝ) := by
      rw [one_div_mul_eq_div, le_div_iff₀ (base hF).1]
      linarith
    have a3 : 1 / (1 - F.u) * (1 / (1 - F.u)) ≤ 10001 / 10000 := by
      rw [div_mul_div_comm, one_mul, div_le_iff₀ (mul_pos (base hF).1 (base hF).1)]
      nlinarith
    calc fl F (X n : ℝ) * numWords X ≤ (1 / (1 - F.u) * X n) * (1 / (1 - F.u) * fl F (numWords X : ℝ)) :=
          mul_le_mul a1 a2 hN.le (mul_nonneg (one_div_pos.2 (base hF).1).le (Nat.cast_nonneg _))
      _ = 1 / (1 - F.u) * (1 / (1 - F.u)) * (X n * fl F (numWords X : ℝ)) := by ring
      _ ≤ 10001 / 10000 * (X n * fl F (numWords X : ℝ)) := mul_le_mul_of_nonneg_right a3 (by positivity)
      _ = _ := by ring
  have y0 : 0 ≤ (X n : ℝ) / numWords X := by positivity
  have ht : F.tiny ≤ 1 / 2 ^ 100 := h.wide.tiny.trans (by norm_num)
  have e3 := mul_le_mul_of_nonneg_left e2 (by linarith : 0 ≤ 1 + F.u)
  have e4 : (1 + F.u) * (10001 / 10000 * (X n / numWords X)) ≤ 1001 / 1000 * ((X n : ℝ) / numWords X) := by
    rw [← mul_assoc]
    exact mul_le_mul_of_nonneg_right (by linarith) y0
  have : rRatio F X n = fl F (fl F (X n) / fl F (numWords X)) := rfl
  rw [this]
  linarith

/-- The share of a word that is in the document, times the weights. -/
theorem Small.scaled (h : Small F X eta M T) (k : Fin K) (c : Fin C) (n : Fin V) :
    |eta k c * rRatio F X n| ≤ 1001 / 1000 * T + 1 / 1000 := by
  have hN : (0 : ℝ) < numWords X := Nat.cast_pos.2 h.words
  have h1 := h.ratio_near n
  rw [abs_mul, abs_of_nonneg (h.ratio n).1]
  have h2 := mul_le_mul_of_nonneg_left h1 (abs_nonneg (eta k c))
  have h3 : |eta k c| * (X n / numWords X) ≤ T := by
    rw [← mul_div_assoc, div_le_iff₀ hN]
    exact h.share k c n
  have h4 : |eta k c| * (1 / 2 ^ 100) ≤ 8 * (1 / 2 ^ 100) :=
    mul_le_mul_of_nonneg_right ((h.weights k c).trans h.weights') (by positivity)
  have h5 : (8 : ℝ) * (1 / 2 ^ 100) ≤ 1 / 1000 := by norm_num
  have h6 : |eta k c| * (1001 / 1000 * (X n / numWords X) + 1 / 2 ^ 100) =
    1001 / 1000 * (|eta k c| * (X n / numWords X)) + |eta k c| * (1 / 2 ^ 100) := by ring
  linarith

theorem Small.T_nonneg (h : Small F X eta M T) (k : Fin K) (c : Fin C) (n : Fin V) : 0 ≤ T := by
  have hN : (0 : ℝ) < numWords X := Nat.cast_pos.2 h.words
  have h1 := h.share k c n
  have h2 : 0 ≤ |eta k c| * (X n : ℝ) := by positivity
  by_contra hT
  push Not at hT
  nlinarith

theorem expEta_fin (h : Small F X eta M T) (n : Fin V) : ∃ e : Mat K C ℝ, nExpEta D X eta n = some (fun k c => .fin (e k c)) ∧
    (∀ k c, Rel (1003 / 1000 * M * rRatio F X n + 3 * F.u) (e k c) 1) ∧ ∀ k c, Rel (101 / 100 * T + 1 / 100) (e k c) 1 := by
  have hu := u_pos (F := F)
  have hu' := h.wide.u
  obtain ⟨hr, _, _⟩ := near_ratio h.wide h.words h.words'
  obtain ⟨r0, r1⟩ := h.ratio n
  have key : ∀ k c, ∃ v : ℝ, nExp D (nMul F (.fin (eta k c)) (nRatio F X n)) = some (.fin v) ∧
      Rel (1003 / 1000 * M * rRatio F X n + 3 * F.u) v 1 ∧ Rel (101 / 100 * T + 1 / 100) v 1 := by
    intro k c
    have hT := h.T_nonneg k c n
    have s1 := h.scaled k c n
    have s2 : |eta k c * rRatio F X n| ≤ M * rRatio F X n := by
      rw [abs_mul, abs_of_nonneg r0]
      exact mul_le_mul_of_nonneg_right (h.weights k c) r0
    have s3 := abs_fl_le (F := F) (eta k c * rRatio F X n)
    have ht := h.wide.tiny_u
    have ht' : F.tiny ≤ F.u / 2 := ht.trans (div_le_div_of_nonneg_left hu.le (by norm_num) (by norm_num))
    have s4 : |fl F (eta k c * rRatio F X n)| ≤ 10001 / 10000 * |eta k c * rRatio F X n| + F.u / 2 := by
      have := mul_le_mul_of_nonneg_right (by linarith : 1 + F.u ≤ 10001 / 10000) (abs_nonneg (eta k c * rRatio F X n))
      linarith
    have hT3 := h.share'
    rw [hr n, nMul_fin (h.wide.small_lt (by
      have e : (100 : ℝ) ≤ 2 ^ 100 := by norm_num
      linarith))]
    obtain ⟨v, hv, rv⟩ := nExp_rate (D := D) h.wide (x := fl F (eta k c * rRatio F X n)) (by linarith)
    have w0 := (abs_nonneg (eta k c * rRatio F X n)).trans s2
    exact ⟨v, hv, rv.mono (by linarith) zero_le_one, rv.mono (by linarith) zero_le_one⟩
  choose v hv using key
  refine ⟨v, ?_, fun k c => (hv k c).2.1, fun k c => (hv k c).2.2⟩
  unfold nExpEta
  simp only
  rw [dif_pos (fun k c => by rw [(hv k c).1]; rfl)]
  congr 1
  funext k c
  simp only [(hv k c).1, Option.get_some]

/-- The share of a document that has a word `n` (or not), for a column of `phi`. -/
theorem factor_fin (h : Small F X eta M T) (hM : 0 ≤ M) (n : Fin V) {e : Mat K C ℝ}
    (he : ∀ k c, Rel (1003 / 1000 * M * rRatio F X n + 3 * F.u) (e k c) 1) {p : Vec K ℝ} (hp : ∀ k, 0 ≤ p k)
    (hs : Rel ((2 * K + 3) * F.u) (∑ k, p k) 1) : ∃ f : Vec C ℝ,
    (nFactor D (fun k c => .fin (e k c)) fun k => .fin (p k)) = (fun c => .fin (f c)) ∧
    ∀ c, Rel (step F K X M n - 2 * F.u) (f c) 1 := by
  have hu := u_pos (F := F)
  have hu' := h.wide.u
  have hK := h.topics_u n
  obtain ⟨r0, r1⟩ := h.ratio n
  have key : ∀ c, ∃ f : ℝ, D.nsum (fun k => nMul F (.fin (e k c)) (.fin (p k))) = .fin f ∧
      Rel (step F K X M n - 2 * F.u) f 1 := by
    intro c
    have R := (Rel.sum (fun k => he k c) hp).trans hs
    have b1 : M * rRatio F X n ≤ 9 := by nlinarith [h.weights']
    have b2 : 1003 / 1000 * M * rRatio F X n + 3 * F.u + (2 * K + 3) * F.u ≤ 50 := by nlinarith
    have R' := R.mono b2 zero_le_one
    rw [Rel, mul_one, mul_one] at R'
    obtain ⟨f, hf, rf⟩ := dot_fin (D := D) h.wide h.topics (fun k => ((he k c).pos one_pos).le) hp R'.1 R'.2
    refine ⟨f, hf, ?_⟩
    have := rf.trans R
    rw [show (2 * (K : ℝ) + 4) * F.u + (1003 / 1000 * M * rRatio F X n + 3 * F.u + (2 * K + 3) * F.u) =
      step F K X M n - 2 * F.u by unfold step; ring] at this
    exact this
  choose f hf using key
  exact ⟨f, funext fun c => (hf c).1, fun c => (hf c).2⟩

theorem step_nonneg (h : Small F X eta M T) (hM : 0 ≤ M) (n : Fin V) : 2 * F.u ≤ step F K X M n := by
  have hu := u_pos (F := F)
  have := (h.ratio n).1
  have h2 : 0 ≤ 1003 / 1000 * M * rRatio F X n := by positivity
  have h3 : 0 ≤ (K : ℝ) * F.u := by positivity
  unfold step
  linarith

theorem step_sum (h : Small F X eta M T) (hM : 0 ≤ M) : ∑ n, step F K X M n ≤ 42 / 5 := by
  have hu := u_pos (F := F)
  obtain ⟨_, h2⟩ := ratio_sum h.wide h.words h.words' h.vocabulary
  unfold step
  rw [sum_add_distrib, ← mul_sum, sum_const, card_univ, Fintype.card_fin, nsmul_eq_mul]
  have h1 := mul_le_mul_of_nonneg_left h2 (by positivity : 0 ≤ 1003 / 1000 * M)
  have h3 : (V : ℝ) * ((4 * K + 12) * F.u) ≤ 4 * (V * (K + 6) * F.u) := by
    have : 0 ≤ (V : ℝ) * F.u := by positivity
    nlinarith
  have := h.count
  have := h.weights'
  linarith

theorem mul_rel (h : Wide F) {x y a b : ℝ} (hx : Rel a x 1) (hy : Rel b y 1) (hab : a + b ≤ 69) :
    ∃ z : ℝ, nMul F (.fin x) (.fin y) = .fin z ∧ Rel (a + b + 2 * F.u) z 1 := by
  have hu := u_pos (F := F)
  have hu' := h.u
  have R := hx.mul hy zero_le_one zero_le_one
  rw [mul_one] at R
  have R' := R.mono hab zero_le_one
  rw [Rel, mul_one, mul_one] at R'
  have r1 := h.rel_fl R'.1
  have r2 := r1.trans R
  rw [add_comm (2 * F.u)] at r2
  refine ⟨fl F (x * y), nMul_fin (h.small_lt ?_), r2⟩
  have r3 := (r2.mono (d' := 69 + 2 * F.u) (by linarith) zero_le_one).2
  rw [mul_one] at r3
  rw [abs_of_pos (r2.pos one_pos)]
  exact r3.trans (exp_le_two_pow 100 (by norm_num; linarith))

theorem div_rel (h : Wide F) {x y a b : ℝ} (hx : Rel a x 1) (hy : Rel b y 1) (hab : a + b ≤ 69) :
    ∃ z : ℝ, nDiv F (.fin x) (.fin y) = .fin z ∧ Rel (a + b + 2 * F.u) z 1 := by
  have hu := u_pos (F := F)
  have hu' := h.u
  have R := hx.div hy zero_le_one zero_lt_one
  rw [div_one] at R
  have R' := R.mono hab zero_le_one
  rw [Rel, mul_one, mul_one] at R'
  have r1 := h.rel_fl R'.1
  have r2 := r1.trans R
  rw [add_comm (2 * F.u)] at r2
  refine ⟨fl F (x / y), nDiv_fin (hy.pos one_pos).ne' (h.small_lt ?_), r2⟩
  have r3 := (r2.mono (d' := 69 + 2 * F.u) (by linarith) zero_le_one).2
  rw [mul_one] at r3
  rw [abs_of_pos (r2.pos one_pos)]
  exact r3.trans (exp_le_two_pow 100 (by norm_num; linarith))

theorem products_fin (h : Small F X eta M T) (hM : 0 ≤ M) {p : Mat K V ℝ} (hp : ∀ k n, 0 ≤ p k n)
    (hs : ∀ n, Rel ((2 * K + 3) * F.u) (∑ k, p k n) 1) : ∀ (l : List (Fin V)) (P : Vec C ℝ) (L : ℝ),
    (∀ c, Rel L (P c) 1) → L + (l.map (step F K X M)).sum ≤ 69 →
    ∃ P' : Vec C ℝ, nProducts D X eta (fun k n => .fin (p k n)) l (fun c => .fin (P c)) = some (fun c => .fin (P' c)) ∧
      ∀ c, Rel (L + (l.map (step F K X M)).sum) (P' c) 1 := by
  intro l
  induction l with
  | nil => intro P L hP _; exact ⟨P, rfl, by simpa using hP⟩
  | cons n ns ih =>
    intro P L hP hL
    rw [List.map_cons, List.sum_cons] at hL
    have hrest : 0 ≤ (ns.map (step F K X M)).sum := by
      refine List.sum_nonneg fun x hx => ?_
      obtain ⟨i, _, rfl⟩ := List.mem_map.1 hx
      have := step_nonneg h hM i
      have := u_pos (F := F)
      linarith
    have hu := u_pos (F := F)
    obtain ⟨e, he, he1, _⟩ := expEta_fin (D := D) h n
    obtain ⟨f, hf, hf1⟩ := factor_fin (D := D) h hM n he1 (fun k => hp k n) (hs n)
    choose Q hQ using fun c => mul_rel h.wide (hP c) (hf1 c) (by linarith)
    obtain ⟨P', h1, h2⟩ := ih Q (L + step F K X M n) (fun c => by
      have := (hQ c).2
      rwa [show L + (step F K X M n - 2 * F.u) + 2 * F.u = L + step F K X M n by ring] at this) (by linarith)
    refine ⟨P', ?_, fun c => ?_⟩
    · rw [nProducts, he, Option.bind_some, hf]
      simp only [fun c => (hQ c).1]
      exact h1
    · rw [List.map_cons, List.sum_cons, ← add_assoc]
      exact h2 c

/-! ### The fixed point iterations -/

theorem fl_near (h : Wide F) {x : ℝ} (hx : |x| ≤ 4000) : |fl F x - x| ≤ 1 / 1000 := by
  have hu := u_pos (F := F)
  have hu' := h.u
  have ht : F.tiny ≤ 1 / 10 ^ 6 := h.tiny.trans (by norm_num)
  have h1 := fl_le_add (F := F) x
  have h2 := fl_le_add (F := F) (-x)
  rw [fl_neg, abs_neg] at h2
  have h3 : F.u * |x| ≤ 1 / 2 ^ 24 * 4000 := mul_le_mul hu' hx (abs_nonneg x) (by norm_num)
  rw [abs_le]
  constructor <;> linarith

theorem mapNum_fin {m : ℕ} {z e : Vec m ℝ} (h : ∀ i, lExp D.toMachine (z i) = some (e i)) :
    mapNum (nExp D) (fun i => .fin (z i)) = some fun i => .fin (e i) := by
  have key : ∀ i, nExp D (.fin (z i)) = some (.fin (e i)) := by
    intro i
    show some _ = _
    rw [h i]
  unfold mapNum
  rw [dif_pos (fun i => by rw [key i]; rfl)]
  congr 1
  funext i
  simp only [key i, Option.get_some]

/-- The classes together: the numbers of the topics differ by a bounded factor. -/
theorem classes_fin (h : Small F X eta M T) (y : Fin C) {e : Mat K C ℝ} (he : ∀ k c, Rel (101 / 100 * T + 1 / 100) (e k c) 1)
    {p : Vec C ℝ} (hp : ∀ c, Rel 27 (p c) 1) : ∃ w : Vec K ℝ,
    (fun k => D.nsum fun c => nMul F (.fin (e k c)) (.fin (p c))) = (fun k => .fin (w k)) ∧ (∀ k, Rel 43 (w k) 1) ∧
    ∀ j k, w j ≤ Real.exp (101 / 50 * T + 7 / 100) * w k := by
  have hu := u_pos (F := F)
  have hu' := h.wide.u
  have hT3 := h.share'
  have hC : (C : ℝ) ≤ 2 ^ 16 := by exact_mod_cast h.classes
  have hCu : (2 * C + 4) * F.u ≤ 1 / 100 := by
    have := mul_le_mul (by linarith : 2 * (C : ℝ) + 4 ≤ 2 ^ 17 + 4) hu' hu.le (by norm_num)
    refine this.trans ?_
    norm_num
  have p0 : ∀ c, 0 < p c := fun c => (hp c).pos one_pos
  have S := fun k => Rel.sum (fun c => he k c) (fun c => (p0 c).le)
  have hpl : Real.exp (-27) ≤ ∑ c, p c := by
    have := (hp y).1
    rw [mul_one] at this
    exact this.trans (single_le_sum (f := p) (fun c _ => (p0 c).le) (mem_univ y))
  have hpu : ∑ c, p c ≤ Real.exp 39 := by
    have h1 : ∑ c, p c ≤ ∑ _c : Fin C, Real.exp 27 := sum_le_sum fun c _ => by
      have := (hp c).2
      rwa [mul_one] at this
    rw [sum_const, card_univ, Fintype.card_fin, nsmul_eq_mul] at h1
    have h2 : (2 : ℝ) ^ 16 ≤ Real.exp 12 := by
      have e1 : Real.exp 12 = Real.exp 1 ^ 12 := by rw [← Real.exp_nat_mul]; norm_num
      rw [e1]
      have e2 : (2.7 : ℝ) ≤ Real.exp 1 := by have := Real.exp_one_gt_d9; linarith
      have e3 := pow_le_pow_left₀ (by norm_num) e2 12
      refine le_trans ?_ e3
      norm_num
    have h3 : (C : ℝ) * Real.exp 27 ≤ Real.exp 12 * Real.exp 27 := mul_le_mul_of_nonneg_right (hC.trans h2) (Real.exp_pos _).le
    rw [← Real.exp_add] at h3
    norm_num at h3
    linarith
  have R : ∀ k, Rel (43 - 1 / 100) (∑ c, e k c * p c) 1 := by
    intro k
    have b0 : (0 : ℝ) ≤ ∑ c, p c := sum_nonneg fun c _ => (p0 c).le
    constructor
    · rw [mul_one]
      have a1 := (S k).1
      have a2 := mul_le_mul_of_nonneg_left hpl (Real.exp_pos (-(101 / 100 * T + 1 / 100))).le
      rw [← Real.exp_add] at a2
      exact ((Real.exp_le_exp.2 (by linarith)).trans a2).trans a1
    · rw [mul_one]
      have a1 := (S k).2
      have a2 := mul_le_mul_of_nonneg_left hpu (Real.exp_pos (101 / 100 * T + 1 / 100)).le
      rw [← Real.exp_add] at a2
      exact a1.trans (a2.trans (Real.exp_le_exp.2 (by linarith)))
  have key : ∀ k, ∃ w : ℝ, D.nsum (fun c => nMul F (.fin (e k c)) (.fin (p c))) = .fin w ∧
      Rel (1 / 100) w (∑ c, e k c * p c) := by
    intro k
    have R' := (R k).mono (d' := 50) (by norm_num) zero_le_one
    rw [Rel, mul_one, mul_one] at R'
    obtain ⟨w, hw, rw'⟩ := dot_fin (D := D) h.wide (h.classes.trans (by norm_num)) (fun c => ((he k c).pos one_pos).le)
      (fun c => (p0 c).le) R'.1 R'.2
    exact ⟨w, hw, rw'.mono hCu (sum_nonneg fun c _ => mul_nonneg ((he k c).pos one_pos).le (p0 c).le)⟩
  choose w hw using key
  refine ⟨w, funext fun k => (hw k).1, fun k => ?_, fun j k => ?_⟩
  · have := (hw k).2.trans (R k)
    rwa [show (1 : ℝ) / 100 + (43 - 1 / 100) = 43 by ring] at this
  · have b0 : 0 ≤ ∑ c, p c := sum_nonneg fun c _ => (p0 c).le
    have a1 := (hw j).2.2.trans (mul_le_mul_of_nonneg_left (S j).2 (Real.exp_pos _).le)
    have a2 := (mul_le_mul_of_nonneg_left (S k).1 (Real.exp_pos (-(1 / 100))).le).trans (hw k).2.1
    have a3 := mul_le_mul_of_nonneg_left a2 (Real.exp_pos (101 / 50 * T + 7 / 100)).le
    refine a1.trans (le_trans ?_ a3)
    rw [← mul_assoc, ← mul_assoc, ← mul_assoc, ← Real.exp_add, ← Real.exp_add, ← Real.exp_add]
    exact mul_le_mul_of_nonneg_right (Real.exp_le_exp.2 (by linarith)) b0

/-- The factor `t` of the fixed point iteration is nearly the quotient that it stands for. -/
theorem quotient_fin (h : Wide F) {s : ℝ} (hs : Rel 44 s 1) {x : ℕ} (hx : 1 ≤ x) (hx' : x ≤ 2 ^ 31) :
    ∃ t : ℝ, convert F (nDiv double (nDiv double (.fin 1) (.fin s)) (toNum double x)) = .fin t ∧ 0 ≤ t ∧
      t ≤ Real.exp (1 / 1000) * (1 / s) ∧ t ≤ 2 ^ 70 := by
  have hd := wide_double
  have hu := u_pos (F := F)
  have hu' := h.u
  have du := u_pos (F := double)
  have du' := hd.u
  have s0 := hs.pos one_pos
  have x1 : (1 : ℝ) ≤ x := by exact_mod_cast hx
  have xb : (x : ℝ) ≤ Real.exp 22 := by
    have h1 : (x : ℝ) ≤ 2 ^ 31 := by exact_mod_cast hx'
    have e1 : Real.exp 22 = Real.exp 1 ^ 22 := by rw [← Real.exp_nat_mul]; norm_num
    rw [e1]
    have e2 : (2.7 : ℝ) ≤ Real.exp 1 := by have := Real.exp_one_gt_d9; linarith
    have e3 := pow_le_pow_left₀ (by norm_num) e2 22
    refine (h1.trans ?_).trans e3
    norm_num
  obtain ⟨z, hz, rz⟩ : ∃ z : ℝ, nDiv double (.fin 1) (.fin s) = .fin z ∧ Rel (2 * double.u) z (1 / s) := by
    have R := hs.inv one_pos
    rw [inv_one, ← one_div] at R
    have R' := R.1
    rw [mul_one] at R'
    have r1 := hd.rel_fl ((Real.exp_le_exp.2 (by norm_num)).trans R')
    refine ⟨_, nDiv_fin s0.ne' (hd.small_lt ?_), r1⟩
    have r2 := (r1.trans R).2
    rw [abs_of_pos (r1.pos (one_div_pos.2 s0))]
    rw [mul_one] at r2
    exact r2.trans (exp_le_two_pow 100 (by norm_num; linarith))
  have fx := hd.rel_fl (x := (x : ℝ)) ((Real.exp_le_one_iff.2 (by norm_num)).trans x1)
  have fx0 := fx.pos (by linarith)
  have rq := rz.div fx (one_div_pos.2 s0).le (by linarith)
  have lo : Real.exp (-66) ≤ 1 / s / x := by
    have R := hs.inv one_pos
    rw [inv_one, ← one_div] at R
    have R' := R.1
    rw [mul_one] at R'
    rw [le_div_iff₀ (by linarith)]
    have := mul_le_mul_of_nonneg_left xb (Real.exp_pos (-66)).le
    rw [← Real.exp_add] at this
    exact this.trans ((Real.exp_le_exp.2 (by norm_num)).trans R')
  have q0 : 0 ≤ 1 / s / (x : ℝ) := (Real.exp_pos _).le.trans lo
  have up : 1 / s / (x : ℝ) ≤ 1 / s := div_le_self (one_div_pos.2 s0).le x1
  have sup : 1 / s ≤ Real.exp 44 := by
    have R := (hs.inv one_pos).2
    rwa [inv_one, ← one_div, mul_one] at R
  have lo' : ∀ {d z : ℝ}, Rel d z (1 / s / x) → d ≤ 1 → Real.exp (-69) ≤ z := by
    intro d z hz hd
    refine le_trans ?_ hz.1
    have := mul_le_mul_of_nonneg_left lo (Real.exp_pos (-d)).le
    rw [← Real.exp_add] at this
    exact (Real.exp_le_exp.2 (by linarith)).trans this
  have hi' : ∀ {d z : ℝ}, Rel d z (1 / s / x) → d ≤ 1 → |z| ≤ 2 ^ 70 := by
    intro d z hz hd
    rw [abs_of_pos ((Real.exp_pos _).trans_le (lo' hz hd))]
    refine hz.2.trans ?_
    have := mul_le_mul_of_nonneg_left (up.trans sup) (Real.exp_pos d).le
    rw [← Real.exp_add] at this
    exact this.trans (exp_le_two_pow 70 (by norm_num; linarith))
  have big : (2 : ℝ) ^ 70 ≤ 2 ^ 100 := by norm_num
  have r3 := (hd.rel_fl (lo' rq (by linarith))).trans rq
  have r4 := (h.rel_fl (lo' r3 (by linarith))).trans r3
  refine ⟨fl F (fl double (z / fl double (x : ℝ))), ?_, ?_, ?_, ?_⟩
  · rw [hz, hd.toNum_nat hx', nDiv_fin fx0.ne' (hd.small_lt ((hi' r3 (by linarith)).trans big))]
    exact toNum_fin (h.small_lt ((hi' r4 (by linarith)).trans big))
  · exact (Real.exp_pos _).le.trans (lo' r4 (by linarith))
  · refine (r4.mono (d' := 1 / 1000) (by linarith) q0).2.trans ?_
    exact mul_le_mul_of_nonneg_left up (Real.exp_pos _).le
  · exact (le_abs_self _).trans (hi' r4 (by linarith))

/-- The words of the document are known to the model, and the exponentials are numbers of the machine. -/
structure Known (D : Device F) (X : Vec V ℕ) (beta : Mat K V ℝ) (T Pm Q : ℝ) : Prop where
  nonneg : ∀ k n, 0 ≤ beta k n
  le_one : ∀ k n, beta k n ≤ 1
  quotient : Real.exp (101 / 50 * T + 1 / 3) ≤ Q
  quotient' : Q ≤ 1000
  psi : 27 ≤ Pm
  psi' : Pm ≤ 1000
  exps : ∃ (r : ℝ) (q : ℕ), Moderate D r q ∧ 40 ≤ r
  word : ∀ n, X n ≠ 0 → ∃ k, ∀ x e, -(Pm + T + Q + 1) ≤ x → lExp D.toMachine x = some e → 2 ^ F.low ≤ beta k n * e

theorem fixedPoint_fin (h : Small F X eta M T) {beta : Mat K V ℝ} {Pm Q : ℝ} (hb : Known D X beta T Pm Q) {n : Fin V}
    (hn : X n ≠ 0) (y : Fin C) {psi w col : Vec K ℝ} (hpsi : ∀ k, -Pm ≤ psi k ∧ psi k ≤ 27) (hw : ∀ k, Rel 43 (w k) 1)
    (hw' : ∀ j k, w j ≤ Real.exp (101 / 50 * T + 7 / 100) * w k) (hc : ∀ k, 0 ≤ col k)
    (hs : Rel ((2 * K + 3) * F.u) (∑ k, col k) 1) :
    ∃ col' : Vec K ℝ, nFixedPoint D (X n) (nRatio F X n) (fun k => beta k n) (fun k => eta k y) (fun k => .fin (psi k))
      (fun k => .fin (w k)) (fun k => .fin (col k)) = some (fun k => .fin (col' k)) ∧ (∀ k, 0 ≤ col' k) ∧
      Rel ((2 * K + 3) * F.u) (∑ k, col' k) 1 := by
  have hF := h.wide.ok
  have hu := u_pos (F := F)
  have hu' := h.wide.u
  have hK := h.topics_u n
  have hT3 := h.share'
  have w0 : ∀ k, 0 < w k := fun k => (hw k).pos one_pos
  have big : (4000 : ℝ) ≤ 2 ^ 100 := by norm_num
  -- the sum
  have R := (Rel.sum hw hc).trans hs
  have R' := R.mono (d' := 50) (by nlinarith) zero_le_one
  rw [Rel, mul_one, mul_one] at R'
  obtain ⟨s, es, rs⟩ := dot_fin (D := D) h.wide h.topics (fun k => (w0 k).le) hc R'.1 R'.2
  have rs1 : Rel 44 s 1 := (rs.trans R).mono (by nlinarith) zero_le_one
  have s0 := rs1.pos one_pos
  obtain ⟨t, et, t0, t1, t2⟩ := quotient_fin h.wide rs1 (Nat.one_le_iff_ne_zero.2 hn) ((word_le n).trans h.words')
  have hratio : ∀ k, w k * (1 / s) ≤ Real.exp (101 / 50 * T + 7 / 100 + 1 / 4) := by
    intro k
    rw [mul_one_div, div_le_iff₀ s0]
    have a1 : w k * ∑ j, col j ≤ Real.exp (101 / 50 * T + 7 / 100) * ∑ j, w j * col j := by
      rw [mul_sum, mul_sum]
      exact sum_le_sum fun j _ => by
        rw [← mul_assoc]
        exact mul_le_mul_of_nonneg_right (hw' k j) (hc j)
    have a2 := mul_le_mul_of_nonneg_left hs.1 (w0 k).le
    have a3 := mul_le_mul_of_nonneg_left rs.1 (Real.exp_pos (101 / 50 * T + 7 / 100 + 1 / 4)).le
    have a4 : Real.exp (101 / 50 * T + 7 / 100 + 1 / 4) * (Real.exp (-((2 * K + 4) * F.u)) * ∑ j, w j * col j) =
        Real.exp (1 / 4 - (2 * K + 4) * F.u) * (Real.exp (101 / 50 * T + 7 / 100) * ∑ j, w j * col j) := by
      rw [← mul_assoc, ← mul_assoc, ← Real.exp_add, ← Real.exp_add]
      congr 2
      ring
    have a5 := mul_le_mul_of_nonneg_left (a2.trans a1) (Real.exp_pos (1 / 4 - (2 * K + 4) * F.u)).le
    have a6 : w k ≤ Real.exp (1 / 4 - (2 * K + 4) * F.u) * (w k * (Real.exp (-((2 * K + 3) * F.u)) * 1)) := by
      rw [mul_one, mul_left_comm, ← Real.exp_add]
      exact le_mul_of_one_le_right (w0 k).le (Real.one_le_exp (by nlinarith))
    linarith
  -- the subtrahend
  have hsub : ∀ k, ∃ z : ℝ, nMul F (.fin (w k)) (.fin t) = .fin z ∧ 0 ≤ z ∧ z ≤ Q := by
    intro k
    have p0 : 0 ≤ w k * t := mul_nonneg (w0 k).le t0
    have p1 : w k * t ≤ Real.exp (101 / 50 * T + 7 / 100 + 1 / 4 + 1 / 1000) := by
      rw [Real.exp_add _ (1 / 1000)]
      calc w k * t ≤ w k * (Real.exp (1 / 1000) * (1 / s)) := mul_le_mul_of_nonneg_left t1 (w0 k).le
        _ = (w k * (1 / s)) * Real.exp (1 / 1000) := by ring
        _ ≤ _ := mul_le_mul_of_nonneg_right (hratio k) (Real.exp_pos _).le
    have T0 := h.T_nonneg k y n
    have e1 : 1 ≤ Real.exp (101 / 50 * T + 7 / 100 + 1 / 4 + 1 / 1000) := Real.one_le_exp (by linarith)
    have e2 : Real.exp (101 / 50 * T + 7 / 100 + 1 / 4 + 1 / 1000) * (1 + 1 / 1000) ≤ Q := by
      refine le_trans ?_ hb.quotient
      have a1 := Real.add_one_le_exp (1 / 1000 : ℝ)
      have a2 := mul_le_mul_of_nonneg_left (by linarith : (1 : ℝ) + 1 / 1000 ≤ Real.exp (1 / 1000))
        (Real.exp_pos (101 / 50 * T + 7 / 100 + 1 / 4 + 1 / 1000)).le
      rw [← Real.exp_add] at a2
      exact a2.trans (Real.exp_le_exp.2 (by linarith))
    have e3 := fl_err (F := F) p0
    rw [abs_le] at e3
    have ht : F.tiny ≤ 1 / 2000 := h.wide.tiny.trans (by norm_num)
    have e4 : F.u * (w k * t) ≤ 1 / 2000 * (w k * t) := mul_le_mul_of_nonneg_right (by linarith) p0
    have e5 : fl F (w k * t) ≤ Q := by linarith [e3.2]
    refine ⟨fl F (w k * t), nMul_fin (h.wide.small_lt ?_), fl_nonneg p0, e5⟩
    rw [abs_of_nonneg (fl_nonneg p0)]
    linarith [hb.quotient']
  choose z ez z0 z1 using hsub
  -- the exponents
  obtain ⟨hr, _, _⟩ := near_ratio h.wide h.words h.words'
  have hP := hb.psi'
  have hP' := hb.psi
  have hQ := hb.quotient'
  have hexp : ∀ k, ∃ x : ℝ, nSub F (nAdd F (.fin (psi k)) (nMul F (nRatio F X n) (.fin (eta k y)))) (.fin (z k)) = .fin x ∧
      -(Pm + T + Q + 1) ≤ x ∧ x ≤ 40 := by
    intro k
    obtain ⟨p1, p2⟩ := hpsi k
    have T0 := h.T_nonneg k y n
    have a1 := h.scaled k y n
    rw [mul_comm] at a1
    have a2 := fl_near h.wide (x := rRatio F X n * eta k y) (by linarith)
    rw [abs_le] at a1 a2
    have b1 : |fl F (rRatio F X n * eta k y)| ≤ T + 1 / 10 := by
      rw [abs_le]
      constructor <;> linarith
    have b1' := abs_le.1 b1
    have a3 := fl_near h.wide (x := psi k + fl F (rRatio F X n * eta k y)) (by rw [abs_le]; constructor <;> linarith)
    rw [abs_le] at a3
    have b2 : |fl F (psi k + fl F (rRatio F X n * eta k y))| ≤ 2000 := by
      rw [abs_le]
      constructor <;> linarith
    have b2' := abs_le.1 b2
    have z0' := z0 k
    have z1' := z1 k
    have a4 := fl_near h.wide (x := fl F (psi k + fl F (rRatio F X n * eta k y)) - z k) (by rw [abs_le]; constructor <;> linarith)
    rw [abs_le] at a4
    refine ⟨fl F (fl F (psi k + fl F (rRatio F X n * eta k y)) - z k), ?_, by linarith, by linarith⟩
    rw [hr n, nMul_fin (h.wide.small_lt (by linarith)), nAdd_fin (h.wide.small_lt (by linarith)),
      nSub_fin (h.wide.small_lt (by
        have : |fl F (fl F (psi k + fl F (rRatio F X n * eta k y)) - z k)| ≤ 4000 := by
          rw [abs_le]
          constructor <;> linarith
        linarith))]
  choose x ex xl xu using hexp
  obtain ⟨r, q, hm, hr40⟩ := hb.exps
  choose e he e0 e1 e2 using fun k => hm.fin (x k) ((xu k).trans hr40)
  -- the new column
  have nb : ∀ k, 0 ≤ beta k n * e k := fun k => mul_nonneg (hb.nonneg k n) (e0 k)
  have nu : ∀ k, beta k n * e k ≤ 2 ^ (q : ℤ) := fun k => by
    rw [zpow_natCast]
    exact (mul_le_of_le_one_left (e0 k) (hb.le_one k n)).trans (e1 k)
  have fu : ∀ k, fl F (beta k n * e k) ≤ 2 ^ q := fun k => by
    have := fl_le hF (nb k) (by have := h.wide.low; omega) (nu k)
    rwa [zpow_natCast] at this
  have hq := hm.high
  have fb : ∀ k, nMul F (.fin (beta k n)) (.fin (e k)) = .fin (fl F (beta k n * e k)) := by
    intro k
    apply nMul_fin
    rw [abs_of_nonneg (fl_nonneg (nb k))]
    exact (fu k).trans_lt (pow_lt_pow_right₀ (by norm_num) (by omega))
  have hsum : ∑ k, fl F (beta k n * e k) ≤ 2 ^ F.high / 4 := by
    have a1 : ∑ k, fl F (beta k n * e k) ≤ ∑ _k : Fin K, (2 : ℝ) ^ q := sum_le_sum fun k _ => fu k
    rw [sum_const, card_univ, Fintype.card_fin, nsmul_eq_mul] at a1
    have a2 : (K : ℝ) * 2 ^ q ≤ 2 ^ 20 * 2 ^ q := mul_le_mul_of_nonneg_right (million h.topics) (by positivity)
    rw [← pow_add] at a2
    have a3 : (2 : ℝ) ^ (20 + q) * 4 ≤ 2 ^ F.high := by
      have : (2 : ℝ) ^ (20 + q) * 4 = 2 ^ (20 + q + 2) := by rw [pow_add _ _ 2]; norm_num
      rw [this]
      exact pow_le_pow_right₀ (by norm_num) (by omega)
    linarith
  obtain ⟨k0, hk0⟩ := hb.word n hn
  obtain ⟨p, hp, p0, p1⟩ := share_fin (D := D) h.wide h.topics (v := fun k => fl F (beta k n * e k)) (fun k => fl_nonneg (nb k))
    (fun k => fl_fl' hF _) hsum ⟨k0, (two_zpow_pos F.low).trans_le (le_fl hF le_rfl (hk0 _ _ (xl k0) (he k0)))⟩
  refine ⟨p, ?_, p0, p1⟩
  unfold nFixedPoint
  simp only [es, et, ez, ex]
  rw [mapNum_fin he, Option.map_some]
  simp only [fb, hp]

theorem fixedPoints_fin (h : Small F X eta M T) {beta : Mat K V ℝ} {Pm Q : ℝ} (hb : Known D X beta T Pm Q) {n : Fin V}
    (hn : X n ≠ 0) (y : Fin C) {psi w : Vec K ℝ} (hpsi : ∀ k, -Pm ≤ psi k ∧ psi k ≤ 27) (hw : ∀ k, Rel 43 (w k) 1)
    (hw' : ∀ j k, w j ≤ Real.exp (101 / 50 * T + 7 / 100) * w k) : ∀ (i : ℕ) (col : Vec K ℝ), (∀ k, 0 ≤ col k) →
    Rel ((2 * K + 3) * F.u) (∑ k, col k) 1 →
    ∃ col' : Vec K ℝ, nFixedPoints D (X n) (nRatio F X n) (fun k => beta k n) (fun k => eta k y) (fun k => .fin (psi k))
      (fun k => .fin (w k)) i (fun k => .fin (col k)) = some (fun k => .fin (col' k)) ∧ (∀ k, 0 ≤ col' k) ∧
      Rel ((2 * K + 3) * F.u) (∑ k, col' k) 1 := by
  intro i
  induction i with
  | zero => intro col hc hs; exact ⟨col, rfl, hc, hs⟩
  | succ i ih =>
    intro col hc hs
    obtain ⟨c1, h1, h2, h3⟩ := fixedPoint_fin h hb hn y hpsi hw hw' hc hs
    obtain ⟨c2, h4⟩ := ih c1 h2 h3
    refine ⟨c2, ?_, h4.2⟩
    rw [nFixedPoints, h1, Option.bind_some]
    exact h4.1

/-! ### The document -/

theorem fl_abs (x : ℝ) : |fl F x - x| ≤ F.u * |x| + F.tiny := by
  have h1 := fl_le_add (F := F) x
  have h2 := fl_le_add (F := F) (-x)
  rw [fl_neg, abs_neg] at h2
  rw [abs_le]
  constructor <;> linarith

/-- The rounding error of one update of `gamma`. -/
noncomputable def drift (F : Format) (X : Vec V ℕ) (A : ℝ) : ℝ := (8 * numWords X + A + 3) * F.u

theorem gamma_update (h : Wide F) (hX : numWords X ≤ 2 ^ 31) {A g a b : ℝ} (n : Fin V) (hn : X n ≠ 0)
    (hg : |g| ≤ A + 23 / 20 * numWords X + 1) (hA : A ≤ 2 ^ 33) (ha : 0 ≤ a) (ha' : a ≤ 23 / 20) (hb : 0 ≤ b) (hb' : b ≤ 23 / 20) :
    ∃ g' : ℝ, nAdd F (.fin g) (nMul F (toNum F (X n)) (nSub F (.fin a) (.fin b))) = .fin g' ∧
      |g' - (g + X n * (a - b))| ≤ drift F X A := by
  have hu := u_pos (F := F)
  have hu' := h.u
  have ht0 := tiny_pos (F := F)
  have ht := h.tiny_u
  have hN : (numWords X : ℝ) ≤ 2 ^ 31 := by exact_mod_cast hX
  have hx : (X n : ℝ) ≤ numWords X := by exact_mod_cast word_le n
  have x1 : (1 : ℝ) ≤ X n := by exact_mod_cast Nat.one_le_iff_ne_zero.2 hn
  have hd : |a - b| ≤ 23 / 20 := by rw [abs_le]; constructor <;> linarith
  obtain ⟨f0, _, f2⟩ := near_nat h.ok (X n)
  have f3 : fl F (X n : ℝ) ≤ 101 / 100 * X n := by nlinarith
  have f4 := fl_err (F := F) (x := (X n : ℝ)) (by linarith)
  have tx : F.tiny * X n ≤ F.u / 10 := by
    have a1 : F.tiny * X n ≤ F.u / 2 ^ 101 * 2 ^ 31 := mul_le_mul ht (hx.trans hN) (by linarith) (by positivity)
    have a2 : F.u / 2 ^ 101 * 2 ^ 31 = F.u * (1 / 2 ^ 70) := by ring
    have a3 : F.u * (1 / 2 ^ 70) ≤ F.u * (1 / 10) := mul_le_mul_of_nonneg_left (by norm_num) hu.le
    linarith
  have t1 : F.tiny ≤ F.u / 10 := by nlinarith
  rw [h.toNum_nat ((word_le n).trans hX)]
  generalize (X n : ℝ) = x at *
  generalize fl F x = y at *
  have d1 := fl_abs (F := F) (a - b)
  have e1 : |fl F (a - b) - (a - b)| ≤ 23 / 20 * F.u + F.tiny := by
    have := mul_le_mul_of_nonneg_left hd hu.le
    linarith
  have e2 : |fl F (a - b)| ≤ 6 / 5 := by
    have := abs_add_le (fl F (a - b) - (a - b)) (a - b)
    rw [sub_add_cancel] at this
    linarith
  have ec : nSub F (.fin a) (.fin b) = .fin (fl F (a - b)) := nSub_fin (h.small_lt (e2.trans (by norm_num)))
  rw [ec]
  clear ec
  generalize fl F (a - b) = c at *
  -- the product
  have m1 : |y * c| ≤ 5 / 4 * x := by
    rw [abs_mul, abs_of_nonneg f0]
    have := mul_le_mul f3 e2 (abs_nonneg c) (by linarith)
    linarith
  have m2 : |y * c - x * (a - b)| ≤ 12 / 5 * F.u * x + F.u / 2 := by
    have e : y * c - x * (a - b) = y * (c - (a - b)) + (y - x) * (a - b) := by ring
    rw [e]
    refine (abs_add_le _ _).trans ?_
    rw [abs_mul, abs_mul, abs_of_nonneg f0]
    have a1 := mul_le_mul f3 e1 (abs_nonneg _) (by linarith)
    have a2 := mul_le_mul f4 hd (abs_nonneg _) (by positivity)
    have a3 : 0 ≤ F.u * x := by positivity
    nlinarith
  have m3 := fl_abs (F := F) (y * c)
  have m4 : |fl F (y * c) - y * c| ≤ 5 / 4 * F.u * x + F.u / 10 := by
    have := mul_le_mul_of_nonneg_left m1 hu.le
    linarith
  have m5 : |fl F (y * c)| ≤ 13 / 10 * x := by
    have := abs_add_le (fl F (y * c) - y * c) (y * c)
    rw [sub_add_cancel] at this
    have a1 : F.u * x ≤ 1 / 2 ^ 24 * x := mul_le_mul_of_nonneg_right hu' (by linarith)
    nlinarith
  have ew : nMul F (.fin y) (.fin c) = .fin (fl F (y * c)) := nMul_fin (h.small_lt (by
    have : (2 : ℝ) ^ 40 ≤ 2 ^ 100 := by norm_num
    linarith))
  rw [ew]
  clear ew
  generalize fl F (y * c) = w at *
  have s1 := fl_abs (F := F) (g + w)
  have s2 : |g + w| ≤ |g| + 13 / 10 * x := (abs_add_le _ _).trans (by linarith)
  have s3 : |fl F (g + w) - (g + w)| ≤ F.u * (|g| + 13 / 10 * x) + F.u / 10 := by
    have := mul_le_mul_of_nonneg_left s2 hu.le
    linarith
  refine ⟨fl F (g + w), nAdd_fin (h.small_lt ?_), ?_⟩
  · have := abs_add_le (fl F (g + w) - (g + w)) (g + w)
    rw [sub_add_cancel] at this
    have g0 := abs_nonneg g
    have a1 : F.u * (|g| + 13 / 10 * x) ≤ 1 / 2 ^ 24 * (|g| + 13 / 10 * x) := mul_le_mul_of_nonneg_right hu' (by positivity)
    have : (2 : ℝ) ^ 40 ≤ 2 ^ 100 := by norm_num
    linarith
  · have e : fl F (g + w) - (g + x * (a - b)) = (fl F (g + w) - (g + w)) + ((w - y * c) + (y * c - x * (a - b))) := by ring
    rw [e]
    have b1 := abs_add_le (fl F (g + w) - (g + w)) ((w - y * c) + (y * c - x * (a - b)))
    have b2 := abs_add_le (w - y * c) (y * c - x * (a - b))
    have b3 := mul_le_mul_of_nonneg_left hg hu.le
    have b4 := mul_le_mul_of_nonneg_left hx hu.le
    unfold drift
    nlinarith

/-- What holds for `gamma` and `phi` throughout the step: every column of `phi` sums to one, up to rounding, and `gamma`
differs by at most `d` from the prior plus the words. -/
structure Good (F : Format) (X : Vec V ℕ) (alpha : Vec K ℝ) (d : ℝ) (g : Vec K ℝ) (p : Mat K V ℝ) : Prop where
  nonneg : ∀ k n, 0 ≤ p k n
  sum : ∀ n, Rel ((2 * K + 3) * F.u) (∑ k, p k n) 1
  gamma : ∀ k, |g k - (alpha k + ∑ n, X n * p k n)| ≤ d

/-- Bounds on the prior: at least `2 / m` and at most `A`. -/
structure Prior (alpha : Vec K ℝ) (m A Pm : ℝ) : Prop where
  pos : 0 < m
  le : m ≤ 900
  lower : ∀ k, 2 / m ≤ alpha k
  upper : ∀ k, alpha k ≤ A
  big : A ≤ 2 ^ 33
  psi : (m + 2) * (1025 / 1024) + 1 / 1024 ≤ Pm

variable {alpha : Vec K ℝ} {m A Pm Q : ℝ} {beta : Mat K V ℝ}

theorem Good.range (h : Small F X eta M T) (ha : Prior alpha m A Pm) {d : ℝ} (hd : d ≤ 1 / m) {g : Vec K ℝ} {p : Mat K V ℝ}
    (hg : Good F X alpha d g p) (k : Fin K) : (∀ n, p k n ≤ 23 / 20) ∧ 1 / m ≤ g k ∧ g k ≤ A + 23 / 20 * numWords X + 1 / m := by
  have hp : ∀ n, p k n ≤ 23 / 20 := by
    intro n
    have h1 : p k n ≤ ∑ k, p k n := single_le_sum (f := fun k => p k n) (fun j _ => hg.nonneg j n) (mem_univ k)
    have h2 := (hg.sum n).2
    have hK := h.topics_u n
    have hu := u_pos (F := F)
    have h3 : Real.exp ((2 * K + 3) * F.u) ≤ Real.exp (1 / 8) := Real.exp_le_exp.2 (by nlinarith)
    have h4 := Real.exp_bound_div_one_sub_of_interval (x := 1 / 8) (by norm_num) (by norm_num)
    norm_num at h4
    linarith
  have s0 : 0 ≤ ∑ n, (X n : ℝ) * p k n := sum_nonneg fun n _ => mul_nonneg (Nat.cast_nonneg _) (hg.nonneg k n)
  have s1 : ∑ n, (X n : ℝ) * p k n ≤ 23 / 20 * numWords X := by
    have : (numWords X : ℝ) = ∑ n, (X n : ℝ) := by
      unfold numWords
      push_cast
      rfl
    rw [this, mul_sum]
    exact sum_le_sum fun n _ => by
      rw [mul_comm]
      exact mul_le_mul_of_nonneg_right (hp n) (Nat.cast_nonneg _)
  have h1 := abs_le.1 (hg.gamma k)
  have h2 := ha.lower k
  have h3 := ha.upper k
  have e : 2 / m = 1 / m + 1 / m := by ring
  exact ⟨hp, by linarith [h1.1], by linarith [h1.2]⟩

theorem Good.psi (h : Small F X eta M T) (ha : Prior alpha m A Pm) {d : ℝ} (hd : d ≤ 1 / m) {g : Vec K ℝ} {p : Mat K V ℝ}
    (hg : Good F X alpha d g p) (hm : 1 ≤ m) (k : Fin K) : D.npsi (.fin (g k)) = .fin (D.psi (g k)) ∧ -Pm ≤ D.psi (g k) ∧ D.psi (g k) ≤ 27 := by
  obtain ⟨_, h1, h2⟩ := hg.range h ha hd k
  have hm0 := ha.pos
  have b1 : 1 / 1024 ≤ 1 / m := one_div_le_one_div_of_le hm0 (by linarith [ha.le])
  have b2 : 1 / m ≤ 1 := by rw [div_le_iff₀ hm0]; linarith
  have hN : (numWords X : ℝ) ≤ 2 ^ 31 := by exact_mod_cast h.words'
  have b3 : g k ≤ 2 ^ 34 := by
    have := ha.big
    linarith
  refine ⟨D.npsi_fin _ ?_ ?_, ?_, (psi_range D.toMachine (b1.trans h1) b3).2⟩
  · refine le_trans ?_ (b1.trans h1)
    norm_num
  · exact h.wide.small_lt (b3.trans (by norm_num))
  · have := psi_ge (M := D.toMachine) (x := g k) (by linarith) h1 hm0
    linarith [ha.psi]

/-- The bounds of the update of `gamma` for one word: nothing for words that are not in the document. -/
noncomputable def loss (F : Format) (X : Vec V ℕ) (A : ℝ) (n : Fin V) : ℝ := if X n = 0 then 0 else drift F X A

theorem drift_nonneg (hA : 0 ≤ A) : 0 ≤ drift F X A := by
  have := u_pos (F := F)
  unfold drift
  positivity

theorem loss_nonneg (hA : 0 ≤ A) (n : Fin V) : 0 ≤ loss F X A n := by
  unfold loss
  split_ifs
  · exact le_rfl
  · exact drift_nonneg hA

/-- The state of the loop over the words, with finite numbers. -/
def fine (D : Device F) (g : Vec K ℝ) (p : Mat K V ℝ) (P : Vec C ℝ) : NumSweep K V C :=
  ⟨fun k n => .fin (p k n), fun k => .fin (g k), fun k => D.npsi (.fin (g k)), fun c => .fin (P c)⟩

theorem sweepWord_fin (h : Small F X eta M T) (hM : 0 ≤ M) (hA : 0 ≤ A) (hb : Known D X beta T Pm Q) (ha : Prior alpha m A Pm)
    (hm : 1 ≤ m) (y : Fin C) (fp : ℕ) {d L : ℝ} {g : Vec K ℝ} {p : Mat K V ℝ} {P : Vec C ℝ} (hg : Good F X alpha d g p)
    (hP : ∀ c, Rel L (P c) 1) (n : Fin V) (hd : d + loss F X A n ≤ 1 / m) (hL : L + 2 * step F K X M n ≤ 27) :
    ∃ (g' : Vec K ℝ) (p' : Mat K V ℝ) (P' : Vec C ℝ), nSweepWord D X y beta eta fp (fine D g p P) n = some (fine D g' p' P') ∧
      Good F X alpha (d + loss F X A n) g' p' ∧ ∀ c, Rel (L + 2 * step F K X M n) (P' c) 1 := by
  have hu := u_pos (F := F)
  have hs0 := step_nonneg h hM n
  have hd' : d ≤ 1 / m := by linarith [loss_nonneg (F := F) (X := X) hA n]
  unfold nSweepWord
  by_cases hn : X n = 0
  · rw [if_pos hn]
    refine ⟨g, p, P, rfl, ?_, fun c => (hP c).mono (by linarith) zero_le_one⟩
    unfold loss
    rw [if_pos hn, add_zero]
    exact hg
  rw [if_neg hn]
  have el : loss F X A n = drift F X A := if_neg hn
  rw [el] at hd ⊢
  obtain ⟨e, he, he1, he2⟩ := expEta_fin (D := D) h n
  obtain ⟨f, hf, hf1⟩ := factor_fin (D := D) h hM n he1 (fun k => hg.nonneg k n) (hg.sum n)
  choose q hq hq1 using fun c => div_rel h.wide (hP c) (hf1 c) (by linarith)
  obtain ⟨w, hw, hw1, hw2⟩ := classes_fin (D := D) h y he2 (p := q) (fun c => (hq1 c).mono (by linarith) zero_le_one)
  have hpsi := fun k => hg.psi (D := D) h ha hd' hm k
  obtain ⟨col, hc, hc0, hc1⟩ := fixedPoints_fin h hb hn y (psi := fun k => D.psi (g k)) (fun k => (hpsi k).2) hw1 hw2 fp
    (fun k => p k n) (fun k => hg.nonneg k n) (hg.sum n)
  obtain ⟨f', hf', hf1'⟩ := factor_fin (D := D) h hM n he1 hc0 hc1
  choose P' hP' hP1' using fun c => mul_rel h.wide (hq1 c) (hf1' c) (by linarith)
  have b2 : 1 / m ≤ 1 := by rw [div_le_iff₀ ha.pos]; linarith
  have hcol : ∀ k, col k ≤ 23 / 20 := by
    intro k
    have h1 : col k ≤ ∑ k, col k := single_le_sum (f := col) (fun j _ => hc0 j) (mem_univ k)
    have h2 := hc1.2
    have hK := h.topics_u n
    have h3 : Real.exp ((2 * K + 3) * F.u) ≤ Real.exp (1 / 8) := Real.exp_le_exp.2 (by nlinarith)
    have h4 := Real.exp_bound_div_one_sub_of_interval (x := 1 / 8) (by norm_num) (by norm_num)
    norm_num at h4
    linarith
  have hrange := fun k => hg.range h ha hd' k
  choose g' hg' hg1' using fun k => gamma_update (F := F) h.wide h.words' (A := A) (g := g k) (a := col k) (b := p k n) n hn
    (by
      obtain ⟨_, r1, r2⟩ := hrange k
      have : 0 < 1 / m := one_div_pos.2 ha.pos
      rw [abs_of_nonneg (by linarith)]
      linarith) ha.big (hc0 k) (hcol k) (hg.nonneg k n) ((hrange k).1 n)
  refine ⟨g', fun k => Function.update (p k) n (col k), P', ?_, ⟨?_, ?_, ?_⟩, fun c => ?_⟩
  · rw [he, Option.bind_some]
    simp only [fine]
    simp only [fun k => (hpsi k).1, hf, hq]
    simp only [funext_iff] at hw
    simp only [hw, hc, Option.map_some, hf', hP', hg']
    congr 1
    congr 1
    funext k j
    by_cases hj : j = n
    · subst hj
      simp
    · simp [Function.update_of_ne hj]
  · intro k j
    by_cases hj : j = n
    · subst hj
      simpa using hc0 k
    · simpa [Function.update_of_ne hj] using hg.nonneg k j
  · intro j
    by_cases hj : j = n
    · subst hj
      simpa using hc1
    · simpa [Function.update_of_ne hj] using hg.sum j
  · intro k
    have e1 : ∑ j, (X j : ℝ) * Function.update (p k) n (col k) j = (∑ j, (X j : ℝ) * p k j) + X n * (col k - p k n) := by
      rw [← sub_eq_iff_eq_add', ← sum_sub_distrib, sum_eq_single n]
      · simp; ring
      · intro j _ hj
        simp [Function.update_of_ne hj]
      · simp
    rw [e1]
    have a1 := hg1' k
    have a2 := hg.gamma k
    have e2 : g' k - (alpha k + (∑ j, (X j : ℝ) * p k j + X n * (col k - p k n))) =
      (g k - (alpha k + ∑ j, (X j : ℝ) * p k j)) + (g' k - (g k + X n * (col k - p k n))) := by ring
    rw [e2]
    exact (abs_add_le _ _).trans (by linarith)
  · have := hP1' c
    rw [show L + (step F K X M n - 2 * F.u) + 2 * F.u + (step F K X M n - 2 * F.u) + 2 * F.u = L + 2 * step F K X M n by ring] at this
    exact this

theorem sweepWords_fin (h : Small F X eta M T) (hM : 0 ≤ M) (hA : 0 ≤ A) (hb : Known D X beta T Pm Q) (ha : Prior alpha m A Pm)
    (hm : 1 ≤ m) (y : Fin C) (fp : ℕ) : ∀ (l : List (Fin V)) (d L : ℝ) (g : Vec K ℝ) (p : Mat K V ℝ) (P : Vec C ℝ),
    Good F X alpha d g p → (∀ c, Rel L (P c) 1) → d + (l.map (loss F X A)).sum ≤ 1 / m →
    L + 2 * (l.map (step F K X M)).sum ≤ 27 → 0 ≤ L →
    ∃ (g' : Vec K ℝ) (p' : Mat K V ℝ) (P' : Vec C ℝ), nSweepWords D X y beta eta fp l (fine D g p P) = some (fine D g' p' P') ∧
      Good F X alpha (d + (l.map (loss F X A)).sum) g' p' := by
  intro l
  induction l with
  | nil => intro d L g p P hg _ _ _ _; exact ⟨g, p, P, rfl, by simpa using hg⟩
  | cons n ns ih =>
    intro d L g p P hg hP hd hL hL0
    rw [List.map_cons, List.sum_cons] at hd hL ⊢
    have hu := u_pos (F := F)
    have r1 : 0 ≤ (ns.map (step F K X M)).sum := by
      refine List.sum_nonneg fun x hx => ?_
      obtain ⟨i, _, rfl⟩ := List.mem_map.1 hx
      have := step_nonneg h hM i
      linarith
    have r2 : 0 ≤ (ns.map (loss F X A)).sum := by
      refine List.sum_nonneg fun x hx => ?_
      obtain ⟨i, _, rfl⟩ := List.mem_map.1 hx
      exact loss_nonneg hA i
    have hs0 := step_nonneg h hM n
    obtain ⟨g1, p1, P1, h1, h2, h3⟩ := sweepWord_fin h hM hA hb ha hm y fp hg hP n (by linarith) (by linarith)
    obtain ⟨g2, p2, P2, h4, h5⟩ := ih _ _ g1 p1 P1 h2 h3 (by linarith) (by linarith) (by linarith)
    refine ⟨g2, p2, P2, ?_, by rw [← add_assoc]; exact h5⟩
    rw [nSweepWords, h1, Option.bind_some]
    exact h4

/-- The number of different words of a document. -/
def distinct (X : Vec V ℕ) : ℕ := (univ.filter fun n => X n ≠ 0).card

theorem loss_sum : ∑ n, loss F X A n = distinct X * drift F X A := by
  unfold loss distinct
  rw [card_filter]
  push_cast
  rw [sum_mul]
  exact sum_congr rfl fun n _ => by split_ifs <;> simp_all

theorem list_sum_finRange (f : Fin V → ℝ) : ((List.finRange V).map f).sum = ∑ n, f n := by
  rw [← List.ofFn_eq_map, List.sum_ofFn]

theorem phiGamma_fin (h : Small F X eta M T) (hM : 0 ≤ M) (hA : 0 ≤ A) (hb : Known D X beta T Pm Q) (ha : Prior alpha m A Pm)
    (hm : 1 ≤ m) (y : Fin C) (fp : ℕ) {d : ℝ} {g : Vec K ℝ} {p : Mat K V ℝ} (hg : Good F X alpha d g p)
    (hd : d + distinct X * drift F X A ≤ 1 / m) : ∃ (g' : Vec K ℝ) (p' : Mat K V ℝ),
      nPhiGamma D X y beta eta fp (fun k => .fin (g k), fun k n => .fin (p k n)) =
        some (fun k => .fin (g' k), fun k n => .fin (p' k n)) ∧ Good F X alpha (d + distinct X * drift F X A) g' p' := by
  have hsum := step_sum h hM
  have one : Rel 0 (1 : ℝ) 1 := Rel.refl' le_rfl zero_le_one
  have s0 : 0 ≤ ∑ n, step F K X M n := sum_nonneg fun n _ => by
    have := step_nonneg h hM n
    have := u_pos (F := F)
    linarith
  obtain ⟨P, h1, h2⟩ := products_fin (D := D) h hM hg.nonneg hg.sum (List.finRange V) (fun _ => 1) 0 (fun _ => one)
    (by rw [list_sum_finRange]; linarith)
  rw [list_sum_finRange] at h2
  obtain ⟨g', p', P', h3, h4⟩ := sweepWords_fin h hM hA hb ha hm y fp (List.finRange V) d _ g p P hg h2
    (by rw [list_sum_finRange, loss_sum]; exact hd) (by rw [list_sum_finRange]; linarith) (by linarith)
  rw [list_sum_finRange, loss_sum] at h4
  refine ⟨g', p', ?_, h4⟩
  unfold nPhiGamma
  simp only
  rw [h1, Option.bind_some]
  have : nSweepWords D X y beta eta fp (List.finRange V) ⟨fun k n => .fin (p k n), fun k => .fin (g k), fun k => D.npsi (.fin (g k)),
      fun c => .fin (P c)⟩ = some (fine D g' p' P') := h3
  rw [this]
  rfl

theorem Good.mono {d d' : ℝ} {g : Vec K ℝ} {p : Mat K V ℝ} (h : Good F X alpha d g p) (hd : d ≤ d') : Good F X alpha d' g p :=
  ⟨h.nonneg, h.sum, fun k => (h.gamma k).trans hd⟩

theorem loop_fin (h : Small F X eta M T) (hM : 0 ≤ M) (hA : 0 ≤ A) (hb : Known D X beta T Pm Q) (ha : Prior alpha m A Pm)
    (hm : 1 ≤ m) (y : Fin C) (fp : ℕ) (tol : ℝ) : ∀ (i : ℕ) (d : ℝ) (old : Vec K Num) (g : Vec K ℝ) (p : Mat K V ℝ),
    Good F X alpha d g p → d + i * (distinct X * drift F X A) ≤ 1 / m →
    ∃ (g' : Vec K ℝ) (p' : Mat K V ℝ), nSupervisedLoop D X y beta eta fp tol i old (fun k => .fin (g k), fun k n => .fin (p k n)) =
        some (fun k => .fin (g' k), fun k n => .fin (p' k n)) ∧ Good F X alpha (d + i * (distinct X * drift F X A)) g' p' := by
  have w0 : 0 ≤ (distinct X : ℝ) * drift F X A := mul_nonneg (Nat.cast_nonneg _) (drift_nonneg hA)
  intro i
  induction i with
  | zero => intro d old g p hg _; exact ⟨g, p, rfl, by simpa using hg⟩
  | succ i ih =>
    intro d old g p hg hd
    rw [nSupervisedLoop]
    split_ifs
    · exact ⟨g, p, rfl, hg.mono (by have : 0 ≤ ((i + 1 : ℕ) : ℝ) * (distinct X * drift F X A) := by positivity
                                    linarith)⟩
    · push_cast at hd ⊢
      have i0 : 0 ≤ (i : ℝ) * (distinct X * drift F X A) := by positivity
      obtain ⟨g1, p1, h1, h2⟩ := phiGamma_fin (D := D) h hM hA hb ha hm y fp hg (by nlinarith)
      obtain ⟨g2, p2, h3, h4⟩ := ih _ (fun k => .fin (g k)) g1 p1 h2 (by nlinarith)
      refine ⟨g2, p2, ?_, by
        rw [show d + ((i : ℝ) + 1) * (distinct X * drift F X A) = d + distinct X * drift F X A + i * (distinct X * drift F X A) by ring]
        exact h4⟩
      rw [h1, Option.bind_some]
      exact h3

theorem Rel.abs_sub {d x y : ℝ} (h : Rel d x y) (hd : 0 ≤ d) (hd' : d ≤ 1 / 100) (hy : 0 ≤ y) : |x - y| ≤ 11 / 10 * d * y := by
  have e1 := Real.abs_exp_sub_one_sub_id_le (x := d) (by rw [abs_of_nonneg hd]; linarith)
  have e2 := Real.add_one_le_exp (-d)
  rw [abs_le] at e1 ⊢
  have e3 : Real.exp d ≤ 1 + 11 / 10 * d := by nlinarith [e1.2]
  have a1 := h.1
  have a2 := h.2
  have a3 := mul_le_mul_of_nonneg_right e3 hy
  have a4 := mul_le_mul_of_nonneg_right e2 hy
  have a5 : 0 ≤ d * y := mul_nonneg hd hy
  constructor <;> nlinarith

theorem start_good (hw : Wide F) (hX : 0 < numWords X) (hX' : numWords X ≤ 2 ^ 31) (hK' : K ≤ 2 ^ 20) (hA : 0 ≤ A)
    (a0 : ∀ k, 0 ≤ alpha k) (aA : ∀ k, alpha k ≤ A) (hA' : A ≤ 2 ^ 33) (hK : 0 < K) (hdu : double.u ≤ F.u) :
    ∃ (g : Vec K ℝ) (p : Mat K V ℝ), nFirst F X alpha = (fun k => .fin (g k), fun k n => .fin (p k n)) ∧
      Good F X alpha (2 * drift F X A) g p := by
  have hF := hw.ok
  have hu := u_pos (F := F)
  have hu' := hw.u
  have du := u_pos (F := double)
  have hk : (0 : ℝ) < K := Nat.cast_pos.2 hK
  have hk1 : (1 : ℝ) ≤ K := by exact_mod_cast hK
  have hk2 : (K : ℝ) ≤ 2 ^ 20 := million hK'
  have hN1 : (1 : ℝ) ≤ numWords X := by exact_mod_cast hX
  have hN : (numWords X : ℝ) ≤ 2 ^ 31 := by exact_mod_cast hX'
  have small : Real.exp (-60) ≤ 1 / (K : ℝ) := by
    refine le_trans ?_ (one_div_le_one_div_of_le hk hk2)
    rw [Real.exp_neg, ← one_div]
    apply one_div_le_one_div_of_le (by positivity)
    have e1 : Real.exp 60 = Real.exp 1 ^ 60 := by rw [← Real.exp_nat_mul]; norm_num
    rw [e1]
    have e2 : (2 : ℝ) ≤ Real.exp 1 := by have := Real.exp_one_gt_d9; linarith
    have e3 := pow_le_pow_left₀ (by norm_num) e2 60
    refine le_trans ?_ e3
    norm_num
  have lo : ∀ {d z w : ℝ}, Rel d z w → d ≤ 1 → Real.exp (-60) ≤ w → Real.exp (-69) ≤ z := by
    intro d z w hz hd hw
    refine le_trans ?_ hz.1
    have := mul_le_mul_of_nonneg_left hw (Real.exp_pos (-d)).le
    rw [← Real.exp_add] at this
    exact (Real.exp_le_exp.2 (by linarith)).trans this
  -- phi
  have r1 := wide_double.rel_fl (x := 1 / (K : ℝ)) ((Real.exp_le_exp.2 (by norm_num)).trans small)
  have r2 := ((hw.rel_fl (lo r1 (by linarith) small)).trans r1).mono (d' := 4 * F.u) (by linarith) (one_div_pos.2 hk).le
  have p0 := r2.pos (one_div_pos.2 hk)
  have k1 : 1 / (K : ℝ) ≤ 1 := by rw [div_le_iff₀ hk]; linarith
  have p1 := r2.abs_sub (by linarith) (by linarith) (one_div_pos.2 hk).le
  have p2 : fl F (fl double (1 / (K : ℝ))) ≤ 2 := by
    have := (abs_le.1 p1).2
    have : 11 / 10 * (4 * F.u) * (1 / (K : ℝ)) ≤ 1 * 1 := mul_le_mul (by linarith) k1 (one_div_pos.2 hk).le (by norm_num)
    linarith
  have ep : toNum F (fl double (1 / (K : ℝ))) = .fin (fl F (fl double (1 / (K : ℝ)))) := by
    apply toNum_fin
    rw [abs_of_pos p0]
    exact hw.small_lt (p2.trans (by norm_num))
  -- gamma
  have n1 := hw.rel_fl (x := (numWords X : ℝ)) ((Real.exp_le_one_iff.2 (by norm_num)).trans hN1)
  have n2 := hw.rel_fl (x := (K : ℝ)) ((Real.exp_le_one_iff.2 (by norm_num)).trans hk1)
  have n3 := n1.div n2 (by linarith) hk
  have q0 : 0 ≤ (numWords X : ℝ) / K := by positivity
  have qs : Real.exp (-60) ≤ (numWords X : ℝ) / K := small.trans (div_le_div_of_nonneg_right hN1 hk.le)
  have n4 := (hw.rel_fl (lo n3 (by linarith) qs)).trans n3
  have n5 := (n4.mono (d' := 6 * F.u) (by linarith) q0).abs_sub (by linarith) (by linarith) q0
  have qN : (numWords X : ℝ) / K ≤ numWords X := div_le_self (by linarith) hk1
  have n6 : |fl F (fl F (numWords X : ℝ) / fl F K) - numWords X / K| ≤ 33 / 5 * F.u * numWords X := by
    have := mul_le_mul_of_nonneg_left qN hu.le
    nlinarith
  have uN : F.u * numWords X ≤ 1 / 2 ^ 24 * numWords X := mul_le_mul_of_nonneg_right hu' (by linarith)
  have n7 : |fl F (fl F (numWords X : ℝ) / fl F K)| ≤ 11 / 10 * numWords X := by
    have := abs_add_le (fl F (fl F (numWords X : ℝ) / fl F K) - numWords X / K) (numWords X / K)
    rw [sub_add_cancel, abs_of_nonneg q0] at this
    nlinarith
  have big : (2 : ℝ) ^ 40 ≤ 2 ^ 100 := by norm_num
  have eq : nDiv F (toNum F (numWords X : ℝ)) (toNum F (K : ℝ)) = .fin (fl F (fl F (numWords X : ℝ) / fl F K)) := by
    rw [hw.toNum_nat hX', hw.toNum_nat (hK'.trans (by norm_num)), nDiv_fin (n2.pos hk).ne' (hw.small_lt (by
      linarith))]
  have ht : F.tiny ≤ F.u := by
    have := hw.tiny_u
    have : F.u / 2 ^ 101 ≤ F.u := div_le_self hu.le (by norm_num)
    linarith
  generalize fl F (fl F (numWords X : ℝ) / fl F K) = z at *
  have s1 : ∀ k, |fl F (alpha k + z) - (alpha k + z)| ≤ F.u * (A + 11 / 10 * numWords X) + F.u := by
    intro k
    have b1 : |alpha k + z| ≤ A + 11 / 10 * numWords X := by
      refine (abs_add_le _ _).trans ?_
      rw [abs_of_nonneg (a0 k)]
      linarith [aA k]
    have b2 := mul_le_mul_of_nonneg_left b1 hu.le
    have := fl_abs (F := F) (alpha k + z)
    linarith
  refine ⟨fun k => fl F (alpha k + z), fun _ _ => fl F (fl double (1 / (K : ℝ))), ?_, ⟨fun _ _ => p0.le, fun n => ?_, fun k => ?_⟩⟩
  · unfold nFirst
    rw [eq, ep]
    congr 1
    funext k
    apply nAdd_fin
    apply hw.small_lt
    have b1 := abs_add_le (fl F (alpha k + z) - (alpha k + z)) (alpha k + z)
    have b2 := abs_add_le (alpha k) z
    rw [sub_add_cancel] at b1
    rw [abs_of_nonneg (a0 k)] at b2
    have b3 := s1 k
    have b4 := aA k
    have b5 := hA'
    have b6 : F.u * (A + 11 / 10 * numWords X) ≤ 1 * (A + 11 / 10 * numWords X) :=
      mul_le_mul_of_nonneg_right (by linarith) (by positivity)
    linarith
  · rw [sum_const, card_univ, Fintype.card_fin, nsmul_eq_mul]
    have := (Rel.refl' (d := 0) le_rfl hk.le).mul r2 hk.le (one_div_pos.2 hk).le
    rw [mul_one_div_cancel hk.ne'] at this
    exact this.mono (by nlinarith) zero_le_one
  · have e1 : ∑ n, (X n : ℝ) * fl F (fl double (1 / (K : ℝ))) = numWords X * fl F (fl double (1 / (K : ℝ))) := by
      rw [← sum_mul]
      unfold numWords
      push_cast
      rfl
    rw [e1]
    have e2 : fl F (alpha k + z) - (alpha k + numWords X * fl F (fl double (1 / (K : ℝ)))) =
      (fl F (alpha k + z) - (alpha k + z)) + ((z - numWords X / K) +
        numWords X * (1 / K - fl F (fl double (1 / (K : ℝ))))) := by ring
    rw [e2]
    refine (abs_add_le _ _).trans ?_
    have b1 := abs_add_le (z - numWords X / K) (numWords X * (1 / K - fl F (fl double (1 / (K : ℝ)))))
    rw [abs_mul, abs_of_nonneg (by linarith : (0 : ℝ) ≤ numWords X), abs_sub_comm (1 / (K : ℝ))] at b1
    have b2 : (numWords X : ℝ) * |fl F (fl double (1 / (K : ℝ))) - 1 / K| ≤ numWords X * (22 / 5 * F.u) := by
      refine mul_le_mul_of_nonneg_left (p1.trans ?_) (by linarith)
      have : 11 / 10 * (4 * F.u) * (1 / (K : ℝ)) ≤ 11 / 10 * (4 * F.u) * 1 := mul_le_mul_of_nonneg_left k1 (by linarith)
      linarith
    have b3 := s1 k
    have b4 : 0 ≤ F.u * A := by positivity
    have b5 : 0 ≤ F.u * numWords X := by positivity
    unfold drift
    nlinarith

theorem first_good (h : Small F X eta M T) (hA : 0 ≤ A) (ha : Prior alpha m A Pm) (hK : 0 < K) (hdu : double.u ≤ F.u) :
    ∃ (g : Vec K ℝ) (p : Mat K V ℝ), nFirst F X alpha = (fun k => .fin (g k), fun k n => .fin (p k n)) ∧
      Good F X alpha (2 * drift F X A) g p :=
  start_good h.wide h.words h.words' h.topics hA (fun k => (div_pos (by norm_num) ha.pos).le.trans (ha.lower k)) ha.upper ha.big hK hdu

/-- All numbers of the step are finite. -/
theorem run_fin (h : Small F X eta M T) (hM : 0 ≤ M) (hA : 0 ≤ A) (hb : Known D X beta T Pm Q) (ha : Prior alpha m A Pm)
    (hm : 1 ≤ m) (hdu : double.u ≤ F.u) (y : Fin C) (fp : ℕ) (tol : ℝ) (iterations : ℕ)
    (hd : (iterations * distinct X + 2) * drift F X A ≤ 1 / m) :
    ∃ (g : Vec K ℝ) (p : Mat K V ℝ), nSupervisedRun D X y alpha beta eta fp tol iterations =
        some (fun k => .fin (g k), fun k n => .fin (p k n)) ∧
      Good F X alpha ((iterations * distinct X + 2) * drift F X A) g p := by
  obtain ⟨n, hn⟩ : ∃ n, X n ≠ 0 := by
    by_contra hc
    push Not at hc
    have : numWords X = 0 := by
      unfold numWords
      exact sum_eq_zero fun n _ => hc n
    have := h.words
    omega
  obtain ⟨k, _⟩ := hb.word n hn
  obtain ⟨g, p, h1, h2⟩ := first_good h hA ha k.pos hdu
  have e : 2 * drift F X A + iterations * (distinct X * drift F X A) = (iterations * distinct X + 2) * drift F X A := by ring
  obtain ⟨g', p', h3, h4⟩ := loop_fin (D := D) h hM hA hb ha hm y fp tol iterations _ (fun _ => .fin 0) g p h2 (by rw [e]; exact hd)
  rw [e] at h4
  refine ⟨g', p', ?_, h4⟩
  unfold nSupervisedRun
  rw [h1]
  exact h3

end Verif.Overflow
