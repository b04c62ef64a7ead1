import Verif.Lemmas.Primitives
import Verif.Lemmas.FastExp
import Verif.Lemmas.Limits
import Verif.Props.Digamma
import Verif.Props.FastExp

/-! Property C132: `fast_exp` and `digamma` are accurate in floating point. -/
namespace Verif.Primitives

open Verif.FastExp

variable {P : Precision}

/-! ### digamma -/

theorem mul_close (hP : P.Ok) {a1 a2 b1 b2 v e1 e2 : ℝ} (h1 : |b1 - a1| ≤ e1) (h2 : |b2 - a2| ≤ e2) (ha : |a1| ≤ 1) (hb1 : |b1| ≤ 1)
    (hb : |b2| ≤ 1) (h : Close P (b1 * b2) v) : |v - a1 * a2| ≤ e1 + e2 + P.u := by
  have h3 : |v - b1 * b2| ≤ P.u * 1 := h.bound hP (by rw [abs_mul]; exact mul_le_one₀ hb1 (abs_nonneg _) hb) (by norm_num)
  have e : v - a1 * a2 = (v - b1 * b2) + ((b1 - a1) * b2 + a1 * (b2 - a2)) := by ring
  rw [e]
  have k1 : |(b1 - a1) * b2| ≤ e1 := by
    rw [abs_mul]
    exact (mul_le_of_le_one_right (abs_nonneg _) hb).trans h1
  have k2 : |a1 * (b2 - a2)| ≤ e2 := by
    rw [abs_mul]
    exact (mul_le_of_le_one_left (abs_nonneg _) ha).trans h2
  have n1 := abs_add_le (v - b1 * b2) ((b1 - a1) * b2 + a1 * (b2 - a2))
  have n2 := abs_add_le ((b1 - a1) * b2) (a1 * (b2 - a2))
  linarith

theorem le_one_of_close {a b e : ℝ} (h : |b - a| ≤ e) (ha : |a| ≤ 1 / 2) (he : e ≤ 1 / 2) : |b| ≤ 1 := by
  have := abs_add_le (b - a) a
  rw [sub_add_cancel] at this
  linarith

theorem tail_eq {z : ℝ} : Digamma.tail z = 1 / 24 * ((1 / z) * (1 / z)) - 7 / 960 * ((1 / z) * (1 / z) * ((1 / z) * (1 / z))) +
    31 / 8064 * ((1 / z) * (1 / z) * ((1 / z) * (1 / z))) * ((1 / z) * (1 / z)) -
      127 / 30720 * ((1 / z) * (1 / z) * ((1 / z) * (1 / z))) * ((1 / z) * (1 / z) * ((1 / z) * (1 / z))) := by
  unfold Digamma.tail
  by_cases h : z = 0
  · subst h; simp
  · field_simp

theorem log_close {z z0 d : ℝ} (hz : 0 < z0) (h : |z - z0| ≤ d * z0) (hd : d ≤ 1 / 2) : 0 < z ∧ |Real.log z - Real.log z0| ≤ 2 * d := by
  obtain ⟨l, r⟩ := abs_le.1 h
  have hd0 : 0 ≤ d := by
    by_contra hc
    have := mul_neg_of_neg_of_pos (not_le.1 hc) hz
    linarith [abs_nonneg (z - z0)]
  have h1 : (1 - d) * z0 ≤ z := by linarith
  have hp : 0 < z := lt_of_lt_of_le (mul_pos (by linarith) hz) h1
  refine ⟨hp, ?_⟩
  rw [← Real.log_div hp.ne' hz.ne', abs_le]
  have hq : 0 < z / z0 := by positivity
  constructor
  · have := Real.one_sub_inv_le_log_of_pos hq
    have h2 : (z / z0)⁻¹ ≤ 1 + 2 * d := by
      rw [inv_div, div_le_iff₀ hp]
      have : z0 ≤ (1 + 2 * d) * ((1 - d) * z0) := by nlinarith [mul_nonneg (mul_nonneg hd0 (by linarith : (0:ℝ) ≤ 1 - 2 * d)) hz.le]
      exact this.trans (mul_le_mul_of_nonneg_left h1 (by linarith))
    linarith
  · have := Real.log_le_sub_one_of_pos hq
    have h2 : z / z0 ≤ 1 + d := by
      rw [div_le_iff₀ hz]; linarith
    linarith

/-- The four additions. -/
theorem adds_close (hP : P.Ok) {L l T1 T2 T3 T4 t1 t2 t3 t4 s1 s2 s3 s : ℝ} (hL : 0 ≤ L) (hl : |l - L| ≤ P.u * (L + 29))
    (h1 : |t1 - T1| ≤ 50 * P.u) (h2 : |t2 - T2| ≤ 50 * P.u) (h3 : |t3 - T3| ≤ 50 * P.u) (h4 : |t4 - T4| ≤ 50 * P.u)
    (k1 : |T1| ≤ 1 / 24) (k2 : |T2| ≤ 1 / 24) (k3 : |T3| ≤ 1 / 24) (k4 : |T4| ≤ 1 / 24)
    (hs1 : Close P (l + t1) s1) (hs2 : Close P (s1 - t2) s2) (hs3 : Close P (s2 + t3) s3) (hs : Close P (s3 - t4) s) :
    |s - (L + (T1 - T2 + T3 - T4))| ≤ P.u * (240 + 9 * L) ∧ |s| ≤ 2 * L + 2 := by
  have hu0 := hP.u_pos
  have hu' : P.u ≤ 1 / 1000000 := hP.u_le.trans (by norm_num)
  have uL : P.u * L ≤ 1 / 1000000 * L := mul_le_mul_of_nonneg_right hu' hL
  have uL0 : 0 ≤ P.u * L := by positivity
  rw [abs_le] at hl h1 h2 h3 h4 k1 k2 k3 k4
  obtain ⟨s1a, s1b⟩ := abs_le.1 (hs1.bound hP (c := 2 * L + 2) (by rw [abs_le]; constructor <;> linarith) (by linarith))
  obtain ⟨s2a, s2b⟩ := abs_le.1 (hs2.bound hP (c := 2 * L + 2) (by rw [abs_le]; constructor <;> linarith) (by linarith))
  obtain ⟨s3a, s3b⟩ := abs_le.1 (hs3.bound hP (c := 2 * L + 2) (by rw [abs_le]; constructor <;> linarith) (by linarith))
  obtain ⟨s4a, s4b⟩ := abs_le.1 (hs.bound hP (c := 2 * L + 2) (by rw [abs_le]; constructor <;> linarith) (by linarith))
  rw [abs_le, abs_le]
  refine ⟨⟨?_, ?_⟩, ?_, ?_⟩ <;> linarith

/-- The series with rounding. -/
theorem sum_close (hP : P.Ok) {y s z0 : ℝ} (hz0 : 6 ≤ z0) (hy : |y - 1 / 2 - z0| ≤ 12 * P.u * z0) (h : DigammaSum P y s) :
    |s - (Real.log z0 + Digamma.tail z0)| ≤ P.u * (240 + 9 * Real.log z0) ∧ |s| ≤ 2 * Real.log z0 + 2 := by
  obtain ⟨z, xx, xx2, xx4, l, c1, c2, c3, c4, t1, t2, p3, t3, p4, t4, s1, s2, s3, hz, hxx, hxx2, hxx4, hl, hc1, ht1, hc2, ht2, hc3, hp3,
    ht3, hc4, hp4, ht4, hs1, hs2, hs3, hs⟩ := h
  have hu := hP.u_le
  have hu0 := hP.u_pos
  have hu' : P.u ≤ 1 / 1000000 := hu.trans (by norm_num)
  have hz0p : 0 < z0 := by linarith
  have huz : P.u * z0 ≤ 1 / 1000000 * z0 := mul_le_mul_of_nonneg_right hu' hz0p.le
  have huz0 : 0 ≤ P.u * z0 := by positivity
  obtain ⟨yl, yr⟩ := abs_le.1 hy
  -- the argument
  have z1 : |z - z0| ≤ 14 * P.u * z0 := by
    have k : |z - (y - 1 / 2)| ≤ P.u * (2 * z0) := hz.bound hP (by rw [abs_le]; constructor <;> nlinarith) (by linarith)
    have e : z - z0 = (z - (y - 1 / 2)) + (y - 1 / 2 - z0) := by ring
    rw [e]
    have := abs_add_le (z - (y - 1 / 2)) (y - 1 / 2 - z0)
    linarith
  obtain ⟨zl, zr⟩ := abs_le.1 z1
  have z5 : 5 ≤ z := by nlinarith
  have zp : 0 < z := by linarith
  set a := 1 / z0 with ha
  have ha0 : 0 < a := by positivity
  have ha6 : a ≤ 1 / 6 := one_div_le_one_div_of_le (by norm_num) hz0
  -- xx
  have x1 : |xx - a| ≤ 4 * P.u := by
    have k : |xx - 1 / z| ≤ P.u * (1 / 5) := hxx.bound hP
      (by rw [abs_of_pos (by positivity)]; exact one_div_le_one_div_of_le (by norm_num) z5) (by norm_num)
    have k2 : |1 / z - a| ≤ 3 * P.u := by
      have e : 1 / z - a = (z0 - z) / (z * z0) := by rw [ha]; field_simp
      rw [e, abs_div, abs_of_pos (mul_pos zp hz0p), div_le_iff₀ (mul_pos zp hz0p), abs_sub_comm]
      have : 3 * P.u * (5 * z0) ≤ 3 * P.u * (z * z0) := mul_le_mul_of_nonneg_left (mul_le_mul_of_nonneg_right z5 hz0p.le) (by linarith)
      linarith
    have e : xx - a = (xx - 1 / z) + (1 / z - a) := by ring
    rw [e]
    have := abs_add_le (xx - 1 / z) (1 / z - a)
    linarith
  have aabs : |a| ≤ 1 / 6 := by rw [abs_of_pos ha0]; exact ha6
  have a2abs : |a * a| ≤ 1 / 6 := by rw [abs_of_pos (by positivity)]; nlinarith
  have a4abs : |a * a * (a * a)| ≤ 1 / 6 := by
    rw [abs_mul]
    have := mul_le_mul a2abs a2abs (abs_nonneg _) (by norm_num)
    linarith
  have xa : |xx| ≤ 1 := le_one_of_close x1 (by linarith) (by linarith)
  have x2 := mul_close hP x1 x1 (by linarith) xa xa hxx2
  have x2a : |xx2| ≤ 1 := le_one_of_close x2 (by linarith) (by linarith)
  have x4 := mul_close hP x2 x2 (by linarith) x2a x2a hxx4
  have x4a : |xx4| ≤ 1 := le_one_of_close x4 (by linarith) (by linarith)
  -- the constants
  have cc : ∀ {k c : ℝ}, 0 < k → k ≤ 1 / 24 → Close P k c → |c - k| ≤ P.u ∧ |c| ≤ 1 := by
    intro k c h0 h1 h
    have e : |c - k| ≤ P.u * 1 := h.bound hP (by rw [abs_of_pos h0]; linarith) (by norm_num)
    rw [mul_one] at e
    exact ⟨e, le_one_of_close e (by rw [abs_of_pos h0]; linarith) (by linarith)⟩
  obtain ⟨c1e, c1a⟩ := cc (by norm_num) (by norm_num) hc1
  obtain ⟨c2e, c2a⟩ := cc (by norm_num) (by norm_num) hc2
  obtain ⟨c3e, c3a⟩ := cc (by norm_num) (by norm_num) hc3
  obtain ⟨c4e, c4a⟩ := cc (by norm_num) (by norm_num) hc4
  have t1e := mul_close hP c1e x2 (by rw [abs_of_pos] <;> norm_num) c1a x2a ht1
  have t2e := mul_close hP c2e x4 (by rw [abs_of_pos] <;> norm_num) c2a x4a ht2
  have p3e := mul_close hP c3e x4 (by rw [abs_of_pos] <;> norm_num) c3a x4a hp3
  have p4e := mul_close hP c4e x4 (by rw [abs_of_pos] <;> norm_num) c4a x4a hp4
  have small : ∀ {k b : ℝ}, 0 < k → k ≤ 1 / 24 → |b| ≤ 1 / 6 → |k * b| ≤ 1 / 24 := by
    intro k b h0 h1 hb
    rw [abs_mul, abs_of_pos h0]
    have := mul_le_mul h1 hb (abs_nonneg _) (by norm_num)
    linarith
  have k3 := small (k := 31 / 8064) (by norm_num) (by norm_num) a4abs
  have k4 := small (k := 127 / 30720) (by norm_num) (by norm_num) a4abs
  have k1 := small (k := 1 / 24) (by norm_num) (by norm_num) a2abs
  have k2 := small (k := 7 / 960) (by norm_num) (by norm_num) a4abs
  have p3a : |p3| ≤ 1 := le_one_of_close p3e (by linarith) (by linarith)
  have p4a : |p4| ≤ 1 := le_one_of_close p4e (by linarith) (by linarith)
  have t3e := mul_close hP p3e x2 (by linarith) p3a x2a ht3
  have t4e := mul_close hP p4e x4 (by linarith) p4a x4a ht4
  have k3' : |31 / 8064 * (a * a * (a * a)) * (a * a)| ≤ 1 / 24 := by
    rw [abs_mul]
    have := mul_le_mul k3 a2abs (abs_nonneg _) (by norm_num)
    linarith
  have k4' : |127 / 30720 * (a * a * (a * a)) * (a * a * (a * a))| ≤ 1 / 24 := by
    rw [abs_mul]
    have := mul_le_mul k4 a4abs (abs_nonneg _) (by norm_num)
    linarith
  -- the logarithm
  obtain ⟨-, lz⟩ := log_close hz0p z1 (by linarith)
  have hL : 0 ≤ Real.log z0 := Real.log_nonneg (by linarith)
  set L := Real.log z0 with hLd
  have lza : |Real.log z| ≤ L + 1 := by
    have := abs_add_le (Real.log z - L) L
    rw [sub_add_cancel, abs_of_nonneg hL] at this
    linarith
  have l1 : |l - Real.log z| ≤ P.u * (L + 1) := hl.bound hP lza (by linarith)
  have l2 : |l - L| ≤ P.u * (L + 29) := by
    have e : l - L = (l - Real.log z) + (Real.log z - L) := by ring
    rw [e]
    have := abs_add_le (l - Real.log z) (Real.log z - L)
    linarith
  rw [tail_eq, ← ha]
  exact adds_close hP hL l2 (t1e.trans (by linarith)) (t2e.trans (by linarith)) (t3e.trans (by linarith)) (t4e.trans (by linarith))
    k1 k2 k3' k4' hs1 hs2 hs3 hs

theorem Close.self (hP : P.Ok) (a : ℝ) : Close P a a := by
  unfold Close
  rw [sub_self, abs_zero]
  exact mul_nonneg hP.u_pos (le_max_of_le_left (abs_nonneg a))

/-- **C132** (`digamma` ends): however the operations round, the loop is left after at most eight passes for every
positive argument. -/
theorem C132_digamma_ends (hP : P.Ok) {x : ℝ} (hx : 0 < x) (xs rs qs : ℕ → ℝ) (h0 : xs 0 = x) (hr : rs 0 = 0)
    (h : ∀ i, xs i < 7 → Close P (1 / xs i) (qs i) ∧ Close P (rs i - qs i) (rs (i + 1)) ∧ Close P (xs i + 1) (xs (i + 1))) :
    ∃ n ≤ 8, 7 ≤ xs n := by
  by_contra hc
  push Not at hc
  have key : ∀ n ≤ 8, LoopInv P x n (xs n) (rs n) := by
    intro n
    induction n with
    | zero => intro _; exact ⟨by omega, by simp [h0], by simp [hr, recips]⟩
    | succ n ih =>
      intro hn
      have h7 := hc n (by omega)
      obtain ⟨h1, h2, h3⟩ := h n h7
      exact loopInv_step hP hx (ih (by omega)) h7 h1 h2 h3
  have := (loopInv_small hP hx (key 8 le_rfl) (hc 8 le_rfl)).1
  omega

/-- **C132** (`digamma` is accurate): whatever it returns for a positive argument is within `6e-11` and 400 roundings of
the digamma function. -/
theorem C132_digamma (hP : P.Ok) {x v : ℝ} (hx : 0 < x) (h : Digamma P x v) :
    |v - logDeriv Real.Gamma x| ≤ 6 / 10 ^ 11 + 400 * P.u * (1 + |logDeriv Real.Gamma x|) := by
  obtain ⟨y, r, s, hloop, hsum, hv⟩ := h
  have hu := hP.u_le
  have hu0 := hP.u_pos
  have hu' : P.u ≤ 1 / 1000000 := hu.trans (by norm_num)
  obtain ⟨j, hj, hy7, hj0, hj9⟩ := loopInv_loop hP hx hloop 0 ⟨by omega, by simp, by simp [recips]⟩ (by simp)
  have hj8 : (j : ℝ) ≤ 8 := by exact_mod_cast hj.i_le
  have hjn : (0 : ℝ) ≤ j := Nat.cast_nonneg j
  have xe : 9 * P.u * j ≤ 72 * P.u := by nlinarith
  obtain ⟨ya, yb⟩ := abs_le.1 hj.x_err
  set z0 := x + j - 1 / 2 with hz0
  have hz6 : 6499 / 1000 ≤ z0 := by linarith
  have hyz : |y - 1 / 2 - z0| ≤ 12 * P.u * z0 := by
    have e : y - 1 / 2 - z0 = y - (x + j) := by rw [hz0]; ring
    rw [e]
    refine hj.x_err.trans (xe.trans ?_)
    nlinarith
  obtain ⟨se, sa⟩ := sum_close hP (by linarith) hyz hsum
  have hL : 0 ≤ Real.log z0 := Real.log_nonneg (by linarith)
  have hS := recips_nonneg hx j
  have hps := psi_recips hx j
  obtain ⟨b1, b2⟩ := Digamma.series_bounds (x := x + j) (by linarith)
  have hom : Digamma.omitted z0 ≤ 6 / 10 ^ 11 := by
    unfold Digamma.omitted
    rw [div_le_iff₀ (by positivity)]
    have : (6499 / 1000 : ℝ) ^ 10 ≤ z0 ^ 10 := pow_le_pow_left₀ (by norm_num) hz6 10
    calc (511 / 67584 : ℝ) ≤ 6 / 10 ^ 11 * (6499 / 1000) ^ 10 := by norm_num
      _ ≤ _ := mul_le_mul_of_nonneg_left this (by norm_num)
  rw [← hz0] at b2
  have hser : Digamma.series (x + j) = Real.log z0 + Digamma.tail z0 := rfl
  rw [hser] at b1 b2
  have htail : |Digamma.tail z0| ≤ 1 := by
    have z2 : 42 ≤ z0 ^ 2 := by nlinarith
    have hlow : ∀ n : ℕ, 1 ≤ z0 ^ n := fun n => one_le_pow₀ (by linarith)
    have q : ∀ (k : ℝ) (n : ℕ), 0 ≤ k → k ≤ 1 / 24 → 0 ≤ k / z0 ^ n ∧ k / z0 ^ n ≤ 1 / 24 := fun k n h0 h1 =>
      ⟨div_nonneg h0 (by linarith [hlow n]), (div_le_self h0 (hlow n)).trans h1⟩
    unfold Digamma.tail
    have q1 := q (1 / 24) 2 (by norm_num) (by norm_num)
    have q2 := q (7 / 960) 4 (by norm_num) (by norm_num)
    have q3 := q (31 / 8064) 6 (by norm_num) (by norm_num)
    have q4 := q (127 / 30720) 8 (by norm_num) (by norm_num)
    rw [abs_le]
    constructor <;> linarith [q1.1, q1.2, q2.1, q2.2, q3.1, q3.2, q4.1, q4.2]
  obtain ⟨ta, tb⟩ := abs_le.1 htail
  have hpsi : logDeriv Real.Gamma x = Digamma.psi x := rfl
  rw [hpsi]
  set p := Digamma.psi x with hp
  set L := Real.log z0 with hLd
  set S := recips x j with hSd
  -- the sum of the reciprocals
  have re : |r + S| ≤ 28 * P.u * S := hj.r_err.trans (by
    refine mul_le_mul_of_nonneg_right (mul_le_mul_of_nonneg_right ?_ hu0) hS
    linarith)
  have uS : 28 * P.u * S ≤ S := mul_le_of_le_one_left hS (by linarith)
  have ra : |r| ≤ 2 * S := by
    have := abs_sub (r + S) S
    rw [add_sub_cancel_right, abs_of_nonneg hS] at this
    linarith
  have ve : |v - (r + s)| ≤ P.u * (2 * S + 2 * L + 3) := hv.bound hP ((abs_add_le r s).trans (by linarith)) (by linarith)
  have main : |v - p| ≤ 6 / 10 ^ 11 + (30 * (P.u * S) + 243 * P.u + 11 * (P.u * L)) := by
    obtain ⟨v1, v2⟩ := abs_le.1 ve
    obtain ⟨s1, s2⟩ := abs_le.1 se
    obtain ⟨r1, r2⟩ := abs_le.1 re
    rw [abs_le]
    constructor <;> linarith
  refine main.trans ?_
  have hpa := abs_nonneg p
  have hle : p ≤ |p| := le_abs_self p
  have hge : -p ≤ |p| := neg_le_abs p
  have fin : 30 * S + 243 + 11 * L ≤ 400 * (1 + |p|) := by
    by_cases hj1 : j = 0
    · have : S = 0 := by rw [hSd, hj1]; rfl
      rw [this] at hps ⊢
      linarith
    · have hy9 := hj9 hj1
      have hz9 : z0 ≤ 9 := by linarith
      have h3 : L ≤ 11 / 5 := by
        have h1 : L ≤ Real.log 9 := Real.log_le_log (by linarith) hz9
        have h2 : Real.log 9 ≤ 11 / 5 := by
          rw [Real.log_le_iff_le_exp (by norm_num)]
          have := Real.exp_bound (x := 1 / 5) (by rw [abs_of_nonneg] <;> norm_num) (n := 5) (by norm_num)
          have h4 : (1.2213 : ℝ) ≤ Real.exp (1 / 5) := by
            rw [abs_le] at this
            norm_num [Finset.sum_range_succ, Nat.factorial] at this ⊢
            linarith [this.1]
          have e : Real.exp (11 / 5) = Real.exp (1 / 5) ^ 11 := by rw [← Real.exp_nat_mul]; norm_num
          rw [e]
          calc (9 : ℝ) ≤ 1.2213 ^ 11 := by norm_num
            _ ≤ _ := pow_le_pow_left₀ (by norm_num) h4 11
        linarith
      linarith
  have := mul_le_mul_of_nonneg_left fin hu0
  linarith

/-- Some value is returned: in particular by exact operations. -/
theorem C132_digamma_returns (hP : P.Ok) {x : ℝ} (hx : 0 < x) : ∃ v, Digamma P x v := by
  have key : ∀ n : ℕ, ∀ z : ℝ, 0 < z → 7 ≤ z + n → ∀ r, ∃ y s, DigammaLoop P z r y s := by
    intro n
    induction n with
    | zero =>
      intro z _ h r
      exact ⟨z, r, .exit (by push_cast at h; linarith)⟩
    | succ n ih =>
      intro z hz h r
      by_cases h7 : z < 7
      · obtain ⟨y, s, hl⟩ := ih (z + 1) (by linarith) (by push_cast at h; linarith) (r - 1 / z)
        exact ⟨y, s, .again h7 hz.ne' (Close.self hP _) (Close.self hP _) (Close.self hP _) hl⟩
      · exact ⟨z, r, .exit h7⟩
  obtain ⟨y, r, hl⟩ := key 7 x hx (by push_cast; linarith) 0
  have c := fun a => Close.self hP a
  exact ⟨_, y, r, _, hl, ⟨_, _, _, _, _, _, _, _, _, _, _, _, _, _, _, _, _, _, c _, c _, c _, c _, c _, c _, c _, c _, c _, c _, c _, c _,
    c _, c _, c _, c _, c _, c _, c _⟩, c _⟩

/-- What the models of the E steps with overflow and underflow (`Limits.Machine.psi_err`, for C127, C129 and C130) assume
of `digamma` is true of it. -/
theorem C132_assumption (hP : P.Ok) {x v w : ℝ} (hx : 0 < x) (h : Digamma P x v) (hw : digamma x = some w) :
    |v - w| ≤ (1 + |w|) / 1024 := by
  have h1 := C132_digamma hP hx h
  obtain ⟨w', e, h2, h3⟩ := C88_accuracy x fun n hn => by
    have : (0 : ℝ) ≤ n := Nat.cast_nonneg n
    linarith
  obtain rfl : w = w' := Option.some.inj (hw.symm.trans e)
  set p := logDeriv Real.Gamma x with hp
  have h4 : |p - w| ≤ 57 / 1000000000000 := by rw [abs_le]; constructor <;> linarith
  have h5 : |p| ≤ |w| + 57 / 1000000000000 := by
    have := abs_add_le (p - w) w
    rw [sub_add_cancel] at this
    linarith
  have h6 : |v - w| ≤ |v - p| + |p - w| := by
    have := abs_add_le (v - p) (p - w)
    rwa [sub_add_sub_cancel] at this
  have hu : 400 * P.u ≤ 400 / 2 ^ 20 := by have := hP.u_le; linarith
  have h7 : 400 * P.u * (1 + |p|) ≤ 400 / 2 ^ 20 * (1 + |p|) := mul_le_mul_of_nonneg_right hu (by linarith [abs_nonneg p])
  have := abs_nonneg w
  norm_num at h7 h1 ⊢
  linarith

/-! ### fast_exp -/

theorem close_log (hP : P.Ok) {a b : ℝ} (ha : 0 < a) (ht : P.tiny ≤ a) (h : Close P a b) : 0 < b ∧ |Real.log b - Real.log a| ≤ 2 * P.u := by
  have hu' : P.u ≤ 1 / 1000000 := hP.u_le.trans (by norm_num)
  refine log_close ha ?_ (by linarith)
  unfold Close at h
  rwa [abs_of_pos ha, max_eq_left ht] at h

theorem squares_close (hP : P.Ok) {n : ℕ} {t v : ℝ} (h : SquareLoop P n t v) : ∀ {a e : ℝ}, 0 < t → 0 ≤ a → |Real.log t - a| ≤ e →
    2 ^ n * (e + 2 * P.u) ≤ 1 / 2 → 0 < v ∧ |Real.log v - 2 ^ n * a| ≤ 2 ^ n * e + (2 ^ n - 1) * (2 * P.u) := by
  induction h with
  | exit => intro a e ht _ he _; simpa using ⟨ht, he⟩
  | @again n x y v hy _ ih =>
    intro a e ht ha he hn
    have hu0 := hP.u_pos
    have he0 : 0 ≤ e := (abs_nonneg _).trans he
    have h2 : (1 : ℝ) ≤ 2 ^ (n + 1) := one_le_pow₀ (by norm_num)
    have hsmall : e + 2 * P.u ≤ 1 / 2 := by nlinarith
    have hl := (abs_le.1 he).1
    have htt : P.tiny ≤ x * x := by
      have h3 : Real.log (x * x) = 2 * Real.log x := by rw [Real.log_mul ht.ne' ht.ne']; ring
      have h4 : x * x = Real.exp (2 * Real.log x) := by rw [← h3, Real.exp_log (by positivity)]
      have h5 : Real.exp (-1) ≤ x * x := by rw [h4]; exact Real.exp_le_exp.2 (by linarith)
      have h6 : (1 / 100 : ℝ) ≤ Real.exp (-1) := by
        have := Real.exp_one_lt_d9
        rw [Real.exp_neg, ← one_div]
        exact one_div_le_one_div_of_le (Real.exp_pos _) (by linarith)
      exact hP.tiny_le.trans (h6.trans h5)
    obtain ⟨hyp, hyl⟩ := close_log hP (by positivity) htt hy
    rw [Real.log_mul ht.ne' ht.ne'] at hyl
    have he' : |Real.log y - 2 * a| ≤ 2 * e + 2 * P.u := by
      have e1 : Real.log y - 2 * a = (Real.log y - (Real.log x + Real.log x)) + ((Real.log x - a) + (Real.log x - a)) := by ring
      rw [e1]
      have := abs_add_le (Real.log y - (Real.log x + Real.log x)) ((Real.log x - a) + (Real.log x - a))
      have := abs_add_le (Real.log x - a) (Real.log x - a)
      linarith
    have hn' : 2 ^ n * (2 * e + 2 * P.u + 2 * P.u) ≤ 1 / 2 := by
      have : (2 : ℝ) ^ (n + 1) * (e + 2 * P.u) = 2 ^ n * (2 * e + 2 * P.u + 2 * P.u) := by rw [pow_succ]; ring
      rwa [← this]
    obtain ⟨r1, r2⟩ := ih hyp (by linarith) he' hn'
    refine ⟨r1, ?_⟩
    have e1 : (2 : ℝ) ^ (n + 1) * a = 2 ^ n * (2 * a) := by rw [pow_succ]; ring
    rw [e1]
    refine r2.trans (le_of_eq ?_)
    rw [pow_succ]
    ring

theorem fastExpPos_close (hP : P.Ok) {x v : ℝ} (h0 : 0 ≤ x) (hx : x ≤ 100) (h : FastExpPos P x v) :
    0 < v ∧ |Real.log v - x| ≤ max 1 (2 * x) * (1 / 1023 + 23 / 10 ^ 14 + 4 * P.u) := by
  unfold FastExpPos at h
  rw [if_neg (not_lt.2 hx)] at h
  obtain ⟨e, t, he, ht, hs⟩ := h
  have he' : e = T (idx x) (idx_lt x h0) := Option.some.inj (he.symm.trans (lut_eq _ (idx_lt x h0)))
  subst he'
  have hT1 : 1 ≤ T (idx x) (idx_lt x h0) := by
    have := T_mono (Nat.zero_le (idx x)) (idx_lt x h0)
    rwa [T_zero] at this
  have hu0 := hP.u_pos
  have hu' : P.u ≤ 1 / 1000000 := hP.u_le.trans (by norm_num)
  obtain ⟨ht0, htl⟩ := close_log hP (by linarith) (hP.tiny_le.trans (by linarith)) ht
  have h2n := two_pow_halve x h0
  have hm : max 1 (2 * x) ≤ 200 := max_le (by norm_num) (by linarith)
  obtain ⟨r1, r2⟩ := squares_close hP hs ht0 (Real.log_nonneg hT1) htl (by
    have : (2 : ℝ) ^ (halve x).2 * (2 * P.u + 2 * P.u) ≤ 200 * (4 * (1 / 1000000)) :=
      mul_le_mul (h2n.trans hm) (by linarith) (by linarith) (by norm_num)
    linarith)
  refine ⟨r1, ?_⟩
  have h3 := log_fastExpPos x h0
  have e1 : Real.log v - x = (Real.log v - 2 ^ (halve x).2 * Real.log (T (idx x) (idx_lt x h0))) +
      (2 ^ (halve x).2 * Real.log (T (idx x) (idx_lt x h0)) - x) := by ring
  rw [e1]
  have h4 := abs_add_le (Real.log v - 2 ^ (halve x).2 * Real.log (T (idx x) (idx_lt x h0)))
      (2 ^ (halve x).2 * Real.log (T (idx x) (idx_lt x h0)) - x)
  have h5 : (2 : ℝ) ^ (halve x).2 * (4 * P.u) ≤ max 1 (2 * x) * (4 * P.u) := mul_le_mul_of_nonneg_right h2n (by linarith)
  linarith

/-- **C132** (`fast_exp` is accurate): with rounding the bound of C30 grows by four roundings. -/
theorem C132_fast_exp (hP : P.Ok) {x v : ℝ} (hx : |x| ≤ 100) (ht : P.tiny ≤ Real.exp (-(|x| + 1))) (h : FastExp P x v) :
    0 < v ∧ |Real.log v - x| ≤ max 1 (2 * |x|) * (1 / 1023 + 23 / 10 ^ 14 + 4 * P.u) + 2 * P.u := by
  have hu0 := hP.u_pos
  have hu' : P.u ≤ 1 / 1000000 := hP.u_le.trans (by norm_num)
  unfold FastExp at h
  by_cases h0 : x < 0
  · rw [if_pos h0] at h
    obtain ⟨w, hw, -, hv⟩ := h
    rw [abs_of_neg h0] at hx ht ⊢
    obtain ⟨w1, w2⟩ := fastExpPos_close hP (by linarith) hx hw
    have hm : max 1 (2 * -x) ≤ 200 := max_le (by norm_num) (by linarith)
    have hb : max 1 (2 * -x) * (1 / 1023 + 23 / 10 ^ 14 + 4 * P.u) ≤ 1 := by
      have : max 1 (2 * -x) * (1 / 1023 + 23 / 10 ^ 14 + 4 * P.u) ≤ 200 * (1 / 1023 + 23 / 10 ^ 14 + 4 * (1 / 1000000)) :=
        mul_le_mul hm (by linarith) (by positivity) (by norm_num)
      norm_num at this ⊢
      linarith
    have htw : P.tiny ≤ 1 / w := by
      refine ht.trans ?_
      rw [Real.exp_neg, ← one_div]
      refine one_div_le_one_div_of_le w1 ?_
      rw [← Real.exp_log w1]
      exact Real.exp_le_exp.2 (by linarith [(abs_le.1 w2).2])
    obtain ⟨v1, v2⟩ := close_log hP (by positivity) htw hv
    refine ⟨v1, ?_⟩
    rw [one_div, Real.log_inv] at v2
    have e : Real.log v - x = (Real.log v - -Real.log w) - (Real.log w - -x) := by ring
    rw [e]
    have := abs_sub (Real.log v - -Real.log w) (Real.log w - -x)
    linarith
  · rw [if_neg h0] at h
    have h0 := not_lt.1 h0
    rw [abs_of_nonneg h0] at hx ht ⊢
    obtain ⟨v1, v2⟩ := fastExpPos_close hP h0 hx h
    exact ⟨v1, by linarith⟩

/-- **C132**: beyond 100 in absolute value, as long as the result is not too small for the format. -/
theorem C132_fast_exp_outside (hP : P.Ok) {x v : ℝ} (hx : 100 < |x|) (ht : P.tiny ≤ Real.exp (-(|x| + 1))) (h : FastExp P x v) :
    0 < v ∧ |Real.log v - x| ≤ 4 * P.u := by
  have hu0 := hP.u_pos
  have hu' : P.u ≤ 1 / 1000000 := hP.u_le.trans (by norm_num)
  unfold FastExp FastExpPos at h
  by_cases h0 : x < 0
  · rw [if_pos h0] at h
    obtain ⟨w, hw, -, hv⟩ := h
    rw [abs_of_neg h0] at hx ht
    rw [if_pos hx] at hw
    obtain ⟨w1, w2⟩ := close_log hP (Real.exp_pos _) (ht.trans (Real.exp_le_exp.2 (by linarith))) hw
    rw [Real.log_exp] at w2
    have htw : P.tiny ≤ 1 / w := by
      refine ht.trans ?_
      rw [Real.exp_neg, ← one_div]
      refine one_div_le_one_div_of_le w1 ?_
      rw [← Real.exp_log w1]
      exact Real.exp_le_exp.2 (by linarith [(abs_le.1 w2).2])
    obtain ⟨v1, v2⟩ := close_log hP (by positivity) htw hv
    refine ⟨v1, ?_⟩
    rw [one_div, Real.log_inv] at v2
    have e : Real.log v - x = (Real.log v - -Real.log w) - (Real.log w - -x) := by ring
    rw [e]
    have := abs_sub (Real.log v - -Real.log w) (Real.log w - -x)
    linarith
  · rw [if_neg h0] at h
    rw [abs_of_nonneg (not_lt.1 h0)] at hx ht
    rw [if_pos hx] at h
    obtain ⟨v1, v2⟩ := close_log hP (Real.exp_pos _) (ht.trans (Real.exp_le_exp.2 (by linarith))) h
    rw [Real.log_exp] at v2
    exact ⟨v1, by linarith⟩

/-- Some value is returned, for every argument. -/
theorem C132_fast_exp_returns (hP : P.Ok) (x : ℝ) : ∃ v, FastExp P x v := by
  have sq : ∀ (n : ℕ) (t : ℝ), 0 < t → ∃ v, 0 < v ∧ SquareLoop P n t v := by
    intro n
    induction n with
    | zero => exact fun t ht => ⟨t, ht, .exit⟩
    | succ n ih =>
      intro t ht
      obtain ⟨v, hv, h⟩ := ih (t * t) (by positivity)
      exact ⟨v, hv, .again (Close.self hP _) h⟩
  have pos : ∀ x, 0 ≤ x → ∃ v, 0 < v ∧ FastExpPos P x v := by
    intro x h0
    unfold FastExpPos
    by_cases hx : 100 < x
    · simp only [if_pos hx]
      exact ⟨_, Real.exp_pos x, Close.self hP _⟩
    · simp only [if_neg hx]
      obtain ⟨v, hv, h⟩ := sq (halve x).2 _ (T_pos (idx x) (idx_lt x h0))
      exact ⟨v, hv, _, _, lut_eq _ (idx_lt x h0), Close.self hP _, h⟩
  unfold FastExp
  by_cases h0 : x < 0
  · obtain ⟨w, hw, h⟩ := pos (-x) (by linarith)
    exact ⟨1 / w, by rw [if_pos h0]; exact ⟨w, h, hw.ne', Close.self hP _⟩⟩
  · obtain ⟨v, -, h⟩ := pos x (not_lt.1 h0)
    exact ⟨v, by rw [if_neg h0]; exact h⟩

/-! ### The formats -/

open Limits in
/-- Rounding to a format of IEEE 754, for all numbers (without an upper limit). -/
theorem close_fl {F : Format} {u tiny : ℝ} (hu : (1 / 2) ^ F.prec ≤ u) (ht : 2 ^ (F.low + F.prec - 1) ≤ tiny) (a : ℝ) :
    Close ⟨u, tiny⟩ a (fl F a) := by
  unfold Close
  have hu0 : 0 ≤ u := le_trans (by positivity) hu
  have key : |fl F a - a| ≤ (1 / 2) ^ F.prec * max |a| (2 ^ (F.low + F.prec - 1)) := by
    by_cases ha : a = 0
    · subst ha
      rw [Limits.fl_zero, sub_zero, abs_zero]
      positivity
    refine (fl_half a).trans ?_
    have e : ∀ j : ℤ, (2 : ℝ) ^ (j - ((F.prec : ℤ) - 1)) / 2 = (1 / 2) ^ F.prec * 2 ^ j := by
      intro j
      rw [one_div, inv_pow, ← zpow_natCast, ← zpow_neg, ← zpow_add₀ (by norm_num), div_eq_mul_inv, ← zpow_neg_one, ← zpow_add₀ (by norm_num)]
      congr 1
      ring
    unfold unit
    rcases le_total (Int.log 2 |a| - ((F.prec : ℤ) - 1)) F.low with h | h
    · rw [max_eq_right h]
      have e2 : F.low = (F.low + F.prec - 1) - ((F.prec : ℤ) - 1) := by ring
      have := e (F.low + F.prec - 1)
      rw [← e2] at this
      rw [this]
      exact mul_le_mul_of_nonneg_left (le_max_right _ _) (by positivity)
    · rw [max_eq_left h, e]
      exact mul_le_mul_of_nonneg_left (le_max_of_le_left (Limits.log_le (abs_pos.2 ha))) (by positivity)
  exact key.trans (mul_le_mul hu (max_le_max le_rfl ht) (le_max_of_le_left (abs_nonneg a)) hu0)

/-- `Scalar = double` with library functions that err by at most one unit in the last place. -/
noncomputable def double : Precision := ⟨(1 / 2) ^ 52, 2 ^ (-1022 : ℤ)⟩

/-- `Scalar = float`, where some operations are done in `double` and then rounded twice. -/
noncomputable def single : Precision := ⟨(1 / 2) ^ 23, 2 ^ (-126 : ℤ)⟩

theorem double_ok : double.Ok :=
  ⟨by unfold double; positivity, by unfold double; norm_num, by unfold double; positivity,
    (zpow_le_zpow_right₀ (by norm_num) (by norm_num : (-1022 : ℤ) ≤ -7)).trans (by norm_num)⟩

theorem single_ok : single.Ok :=
  ⟨by unfold single; positivity, by unfold single; norm_num, by unfold single; positivity,
    (zpow_le_zpow_right₀ (by norm_num) (by norm_num : (-126 : ℤ) ≤ -7)).trans (by norm_num)⟩

theorem double_fl (a : ℝ) : Close double a (Limits.fl Limits.double a) :=
  close_fl (by unfold Limits.double; norm_num) (by unfold Limits.double; norm_num) a

theorem single_fl (a : ℝ) : Close single a (Limits.fl Limits.float a) :=
  close_fl (by unfold Limits.float; norm_num) (by unfold Limits.float; norm_num) a

/-- First to `double`, then to `float`. -/
theorem single_fl_double (a : ℝ) : Close single a (Limits.fl Limits.float (Limits.fl Limits.double a)) := by
  have h1 := close_fl (F := Limits.double) (u := (1 / 2) ^ 53) (tiny := 2 ^ (-126 : ℤ)) (by unfold Limits.double; norm_num)
    (zpow_le_zpow_right₀ (by norm_num) (by unfold Limits.double; norm_num)) a
  have h2 := close_fl (F := Limits.float) (u := (1 / 2) ^ 24) (tiny := 2 ^ (-126 : ℤ)) (by unfold Limits.float; norm_num)
    (by unfold Limits.float; norm_num) (Limits.fl Limits.double a)
  unfold Close at h1 h2 ⊢
  simp only [single]
  generalize (2 : ℝ) ^ (-126 : ℤ) = t at *
  set b := Limits.fl Limits.double a
  set c := Limits.fl Limits.float b
  have h3 : |b| ≤ |a| + |b - a| := by
    have := abs_add_le a (b - a)
    rwa [add_sub_cancel] at this
  have h4 : |c - a| ≤ |c - b| + |b - a| := by
    have := abs_add_le (c - b) (b - a)
    rwa [sub_add_sub_cancel] at this
  have ha : |a| ≤ max |a| t := le_max_left _ _
  have ht : t ≤ max |a| t := le_max_right _ _
  have hm : 0 ≤ max |a| t := (abs_nonneg a).trans ha
  generalize max |a| t = m at *
  have h5 : max |b| t ≤ (1 + (1 / 2) ^ 53) * m := max_le (by linarith) (by nlinarith [show (0 : ℝ) < (1 / 2) ^ 53 by positivity])
  have h6 : (1 / 2 : ℝ) ^ 24 * max |b| t ≤ (1 / 2) ^ 24 * ((1 + (1 / 2) ^ 53) * m) := mul_le_mul_of_nonneg_left h5 (by positivity)
  have h7 : (1 / 2 : ℝ) ^ 24 * ((1 + (1 / 2) ^ 53) * m) + (1 / 2) ^ 53 * m ≤ (1 / 2) ^ 23 * m := by
    have : (1 / 2 : ℝ) ^ 24 * (1 + (1 / 2) ^ 53) + (1 / 2) ^ 53 ≤ (1 / 2) ^ 23 := by norm_num
    nlinarith
  linarith

/-- **C132** in `double`: `digamma` keeps ten decimal digits, and `fast_exp` errs by at most a factor `e^(1/5)` over its
table and by a few units in the last place beyond. -/
theorem C132_double {x v : ℝ} :
    (0 < x → Digamma double x v → |v - logDeriv Real.Gamma x| ≤ 1 / 10 ^ 10 * (1 + |logDeriv Real.Gamma x|)) ∧
    (|x| ≤ 100 → FastExp double x v → 0 < v ∧ |Real.log v - x| ≤ max 1 (2 * |x|) * (1 / 1022)) ∧
    (100 < |x| → |x| ≤ 700 → FastExp double x v → 0 < v ∧ |Real.log v - x| ≤ (1 / 2) ^ 50) := by
  have hu : double.u = (1 / 2) ^ 52 := rfl
  have tiny : ∀ y : ℝ, y ≤ 700 → double.tiny ≤ Real.exp (-(y + 1)) := by
    intro y hy
    have h1 : Real.exp (y + 1) ≤ 2 ^ 1022 := by
      have h2 : Real.exp (y + 1) ≤ Real.exp (1022 * Real.log 2) := by
        refine Real.exp_le_exp.2 ?_
        have := Real.log_two_gt_d9
        linarith
      refine h2.trans (le_of_eq ?_)
      rw [← Real.rpow_natCast, Real.rpow_def_of_pos (by norm_num)]
      congr 1
      push_cast
      ring
    have e : double.tiny = (2 ^ 1022)⁻¹ := by
      unfold double
      exact zpow_neg 2 (1022 : ℤ)
    rw [e, Real.exp_neg]
    exact inv_anti₀ (Real.exp_pos _) h1
  refine ⟨fun hx h => ?_, fun hx h => ?_, fun hx hx' h => ?_⟩
  · have := C132_digamma double_ok hx h
    rw [hu] at this
    have h0 := abs_nonneg (logDeriv Real.Gamma x)
    norm_num at this ⊢
    linarith
  · obtain ⟨h1, h2⟩ := C132_fast_exp double_ok hx (tiny _ (by linarith)) h
    refine ⟨h1, h2.trans ?_⟩
    rw [hu]
    have hm : (1 : ℝ) ≤ max 1 (2 * |x|) := le_max_left _ _
    generalize max 1 (2 * |x|) = m at *
    norm_num
    linarith
  · obtain ⟨h1, h2⟩ := C132_fast_exp_outside double_ok hx (tiny _ hx') h
    refine ⟨h1, h2.trans ?_⟩
    rw [hu]
    norm_num

example : ∃ v, Digamma double (1 / 3) v := C132_digamma_returns double_ok (by norm_num)
example : ∃ v, FastExp double (-5 / 2) v := C132_fast_exp_returns double_ok _
example : ∃ v, Digamma single 40 v := C132_digamma_returns single_ok (by norm_num)

end Verif.Primitives
