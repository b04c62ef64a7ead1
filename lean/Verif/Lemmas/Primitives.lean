import Verif.Model.Primitives
import Verif.Lemmas.Digamma

/-! Lemmas on `digamma` with rounding. -/
namespace Verif.Primitives

open Verif.FastExp

/-- The roundings the theorems are about. -/
structure Precision.Ok (P : Precision) : Prop where
  u_pos : 0 ≤ P.u
  u_le : P.u ≤ 1 / 2 ^ 20
  tiny_pos : 0 ≤ P.tiny
  tiny_le : P.tiny ≤ 1 / 100

variable {P : Precision}

/-- The sum of the first reciprocals. -/
noncomputable def recips (x : ℝ) : ℕ → ℝ
  | 0 => 0
  | n + 1 => recips x n + 1 / (x + n)

theorem recips_nonneg {x : ℝ} (hx : 0 < x) (n : ℕ) : 0 ≤ recips x n := by
  induction n with
  | zero => exact le_rfl
  | succ n ih => unfold recips; positivity

theorem psi_recips {x : ℝ} (hx : 0 < x) (n : ℕ) : Digamma.psi (x + n) = Digamma.psi x + recips x n := by
  induction n with
  | zero => simp [recips]
  | succ n ih =>
    have h := Digamma.psi_add_one (x := x + n) (fun m h => by
      have : (0 : ℝ) ≤ n := Nat.cast_nonneg n
      have : (0 : ℝ) ≤ m := Nat.cast_nonneg m
      linarith)
    push_cast
    rw [← add_assoc, h, ih]
    have e : recips x (n + 1) = recips x n + 1 / (x + n) := rfl
    rw [e]
    ring

theorem Close.bound (hP : P.Ok) {a b c : ℝ} (h : Close P a b) (h1 : |a| ≤ c) (h2 : 1 / 100 ≤ c) : |b - a| ≤ P.u * c :=
  h.trans (mul_le_mul_of_nonneg_left (max_le h1 (hP.tiny_le.trans h2)) hP.u_pos)

/-- One reciprocal. -/
theorem recip_close (hP : P.Ok) {X x q : ℝ} (hX : 0 < X) (hX8 : X ≤ 8) (hx : |x - X| ≤ 9 * P.u * X) (h : Close P (1 / x) q) :
    |q - 1 / X| ≤ 12 * P.u * (1 / X) := by
  have hu := hP.u_le
  have hu0 := hP.u_pos
  obtain ⟨l, r⟩ := abs_le.1 hx
  have hx0 : (1 - 9 * P.u) * X ≤ x := by linarith
  have hpos : 0 < x := lt_of_lt_of_le (by apply mul_pos _ hX; norm_num at hu ⊢; linarith) hx0
  have h1 : |1 / x - 1 / X| ≤ 10 * P.u * (1 / X) := by
    have e : 1 / x - 1 / X = (X - x) / (x * X) := by field_simp
    rw [e, abs_div, abs_of_pos (mul_pos hpos hX), div_le_iff₀ (mul_pos hpos hX), abs_sub_comm]
    have e2 : 10 * P.u * (1 / X) * (x * X) = 10 * P.u * x := by field_simp
    rw [e2]
    refine hx.trans ?_
    have : 9 * P.u * X ≤ 10 * P.u * ((1 - 9 * P.u) * X) := by
      have : 0 ≤ P.u * X * (1 - 90 * P.u) := mul_nonneg (mul_nonneg hu0 hX.le) (by norm_num at hu ⊢; linarith)
      nlinarith
    exact this.trans (mul_le_mul_of_nonneg_left hx0 (by linarith))
  have hXX : 1 / 8 ≤ 1 / X := one_div_le_one_div_of_le hX hX8
  have h2 : 1 / x ≤ 2 * (1 / X) := by
    have := (abs_le.1 h1).2
    have : 10 * P.u * (1 / X) ≤ 1 / X := by
      have : 10 * P.u ≤ 1 := by norm_num at hu ⊢; linarith
      exact mul_le_of_le_one_left (by linarith) this
    linarith
  have h3 : |q - 1 / x| ≤ P.u * (2 * (1 / X)) := h.bound hP (by rw [abs_of_pos (by positivity)]; exact h2) (by linarith)
  calc |q - 1 / X| = |(q - 1 / x) + (1 / x - 1 / X)| := by ring_nf
    _ ≤ _ := abs_add_le _ _
    _ ≤ _ := by linarith

/-- What the loop keeps. -/
structure LoopInv (P : Precision) (x0 : ℝ) (i : ℕ) (x r : ℝ) : Prop where
  i_le : i ≤ 8
  x_err : |x - (x0 + i)| ≤ 9 * P.u * i
  r_err : |r + recips x0 i| ≤ (12 + 2 * i) * P.u * recips x0 i

theorem loopInv_small (hP : P.Ok) {x0 : ℝ} (hx0 : 0 < x0) {i : ℕ} {x r : ℝ} (h : LoopInv P x0 i x r) (hx : x < 7) :
    i ≤ 7 ∧ x0 + i ≤ 8 ∧ |x - (x0 + i)| ≤ 9 * P.u * (x0 + i) ∧ 0 < x := by
  have hu := hP.u_le
  have hu0 := hP.u_pos
  have h8 : (i : ℝ) ≤ 8 := by exact_mod_cast h.i_le
  have hi0 : (0 : ℝ) ≤ i := Nat.cast_nonneg i
  have he : 9 * P.u * i ≤ 1 / 1000 := by
    have : 9 * P.u * i ≤ 9 * P.u * 8 := mul_le_mul_of_nonneg_left h8 (by linarith)
    norm_num at hu ⊢
    linarith
  obtain ⟨l, rr⟩ := abs_le.1 h.x_err
  have hi7 : i ≤ 7 := by
    by_contra hc
    have : i = 8 := by have := h.i_le; omega
    subst this
    push_cast at *
    linarith
  have hrel : |x - (x0 + i)| ≤ 9 * P.u * (x0 + i) := h.x_err.trans (mul_le_mul_of_nonneg_left (by linarith) (by linarith))
  refine ⟨hi7, by linarith, hrel, ?_⟩
  have := (abs_le.1 hrel).1
  have : 9 * P.u * (x0 + i) ≤ 1 / 2 * (x0 + i) := mul_le_mul_of_nonneg_right (by norm_num at hu ⊢; linarith) (by linarith)
  linarith

theorem loopInv_step (hP : P.Ok) {x0 : ℝ} (hx0 : 0 < x0) {i : ℕ} {x r q r' x' : ℝ} (h : LoopInv P x0 i x r) (hx : x < 7)
    (hq : Close P (1 / x) q) (hr : Close P (r - q) r') (hx' : Close P (x + 1) x') : LoopInv P x0 (i + 1) x' r' := by
  have hu := hP.u_le
  have hu0 := hP.u_pos
  obtain ⟨hi7, hX8, hrel, hpos⟩ := loopInv_small hP hx0 h hx
  have hi0 : (0 : ℝ) ≤ i := Nat.cast_nonneg i
  have hi7' : (i : ℝ) ≤ 7 := by exact_mod_cast hi7
  have hX : 0 < x0 + i := by linarith
  have q1 := recip_close hP hX hX8 hrel hq
  refine ⟨by omega, ?_, ?_⟩
  · have h1 : |x' - (x + 1)| ≤ P.u * 9 := hx'.bound hP (by rw [abs_of_pos (by linarith)]; linarith) (by norm_num)
    have e : x' - (x0 + ((i + 1 : ℕ) : ℝ)) = (x' - (x + 1)) + (x - (x0 + i)) := by push_cast; ring
    rw [e]
    refine (abs_add_le _ _).trans ?_
    have := h.x_err
    push_cast
    linarith
  · have hS := recips_nonneg hx0 i
    have hR : 0 < 1 / (x0 + i) := by positivity
    have hR8 : 1 / 8 ≤ 1 / (x0 + i) := one_div_le_one_div_of_le hX hX8
    have e1 : recips x0 (i + 1) = recips x0 i + 1 / (x0 + i) := rfl
    set S := recips x0 i with hSd
    set R := 1 / (x0 + i) with hRd
    have h1 := h.r_err
    have hc : (12 + 2 * (i : ℝ)) * P.u ≤ 1 / 2 := by
      have : (12 + 2 * (i : ℝ)) * P.u ≤ 26 * (1 / 2 ^ 20) := mul_le_mul (by linarith) hu hu0 (by norm_num)
      norm_num at this ⊢
      linarith
    have h1' : |r + S| ≤ 1 / 2 * S := h1.trans (mul_le_mul_of_nonneg_right hc hS)
    have q1' : |q - R| ≤ 1 / 2 * R := q1.trans (mul_le_mul_of_nonneg_right (by norm_num at hu ⊢; linarith) hR.le)
    have h2 : |r - q| ≤ 2 * (S + R) := by
      have e : r - q = (r + S) - (q - R) - (S + R) := by ring
      rw [e]
      have a1 := abs_sub (r + S - (q - R)) (S + R)
      have a2 := abs_sub (r + S) (q - R)
      have a3 : |S + R| = S + R := abs_of_nonneg (by linarith)
      linarith
    have h3 : |r' - (r - q)| ≤ P.u * (2 * (S + R)) := hr.bound hP h2 (by linarith)
    have e : r' + (S + R) = (r' - (r - q)) + (r + S) - (q - R) := by ring
    rw [e1, e]
    have a1 := abs_sub (r' - (r - q) + (r + S)) (q - R)
    have a2 := abs_add_le (r' - (r - q)) (r + S)
    have hRu : 0 ≤ P.u * R := by positivity
    have hiRu : 0 ≤ (i : ℝ) * (P.u * R) := by positivity
    push_cast
    nlinarith

theorem loopInv_loop (hP : P.Ok) {x0 : ℝ} (hx0 : 0 < x0) {x r y s : ℝ} (h : DigammaLoop P x r y s) :
    ∀ i, LoopInv P x0 i x r → (i ≠ 0 → x ≤ 9) → ∃ j, LoopInv P x0 j y s ∧ 7 ≤ y ∧ (j = 0 → x0 = y) ∧ (j ≠ 0 → y ≤ 9) := by
  induction h with
  | exit hx =>
    intro i hi h9
    refine ⟨i, hi, not_lt.1 hx, fun h => ?_, h9⟩
    subst h
    have := hi.x_err
    simp only [Nat.cast_zero, add_zero, mul_zero] at this
    have := abs_eq_zero.1 (le_antisymm this (abs_nonneg _))
    linarith
  | again hx _ hq hr hx' _ ih =>
    intro i hi _
    have hs := loopInv_step hP hx0 hi hx hq hr hx'
    obtain ⟨-, -, -, hpos⟩ := loopInv_small hP hx0 hi hx
    refine ih (i + 1) hs fun _ => ?_
    have h1 := (abs_le.1 (hx'.bound hP (c := 9) (by rw [abs_of_pos (by linarith)]; linarith) (by norm_num))).2
    have hu := hP.u_le
    norm_num at hu
    linarith

end Verif.Primitives
