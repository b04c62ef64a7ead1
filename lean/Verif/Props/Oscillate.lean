import Verif.Props.Converge

/-! Property C113, fast supervised step: there are models and documents for which it never settles. -/
namespace Verif.EStep

open MathUtils Finset

variable {P : Prims}

/-- Exponential and digamma functions that are right up to a small error. -/
structure Accurate (P : Prims) : Prop where
  exp : ∀ x, |x| ≤ 100 → |Real.log (P.exp x) - x| ≤ max 1 (2 * |x|) / 1000
  psi : ∀ x, 0 < x → ∃ v, P.psi x = some v ∧ |v - logDeriv Real.Gamma x| ≤ 1 / 1000000

theorem accurate_exact : Accurate exact where
  exp x _ := by
    simp only [exact, exactPrims, Real.log_exp, sub_self, abs_zero]
    positivity
  psi x _ := ⟨_, rfl, by simp⟩

theorem accurate_actual : Accurate fastPrims where
  exp x hx := by
    obtain ⟨v, h1, _, h3⟩ := FastExp.C30_accuracy x hx
    rw [fastPrims_exp, Option.some.injEq] at h1
    rw [h1]
    refine h3.trans ?_
    rw [div_eq_mul_one_div]
    exact mul_le_mul_of_nonneg_left (by norm_num) (by positivity)
  psi x hx := by
    obtain ⟨v, h1, h2, h3⟩ := FastExp.C88_accuracy x (Digamma.pos_ne_neg hx)
    refine ⟨v, h1, abs_le.2 ⟨?_, ?_⟩⟩ <;> norm_num at h3 ⊢ <;> linarith

/-- Two topics and two classes: the classes follow the topics closely, and the first word is four times as likely in the
second topic. -/
noncomputable def swingModel : Model 2 2 2 where
  alpha := fun _ => 10
  beta := fun k n => if k = 0 then (if n = 0 then 1 / 5 else 4 / 5) else (if n = 0 then 4 / 5 else 1 / 5)
  eta := fun k c => if k = c then 100 else 0

/-- The first word once. -/
def swingDoc : Vec 2 ℕ := fun n => if n = 0 then 1 else 0

theorem swing_valid : swingModel.Valid where
  alpha_pos _ := by norm_num [swingModel]
  beta_nonneg k n := by
    simp only [swingModel]
    split <;> split <;> norm_num

/-- The rows of `beta` are distributions. -/
theorem swing_rows (k : Fin 2) : ∑ n, swingModel.beta k n = 1 := by
  rw [Fin.sum_univ_two]
  fin_cases k <;> norm_num [swingModel]

/-- Responsibilities of the first word that add up to one. -/
structure Swing (s : VP 2 2) : Prop where
  nonneg : ∀ k, 0 ≤ s.phi k 0
  sum : s.phi 0 0 + s.phi 1 0 = 1
  gam : ∀ k, s.gamma k = 10 + s.phi k 0

theorem swing_psi (hP : Accurate P) {s : VP 2 2} (hs : Swing s) {psi : Vec 2 ℝ} (hpsi : ∀ k, P.psi (s.gamma k) = some (psi k)) :
    |psi 0 - psi 1| ≤ 101 / 1000 ∧ ∀ k, 0 ≤ psi k ∧ psi k ≤ 3 := by
  have hmem : ∀ k, 10 ≤ s.gamma k ∧ s.gamma k ≤ 11 := fun k => by
    have h1 := hs.nonneg 0
    have h2 := hs.nonneg 1
    have h3 := hs.sum
    rw [hs.gam k]
    fin_cases k
    · exact ⟨by simpa using h1, by simp; linarith⟩
    · exact ⟨by simpa using h2, by simp; linarith⟩
  have e : Digamma.psi 11 = Digamma.psi 10 + 1 / 10 := by
    rw [← Digamma.psi_add_one (Digamma.pos_ne_neg (by norm_num))]
    norm_num
  have hlow : 0 ≤ Digamma.psi 10 - 1 / 1000 := by
    have := Digamma.log_le_psi (x := 10) (by norm_num)
    have h2 : Real.log 2 ≤ Real.log 10 := Real.log_le_log (by norm_num) (by norm_num)
    have := Real.log_two_gt_d9
    norm_num at *
    linarith
  have hhigh : Digamma.psi 11 ≤ 3 - 1 / 1000 := by
    have := Digamma.psi_le_log (x := 11) (by norm_num)
    have h2 : Real.log 11 ≤ Real.log (2 ^ 4) := Real.log_le_log (by norm_num) (by norm_num)
    rw [Real.log_pow] at h2
    have := Real.log_two_lt_d9
    norm_num at *
    linarith
  have key : ∀ k, |psi k - Digamma.psi (s.gamma k)| ≤ 1 / 1000000 ∧ Digamma.psi 10 ≤ Digamma.psi (s.gamma k) ∧
      Digamma.psi (s.gamma k) ≤ Digamma.psi 10 + 1 / 10 := fun k => by
    obtain ⟨h1, h2⟩ := hmem k
    obtain ⟨v, h3, h4⟩ := hP.psi (s.gamma k) (by linarith)
    rw [hpsi k, Option.some.injEq] at h3
    subst h3
    exact ⟨h4, FastExp.psi_mono (by norm_num) h1, by rw [← e]; exact FastExp.psi_mono (by linarith) h2⟩
  refine ⟨?_, fun k => ?_⟩
  · obtain ⟨a1, a2, a3⟩ := key 0
    obtain ⟨b1, b2, b3⟩ := key 1
    rw [abs_le] at a1 b1 ⊢
    norm_num at a1 b1 ⊢
    constructor <;> linarith
  · obtain ⟨a1, a2, a3⟩ := key k
    rw [abs_le] at a1
    norm_num at a1
    constructor <;> linarith

/-- The ratio of two exponentials. -/
theorem exp_ratio (hP : Accurate P) {x y d : ℝ} {B : ℝ} (hB : 1 ≤ B) (hB' : B ≤ 100) (hx : |x| ≤ B) (hy : |y| ≤ B)
    (hd : x - y + B / 250 ≤ d) : P.exp x ≤ Real.exp d * P.exp y := by
  have h1 := (abs_le.1 (hP.exp x (hx.trans hB'))).2
  have h2 := (abs_le.1 (hP.exp y (hy.trans hB'))).1
  have m1 : max 1 (2 * |x|) ≤ 2 * B := max_le (by linarith) (by linarith)
  have m2 : max 1 (2 * |y|) ≤ 2 * B := max_le (by linarith) (by linarith)
  rw [← Real.exp_log (P.exp_pos x), ← Real.exp_log (P.exp_pos y), ← Real.exp_add]
  refine Real.exp_le_exp.2 ?_
  linarith

/-- What an update does to the share of the first topic. -/
theorem swing_core (hP : Accurate P) {p0 p1 z0 z1 t0 t1 x0 : ℝ} (hz0 : 0 ≤ z0) (hz1 : 0 ≤ z1) (hz : z0 + z1 = 1)
    (hs0 : 0 ≤ t0) (hs1 : 0 ≤ t1) (hsum : t0 + t1 = 1) (hsc : t0 * P.exp (100 * z1) = t1 * P.exp (100 * z0))
    (hp : |p0 - p1| ≤ 101 / 1000) (h0 : 0 ≤ p0 ∧ p0 ≤ 3) (h1 : 0 ≤ p1 ∧ p1 ≤ 3)
    (hx : x0 * (1 / 5 * P.exp (p0 + (1 - t0)) + 4 / 5 * P.exp (p1 + -t1)) = 1 / 5 * P.exp (p0 + (1 - t0))) :
    (z0 ≤ 9 / 20 → 11 / 20 ≤ x0) ∧ (11 / 20 ≤ z0 → x0 ≤ 9 / 20) ∧ (z0 = 1 / 2 → x0 ≤ 9 / 20) := by
  have hE0 := P.exp_pos (100 * z0)
  have hE1 := P.exp_pos (100 * z1)
  set A := P.exp (p0 + (1 - t0)) with hA
  set B := P.exp (p1 + -t1) with hB
  have hA0 : 0 < A := P.exp_pos _
  have hB0 : 0 < B := P.exp_pos _
  obtain ⟨q1, q2⟩ := h0
  obtain ⟨q3, q4⟩ := h1
  have q5 := abs_le.1 hp
  have aA : |p0 + (1 - t0)| ≤ 4 := abs_le.2 ⟨by linarith, by linarith⟩
  have aB : |p1 + -t1| ≤ 4 := abs_le.2 ⟨by linarith, by linarith⟩
  have aE0 : |100 * z0| ≤ 100 := abs_le.2 ⟨by linarith, by linarith⟩
  have aE1 : |100 * z1| ≤ 100 := abs_le.2 ⟨by linarith, by linarith⟩
  have small : Real.exp (-(48 / 5)) ≤ 1 / 100 := by
    rw [Real.exp_neg, inv_le_comm₀ (Real.exp_pos _) (by norm_num)]
    have h1 := Real.quadratic_le_exp_of_nonneg (x := 24 / 5) (by norm_num)
    have h2 : Real.exp (48 / 5) = Real.exp (24 / 5) ^ 2 := by rw [← Real.exp_nat_mul]; norm_num
    rw [h2]
    nlinarith
  -- the ratio decides
  have up : A ≤ 36 / 11 * B → x0 ≤ 9 / 20 := fun h => by
    by_contra hc
    push Not at hc
    nlinarith
  have down : B ≤ 9 / 44 * A → 11 / 20 ≤ x0 := fun h => by
    by_contra hc
    push Not at hc
    nlinarith
  refine ⟨fun h => down ?_, fun h => up ?_, fun h => up ?_⟩
  · have hr := exp_ratio hP (by norm_num) le_rfl aE0 aE1 (d := -(48 / 5)) (by linarith)
    have hsm0 : t0 ≤ 1 / 100 := by
      by_contra hc
      push Not at hc
      nlinarith
    have hd := exp_ratio hP (B := 4) (by norm_num) (by norm_num) aB aA (d := -(9 / 5)) (by linarith)
    refine hd.trans (mul_le_mul_of_nonneg_right ?_ hA0.le)
    rw [Real.exp_neg, inv_le_comm₀ (Real.exp_pos _) (by norm_num)]
    have h1 := Real.quadratic_le_exp_of_nonneg (x := 3 / 5) (by norm_num)
    have h2 : Real.exp (9 / 5) = Real.exp (3 / 5) ^ 3 := by rw [← Real.exp_nat_mul]; norm_num
    rw [h2]
    have h3 : ((9 / 44 : ℝ))⁻¹ ≤ (89 / 50) ^ 3 := by norm_num
    exact h3.trans (pow_le_pow_left₀ (by norm_num) (by norm_num at h1 ⊢; linarith) 3)
  · have hr := exp_ratio hP (by norm_num) le_rfl aE1 aE0 (d := -(48 / 5)) (by linarith)
    have hsm1 : t1 ≤ 1 / 100 := by
      by_contra hc
      push Not at hc
      nlinarith
    have hd := exp_ratio hP (B := 4) (by norm_num) (by norm_num) aA aB (d := 1) (by linarith)
    refine hd.trans (mul_le_mul_of_nonneg_right ?_ hB0.le)
    have := Real.exp_one_lt_d9
    norm_num at *
    linarith
  · have h' : z1 = 1 / 2 := by linarith
    rw [h, h'] at hsc
    have hsm0 : t0 = t1 := mul_right_cancel₀ (P.exp_pos _).ne' hsc
    have hd := exp_ratio hP (B := 4) (by norm_num) (by norm_num) aA aB (d := 1 + 3 / 25) (by linarith)
    refine hd.trans (mul_le_mul_of_nonneg_right ?_ hB0.le)
    have h1 := Real.exp_one_lt_d9
    have h2 := Real.exp_bound_div_one_sub_of_interval (x := 3 / 25) (by norm_num) (by norm_num)
    have h3 := Real.exp_pos 1
    rw [Real.exp_add]
    calc Real.exp 1 * Real.exp (3 / 25) ≤ 2.7182818286 * (1 / (1 - 3 / 25)) :=
          mul_le_mul h1.le h2 (Real.exp_pos _).le (by norm_num)
      _ ≤ 36 / 11 := by norm_num

theorem swing_update (hP : Accurate P) {s s' : VP 2 2} (hs : Swing s) (h : FastUpdate P 1 swingDoc 0 swingModel s s') :
    Swing s' ∧ (s.phi 0 0 ≤ 9 / 20 → 11 / 20 ≤ s'.phi 0 0) ∧ (11 / 20 ≤ s.phi 0 0 → s'.phi 0 0 ≤ 9 / 20) ∧
      (s.phi 0 0 = 1 / 2 → s'.phi 0 0 ≤ 9 / 20) := by
  obtain ⟨psi, sm, es, hpsi, ⟨hsm, hsm2⟩, ⟨mx, ⟨k0, c0, hmx⟩, hmx2, hes⟩, hprop, hcnt⟩ := h
  -- the scaled parameters
  have h100 : mx = 100 := by
    refine le_antisymm ?_ (by simpa [swingModel] using hmx2 0 0)
    rw [← hmx]
    simp only [swingModel]
    split <;> norm_num
  subst h100
  have hes' : ∀ k c, es k c = if k = c then 1 else 0 := fun k c => by
    rcases hes with ⟨_, h⟩ | ⟨h, _⟩
    · have := h k c
      simp only [swingModel] at this
      split at this <;> rename_i hkc
      · rw [if_pos hkc]; linarith
      · rw [if_neg hkc]; linarith
    · norm_num at h
  have hsum1 : sm 0 + sm 1 = 1 := by have := hsm.2; rwa [Fin.sum_univ_two] at this
  have hs0 : 0 ≤ sm 0 := hsm.1 0
  have hs1 : 0 ≤ sm 1 := hsm.1 1
  -- the scores
  have hsc := hsm2 0 1
  simp only [swingModel, swingDoc, Fin.sum_univ_two] at hsc
  norm_num at hsc
  -- the weights
  obtain ⟨hpd, hpr⟩ := swing_psi hP hs hpsi
  have hp0 := (hprop 0).1 0
  have hp1 := (hprop 0).1 1
  have hq := (hprop 0).2.1 ⟨0, mul_ne_zero (by norm_num [swingModel]) (P.exp_pos _).ne'⟩
  simp only [hes', swingModel, Fin.sum_univ_two] at hp0 hp1 hq
  norm_num at hp0 hp1 hq
  obtain ⟨c1, c2, c3⟩ := swing_core hP (hs.nonneg 0) (hs.nonneg 1) hs.sum hs0 hs1 hsum1 hsc hpd (hpr 0) (hpr 1) hp0
  refine ⟨⟨fun k => ?_, hq, fun k => ?_⟩, c1, c2, c3⟩
  · have hA0 := P.exp_pos (psi 0 + (1 - sm 0))
    have hB0 := P.exp_pos (psi 1 + -sm 1)
    fin_cases k
    · change 0 ≤ s'.phi 0 0
      by_contra hc
      push Not at hc
      nlinarith
    · change 0 ≤ s'.phi 1 0
      by_contra hc
      push Not at hc
      nlinarith
  · have := hcnt k
    simp only [swingModel, swingDoc, Fin.sum_univ_two] at this
    norm_num at this
    exact this

/-- **C113**, fast supervised step: with accurate exponential and digamma functions, in particular the ones of the
library, the step never settles on the document above. However many iterations are allowed, all of them are made, and
whether the first topic ends with less than 9/20 or with more than 11/20 of the word depends on whether their number is odd. -/
theorem C113_fast_never_settles (hP : Accurate P) {limit : ℕ} {tol : ℝ} (htol : tol ≤ 1 / 20) {cl draw : ℝ}
    {s : VP 2 2} {r : Report} (h : fast P ⟨limit, tol, cl⟩ 1 draw swingDoc 0 swingModel = some (s, r)) :
    (Odd limit → s.phi 0 0 ≤ 9 / 20) ∧ (Even limit → 0 < limit → 11 / 20 ≤ s.phi 0 0) := by
  obtain ⟨f, j, f0, fs, rfl, hj, hj2, hj3⟩ := C38_fast (y := (0 : Fin 2)) swing_valid (by norm_num) h
  have hX : ∃ n, swingDoc n ≠ 0 := ⟨0, by simp [swingDoc]⟩
  have inv : ∀ i ≤ j, Swing (f i) ∧ (i = 0 → (f i).phi 0 0 = 1 / 2) ∧ (Odd i → (f i).phi 0 0 ≤ 9 / 20) ∧
      (Even i → 0 < i → 11 / 20 ≤ (f i).phi 0 0) := fun i => by
    induction i with
    | zero =>
      intro _
      refine ⟨⟨fun k => by rw [f0]; norm_num, by rw [f0]; norm_num, fun k => ?_⟩, fun _ => by rw [f0]; norm_num,
        fun h => by simp at h, fun _ h => absurd h (lt_irrefl 0)⟩
      rw [f0]
      simp [swingModel, swingDoc]
    | succ i ih =>
      intro hi
      obtain ⟨i1, i2, i3, i4⟩ := ih (by omega)
      obtain ⟨u1, u2, u3, u4⟩ := swing_update hP i1 ((fs i (by omega)).1 hX)
      refine ⟨u1, fun h => by omega, fun h => ?_, fun h _ => ?_⟩
      · have he : Even i := by
          rcases Nat.even_or_odd i with h' | h'
          · exact h'
          · exact absurd h'.add_one (Nat.not_even_iff_odd.2 h)
        rcases Nat.eq_zero_or_pos i with h0 | h0
        · exact u4 (i2 h0)
        · exact u3 (i4 he h0)
      · refine u2 (i3 ?_)
        rcases Nat.even_or_odd i with h' | h'
        · exact absurd h'.add_one (Nat.not_odd_iff_even.2 h)
        · exact h'
  have hjl : j = limit := by
    by_contra hne
    have hlt : change (fun i => (f i).gamma) j < tol := hj2 (lt_of_le_of_ne hj hne)
    obtain ⟨i1, i2, i3, i4⟩ := inv j le_rfl
    cases j with
    | zero =>
      simp only [change, Fin.sum_univ_two, i1.gam] at hlt
      have h0 := le_abs_self (10 + (f 0).phi 0 0)
      have h1 := le_abs_self (10 + (f 0).phi 1 0)
      have := i1.nonneg 0
      have := i1.nonneg 1
      norm_num at hlt
      linarith
    | succ i =>
      obtain ⟨j1, j2, j3, j4⟩ := inv i (by omega)
      simp only [change, Fin.sum_univ_two, i1.gam, j1.gam] at hlt
      have e : 10 + (f (i + 1)).phi 1 0 - (10 + (f i).phi 1 0) =
          -(10 + (f (i + 1)).phi 0 0 - (10 + (f i).phi 0 0)) := by linarith [i1.sum, j1.sum]
      rw [e, abs_neg] at hlt
      have far : 1 / 20 ≤ |10 + (f (i + 1)).phi 0 0 - (10 + (f i).phi 0 0)| := by
        rcases Nat.even_or_odd i with h' | h'
        · have a := i3 h'.add_one
          rw [abs_sub_comm]
          refine le_trans ?_ (le_abs_self _)
          rcases Nat.eq_zero_or_pos i with h0 | h0
          · have b := j2 h0
            linarith
          · have b := j4 h' h0
            linarith
        · have a := i4 h'.add_one (by omega)
          have b := j3 h'
          refine le_trans ?_ (le_abs_self _)
          linarith
      norm_num at hlt far
      linarith
  subst hjl
  exact (inv j le_rfl).2.2

/-- **C113**, fast supervised step: the result on the document above, with the functions of the library, has no final
value. -/
theorem C113_fast_negation : ¬ ∃ (s : VP 2 2) (enough : ℕ), ∀ limit, enough ≤ limit →
    ∃ r, fast fastPrims ⟨limit, 1 / 100, 0⟩ 1 0 swingDoc 0 swingModel = some (s, r) := by
  rintro ⟨s, N, h⟩
  obtain ⟨r, h1⟩ := h (2 * N + 1) (by omega)
  obtain ⟨r', h2⟩ := h (2 * N + 2) (by omega)
  have a := (C113_fast_never_settles (tol := 1 / 100) accurate_actual (by norm_num) h1).1 ⟨N, rfl⟩
  have b := (C113_fast_never_settles (tol := 1 / 100) accurate_actual (by norm_num) h2).2 ⟨N + 1, by ring⟩ (by omega)
  linarith

/-- The step is defined on this document: it is a result without an end that is missing, not a result. -/
example (limit : ℕ) : ∃ s r, fast fastPrims ⟨limit, 1 / 100, 0⟩ 1 0 swingDoc 0 swingModel = some (s, r) := by
  exact C35_fast_defined (y := (0 : Fin 2)) swing_valid (by norm_num) (Or.inl ⟨0, by simp [swingDoc]⟩)

end Verif.EStep
