import Verif.Props.SweepSafe

/-
C136, continued: class weights for which the supervised step is undefined.
-/
namespace Verif.Overflow

open MathUtils EStep Limits Finset
open Rounded hiding fl_nonneg fl_zero

variable {K V C : ℕ} {F : Format} {D : Device F} {X : Vec V ℕ} {y : Fin C} {beta : Mat K V ℝ} {eta : Mat K C ℝ} {fp : ℕ}

/-! ### Infinite factors -/

/-- Not negative, or NaN. -/
def NonnegOrNan (x : Num) : Prop := AtLeast 0 x ∨ x = .nan

/-- Plus infinity or NaN. -/
def Lost (x : Num) : Prop := x = .pinf ∨ x = .nan

theorem Lost.nonneg {x : Num} (h : Lost x) : NonnegOrNan x := by
  rcases h with rfl | rfl
  · exact .inl trivial
  · exact .inr rfl

theorem infMul_nonneg {a : ℝ} (h : 0 ≤ a) : Lost (Ieee.infMul true a) := by
  unfold Ieee.infMul
  rcases h.lt_or_eq with h | h
  · left
    rw [if_neg h.ne', if_pos (by simpa using h)]
  · right
    rw [if_pos h.symm]

theorem NonnegOrNan.mul {x y : Num} (hx : NonnegOrNan x) (hy : NonnegOrNan y) : NonnegOrNan (nMul F x y) := by
  rcases hx with hx | rfl
  · rcases hy with hy | rfl
    · cases x <;> cases y <;> simp only [AtLeast] at hx hy
      · exact .inl (toNum_nonneg (mul_nonneg hx hy))
      · exact (infMul_nonneg hx).nonneg
      · exact (infMul_nonneg hy).nonneg
      · exact .inl trivial
    · right
      exact nMul_nan_right _
  · right
    cases y <;> rfl

theorem Lost.mul {x y : Num} (hx : Lost x) (hy : NonnegOrNan y) : Lost (nMul F x y) := by
  rcases hx with rfl | rfl
  · rcases hy with hy | rfl
    · cases y <;> simp only [AtLeast] at hy
      · exact infMul_nonneg hy
      · exact .inl rfl
    · right
      rfl
  · right
    cases y <;> rfl

theorem Lost.mul' {x y : Num} (hx : NonnegOrNan x) (hy : Lost y) : Lost (nMul F x y) := by
  rcases hx with hx | rfl
  · rcases hy with rfl | rfl
    · cases x <;> simp only [AtLeast] at hx
      · exact infMul_nonneg hx
      · exact .inl rfl
    · right
      exact nMul_nan_right _
  · right
    cases y <;> rfl

theorem NonnegOrNan.div {x y : Num} (hx : NonnegOrNan x) (hy : NonnegOrNan y) : NonnegOrNan (nDiv F x y) := by
  rcases hx with hx | rfl
  · rcases hy with hy | rfl
    · cases x <;> cases y <;> simp only [AtLeast] at hx hy
      · rename_i a b
        unfold nDiv
        simp only
        split_ifs with h1 h2 h3
        · exact .inr rfl
        · exact .inl trivial
        · exact absurd (lt_of_le_of_ne hx (Ne.symm h2)) h3
        · exact .inl (toNum_nonneg (div_nonneg hx hy))
      · left
        simp [nDiv, AtLeast]
      · rename_i b
        left
        have : ¬ b < 0 := not_lt.2 hy
        simp [nDiv, AtLeast, this]
      · right
        simp [nDiv]
    · right
      cases x <;> rfl
  · right
    cases y <;> rfl

theorem Lost.div {x y : Num} (hx : Lost x) (hy : NonnegOrNan y) : Lost (nDiv F x y) := by
  rcases hx with rfl | rfl
  · rcases hy with hy | rfl
    · cases y <;> simp only [AtLeast] at hy
      · rename_i b
        left
        have : ¬ b < 0 := not_lt.2 hy
        simp [nDiv, this]
      · right
        simp [nDiv]
    · right
      rfl
  · right
    cases y <;> rfl

theorem nsum_nonneg_or_nan {m : ℕ} {v : Vec m Num} (h : ∀ i, NonnegOrNan (v i)) : NonnegOrNan (D.nsum v) := by
  by_cases hn : ∃ i, v i = .nan
  · obtain ⟨i, hi⟩ := hn
    exact .inr (nsum_nan i hi)
  · push Not at hn
    left
    refine numSum_nonneg (D.nsum_spec v) fun x hx => ?_
    obtain ⟨i, rfl⟩ := (List.mem_ofFn' _ _).1 hx
    exact (h i).resolve_right (hn i)

theorem nsum_lost {m : ℕ} {v : Vec m Num} (h : ∀ i, NonnegOrNan (v i)) (i : Fin m) (hi : Lost (v i)) : Lost (D.nsum v) := by
  by_cases hn : ∃ i, v i = .nan
  · obtain ⟨i, hi⟩ := hn
    exact .inr (nsum_nan i hi)
  · push Not at hn
    left
    refine numSum_pinf (D.nsum_spec v) (fun x hx => ?_) ?_
    · obtain ⟨j, rfl⟩ := (List.mem_ofFn' _ _).1 hx
      exact (h j).resolve_right (hn j)
    · rw [List.mem_ofFn']
      exact ⟨i, hi.resolve_right (hn i)⟩

theorem expEta_spec {n : Fin V} {e : Mat K C Num} (h : nExpEta D X eta n = some e) (k : Fin K) (c : Fin C) :
    nExp D (nMul F (.fin (eta k c)) (nRatio F X n)) = some (e k c) := by
  unfold nExpEta at h
  simp only at h
  split_ifs at h with h0
  rw [← Option.some.inj h]
  exact (Option.some_get _).symm

/-- The products stay nonnegative, and lost if a factor is. -/
theorem products_lost (hF : F.Ok) (c : Fin C) {phi : Mat K V Num} (hphi : ∀ k n, AtLeast 0 (phi k n)) :
    ∀ (l : List (Fin V)) (P P' : Vec C Num), (∀ c, NonnegOrNan (P c)) → nProducts D X eta phi l P = some P' →
    (∀ c, NonnegOrNan (P' c)) ∧
    ((Lost (P c) ∨ ∃ n ∈ l, ∀ e, nExpEta D X eta n = some e → Lost (nFactor D e (fun k => phi k n) c)) → Lost (P' c)) := by
  intro l
  induction l with
  | nil =>
    intro P P' hP h
    rw [nProducts, Option.some.injEq] at h
    subst h
    exact ⟨hP, fun h => h.resolve_right (by rintro ⟨_, h, _⟩; cases h)⟩
  | cons n ns ih =>
    intro P P' hP h
    rw [nProducts] at h
    obtain ⟨e, he, h⟩ := Option.bind_eq_some_iff.1 h
    have hf : ∀ c, NonnegOrNan (nFactor D e (fun k => phi k n) c) := fun c =>
      nsum_nonneg_or_nan fun k => (NonnegOrNan.mul (.inl (nExp_nonneg hF (expEta_spec he k c))) (.inl (hphi k n)))
    obtain ⟨h1, h2⟩ := ih _ P' (fun c => (hP c).mul (hf c)) h
    refine ⟨h1, fun h3 => h2 ?_⟩
    rcases h3 with h3 | ⟨n', hn', h3⟩
    · exact .inl (h3.mul (hf c))
    · rcases List.mem_cons.1 hn' with rfl | hn'
      · exact .inl (Lost.mul' (hP c) (h3 e he))
      · exact .inr ⟨n', hn', h3⟩

theorem nonneg_of_eq {x : Num} {q : ℝ} (h : x = .fin q) (hq : 0 < q) : AtLeast 0 x := by
  rw [h]
  exact hq.le

/-- With an infinite product the fixed point iteration is undefined. -/
theorem sweepWord_lost (hF : F.Ok) (hK : 0 < K) {s : NumSweep K V C} {c : Fin C} (hs : ∀ c, NonnegOrNan (s.products c)) (hc : Lost (s.products c))
    {n : Fin V} (hn : X n ≠ 0) {q : ℝ} (hq : 0 < q) (hphi : ∀ k, s.phi k n = .fin q) :
    nSweepWord D X y beta eta (fp + 1) s n = none := by
  unfold nSweepWord
  rw [if_neg hn]
  cases he : nExpEta D X eta n with
  | none => rfl
  | some e =>
    rw [Option.bind_some]
    simp only
    have e0 := fun k c => nExp_nonneg hF (expEta_spec he k c)
    have hf : ∀ c, NonnegOrNan (nFactor D e (fun k => s.phi k n) c) := fun c =>
      nsum_nonneg_or_nan fun k => (NonnegOrNan.mul (.inl (e0 k c)) (.inl (nonneg_of_eq (hphi k) hq)))
    have hp : ∀ c, NonnegOrNan (nDiv F (s.products c) (nFactor D e (fun k => s.phi k n) c)) := fun c => (hs c).div (hf c)
    have hp' := hc.div (F := F) (hf c)
    have hh : ∀ k, Lost (D.nsum fun c => nMul F (e k c) (nDiv F (s.products c) (nFactor D e (fun k => s.phi k n) c))) :=
      fun k => nsum_lost (fun c => NonnegOrNan.mul (.inl (e0 k c)) (hp c)) c (Lost.mul' (.inl (e0 k c)) hp')
    rw [nFixedPoints]
    have key : ∀ h : Vec K Num, (∀ k, Lost (h k)) → nFixedPoint D (X n) (nRatio F X n) (fun k => beta k n) (fun k => eta k y) s.psi h
        (fun k => s.phi k n) = none := by
      intro h hh
      have hS : Lost (D.nsum fun k => nMul F (h k) (s.phi k n)) :=
        nsum_lost (fun k => (hh k).nonneg.mul (.inl (nonneg_of_eq (hphi k) hq))) ⟨0, hK⟩
          ((hh ⟨0, hK⟩).mul (.inl (nonneg_of_eq (hphi ⟨0, hK⟩) hq)))
      have ht : ZeroOrNan (convert F (nDiv double (nDiv double (.fin 1) (D.nsum fun k => nMul F (h k) (s.phi k n))) (toNum double (X n)))) := by
        have h1 : ZeroOrNan (nDiv double (.fin 1) (D.nsum fun k => nMul F (h k) (s.phi k n))) := by
          rcases hS with hS | hS <;> rw [hS]
          · exact .inl rfl
          · exact .inr rfl
        rcases h1 with h1 | h1 <;> rw [h1]
        · cases toNum double (X n : ℝ) with
          | fin b =>
            unfold nDiv
            simp only
            split_ifs
            · exact .inr rfl
            · rw [zero_div, toNum_zero]
              exact .inl toNum_zero
          | pinf => exact .inl toNum_zero
          | ninf => exact .inl toNum_zero
          | nan => exact .inr rfl
        · right
          cases toNum double (X n : ℝ) <;> rfl
      unfold nFixedPoint
      simp only
      rw [mapNum_none ⟨0, hK⟩]
      · rfl
      · have hm : nMul F (h ⟨0, hK⟩) (convert F (nDiv double (nDiv double (.fin 1) (D.nsum fun k => nMul F (h k) (s.phi k n)))
            (toNum double (X n)))) = .nan := by
          rcases hh ⟨0, hK⟩ with e1 | e1 <;> rw [e1] <;> rcases ht with e2 | e2 <;> rw [e2]
          · simp [nMul, Ieee.mul, Ieee.infMul]
          · rfl
          · rfl
          · rfl
        rw [hm]
        show nExp D (nAdd F _ (nNeg .nan)) = none
        rw [show nNeg (.nan : Num) = .nan from rfl, nAdd_nan_right]
        rfl
    rw [key _ hh]
    rfl

theorem sweepWords_lost (hF : F.Ok) (hK : 0 < K) {s : NumSweep K V C} {c : Fin C} (hs : ∀ c, NonnegOrNan (s.products c))
    (hc : Lost (s.products c)) {q : ℝ} (hq : 0 < q) (hphi : ∀ k n, s.phi k n = .fin q) : ∀ l : List (Fin V), (∃ n ∈ l, X n ≠ 0) →
    nSweepWords D X y beta eta (fp + 1) l s = none := by
  intro l
  induction l with
  | nil => rintro ⟨_, h, _⟩; cases h
  | cons n ns ih =>
    rintro ⟨n', h1, h2⟩
    rw [nSweepWords]
    by_cases hn : X n = 0
    · have : nSweepWord D X y beta eta (fp + 1) s n = some s := by
        unfold nSweepWord
        rw [if_pos hn]
      rw [this, Option.bind_some]
      refine ih ⟨n', ?_, h2⟩
      rcases List.mem_cons.1 h1 with rfl | h1
      · exact absurd hn h2
      · exact h1
    · rw [sweepWord_lost hF hK hs hc hn hq fun k => hphi k n]
      rfl

/-- A word of the document has its share, up to rounding. -/
theorem ratio_rel (h : Wide F) (hX : numWords X ≤ 2 ^ 31) {n : Fin V} (hn : X n ≠ 0) :
    nRatio F X n = .fin (rRatio F X n) ∧ Rel (6 * F.u) (rRatio F X n) (X n / numWords X) := by
  have hx1 : 1 ≤ X n := Nat.one_le_iff_ne_zero.2 hn
  have hw : 0 < numWords X := lt_of_lt_of_le hx1 (word_le n)
  have hN0 : (0 : ℝ) < numWords X := Nat.cast_pos.2 hw
  have x1 : (1 : ℝ) ≤ X n := by exact_mod_cast hx1
  have hN1 : (1 : ℝ) ≤ numWords X := by exact_mod_cast hw
  have hN : (numWords X : ℝ) ≤ 2 ^ 31 := by exact_mod_cast hX
  have hu := u_pos (F := F)
  have hu' := h.u
  have one : Real.exp (-69) ≤ 1 := Real.exp_le_one_iff.2 (by norm_num)
  have r1 := h.rel_fl (one.trans x1)
  have r2 := h.rel_fl (one.trans hN1)
  have r3 := r1.div r2 (by linarith) hN0
  have lo : Real.exp (-60) ≤ (X n : ℝ) / numWords X := by
    rw [le_div_iff₀ hN0]
    have e0 : Real.exp (-60) * 2 ^ 31 ≤ 1 := by
      rw [Real.exp_neg, inv_mul_le_iff₀ (Real.exp_pos _), mul_one]
      have e1 : Real.exp 60 = Real.exp 1 ^ 60 := by rw [← Real.exp_nat_mul]; norm_num
      rw [e1]
      have e2 : (2 : ℝ) ≤ Real.exp 1 := by have := Real.exp_one_gt_d9; linarith
      have e3 := pow_le_pow_left₀ (by norm_num) e2 60
      refine le_trans ?_ e3
      norm_num
    have := mul_le_mul_of_nonneg_left hN (Real.exp_pos (-60)).le
    linarith
  have r4 := (h.rel_fl (x := fl F (X n : ℝ) / fl F (numWords X)) (by
    refine le_trans ?_ r3.1
    have := mul_le_mul_of_nonneg_left lo (Real.exp_pos (-(2 * F.u + 2 * F.u))).le
    rw [← Real.exp_add] at this
    exact (Real.exp_le_exp.2 (by linarith)).trans this)).trans r3
  refine ⟨(near_ratio h hw hX).1 n, ?_⟩
  rw [show 2 * F.u + (2 * F.u + 2 * F.u) = 6 * F.u by ring] at r4
  exact r4

/-- A weight that is large in relation to the share of a word. -/
theorem scaled_large (h : Wide F) (hX : numWords X ≤ 2 ^ 31) {n : Fin V} (hn : X n ≠ 0) {w B : ℝ} (hB : 1 ≤ B) (hB' : B ≤ 1000)
    (hw : (B + 1) * numWords X ≤ w * X n) : B ≤ fl F (w * rRatio F X n) := by
  have hu := u_pos (F := F)
  have hu' := h.u
  have hx1 : 1 ≤ X n := Nat.one_le_iff_ne_zero.2 hn
  have hN0 : (0 : ℝ) < numWords X := Nat.cast_pos.2 (lt_of_lt_of_le hx1 (word_le n))
  have x1 : (1 : ℝ) ≤ X n := by exact_mod_cast hx1
  obtain ⟨_, r⟩ := ratio_rel h hX hn
  have q0 : 0 < (X n : ℝ) / numWords X := by positivity
  have e1 : B + 1 ≤ w * (X n / numWords X) := by
    rw [← mul_div_assoc, le_div_iff₀ hN0]
    exact hw
  have w0 : 0 < w := by
    by_contra hc
    push Not at hc
    have := mul_nonpos_of_nonpos_of_nonneg hc q0.le
    linarith
  have e2 : (1 - 6 * F.u) * (X n / numWords X) ≤ rRatio F X n := by
    refine le_trans ?_ r.1
    have := Real.add_one_le_exp (-(6 * F.u))
    exact mul_le_mul_of_nonneg_right (by linarith) q0.le
  have e3 : (1 - 6 * F.u) * (B + 1) ≤ w * rRatio F X n := by
    calc (1 - 6 * F.u) * (B + 1) ≤ (1 - 6 * F.u) * (w * (X n / numWords X)) := mul_le_mul_of_nonneg_left e1 (by linarith)
      _ = w * ((1 - 6 * F.u) * (X n / numWords X)) := by ring
      _ ≤ _ := mul_le_mul_of_nonneg_left e2 w0.le
  have e4 : B + 1 / 2 ≤ w * rRatio F X n := by nlinarith
  have e5 := fl_err (F := F) (x := w * rRatio F X n) (by linarith)
  rw [abs_le] at e5
  have ht : F.tiny ≤ 1 / 10 := h.tiny.trans (by norm_num)
  have e6 : (1 - F.u) * (B + 1 / 2) ≤ (1 - F.u) * (w * rRatio F X n) := mul_le_mul_of_nonneg_left e4 (by linarith)
  nlinarith [e5.1]

theorem nExp_over {B : ℝ} (hB : 0 ≤ B) (hover : ∀ x, B ≤ x → lExpPos D.toMachine x = none) {x : ℝ} (hx : B ≤ fl F x) :
    nExp D (toNum F x) = some .pinf := by
  have h0 : (0 : ℝ) < 2 ^ F.high := by positivity
  unfold toNum
  split_ifs with h1 h2
  · rfl
  · linarith
  · have key : nExp D (.fin (fl F x)) = some (match lExp D.toMachine (fl F x) with | none => Ieee.pinf | some v => Ieee.fin v) := rfl
    rw [key]
    unfold lExp
    rw [if_neg (by linarith), hover _ hx]

/-- The first pass is undefined. -/
theorem over_undefined (h : Wide F) {B : ℝ} (hB : 1 ≤ B) (hB' : B ≤ 1000) (hover : ∀ x, B ≤ x → lExpPos D.toMachine x = none)
    (hX : numWords X ≤ 2 ^ 31) (hK : K ≤ 2 ^ 20) {n : Fin V} (hn : X n ≠ 0) {k : Fin K} {c : Fin C}
    (hw : (B + 1) * numWords X ≤ eta k c * X n) (alpha : Vec K ℝ) :
    nPhiGamma D X y beta eta (fp + 1) (nFirst F X alpha) = none := by
  obtain ⟨p, hp, p1, _⟩ := first_phi h k.pos hK
  have p0 : 0 < p := lt_of_lt_of_le (div_pos (by norm_num) (Nat.cast_pos.2 k.pos)) p1
  have hphi : ∀ k n, (nFirst F X alpha).2 k n = .fin p := fun _ _ => hp
  unfold nPhiGamma
  cases hP : nProducts D X eta (nFirst F X alpha).2 (List.finRange V) fun _ => .fin 1 with
  | none => rfl
  | some P =>
    rw [Option.bind_some]
    obtain ⟨h1, h2⟩ := products_lost h.ok c (fun k n => nonneg_of_eq (hphi k n) p0) _ _ _ (fun _ => .inl zero_le_one) hP
    have hl : Lost (P c) := by
      refine h2 (.inr ⟨n, List.mem_finRange n, fun e he => ?_⟩)
      have hk := expEta_spec he k c
      rw [(ratio_rel h hX hn).1] at hk
      have : nExp D (toNum F (eta k c * rRatio F X n)) = some (e k c) := hk
      rw [nExp_over (by linarith) hover (scaled_large h hX hn hB hB' hw), Option.some.injEq] at this
      refine nsum_lost (fun j => NonnegOrNan.mul (.inl (nExp_nonneg h.ok (expEta_spec he j c))) (.inl (nonneg_of_eq (hphi j n) p0))) k ?_
      rw [← this]
      exact Lost.mul (.inl rfl) (.inl (nonneg_of_eq (hphi k n) p0))
    rw [sweepWords_lost h.ok k.pos h1 hl p0 hphi _ ⟨n, List.mem_finRange n, hn⟩]
    rfl

/-! ### Factors that are zero -/

theorem ZeroOrNan.mul {x y : Num} (hx : ZeroOrNan x) : ZeroOrNan (nMul F x y) := by
  rcases hx with rfl | rfl
  · exact zero_mul_num y
  · right
    cases y <;> rfl

theorem ZeroOrNan.mul' {x y : Num} (hy : ZeroOrNan y) : ZeroOrNan (nMul F x y) := by
  rcases hy with rfl | rfl
  · cases x with
    | fin a => left; show toNum F (a * 0) = _; rw [mul_zero, toNum_zero]
    | pinf => right; show Ieee.infMul true (0 : ℝ) = _; unfold Ieee.infMul; rw [if_pos rfl]
    | ninf => right; show Ieee.infMul false (0 : ℝ) = _; unfold Ieee.infMul; rw [if_pos rfl]
    | nan => right; rfl
  · right
    exact nMul_nan_right _

theorem ZeroOrNan.div {x y : Num} (hx : ZeroOrNan x) : ZeroOrNan (nDiv F x y) := by
  rcases hx with rfl | rfl
  · cases y with
    | fin b =>
      unfold nDiv
      simp only
      split_ifs
      · exact .inr rfl
      · rw [zero_div, toNum_zero]
        exact .inl rfl
    | pinf => exact .inl rfl
    | ninf => exact .inl rfl
    | nan => exact .inr rfl
  · right
    cases y <;> rfl

theorem nsum_zeroOrNan {m : ℕ} {v : Vec m Num} (h : ∀ i, ZeroOrNan (v i)) : ZeroOrNan (D.nsum v) :=
  numSum_zeroOrNan (D.nsum_spec v) fun x hx => by
    obtain ⟨i, rfl⟩ := (List.mem_ofFn' _ _).1 hx
    exact h i

/-- The exponentials of one class are zero for the word `n`. -/
def Vanishes (D : Device F) (X : Vec V ℕ) (eta : Mat K C ℝ) (n : Fin V) (c : Fin C) : Prop :=
  ∀ e, nExpEta D X eta n = some e → ∀ k, e k c = .fin 0

theorem Vanishes.factor {n : Fin V} {c : Fin C} (h : Vanishes D X eta n c) {e : Mat K C Num} (he : nExpEta D X eta n = some e)
    (col : Vec K Num) : ZeroOrNan (nFactor D e col c) :=
  nsum_zeroOrNan fun k => by
    rw [h e he k]
    exact zero_mul_num _

theorem products_zero {n : Fin V} {c : Fin C} (h : Vanishes D X eta n c) {phi : Mat K V Num} :
    ∀ (l : List (Fin V)) (P P' : Vec C Num), nProducts D X eta phi l P = some P' → (ZeroOrNan (P c) ∨ n ∈ l) → ZeroOrNan (P' c) := by
  intro l
  induction l with
  | nil =>
    intro P P' h1 h2
    rw [nProducts, Option.some.injEq] at h1
    subst h1
    exact h2.resolve_right (by simp)
  | cons n' ns ih =>
    intro P P' h1 h2
    rw [nProducts] at h1
    obtain ⟨e, he, h1⟩ := Option.bind_eq_some_iff.1 h1
    refine ih _ P' h1 ?_
    rcases h2 with h2 | h2
    · exact .inl h2.mul
    · rcases List.mem_cons.1 h2 with rfl | h2
      · exact .inl (h.factor he _).mul'
      · exact .inr h2

theorem sweepWord_keeps {c : Fin C} {s r : NumSweep K V C} (hs : ZeroOrNan (s.products c)) {n : Fin V}
    (h : nSweepWord D X y beta eta fp s n = some r) : ZeroOrNan (r.products c) := by
  unfold nSweepWord at h
  split_ifs at h with hn
  · rw [← Option.some.inj h]
    exact hs
  · obtain ⟨e, _, h⟩ := Option.bind_eq_some_iff.1 h
    obtain ⟨col, _, rfl⟩ := Option.map_eq_some_iff.1 h
    exact hs.div.mul

theorem sweepWord_zero (hK : 0 < K) {n : Fin V} {c : Fin C} (h : Vanishes D X eta n c) (hn : X n ≠ 0) {s : NumSweep K V C}
    (hs : ZeroOrNan (s.products c)) : nSweepWord D X y beta eta (fp + 1) s n = none := by
  unfold nSweepWord
  rw [if_neg hn]
  cases he : nExpEta D X eta n with
  | none => rfl
  | some e =>
    rw [Option.bind_some]
    simp only
    have hp : nDiv F (s.products c) (nFactor D e (fun k => s.phi k n) c) = .nan := nan_of_zeros hs (h.factor he _)
    rw [nFixedPoints]
    have key : ∀ w : Vec K Num, w ⟨0, hK⟩ = .nan → nFixedPoint D (X n) (nRatio F X n) (fun k => beta k n) (fun k => eta k y) s.psi w
        (fun k => s.phi k n) = none := by
      intro w hw
      unfold nFixedPoint
      simp only
      rw [mapNum_none ⟨0, hK⟩]
      · rfl
      · rw [hw]
        have : ∀ t : Num, nMul F .nan t = .nan := fun t => by cases t <;> rfl
        rw [this]
        show nExp D (nAdd F _ (nNeg .nan)) = none
        rw [show nNeg (.nan : Num) = .nan from rfl, nAdd_nan_right]
        rfl
    rw [key _ (nsum_nan c (by rw [hp, nMul_nan_right]))]
    rfl

/-- Every pass is undefined. -/
theorem under_undefined (hK : 0 < K) {n : Fin V} {c : Fin C} (h : Vanishes D X eta n c) (hn : X n ≠ 0) (s : Vec K Num × Mat K V Num) :
    nPhiGamma D X y beta eta (fp + 1) s = none := by
  unfold nPhiGamma
  cases hP : nProducts D X eta s.2 (List.finRange V) fun _ => .fin 1 with
  | none => rfl
  | some P =>
    rw [Option.bind_some]
    have hz := products_zero h _ _ _ hP (.inr (List.mem_finRange n))
    have key : ∀ (l : List (Fin V)) (r : NumSweep K V C), ZeroOrNan (r.products c) → n ∈ l →
        nSweepWords D X y beta eta (fp + 1) l r = none := by
      intro l
      induction l with
      | nil => intro r _ hl; cases hl
      | cons n' ns ih =>
        intro r hr hl
        rw [nSweepWords]
        rcases List.mem_cons.1 hl with rfl | hl
        · rw [sweepWord_zero hK h hn hr]
          rfl
        · cases hw : nSweepWord D X y beta eta (fp + 1) r n' with
          | none => rfl
          | some r' =>
            rw [Option.bind_some]
            exact ih r' (sweepWord_keeps hr hw) hl
    rw [key _ _ hz (List.mem_finRange n)]
    rfl

theorem vanishes_of (h : Wide F) {B : ℝ} (hB : 1 ≤ B) (hB' : B ≤ 1000) (hzero : ∀ x, x ≤ -B → lExp D.toMachine x = some 0)
    (hX : numWords X ≤ 2 ^ 31) {n : Fin V} (hn : X n ≠ 0) {c : Fin C} (hw : ∀ k, eta k c * X n ≤ -(B + 1) * numWords X) :
    Vanishes D X eta n c := by
  intro e he k
  have hk := expEta_spec he k c
  rw [(ratio_rel h hX hn).1] at hk
  have h1 : nExp D (toNum F (eta k c * rRatio F X n)) = some (e k c) := hk
  have h2 := scaled_large h hX hn hB hB' (w := -eta k c) (by linarith [hw k])
  rw [neg_mul, fl_neg] at h2
  have h0 : (0 : ℝ) < 2 ^ F.high := by positivity
  have : nExp D (toNum F (eta k c * rRatio F X n)) = some (.fin 0) := by
    unfold toNum
    split_ifs with h3 h4
    · linarith
    · rfl
    · show some (match lExp D.toMachine _ with | none => Ieee.pinf | some v => Ieee.fin v) = _
      rw [hzero _ (by linarith)]
  rw [this] at h1
  exact (Option.some.inj h1).symm

/-! ### C136 -/

theorem run_undefined {alpha : Vec K ℝ} {tol : ℝ} (hc : nConverged D (fun _ => .fin 0) (nFirst F X alpha).1 tol = false)
    (h : nPhiGamma D X y beta eta fp (nFirst F X alpha) = none) (iterations : ℕ) :
    nSupervisedRun D X y alpha beta eta fp tol (iterations + 1) = none := by
  unfold nSupervisedRun
  rw [nSupervisedLoop, hc]
  simp only [Bool.false_eq_true, if_false]
  rw [h]
  rfl

/-- C136, the full statement is false: with `double`, one weight of a class that is 711 or more in relation to the share
of a word in a document makes the supervised step convert NaN to an index into the table of exponentials, whatever the
rest of the model and of the document. -/
theorem C136_over_double {D : Device double} (hX : numWords X ≤ 2 ^ 31) (hK : K ≤ 2 ^ 20) {n : Fin V} (hn : X n ≠ 0) {k : Fin K}
    {c : Fin C} (hw : 711 * numWords X ≤ eta k c * X n) {alpha : Vec K ℝ} {tol : ℝ}
    (hc : nConverged D (fun _ => .fin 0) (nFirst double X alpha).1 tol = false) (iterations : ℕ) :
    nSupervisedRun D X y alpha beta eta (fp + 1) tol (iterations + 1) = none :=
  run_undefined hc (over_undefined wide_double (B := 710) (by norm_num) (by norm_num) (fun _ hx => lExpPos_over_double hx) hX hK hn
    (by norm_num; exact hw) alpha) iterations

/-- C136, the full statement is false: with `float` a weight of 90 in relation to the share of a word is enough. -/
theorem C136_over_float {D : Device float} (hX : numWords X ≤ 2 ^ 31) (hK : K ≤ 2 ^ 20) {n : Fin V} (hn : X n ≠ 0) {k : Fin K}
    {c : Fin C} (hw : 90 * numWords X ≤ eta k c * X n) {alpha : Vec K ℝ} {tol : ℝ}
    (hc : nConverged D (fun _ => .fin 0) (nFirst float X alpha).1 tol = false) (iterations : ℕ) :
    nSupervisedRun D X y alpha beta eta (fp + 1) tol (iterations + 1) = none :=
  run_undefined hc (over_undefined wide_float (B := 89) (by norm_num) (by norm_num) (fun _ hx => lExpPos_over_float hx) hX hK hn
    (by norm_num; exact hw) alpha) iterations

/-- C136, the full statement is false: with `double`, a class whose weights are all -711 or less in relation to the share
of a word makes every pass undefined, whatever the rest of the model and of the document. -/
theorem C136_under_double {D : Device double} (hX : numWords X ≤ 2 ^ 31) (hK : 0 < K) {n : Fin V} (hn : X n ≠ 0)
    {c : Fin C} (hw : ∀ k, eta k c * X n ≤ -711 * numWords X) {alpha : Vec K ℝ} {tol : ℝ}
    (hc : nConverged D (fun _ => .fin 0) (nFirst double X alpha).1 tol = false) (iterations : ℕ) :
    nSupervisedRun D X y alpha beta eta (fp + 1) tol (iterations + 1) = none :=
  run_undefined hc (under_undefined hK (vanishes_of wide_double (B := 710) (by norm_num) (by norm_num) (fun _ hx => lExp_zero_double hx)
    hX hn fun k => by norm_num; simpa using hw k) hn _) iterations

/-- C136, the full statement is false: with `float`, weights of -90 are enough. -/
theorem C136_under_float {D : Device float} (hX : numWords X ≤ 2 ^ 31) (hK : 0 < K) {n : Fin V} (hn : X n ≠ 0)
    {c : Fin C} (hw : ∀ k, eta k c * X n ≤ -90 * numWords X) {alpha : Vec K ℝ} {tol : ℝ}
    (hc : nConverged D (fun _ => .fin 0) (nFirst float X alpha).1 tol = false) (iterations : ℕ) :
    nSupervisedRun D X y alpha beta eta (fp + 1) tol (iterations + 1) = none :=
  run_undefined hc (under_undefined hK (vanishes_of wide_float (B := 89) (by norm_num) (by norm_num) (fun _ hx => lExp_zero_float hx)
    hX hn fun k => by norm_num; simpa using hw k) hn _) iterations

/-- What a finite result of the step is: `gamma` is at least half the prior and differs by at most `d` from the prior plus
the words; each column of `phi` is nonnegative and sums to one up to rounding. -/
def Finite (F : Format) (X : Vec V ℕ) (alpha : Vec K ℝ) (d : ℝ) (r : Option (Vec K Num × Mat K V Num)) : Prop :=
  ∃ (g : Vec K ℝ) (p : Mat K V ℝ), r = some (fun k => .fin (g k), fun k n => .fin (p k n)) ∧ (∀ k, alpha k / 2 ≤ g k) ∧
    (∀ k, |g k - (alpha k + ∑ n, X n * p k n)| ≤ d) ∧ (∀ k n, 0 ≤ p k n) ∧ ∀ n, |∑ k, p k n - 1| ≤ (3 * K + 5) * F.u

theorem Good.finite {M T m A Pm : ℝ} (h : Small F X eta M T) {alpha : Vec K ℝ} (ha : Prior alpha m A Pm) {d : ℝ} (hd : d ≤ 1 / m)
    {g : Vec K ℝ} {p : Mat K V ℝ} (hg : Good F X alpha d g p) :
    Finite F X alpha d (some (fun k => .fin (g k), fun k n => .fin (p k n))) := by
  refine ⟨g, p, rfl, fun k => ?_, hg.gamma, hg.nonneg, fun n => ?_⟩
  · have h1 := abs_le.1 (hg.gamma k)
    have h2 : 0 ≤ ∑ n, (X n : ℝ) * p k n := sum_nonneg fun n _ => mul_nonneg (Nat.cast_nonneg _) (hg.nonneg k n)
    have h3 := ha.lower k
    have e : 2 / m = 1 / m + 1 / m := by ring
    linarith [h1.1]
  · have hK := h.topics_u n
    have hu := u_pos (F := F)
    have k0 : (0 : ℝ) ≤ K := Nat.cast_nonneg _
    have d0 : 0 ≤ (2 * K + 3) * F.u := by positivity
    have d1 : (2 * K + 3) * F.u ≤ 1 / 8 := by nlinarith
    have e1 := Real.exp_bound_div_one_sub_of_interval d0 (by linarith)
    have e2 := Real.add_one_le_exp (-((2 * K + 3) * F.u))
    have hs := hg.sum n
    rw [Rel, mul_one, mul_one] at hs
    have e3 : 1 / (1 - (2 * K + 3) * F.u) ≤ 1 + 8 / 7 * ((2 * K + 3) * F.u) := by
      rw [div_le_iff₀ (by linarith)]
      nlinarith
    have e4 : (2 * (K : ℝ) + 3) * F.u * (8 / 7) ≤ (3 * K + 5) * F.u := by
      have : 0 ≤ (K : ℝ) * F.u := by positivity
      nlinarith
    rw [abs_le]
    constructor <;> linarith [hs.1, hs.2]

/-- C136, the part that holds, with `double`: weights of at most 8 and at most 5/2 in relation to the share of any word in
the document, priors of at least 1/200, and no word that all topics make less probable than 2^-60.  The number of updates
of `gamma` (the different words times the passes) times the length of the document is at most some 10^12. -/
theorem C136_double_partial {D : Device double} (hX : 0 < numWords X) (hX' : numWords X ≤ 2 ^ 31) (hK : K ≤ 2 ^ 20) (hV : V ≤ 2 ^ 20)
    (hC : C ≤ 2 ^ 16) (heta : ∀ k c, |eta k c| ≤ 8) (hshare : ∀ k c n, |eta k c| * X n ≤ 5 / 2 * numWords X)
    (hb0 : ∀ k n, 0 ≤ beta k n) (hb1 : ∀ k n, beta k n ≤ 1) (hb : ∀ n, X n ≠ 0 → ∃ k, 1 / 2 ^ 60 ≤ beta k n)
    {alpha : Vec K ℝ} {A : ℝ} (ha : ∀ k, 1 / 200 ≤ alpha k) (ha' : ∀ k, alpha k ≤ A) (hA0 : 0 ≤ A) (hA : A ≤ 2 ^ 33)
    {iterations : ℕ} (hi : (iterations * distinct X + 2) * (8 * numWords X + A + 3) ≤ 2 ^ 44) (tol : ℝ) :
    Finite double X alpha ((iterations * distinct X + 2) * (8 * numWords X + A + 3) / 2 ^ 53)
      (nSupervisedRun D X y alpha beta eta fp tol iterations) := by
  have u : double.u = 1 / 2 ^ 53 := by unfold Format.u double; norm_num
  have hQ : Real.exp (101 / 50 * (5 / 2) + 1 / 3) ≤ 256 := by
    have := exp_le_two_pow 8 (x := 101 / 50 * (5 / 2) + 1 / 3) (by norm_num)
    norm_num at this ⊢
    exact this
  have hS : Small double X eta 8 (5 / 2) := ⟨wide_double, hX, hX', hK, hV, hC, by
    rw [u]
    have k1 := million hK
    have v1 := million hV
    have : (V : ℝ) * (K + 6) ≤ 2 ^ 20 * (2 ^ 20 + 6) := mul_le_mul v1 (by linarith) (by positivity) (by positivity)
    have e : (2 : ℝ) ^ 20 * (2 ^ 20 + 6) * (1 / 2 ^ 53) ≤ 1 / 16 := by norm_num
    exact (mul_le_mul_of_nonneg_right this (by positivity)).trans e, heta, le_rfl, hshare, by norm_num⟩
  have hKn : Known D X beta (5 / 2) 404 256 := ⟨hb0, hb1, hQ, by norm_num, by norm_num, by norm_num,
    ⟨690, 1000, moderate_double D, by norm_num⟩, fun n hn => by
      obtain ⟨k, hk⟩ := hb n hn
      refine ⟨k, fun x e hx he => ?_⟩
      have h1 := positive_double D.toMachine x e (by linarith) he
      have h2 : (2 : ℝ) ^ double.low ≤ 2 ^ (-60 : ℤ) * 2 ^ (-(1011 : ℤ)) := by
        rw [← zpow_add₀ (by norm_num)]
        exact zpow_le_zpow_right₀ (by norm_num) (by decide)
      have h3 : (2 : ℝ) ^ (-60 : ℤ) = 1 / 2 ^ 60 := by rw [zpow_neg, one_div]; norm_cast
      rw [h3] at h2
      exact h2.trans (mul_le_mul hk h1 (two_zpow_pos _).le (hb0 k n))⟩
  have hP : Prior alpha 400 A 404 := ⟨by norm_num, by norm_num, fun k => le_trans (by norm_num) (ha k), ha', hA, by norm_num⟩
  have ed : (iterations * distinct X + 2) * drift double X A = (iterations * distinct X + 2) * (8 * numWords X + A + 3) / 2 ^ 53 := by
    unfold drift
    rw [u]
    ring
  have hd : (iterations * distinct X + 2) * drift double X A ≤ 1 / 400 := by
    rw [ed, div_le_iff₀ (by positivity)]
    refine hi.trans ?_
    norm_num
  obtain ⟨g, p, h1, h2⟩ := run_fin (D := D) hS (by norm_num) hA0 hKn hP (by norm_num) le_rfl y fp tol iterations hd
  rw [h1, ← ed]
  exact h2.finite hS hP hd

/-- C136, the part that holds, with `float`: weights of at most 8 and at most 3/2 in relation to the share of any word in
the document, priors of at least 1/20, and no word that all topics make less probable than 2^-23. -/
theorem C136_float_partial {D : Device float} (hX : 0 < numWords X) (hX' : numWords X ≤ 2 ^ 31) (hV : V ≤ 2 ^ 20)
    (hKV : V * (K + 6) ≤ 2 ^ 20) (hC : C ≤ 2 ^ 16) (heta : ∀ k c, |eta k c| ≤ 8)
    (hshare : ∀ k c n, |eta k c| * X n ≤ 3 / 2 * numWords X)
    (hb0 : ∀ k n, 0 ≤ beta k n) (hb1 : ∀ k n, beta k n ≤ 1) (hb : ∀ n, X n ≠ 0 → ∃ k, 1 / 2 ^ 23 ≤ beta k n)
    {alpha : Vec K ℝ} {A : ℝ} (ha : ∀ k, 1 / 20 ≤ alpha k) (ha' : ∀ k, alpha k ≤ A) (hA0 : 0 ≤ A) (hA : A ≤ 2 ^ 33)
    {iterations : ℕ} (hi : (iterations * distinct X + 2) * (8 * numWords X + A + 3) ≤ 2 ^ 18) (tol : ℝ) :
    Finite float X alpha ((iterations * distinct X + 2) * (8 * numWords X + A + 3) / 2 ^ 24)
      (nSupervisedRun D X y alpha beta eta fp tol iterations) := by
  have u : float.u = 1 / 2 ^ 24 := by unfold Format.u float; norm_num
  have hQ : Real.exp (101 / 50 * (3 / 2) + 1 / 3) ≤ 32 := by
    have := exp_le_two_pow 5 (x := 101 / 50 * (3 / 2) + 1 / 3) (by norm_num)
    norm_num at this ⊢
    exact this
  have hV0 : 0 < V := by
    rcases Nat.eq_zero_or_pos V with h | h
    · subst h
      simp [numWords] at hX
    · exact h
  have hK : K ≤ 2 ^ 20 := by
    have : 1 * (K + 6) ≤ V * (K + 6) := Nat.mul_le_mul_right _ hV0
    omega
  have hS : Small float X eta 8 (3 / 2) := ⟨wide_float, hX, hX', hK, hV, hC, by
    rw [u]
    have : (V : ℝ) * (K + 6) ≤ 2 ^ 20 := by exact_mod_cast hKV
    have e : (2 : ℝ) ^ 20 * (1 / 2 ^ 24) ≤ 1 / 16 := by norm_num
    exact (mul_le_mul_of_nonneg_right this (by positivity)).trans e, heta, le_rfl, hshare, by norm_num⟩
  have hKn : Known D X beta (3 / 2) 45 32 := ⟨hb0, hb1, hQ, by norm_num, by norm_num, by norm_num,
    ⟨70, 102, moderate_float D, by norm_num⟩, fun n hn => by
      obtain ⟨k, hk⟩ := hb n hn
      refine ⟨k, fun x e hx he => ?_⟩
      have h1 := positive_float D.toMachine x e (by linarith) he
      have h2 : (2 : ℝ) ^ float.low ≤ 2 ^ (-23 : ℤ) * 2 ^ (-(126 : ℤ)) := by
        rw [← zpow_add₀ (by norm_num)]
        exact zpow_le_zpow_right₀ (by norm_num) (by decide)
      have h3 : (2 : ℝ) ^ (-23 : ℤ) = 1 / 2 ^ 23 := by rw [zpow_neg, one_div]; norm_cast
      rw [h3] at h2
      exact h2.trans (mul_le_mul hk h1 (two_zpow_pos _).le (hb0 k n))⟩
  have hP : Prior alpha 40 A 45 := ⟨by norm_num, by norm_num, fun k => le_trans (by norm_num) (ha k), ha', hA, by norm_num⟩
  have ed : (iterations * distinct X + 2) * drift float X A = (iterations * distinct X + 2) * (8 * numWords X + A + 3) / 2 ^ 24 := by
    unfold drift
    rw [u]
    ring
  have hd : (iterations * distinct X + 2) * drift float X A ≤ 1 / 40 := by
    rw [ed, div_le_iff₀ (by positivity)]
    refine hi.trans ?_
    norm_num
  obtain ⟨g, p, h1, h2⟩ := run_fin (D := D) hS (by norm_num) hA0 hKn hP (by norm_num)
    (by rw [u]; unfold Format.u double; norm_num) y fp tol iterations hd
  rw [h1, ← ed]
  exact h2.finite hS hP hd

/-- With two topics, priors of one half and a tolerance of zero the loop begins. -/
theorem half_begins (h : Wide F) (D : Device F) (hX : numWords X ≤ 2 ^ 31) :
    nConverged D (fun _ => .fin 0) (nFirst F X fun _ : Fin 2 => 1 / 2).1 0 = false := by
  obtain ⟨g, p, hf, hk⟩ := first_fin h (K := 2) (X := X) (alpha := fun _ => 1 / 2) hX (by norm_num)
    (by norm_num) (fun _ => by norm_num) (fun _ => by norm_num) (fun _ => half_rep h)
  rw [hf]
  have hl := h.low
  have h2 : fl F ((2 : ℕ) : ℝ) = 2 := by
    have := fl_pow h.ok (j := 1) (by omega)
    norm_num at this ⊢
    exact this
  apply not_converged
  · intro k
    refine ⟨_, nSub_fin ?_⟩
    rw [zero_sub, fl_neg, abs_neg]
    have hg0 : 0 ≤ g k := by
      have := hk.low k
      have e : (0 : ℝ) ≤ 1 / 2 := by norm_num
      exact e.trans this
    rw [abs_of_nonneg (Limits.fl_nonneg hg0)]
    have := fl_le h.ok hg0 (j := 34) (by omega) (by exact_mod_cast hk.high k)
    exact h.small_lt (this.trans (by norm_num))
  · rw [h2]; norm_num
  · rw [h2]; exact h.small_lt (by norm_num)

/-- Two topics, three words, two classes: all steps of a finite model with `double` are finite. -/
example : ∃ (D : Device double) (alpha : Vec 2 ℝ) (beta : Mat 2 3 ℝ) (eta : Mat 2 2 ℝ) (X : Vec 3 ℕ) (d : ℝ), d ≤ 1 / 2 ^ 38 ∧
    Finite double X alpha d (nSupervisedRun D X 0 alpha beta eta 10 (1 / 100) 20) := by
  refine ⟨plainDevice wide_double, fun _ => 1 / 10, fun k n => if n = 0 then 1 / 2 else if k = 0 then 1 / 2 else 0,
    fun k c => if k = c then 5 else -5, ![1, 0, 1], _, ?_, C136_double_partial (by decide) (by decide) (by norm_num) (by norm_num)
    (by norm_num) (fun k c => ?_) (fun k c n => ?_) (fun k n => ?_) (fun k n => ?_) (fun n hn => ⟨0, ?_⟩) (fun k => ?_)
    (A := 1) (fun k => ?_) (by norm_num) (by norm_num) ?_ _⟩
  · rw [show distinct ![1, 0, 1] = 2 from by decide, show numWords ![1, 0, 1] = 2 from by decide]
    norm_num
  · split_ifs <;> norm_num
  · rw [show numWords ![1, 0, 1] = 2 from by decide]
    fin_cases n <;> dsimp only <;> split_ifs <;> norm_num
  · split_ifs <;> norm_num
  · split_ifs <;> norm_num
  · split_ifs with h1 h2 <;> [norm_num; norm_num; exact absurd rfl h2]
  · norm_num
  · norm_num
  · rw [show distinct ![1, 0, 1] = 2 from by decide, show numWords ![1, 0, 1] = 2 from by decide]
    norm_num

example : ∃ (D : Device float) (alpha : Vec 2 ℝ) (beta : Mat 2 3 ℝ) (eta : Mat 2 2 ℝ) (X : Vec 3 ℕ) (d : ℝ), d ≤ 1 / 2 ^ 9 ∧
    Finite float X alpha d (nSupervisedRun D X 0 alpha beta eta 10 (1 / 100) 20) := by
  refine ⟨plainDevice wide_float, fun _ => 1 / 10, fun k n => if n = 0 then 1 / 2 else if k = 0 then 1 / 2 else 0,
    fun k c => if k = c then 3 else -3, ![1, 0, 1], _, ?_, C136_float_partial (by decide) (by decide) (by norm_num) (by norm_num)
    (by norm_num) (fun k c => ?_) (fun k c n => ?_) (fun k n => ?_) (fun k n => ?_) (fun n hn => ⟨0, ?_⟩) (fun k => ?_)
    (A := 1) (fun k => ?_) (by norm_num) (by norm_num) ?_ _⟩
  · rw [show distinct ![1, 0, 1] = 2 from by decide, show numWords ![1, 0, 1] = 2 from by decide]
    norm_num
  · split_ifs <;> norm_num
  · rw [show numWords ![1, 0, 1] = 2 from by decide]
    fin_cases n <;> dsimp only <;> split_ifs <;> norm_num
  · split_ifs <;> norm_num
  · split_ifs <;> norm_num
  · split_ifs with h1 h2 <;> [norm_num; norm_num; exact absurd rfl h2]
  · norm_num
  · norm_num
  · rw [show distinct ![1, 0, 1] = 2 from by decide, show numWords ![1, 0, 1] = 2 from by decide]
    norm_num

/-- Weights of 1500 and of -1500 in a document of two words. -/
example : ∃ D : Device double, ∀ i, nSupervisedRun D ![1, 1] (1 : Fin 2) (fun _ : Fin 2 => 1 / 2) (fun _ _ => 1 / 2)
    (fun k c => if k = 0 ∧ c = 0 then 1500 else 0) 10 0 (i + 1) = none :=
  ⟨plainDevice wide_double, C136_over_double (n := 0) (k := 0) (c := 0) (by decide) (by norm_num) (by decide)
    (by rw [show numWords ![1, 1] = 2 from by decide]; norm_num) (half_begins wide_double _ (by decide))⟩

example : ∃ D : Device float, ∀ i, nSupervisedRun D ![1, 1] (1 : Fin 2) (fun _ : Fin 2 => 1 / 2) (fun _ _ => 1 / 2)
    (fun k c => if k = 0 ∧ c = 0 then 200 else 0) 10 0 (i + 1) = none :=
  ⟨plainDevice wide_float, C136_over_float (n := 0) (k := 0) (c := 0) (by decide) (by norm_num) (by decide)
    (by rw [show numWords ![1, 1] = 2 from by decide]; norm_num) (half_begins wide_float _ (by decide))⟩

example : ∃ D : Device double, ∀ i, nSupervisedRun D ![1, 1] (1 : Fin 2) (fun _ : Fin 2 => 1 / 2) (fun _ _ => 1 / 2)
    (fun _ c => if c = 0 then -1500 else 0) 10 0 (i + 1) = none :=
  ⟨plainDevice wide_double, C136_under_double (n := 0) (c := 0) (by decide) (by norm_num) (by decide)
    (fun k => by rw [show numWords ![1, 1] = 2 from by decide]; norm_num) (half_begins wide_double _ (by decide))⟩

example : ∃ D : Device float, ∀ i, nSupervisedRun D ![1, 1] (1 : Fin 2) (fun _ : Fin 2 => 1 / 2) (fun _ _ => 1 / 2)
    (fun _ c => if c = 0 then -200 else 0) 10 0 (i + 1) = none :=
  ⟨plainDevice wide_float, C136_under_float (n := 0) (c := 0) (by decide) (by norm_num) (by decide)
    (fun k => by rw [show numWords ![1, 1] = 2 from by decide]; norm_num) (half_begins wide_float _ (by decide))⟩

end Verif.Overflow
