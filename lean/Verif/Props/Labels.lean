import Verif.Model.Labels
import Verif.Props.SweepSafe
import Verif.Props.SweepOver

/-
The multinomial and the correspondence expectation steps with the numbers of the machine (C137).
-/
namespace Verif.Overflow

open MathUtils EStep Rounded Limits Classical Finset
open Rounded hiding fl_nonneg fl_zero

variable {K V C : ℕ} {F : Format} {L : LogDevice F} {X : Vec V ℕ} {y : Fin C} {beta : Mat K V ℝ} {eta : Mat K C ℝ}
  {alpha : Vec K ℝ}

/-! ### The range of digamma and of the logarithm -/

theorem psi_upper (M : Machine F) {x : ℝ} (h1 : 1 / 1024 ≤ x) (h2 : x ≤ 2 ^ 56) : M.psi x ≤ 42 := by
  have hx : 0 < x := by linarith
  obtain ⟨v, hv⟩ := FastExp.C32_positive x hx
  have e := M.psi_err x v hx hv
  have h7 := FastExp.C32_large (2 ^ 56) (by norm_num)
  have ha := FastExp.digamma_almost hx h2 hv h7
  have hl : Real.log (2 ^ 56 - 1 / 2 : ℝ) ≤ 39 := by
    have e1 : Real.log (2 ^ 56 - 1 / 2 : ℝ) ≤ Real.log (2 ^ 56) := Real.log_le_log (by norm_num) (by norm_num)
    rw [Real.log_pow] at e1
    have := Real.log_two_lt_d9
    push_cast at e1
    linarith
  have hv2 : v ≤ 41 := by
    norm_num at ha hl
    linarith
  have hv3 := (digamma_bounds hx hv).1
  have hd : 1 / x ≤ 1024 := by
    rw [div_le_iff₀ hx]; linarith
  rw [abs_le] at e
  rcases le_total 0 v with h | h
  · rw [abs_of_nonneg h] at e; linarith
  · rw [abs_of_nonpos h] at e; linarith

/-- The logarithm of a number between zero and one, as computed. -/
theorem log_range {x : ℝ} (h0 : 0 < x) (h1 : x ≤ 1) : -(1025 / 1024 * (1 - Real.log x)) ≤ L.log x ∧ L.log x ≤ 1 / 1024 := by
  have hl := Real.log_nonpos h0.le h1
  have h := L.log_err x h0
  rw [abs_of_nonpos hl, abs_le] at h
  constructor <;> linarith [h.1, h.2]

theorem nLog_fin {x : ℝ} (h0 : 0 < x) : nLog L (.fin x) = .fin (L.log x) := by
  simp only [nLog]
  rw [if_pos h0]

/-! ### One column of `phi` -/

theorem column_fin {D : Device F} (h : Wide F) {m : ℕ} (hm : m ≤ 2 ^ 20) {v : Vec m ℝ} (hv : ∀ i, 0 ≤ v i) (hr : ∀ i, fl F (v i) = v i)
    (hb : ∑ i, v i ≤ 2 ^ F.high / 4) : ∃ p : Vec m ℝ, nNormalize D (fun i => .fin (v i)) = (fun i => .fin (p i)) ∧ (∀ i, 0 ≤ p i) ∧
      ∑ i, p i ≤ 11 / 10 ∧ ((∃ i, 0 < v i) → Rel ((2 * m + 3) * F.u) (∑ i, p i) 1) := by
  obtain ⟨t, ht, t0, _, t1⟩ := normalize_fin (D := D) h hm hv hr hb
  unfold nNormalize
  by_cases hz : t = 0
  · subst hz
    rw [ht, if_neg (by simp)]
    refine ⟨v, rfl, hv, ?_, fun ⟨i, hi⟩ => absurd (t0 rfl i) hi.ne'⟩
    rw [sum_congr rfl fun k _ => t0 rfl k]
    norm_num
  · rw [if_pos (by rw [ht]; exact fun hc => hz (Ieee.fin.inj hc))]
    obtain ⟨_, _, p, hp, p0, p1⟩ := t1 hz
    refine ⟨p, ?_, p0, p1, fun hpos => ?_⟩
    · funext i
      rw [ht]
      exact hp i
    · obtain ⟨p', hp', _, r⟩ := share_fin (D := D) h hm hv hr hb hpos
      have : p' = p := funext fun i => by
        have e := hp' i
        rw [ht, hp i] at e
        exact (Ieee.fin.inj e).symm
      rwa [this] at r

/-! ### The invariant -/

/-- How far `gamma` may be from the prior plus the words. -/
noncomputable def spread (F : Format) (X : Vec V ℕ) (A : ℝ) : ℝ := (2 * V + 16) * (2 * numWords X + A + 1) * F.u

/-- The range of `gamma`. -/
structure Range (F : Format) (alpha g : Vec K ℝ) : Prop where
  low : ∀ k, alpha k ≤ g k
  high : ∀ k, g k ≤ 2 ^ 34
  rep : ∀ k, fl F (g k) = g k

/-- What holds of `gamma` and `phi` between two passes. -/
structure Sound (F : Format) (X : Vec V ℕ) (alpha : Vec K ℝ) (A : ℝ) (g : Vec K ℝ) (p : Mat K V ℝ) : Prop extends
    Range F alpha g where
  nonneg : ∀ k n, 0 ≤ p k n
  sum : ∀ n, ∑ k, p k n ≤ 23 / 20
  known : ∀ n, X n ≠ 0 → Rel ((2 * K + 3) * F.u) (∑ k, p k n) 1
  gamma : ∀ k, |g k - (alpha k + ∑ n, X n * p k n)| ≤ spread F X A

/-- The sizes and priors for which the steps are considered. -/
structure Sizes (F : Format) (X : Vec V ℕ) (alpha : Vec K ℝ) (A m : ℝ) : Prop where
  wide : Wide F
  double : double.u ≤ F.u
  words' : numWords X ≤ 2 ^ 31
  topics : 0 < K ∧ K ≤ 2 ^ 20
  vocabulary : V ≤ 2 ^ 20
  inverse : 1 ≤ m ∧ m ≤ 512
  prior : ∀ k, 1 / m ≤ alpha k
  prior' : ∀ k, alpha k ≤ A
  big : A ≤ 2 ^ 32
  rep : ∀ k, fl F (alpha k) = alpha k

variable {A m : ℝ}

theorem Sizes.alpha_pos (h : Sizes F X alpha A m) (k : Fin K) : 0 < alpha k :=
  (one_div_pos.2 (by linarith [h.inverse.1])).trans_le (h.prior k)

theorem Sizes.A_nonneg (h : Sizes F X alpha A m) : 0 ≤ A :=
  (h.alpha_pos ⟨0, h.topics.1⟩).le.trans (h.prior' _)

theorem toNum_rep (hF : F.Ok) {x r : ℝ} (h : toNum F x = .fin r) : fl F r = r := by
  unfold toNum at h
  split_ifs at h
  rw [← Ieee.fin.inj h]
  exact fl_fl' hF x

theorem nAdd_rep (hF : F.Ok) {a r : ℝ} {b : Num} (h : nAdd F (.fin a) b = .fin r) : fl F r = r := by
  cases b with
  | fin b => exact toNum_rep hF h
  | pinf => cases h
  | ninf => cases h
  | nan => cases h

theorem first_sound (h : Sizes F X alpha A m) : ∃ (g : Vec K ℝ) (p : Mat K V ℝ),
    nFirst F X alpha = (fun k => .fin (g k), fun k n => .fin (p k n)) ∧ Sound F X alpha A g p := by
  have hA0 := h.A_nonneg
  have hu := u_pos (F := F)
  have e33 : (2 : ℝ) ^ 32 ≤ 2 ^ 33 := by norm_num
  rcases Nat.eq_zero_or_pos (numWords X) with hX | hX
  · have hn : ∀ n, X n = 0 := fun n => (Finset.sum_eq_zero_iff.1 hX) n (mem_univ n)
    obtain ⟨g, p, h1, hk⟩ := first_fin h.wide (X := X) (alpha := alpha) h.words' h.topics.1 h.topics.2 (fun k => (h.alpha_pos k).le)
      (fun k => (h.prior' k).trans h.big) h.rep
    refine ⟨g, p, h1, ⟨⟨hk.low, hk.high, fun k => nAdd_rep h.wide.ok (congrFun (Prod.mk.inj h1).1 k)⟩, hk.nonneg,
      fun n => (hk.sum n).trans (by norm_num), fun n hc => absurd (hn n) hc, fun k => ?_⟩⟩
    have hg : g k = alpha k := by
      have hK : (0 : ℝ) < fl F (K : ℝ) := by
        have k0 : (0 : ℝ) < K := Nat.cast_pos.2 h.topics.1
        obtain ⟨_, hK, _⟩ := near_nat h.wide.ok (F := F) K
        have hu' := h.wide.u
        exact lt_of_lt_of_le (mul_pos (by linarith) k0) hK
      have e1 : nDiv F (toNum F (numWords X)) (toNum F K) = .fin 0 := by
        rw [hX, Nat.cast_zero, toNum_zero]
        unfold toNum
        split_ifs
        · rfl
        · rfl
        · simp only [nDiv]
          rw [if_neg hK.ne', zero_div, toNum_zero]
      have e2 : nAdd F (.fin (alpha k)) (nDiv F (toNum F (numWords X)) (toNum F K)) = .fin (g k) := congrFun (Prod.mk.inj h1).1 k
      rw [e1] at e2
      simp only [nAdd, add_zero] at e2
      unfold toNum at e2
      split_ifs at e2
      rw [← Ieee.fin.inj e2, h.rep k]
    rw [hg, sum_congr rfl fun n _ => by rw [hn n, Nat.cast_zero, zero_mul], sum_const_zero, add_zero, sub_self, abs_zero]
    unfold spread
    positivity
  obtain ⟨g, p, h1, hg⟩ := start_good h.wide hX h.words' h.topics.2 hA0 (fun k => (h.alpha_pos k).le) h.prior' (h.big.trans e33)
    h.topics.1 h.double
  obtain ⟨g', p', h1', hk⟩ := first_fin h.wide (X := X) (alpha := alpha) h.words' h.topics.1 h.topics.2 (fun k => (h.alpha_pos k).le)
    (fun k => (h.prior' k).trans h.big) h.rep
  rw [h1] at h1'
  have eg : g = g' := funext fun k => Ieee.fin.inj (congrFun (Prod.mk.inj h1').1 k)
  have ep : p = p' := funext fun k => funext fun n => Ieee.fin.inj (congrFun (congrFun (Prod.mk.inj h1').2 k) n)
  subst eg ep
  refine ⟨g, p, h1, ⟨⟨hk.low, hk.high, fun k => nAdd_rep h.wide.ok (congrFun (Prod.mk.inj h1).1 k)⟩, hk.nonneg,
    fun n => (hk.sum n).trans (by norm_num), fun n _ => hg.sum n, fun k => (hg.gamma k).trans ?_⟩⟩
  · have hN : (0 : ℝ) ≤ numWords X := Nat.cast_nonneg _
    have hV : (0 : ℝ) ≤ V := Nat.cast_nonneg _
    unfold drift spread
    have e1 : 0 ≤ F.u * V * (2 * numWords X + A + 1) := by positivity
    have e2 : 0 ≤ F.u * numWords X := by positivity
    have e3 : 0 ≤ F.u * A := by positivity
    nlinarith

theorem next_sound (h : Sizes F X alpha A m) {p : Mat K V ℝ} (h0 : ∀ k n, 0 ≤ p k n) (h1 : ∀ n, ∑ k, p k n ≤ 11 / 10)
    (hk : ∀ n, X n ≠ 0 → Rel ((2 * K + 3) * F.u) (∑ k, p k n) 1) :
    ∃ g : Vec K ℝ, nGamma F X alpha (fun k n => .fin (p k n)) = (fun k => .fin (g k)) ∧ Sound F X alpha A g p := by
  have hF := h.wide.ok
  have hu := u_pos (F := F)
  have hu' := h.wide.u
  have hA0 := h.A_nonneg
  have ha0 : ∀ k, 0 ≤ alpha k := fun k => (h.alpha_pos k).le
  obtain ⟨e, l1, l2⟩ := gamma_scaled h.wide h.words' h.vocabulary ha0 (fun k => (h.prior' k).trans h.big) h.rep h0 h1
  have hw : ∀ n, 0 ≤ fl F (X n : ℝ) := fun n => (near_nat hF (X n)).1
  refine ⟨_, e, ⟨⟨l1, l2, fun k => (near_rScaled hF (w := fun n => fl F (X n : ℝ)) (phi := p) (k := k) hw (h0 k) (ha0 k) (h.rep k)).2.1⟩,
    h0, fun n => (h1 n).trans (by norm_num), hk, fun k => ?_⟩⟩
  obtain ⟨_, _, n1, n2⟩ := near_rScaled hF (w := fun n => fl F (X n : ℝ)) (phi := p) (k := k) hw (h0 k) (ha0 k) (h.rep k)
  have r0 := (ha0 k).trans (l1 k)
  have hp : ∀ n, p k n ≤ 11 / 10 := fun n =>
    (single_le_sum (f := fun k => p k n) (fun j _ => h0 j n) (mem_univ k)).trans (h1 n)
  have hN0 : (0 : ℝ) ≤ numWords X := Nat.cast_nonneg _
  have hV0 : (0 : ℝ) ≤ V := Nat.cast_nonneg _
  have eN : (∑ n, (X n : ℝ)) = (numWords X : ℝ) := by unfold numWords; push_cast; rfl
  -- the rounded counts
  have c1 : |∑ n, fl F (X n : ℝ) * p k n - ∑ n, (X n : ℝ) * p k n| ≤ 6 / 5 * F.u * numWords X := by
    rw [← sum_sub_distrib]
    refine (abs_sum_le_sum_abs _ _).trans ?_
    rw [← eN, mul_sum]
    refine sum_le_sum fun n _ => ?_
    rw [← sub_mul, abs_mul, abs_of_nonneg (h0 k n)]
    obtain ⟨x0, x1, x2⟩ := near_nat hF (X n)
    have xn : (0 : ℝ) ≤ X n := Nat.cast_nonneg _
    have b : |fl F (X n : ℝ) - X n| ≤ 101 / 100 * F.u * X n := by
      have g1 : fl F (X n : ℝ) ≤ 101 / 100 * X n := by nlinarith
      rw [abs_le]
      constructor <;> nlinarith
    have := mul_le_mul b (hp n) (h0 k n) (by positivity)
    refine this.trans ?_
    have : 0 ≤ F.u * (X n : ℝ) := by positivity
    nlinarith
  have y1 : ∑ n, (X n : ℝ) * p k n ≤ 11 / 10 * numWords X := by
    rw [← eN, mul_sum]
    exact sum_le_sum fun n _ => by nlinarith [hp n, (Nat.cast_nonneg (X n) : (0 : ℝ) ≤ X n)]
  have y0 : 0 ≤ ∑ n, (X n : ℝ) * p k n := sum_nonneg fun n _ => mul_nonneg (Nat.cast_nonneg _) (h0 k n)
  have z0 : 0 ≤ ∑ n, fl F (X n : ℝ) * p k n := sum_nonneg fun n _ => mul_nonneg (hw n) (h0 k n)
  have q := h.wide.pow_count h.vocabulary
  have q1 := one_add_mul_le_pow (a := -F.u) (by have := u_le hF; linarith) (V + 1)
  rw [← sub_eq_add_neg 1 F.u] at q1
  push_cast at q1
  have ht := h.wide.tiny_u
  have ht0 := tiny_pos (F := F)
  have tu : V * F.tiny ≤ V * (F.u / 2 ^ 101) := mul_le_mul_of_nonneg_left ht hV0
  have tu' : V * F.tiny ≤ V * F.u / 100 := by
    refine tu.trans ?_
    rw [mul_div_assoc]
    refine mul_le_mul_of_nonneg_left ?_ hV0
    exact div_le_div_of_nonneg_left hu.le (by norm_num) (by norm_num)
  have vs : (V : ℝ) * F.u ≤ 1 / 16 := by
    have := mul_le_mul (million h.vocabulary) hu' hu.le (by positivity)
    refine this.trans ?_
    norm_num
  have hA := h.prior' k
  unfold spread
  generalize rScaled F (fun n => fl F (X n : ℝ)) p (alpha k) k = x at *
  generalize ∑ n, fl F (X n : ℝ) * p k n = S at *
  generalize ∑ n, (X n : ℝ) * p k n = S' at *
  generalize (1 - F.u) ^ (V + 1) = Q at *
  generalize (numWords X : ℝ) = N at *
  generalize (V : ℝ) * F.tiny = T at *
  have c2 := abs_le.1 c1
  have uN : F.u * N ≤ 1 / 1000 * N := mul_le_mul_of_nonneg_right (hu'.trans (by norm_num)) hN0
  have Y : alpha k + S ≤ A + 6 / 5 * N := by linarith
  have hx : x ≤ 6 / 5 * A + 3 / 2 * N + 1 := by nlinarith
  have d1 : alpha k + S - x ≤ (V + 1) * F.u * (A + 6 / 5 * N) + V * F.u / 100 := by
    have : (1 - Q) * (alpha k + S) ≤ (V + 1) * F.u * (A + 6 / 5 * N) :=
      mul_le_mul (by linarith) Y (add_nonneg (ha0 k) z0) (by positivity)
    linarith
  have d2 : x - (alpha k + S) ≤ (V + 1) * F.u * (6 / 5 * A + 3 / 2 * N + 1) + V * F.u / 100 := by
    have : (1 - Q) * x ≤ (V + 1) * F.u * (6 / 5 * A + 3 / 2 * N + 1) :=
      mul_le_mul (by linarith) hx r0 (by positivity)
    linarith
  have b1 : 0 ≤ (V : ℝ) * F.u * A := by positivity
  have b2 : 0 ≤ (V : ℝ) * F.u * N := by positivity
  have b3 : 0 ≤ F.u * A := by positivity
  have b4 : 0 ≤ F.u * N := by positivity
  have b5 : 0 ≤ (V : ℝ) * F.u := by positivity
  rw [abs_le]
  constructor <;> nlinarith

/-! ### The sum of `gamma` -/

theorem sum_near {D : Device F} (h : Wide F) {m : ℕ} (hm : m ≤ 2 ^ 20) {v : Vec m ℝ} (hv : ∀ i, 0 ≤ v i) (hr : ∀ i, fl F (v i) = v i)
    (hb : ∑ i, v i ≤ 2 ^ F.high / 4) : ∃ s : ℝ, D.nsum (fun i => .fin (v i)) = .fin s ∧ 93 / 100 * ∑ i, v i ≤ s ∧
      93 / 100 * s ≤ ∑ i, v i := by
  have hF := h.ok
  have hq := h.pow_count' hm
  have habs : ∑ i, |v i| = ∑ i, v i := sum_congr rfl fun i _ => abs_of_nonneg (hv i)
  have S0 : 0 ≤ ∑ j, v j := sum_nonneg fun i _ => hv i
  obtain ⟨s, _, h1, h2, _, _⟩ := nsum_fin (D := D) hF hr (by
    rw [habs]
    have h0 : (0 : ℝ) < 2 ^ F.high := by positivity
    have := mul_le_mul_of_nonneg_left hq (by positivity : (0 : ℝ) ≤ 2 ^ F.high / 2)
    linarith)
  obtain ⟨s0, _, n1, n2⟩ := near_summation hF h2
    (by intro x hx; obtain ⟨i, rfl⟩ := (List.mem_ofFn' _ _).1 hx; exact hv i)
    (by intro x hx; obtain ⟨i, rfl⟩ := (List.mem_ofFn' _ _).1 hx; exact hr i)
  rw [List.length_ofFn, List.sum_ofFn, add_zero] at n1 n2
  exact ⟨s, h1, (mul_le_mul_of_nonneg_right hq S0).trans n1, (mul_le_mul_of_nonneg_right hq s0).trans n2⟩

theorem Wide.quarter (h : Wide F) {x : ℝ} (hx : x ≤ 2 ^ 100) : x ≤ 2 ^ F.high / 4 := by
  have := h.big
  have e : (2 : ℝ) ^ 100 ≤ 2 ^ 128 / 4 := by norm_num
  linarith

/-- The smallest digamma of a number that is not below the prior. -/
noncomputable def deep (m : ℝ) : ℝ := (m + 2) * (1025 / 1024) + 1 / 1024

theorem Range.psi (h : Sizes F X alpha A m) {g : Vec K ℝ} (hs : Range F alpha g) (k : Fin K) :
    L.npsi (.fin (g k)) = .fin (L.psi (g k)) ∧ -deep m ≤ L.psi (g k) ∧ L.psi (g k) ≤ 27 := by
  have m0 : 0 < m := by linarith [h.inverse.1]
  have g1 : 1 / m ≤ g k := (h.prior k).trans (hs.low k)
  have m1 : 1 / 512 ≤ 1 / m := one_div_le_one_div_of_le m0 h.inverse.2
  have g0 : 1 / 1024 ≤ g k := by linarith
  refine ⟨L.npsi_fin _ (le_trans (by norm_num) g0) (h.wide.small_lt ((hs.high k).trans (by norm_num))),
    psi_ge (by linarith) g1 m0, (psi_range L.toMachine g0 (hs.high k)).2⟩

theorem Range.sum (h : Sizes F X alpha A m) {g : Vec K ℝ} (hs : Range F alpha g) :
    ∃ s : ℝ, L.nsum (fun k => .fin (g k)) = .fin s ∧ 1 / (2 * m) ≤ s ∧ 1 / 1024 ≤ s ∧ s ≤ 2 ^ 56 := by
  have m0 : 0 < m := by linarith [h.inverse.1]
  have m1 : 1 / 512 ≤ 1 / m := one_div_le_one_div_of_le m0 h.inverse.2
  have g1 : ∀ k, 1 / m ≤ g k := fun k => (h.prior k).trans (hs.low k)
  have g0 : ∀ k, 0 ≤ g k := fun k => by linarith [g1 k]
  have b : ∑ k, g k ≤ 2 ^ 54 := by
    have e1 := sum_le_sum fun k (_ : k ∈ (univ : Finset (Fin K))) => hs.high k
    rw [sum_const, card_univ, Fintype.card_fin, nsmul_eq_mul] at e1
    have e2 := mul_le_mul_of_nonneg_right (million h.topics.2) (by positivity : (0 : ℝ) ≤ 2 ^ 34)
    refine (e1.trans e2).trans ?_
    norm_num
  obtain ⟨s, h1, h2, h3⟩ := sum_near (D := L.toDevice) h.wide h.topics.2 g0 hs.rep (h.wide.quarter (b.trans (by norm_num)))
  have l1 : 1 / m ≤ ∑ k, g k := (g1 ⟨0, h.topics.1⟩).trans (single_le_sum (fun k _ => g0 k) (mem_univ _))
  have e : 1 / (2 * m) = 1 / m / 2 := by field_simp
  have s1 : 1 / (2 * m) ≤ s := by rw [e]; linarith
  have s0 : 1 / 1024 ≤ s := by rw [e] at s1; linarith
  have s2 : s ≤ 2 ^ 56 := by
    have : (2 : ℝ) ^ 56 = 4 * 2 ^ 54 := by norm_num
    rw [this]
    linarith
  exact ⟨s, h1, s1, s0, s2⟩

theorem Range.total (h : Sizes F X alpha A m) {g : Vec K ℝ} (hs : Range F alpha g) :
    ∃ t : ℝ, L.npsi (L.nsum fun k => .fin (g k)) = .fin t ∧ -deep (2 * m) ≤ t ∧ t ≤ 42 := by
  obtain ⟨s, h1, s1, s0, s2⟩ := hs.sum (L := L) h
  have m0 := h.inverse
  rw [h1]
  refine ⟨L.psi s, L.npsi_fin _ (le_trans (by norm_num) s0) (h.wide.small_lt (s2.trans (by norm_num))), psi_ge (by linarith) s1 (by linarith),
    psi_upper L.toMachine s0 s2⟩

/-! ### The multinomial step -/

/-- Bounds on the weights of the class and on the topics: the exponents are between `-R` and `r`, or minus infinity for
topics that do not produce the class. -/
structure Votes (L : LogDevice F) (X : Vec V ℕ) (beta : Mat K V ℝ) (ecol : Vec K ℝ) (w m R : ℝ) : Prop where
  nonneg : ∀ k n, 0 ≤ beta k n
  le_one : ∀ k n, beta k n ≤ 1
  weight : 0 ≤ w
  pos : ∀ k, 0 < ecol k ∨ ecol k = 0 ∧ 0 < w
  le : ∀ k, ecol k ≤ 1
  low : ∀ k, 0 < ecol k → 1025 / 1024 * (w * (1 - Real.log (ecol k))) + deep m + 44 ≤ R
  low' : R ≤ 1000
  exps : ∃ (r : ℝ) (q : ℕ), Moderate L.toDevice r q ∧ w / 1024 + deep (2 * m) + 27 ≤ r
  exps' : w / 1024 + deep (2 * m) ≤ 1100
  word : ∀ n, X n ≠ 0 → ∃ k, 0 < ecol k ∧ ∀ x e, -R ≤ x → lExp L.toMachine x = some e → 2 ^ F.low ≤ beta k n * e

/-- The exponent of a topic that produces the class; `c` is a bound on the weighted logarithm. -/
theorem mExponents_fin (h : Sizes F X alpha A m) {ecol : Vec K ℝ} {w : ℝ} {g : Vec K ℝ} (hs : Range F alpha g) {k : Fin K}
    (hk : 0 < ecol k) (hm' : deep (2 * m) ≤ 1100) (hc : |w * L.log (ecol k)| ≤ 2000) :
    ∃ x : ℝ, mExponents L w (fun k => .fin (ecol k)) (fun k => .fin (g k)) k = .fin x ∧ w * L.log (ecol k) - deep m - 87 / 2 ≤ x ∧
      x ≤ w * L.log (ecol k) + deep (2 * m) + 53 / 2 := by
  obtain ⟨e1, p1, p2⟩ := hs.psi (L := L) h k
  obtain ⟨t, e2, t1, t2⟩ := hs.total (L := L) h
  have m1 := h.inverse
  have D1 : 0 ≤ deep m := by unfold deep; linarith
  have D2 : 0 ≤ deep (2 * m) := by unfold deep; linarith
  have D3 : deep m ≤ deep (2 * m) := by unfold deep; linarith
  have hc' := abs_le.1 hc
  have lt : ∀ {z : ℝ}, |z| ≤ 4000 → |fl F z| < 2 ^ F.high := by
    intro z hz
    have := abs_le.1 (fl_near h.wide hz)
    have z' := abs_le.1 hz
    refine h.wide.small_lt (le_trans (abs_le.2 ⟨?_, ?_⟩ : |fl F z| ≤ 5000) (by norm_num)) <;> linarith
  unfold mExponents
  rw [nLog_fin hk, e1, e2]
  have z1 : |w * L.log (ecol k)| ≤ 4000 := by linarith
  have f1 := abs_le.1 (fl_near h.wide z1)
  rw [nMul_fin (lt z1)]
  have z2 : |fl F (w * L.log (ecol k)) + L.psi (g k)| ≤ 4000 := by rw [abs_le]; constructor <;> linarith
  have f2 := abs_le.1 (fl_near h.wide z2)
  rw [nAdd_fin (lt z2)]
  have z3 : |t + 1| ≤ 4000 := by rw [abs_le]; constructor <;> linarith
  have f3 := abs_le.1 (fl_near h.wide z3)
  rw [nAdd_fin (lt z3)]
  have z4 : |fl F (fl F (w * L.log (ecol k)) + L.psi (g k)) - fl F (t + 1)| ≤ 4000 := by rw [abs_le]; constructor <;> linarith
  have f4 := abs_le.1 (fl_near h.wide z4)
  rw [nSub_fin (lt z4)]
  refine ⟨_, rfl, ?_, ?_⟩ <;> linarith

/-- The exponent of a topic that does not produce the class. -/
theorem mExponents_zero (h : Sizes F X alpha A m) {ecol : Vec K ℝ} {w : ℝ} {g : Vec K ℝ} (hs : Range F alpha g) {k : Fin K}
    (hk : ecol k = 0) (hw : 0 < w) (hm' : deep (2 * m) ≤ 1100) : mExponents L w (fun k => .fin (ecol k)) (fun k => .fin (g k)) k = .ninf := by
  obtain ⟨e1, p1, p2⟩ := hs.psi (L := L) h k
  obtain ⟨t, e2, t1, t2⟩ := hs.total (L := L) h
  have z3 : |t + 1| ≤ 4000 := by rw [abs_le]; constructor <;> linarith
  have f3 := abs_le.1 (fl_near h.wide z3)
  have lt : |fl F (t + 1)| < 2 ^ F.high := by
    have z' := abs_le.1 z3
    refine h.wide.small_lt (le_trans (abs_le.2 ⟨?_, ?_⟩ : |fl F (t + 1)| ≤ 5000) (by norm_num)) <;> linarith
  unfold mExponents
  beta_reduce
  rw [hk, e1, e2, nAdd_fin lt]
  have l0 : nLog L (.fin 0) = .ninf := by simp [nLog]
  have m0 : nMul F (.fin w) .ninf = .ninf := by
    simp [nMul, Ieee.mul, Ieee.infMul, hw, hw.ne', not_lt.2 hw.le]
  rw [l0, m0]
  rfl

/-- The columns of `beta` times the weights `e` of the topics, normalised. -/
theorem columns_fin {D : Device F} (h : Wide F) (hK : K ≤ 2 ^ 20) {r : ℝ} {q : ℕ} (hm : Moderate D r q) (hb0 : ∀ k n, 0 ≤ beta k n)
    (hb1 : ∀ k n, beta k n ≤ 1) {e : Vec K ℝ} (e0 : ∀ k, 0 ≤ e k) (eq : ∀ k, e k ≤ 2 ^ q) (er : ∀ k, fl F (e k) = e k) {X : Vec V ℕ}
    (hw : ∀ n, X n ≠ 0 → ∃ k, 2 ^ F.low ≤ beta k n * e k) :
    ∃ p : Mat K V ℝ, (fun k n => nNormalize D (fun k => nMul F (.fin (beta k n)) (.fin (e k))) k) = (fun k n => .fin (p k n)) ∧
      (∀ k n, 0 ≤ p k n) ∧ (∀ n, ∑ k, p k n ≤ 11 / 10) ∧ ∀ n, X n ≠ 0 → Rel ((2 * K + 3) * F.u) (∑ k, p k n) 1 := by
  have hF := h.ok
  have hcol : ∀ n, ∃ p' : Vec K ℝ, nNormalize D (fun k => nMul F (.fin (beta k n)) (.fin (e k))) = (fun k => .fin (p' k)) ∧
      (∀ k, 0 ≤ p' k) ∧ ∑ k, p' k ≤ 11 / 10 ∧ (X n ≠ 0 → Rel ((2 * K + 3) * F.u) (∑ k, p' k) 1) := by
    intro n
    have b0 : ∀ k, 0 ≤ beta k n * e k := fun k => mul_nonneg (hb0 k n) (e0 k)
    have v0 : ∀ k, 0 ≤ fl F (beta k n * e k) := fun k => Limits.fl_nonneg (b0 k)
    have v1 : ∀ k, fl F (beta k n * e k) ≤ 2 ^ q := by
      intro k
      have : fl F (beta k n * e k) ≤ fl F (e k) := fl_mono hF (b0 k) (mul_le_of_le_one_left (e0 k) (hb1 k n))
      rw [er k] at this
      exact this.trans (eq k)
    have hlt : (2 : ℝ) ^ q < 2 ^ F.high := pow_lt_pow_right₀ (by norm_num) (by have := hm.high; omega)
    have hmul : (fun k => nMul F (.fin (beta k n)) (.fin (e k))) = fun k => .fin (fl F (beta k n * e k)) := by
      funext k
      apply nMul_fin
      rw [abs_of_nonneg (v0 k)]
      exact (v1 k).trans_lt hlt
    rw [hmul]
    obtain ⟨p', h1, h2, h3, h4⟩ := column_fin (D := D) h hK v0 (fun k => fl_fl' hF _) (hm.sum_le hK v1)
    refine ⟨p', h1, h2, h3, fun hn => h4 ?_⟩
    obtain ⟨k, hk⟩ := hw n hn
    exact ⟨k, (two_zpow_pos _).trans_le (le_fl hF le_rfl hk)⟩
  choose P P1 P2 P3 P4 using hcol
  refine ⟨fun k n => P n k, ?_, fun k n => P2 n k, P3, P4⟩
  funext k n
  exact congrFun (P1 n) k

theorem mPhi_fin (h : Sizes F X alpha A m) {w R : ℝ} (hv : Votes L X beta (fun k => eta k y) w m R) {g : Vec K ℝ} {p : Mat K V ℝ}
    (hs : Sound F X alpha A g p) : ∃ p' : Mat K V ℝ, mPhi L y (fun k n => .fin (beta k n)) (fun k c => .fin (eta k c)) w (fun k => .fin (g k)) = some (fun k n => .fin (p' k n)) ∧
      (∀ k n, 0 ≤ p' k n) ∧ (∀ n, ∑ k, p' k n ≤ 11 / 10) ∧ ∀ n, X n ≠ 0 → Rel ((2 * K + 3) * F.u) (∑ k, p' k n) 1 := by
  have hF := h.wide.ok
  obtain ⟨r, q, hm, hr⟩ := hv.exps
  have w0 := hv.weight
  have hdeep : deep (2 * m) ≤ 1100 := by
    have := hv.exps'
    have : 0 ≤ w / 1024 := by positivity
    linarith
  have key : ∀ k, ∃ e : ℝ, nExp L.toDevice (mExponents L w (fun k => .fin (eta k y)) (fun k => .fin (g k)) k) = some (.fin e) ∧ 0 ≤ e ∧ e ≤ 2 ^ q ∧
      fl F e = e ∧ (0 < eta k y → ∃ x, -R ≤ x ∧ lExp L.toMachine x = some e) := by
    intro k
    rcases hv.pos k with hk | ⟨hk, hw⟩
    · obtain ⟨l1, l2⟩ := log_range (L := L) hk (hv.le k)
      have d1 := hv.low k hk
      have d2 := hv.low'
      have d3 := hv.exps'
      have m1 := h.inverse.1
      have D1 : 0 ≤ deep m := by unfold deep; linarith
      have D2 : 0 ≤ deep (2 * m) := by unfold deep; linarith
      have a1 := mul_le_mul_of_nonneg_left l1 w0
      have a2 := mul_le_mul_of_nonneg_left l2 w0
      obtain ⟨x, hx, x1, x2⟩ := mExponents_fin (L := L) h hs.toRange (ecol := fun k => eta k y) (w := w) hk hdeep
        (abs_le.2 ⟨by linarith, by linarith⟩)
      obtain ⟨e, he, e0, e1, e2⟩ := hm.fin x (by linarith)
      rw [hx]
      refine ⟨e, ?_, e0, e1, e2, fun _ => ⟨x, by linarith, he⟩⟩
      show some _ = _
      rw [he]
    · rw [mExponents_zero h hs.toRange hk hw hdeep]
      exact ⟨0, rfl, le_rfl, by positivity, Limits.fl_zero, fun hc => absurd hk hc.ne'⟩
  choose e he e0 eq er ex using key
  obtain ⟨P, P1, P2, P3, P4⟩ := columns_fin (D := L.toDevice) h.wide h.topics.2 hm hv.nonneg hv.le_one e0 eq er (X := X) (fun n hn => by
    obtain ⟨k, hk0, hk⟩ := hv.word n hn
    obtain ⟨x, x1, hx⟩ := ex k hk0
    exact ⟨k, hk _ _ x1 hx⟩)
  refine ⟨P, ?_, P2, P3, P4⟩
  unfold mPhi
  rw [mapNum_some.2 he, Option.map_some, P1]

theorem mLoop_fin (h : Sizes F X alpha A m) {w R : ℝ} (hv : Votes L X beta (fun k => eta k y) w m R) (tol : ℝ) : ∀ (i : ℕ) (old : Vec K Num)
    (g : Vec K ℝ) (p : Mat K V ℝ), Sound F X alpha A g p → ∃ (g' : Vec K ℝ) (p' : Mat K V ℝ),
    mLoop L X y alpha (fun k n => .fin (beta k n)) (fun k c => .fin (eta k c)) w tol i old (fun k => .fin (g k), fun k n => .fin (p k n)) =
      some (fun k => .fin (g' k), fun k n => .fin (p' k n)) ∧ Sound F X alpha A g' p' := by
  intro i
  induction i with
  | zero => intro old g p hs; exact ⟨g, p, rfl, hs⟩
  | succ i ih =>
    intro old g p hs
    rw [mLoop]
    split_ifs
    · exact ⟨g, p, rfl, hs⟩
    · obtain ⟨p', h1, h2, h3, h4⟩ := mPhi_fin h hv hs
      obtain ⟨g', h5, h6⟩ := next_sound h h2 h3 h4
      rw [h1, Option.bind_some, h5]
      exact ih _ _ _ h6

theorem mRun_fin (h : Sizes F X alpha A m) {w R : ℝ} (hv : Votes L X beta (fun k => eta k y) w m R) (tol : ℝ) (iterations : ℕ) :
    ∃ (g : Vec K ℝ) (p : Mat K V ℝ), mRun L X y alpha (fun k n => .fin (beta k n)) (fun k c => .fin (eta k c)) w tol iterations = some (fun k => .fin (g k), fun k n => .fin (p k n)) ∧
      Sound F X alpha A g p := by
  obtain ⟨g, p, h1, h2⟩ := first_sound h
  unfold mRun
  rw [h1]
  exact mLoop_fin h hv tol _ _ _ _ h2

/-! ### The correspondence step -/

/-- `fast_exp` of moderate numbers. -/
theorem exp_moderate (h : Wide F) (D : Device F) {x : ℝ} (hx : |x| ≤ 60) : ∃ v : ℝ, lExp D.toMachine x = some v ∧
    Rel (|x| * (1002 / 1000) + 2 * F.u) v 1 ∧ fl F v = v ∧ (x ≤ 27 → v ≤ 2 ^ 40) := by
  have hF := h.ok
  have hu := u_pos (F := F)
  have hu' := h.u
  obtain ⟨v, h1, h2⟩ := nExp_rate (D := D) h hx
  have h3 : lExp D.toMachine x = some v := by
    simp only [nExp] at h1
    split at h1
    · cases h1
    · rename_i e
      rw [e]
      congr 1
      exact Ieee.fin.inj (Option.some.inj h1)
  refine ⟨v, h3, h2, ?_, fun hx' => ?_⟩
  · unfold lExp at h3
    split_ifs at h3 with h0
    · split at h3
      · cases h3
        exact Limits.fl_zero
      · cases h3
        exact fl_fl' hF _
    · exact lExpPos_rep hF (by linarith) h3
  · rcases le_or_gt 0 x with h0 | h0
    · rw [abs_of_nonneg h0] at h2
      have e1 := h2.2
      rw [mul_one] at e1
      refine e1.trans (exp_le_two_pow 40 ?_)
      norm_num
      linarith
    · unfold lExp at h3
      rw [if_pos h0] at h3
      split at h3
      · cases h3
        positivity
      · rename_i w hw
        have w1 := lExpPos_ge hF (by linarith) hw
        have w0 : 0 < w := by linarith
        cases h3
        refine fl_le hF (one_div_pos.2 w0).le (j := 40) (by have := h.low; omega) ?_ |>.trans (by norm_num)
        have : 1 / w ≤ 2 := by rw [div_le_iff₀ w0]; linarith
        refine this.trans ?_
        norm_num

theorem mapMat_fin {f : Num → Option Num} {z e : Mat K V Num} (h : ∀ k n, f (z k n) = some (e k n)) : mapMat f z = some e := by
  unfold mapMat
  rw [dif_pos (fun k n => by rw [h k n]; rfl)]
  congr 1
  funext k n
  simp only [h k n, Option.get_some]

/-- Bounds on the weights of the class and on the topics. -/
structure Tags (L : LogDevice F) (X : Vec V ℕ) (beta : Mat K V ℝ) (ecol : Vec K ℝ) (m : ℝ) : Prop where
  nonneg : ∀ k n, 0 ≤ beta k n
  le_one : ∀ k n, beta k n ≤ 1
  pos : ∀ k, 0 < ecol k
  le : ∀ k, ecol k ≤ 1
  weight : ∀ k, 1 - Real.log (ecol k) ≤ 44
  deep : deep m ≤ 58
  word : ∃ b q : ℕ, (∀ n, X n ≠ 0 → ∃ k, 2 ^ (-(b : ℤ)) ≤ beta k n) ∧ F.low ≤ -((b : ℤ) + q + 72) ∧
    Verif.Overflow.deep m * (1002 / 1000) + 1 / 1000 ≤ q * 0.6931471803

theorem Tags.log {ecol : Vec K ℝ} (hv : Tags L X beta ecol m) (k : Fin K) : -(2205 / 50) ≤ L.log (ecol k) ∧ L.log (ecol k) ≤ 1 / 1024 := by
  obtain ⟨l1, l2⟩ := log_range (L := L) (hv.pos k) (hv.le k)
  have := hv.weight k
  exact ⟨by linarith, l2⟩

theorem cPhi_fin (h : Sizes F X alpha A m) (hv : Tags L X beta (fun k => eta k y) m) {g : Vec K ℝ} {p : Mat K V ℝ}
    (hs : Sound F X alpha A g p) {tau : Vec V ℝ} (t0 : ∀ n, 0 ≤ tau n) (t1 : ∀ n, tau n ≤ 11 / 10) :
    ∃ p' : Mat K V ℝ, cPhi L y (fun k n => .fin (beta k n)) (fun k c => .fin (eta k c)) (fun k => .fin (g k)) (fun n => .fin (tau n)) = some (fun k n => .fin (p' k n)) ∧
      (∀ k n, 0 ≤ p' k n) ∧ (∀ n, ∑ k, p' k n ≤ 11 / 10) ∧ ∀ n, X n ≠ 0 → Rel ((2 * K + 3) * F.u) (∑ k, p' k n) 1 := by
  have hF := h.wide.ok
  have hu := u_pos (F := F)
  have hu' := h.wide.u
  have hlow := h.wide.low
  have hd := hv.deep
  -- the exponentials of the digammas
  have k1 : ∀ k, ∃ e : ℝ, lExp L.toMachine (L.psi (g k)) = some e ∧ Rel (|L.psi (g k)| * (1002 / 1000) + 2 * F.u) e 1 ∧ fl F e = e ∧
      (L.psi (g k) ≤ 27 → e ≤ 2 ^ 40) := by
    intro k
    obtain ⟨_, p1, p2⟩ := hs.toRange.psi (L := L) h k
    exact exp_moderate h.wide L.toDevice (abs_le.2 ⟨by linarith, by linarith⟩)
  choose e he er ef eu using k1
  have e0 : ∀ k, 0 < e k := fun k => (er k).pos zero_lt_one
  have e1 : ∀ k, e k ≤ 2 ^ 40 := fun k => eu k (hs.toRange.psi (L := L) h k).2.2
  -- the exponentials of the logarithms
  have k2 : ∀ k n, ∃ z t : ℝ, nMul F (nLog L (.fin (eta k y))) (.fin (tau n)) = .fin z ∧ lExp L.toMachine z = some t ∧
      2 ^ (-(72 : ℤ)) ≤ t ∧ t ≤ 2 ^ 40 := by
    intro k n
    obtain ⟨l1, l2⟩ := hv.log k
    have a1 : L.log (eta k y) * tau n ≤ 1 / 1024 * (11 / 10) := by
      rcases le_total 0 (L.log (eta k y)) with hl | hl
      · exact mul_le_mul l2 (t1 n) (t0 n) (by norm_num)
      · have := mul_nonpos_of_nonpos_of_nonneg hl (t0 n)
        linarith
    have a2 : -(2205 / 50) * (11 / 10) ≤ L.log (eta k y) * tau n := by
      rcases le_total 0 (L.log (eta k y)) with hl | hl
      · have := mul_nonneg hl (t0 n)
        linarith
      · nlinarith [t0 n, t1 n]
    have z1 : |L.log (eta k y) * tau n| ≤ 4000 := abs_le.2 ⟨by linarith, by linarith⟩
    have f1 := abs_le.1 (fl_near h.wide z1)
    have z2 : |fl F (L.log (eta k y) * tau n)| ≤ 49 := abs_le.2 ⟨by linarith, by linarith⟩
    obtain ⟨t, ht, tr, _, tu⟩ := exp_moderate h.wide L.toDevice (z2.trans (by norm_num))
    refine ⟨_, t, ?_, ht, ?_, tu (by linarith)⟩
    · rw [nLog_fin (hv.pos k)]
      exact nMul_fin (h.wide.small_lt (z2.trans (by norm_num)))
    · have r1 := tr.1
      rw [mul_one] at r1
      refine le_trans (two_pow_of_exp 72 ?_) r1
      norm_num
      linarith
  choose z t hz ht t2 t3 using k2
  have tp : ∀ k n, 0 < t k n := fun k n => (two_zpow_pos _).trans_le (t2 k n)
  have hcol : ∀ n, ∃ p' : Vec K ℝ, nNormalize L.toDevice (fun k => nMul F (nMul F (.fin (beta k n)) (.fin (e k))) (.fin (t k n))) =
      (fun k => .fin (p' k)) ∧ (∀ k, 0 ≤ p' k) ∧ ∑ k, p' k ≤ 11 / 10 ∧ (X n ≠ 0 → Rel ((2 * K + 3) * F.u) (∑ k, p' k) 1) := by
    intro n
    have b0 : ∀ k, 0 ≤ beta k n * e k := fun k => mul_nonneg (hv.nonneg k n) (e0 k).le
    have c0 : ∀ k, 0 ≤ fl F (beta k n * e k) := fun k => Limits.fl_nonneg (b0 k)
    have c1 : ∀ k, fl F (beta k n * e k) ≤ 2 ^ 40 := by
      intro k
      have : fl F (beta k n * e k) ≤ fl F (e k) := fl_mono hF (b0 k) (mul_le_of_le_one_left (e0 k).le (hv.le_one k n))
      rw [ef k] at this
      exact this.trans (e1 k)
    have d0 : ∀ k, 0 ≤ fl F (beta k n * e k) * t k n := fun k => mul_nonneg (c0 k) (tp k n).le
    have v0 : ∀ k, 0 ≤ fl F (fl F (beta k n * e k) * t k n) := fun k => Limits.fl_nonneg (d0 k)
    have v1 : ∀ k, fl F (fl F (beta k n * e k) * t k n) ≤ 2 ^ 80 := by
      intro k
      have := fl_le hF (d0 k) (j := 80) (by omega) (by
        have := mul_le_mul (c1 k) (t3 k n) (tp k n).le (by positivity)
        refine this.trans ?_
        norm_num)
      exact_mod_cast this
    have hmul : (fun k => nMul F (nMul F (.fin (beta k n)) (.fin (e k))) (.fin (t k n))) =
        fun k => .fin (fl F (fl F (beta k n * e k) * t k n)) := by
      funext k
      rw [nMul_fin (h.wide.small_lt (by rw [abs_of_nonneg (c0 k)]; exact (c1 k).trans (by norm_num)))]
      exact nMul_fin (h.wide.small_lt (by rw [abs_of_nonneg (v0 k)]; exact (v1 k).trans (by norm_num)))
    rw [hmul]
    have hsum : ∑ k, fl F (fl F (beta k n * e k) * t k n) ≤ 2 ^ 100 := by
      have e1 := sum_le_sum fun k (_ : k ∈ (univ : Finset (Fin K))) => v1 k
      rw [sum_const, card_univ, Fintype.card_fin, nsmul_eq_mul] at e1
      have e2 := mul_le_mul_of_nonneg_right (million h.topics.2) (by positivity : (0 : ℝ) ≤ 2 ^ 80)
      refine (e1.trans e2).trans ?_
      norm_num
    obtain ⟨p', h1, h2, h3, h4⟩ := column_fin (D := L.toDevice) h.wide h.topics.2 v0 (fun k => fl_fl' hF _) (h.wide.quarter hsum)
    refine ⟨p', h1, h2, h3, fun hn => h4 ?_⟩
    obtain ⟨b, q, hb, hroom, hq⟩ := hv.word
    obtain ⟨k, hk⟩ := hb n hn
    have ek : 2 ^ (-(q : ℤ)) ≤ e k := by
      obtain ⟨_, p1, p2⟩ := hs.toRange.psi (L := L) h k
      have r1 := (er k).1
      rw [mul_one] at r1
      have q1 : |L.psi (g k)| ≤ Verif.Overflow.deep m ∨ 0 ≤ L.psi (g k) := by
        rcases le_total 0 (L.psi (g k)) with h0 | h0
        · exact .inr h0
        · rw [abs_of_nonpos h0]
          exact .inl (by linarith)
      rcases q1 with q1 | q1
      · refine le_trans (two_pow_of_exp q ?_) r1
        linarith
      · have g1 : lExpPos L.toMachine (L.psi (g k)) = some (e k) := by
          have := he k
          unfold lExp at this
          rwa [if_neg (by linarith)] at this
        have := lExpPos_ge hF q1 g1
        refine le_trans ?_ this
        have q0 : q ≠ 0 := by
          rintro rfl
          have := h.inverse.1
          unfold Verif.Overflow.deep at hq
          norm_num at hq
          linarith
        have : (2 : ℝ) ^ (-(q : ℤ)) ≤ 2 ^ (-1 : ℤ) := zpow_le_zpow_right₀ (by norm_num) (by omega)
        norm_num at this ⊢
        exact this
    refine ⟨k, (two_zpow_pos (-((b : ℤ) + q + 72))).trans_le (le_fl hF hroom ?_)⟩
    have m1 : (2 : ℝ) ^ (-((b : ℤ) + q)) ≤ fl F (beta k n * e k) := by
      refine le_fl hF (by omega) ?_
      rw [neg_add, zpow_add₀ (by norm_num)]
      exact mul_le_mul hk ek (two_zpow_pos _).le (hv.nonneg k n)
    have := mul_le_mul m1 (t2 k n) (two_zpow_pos _).le (c0 k)
    rw [← zpow_add₀ (by norm_num)] at this
    rw [show -((b : ℤ) + q + 72) = -((b : ℤ) + q) + -72 by ring]
    exact this
  choose P P1 P2 P3 P4 using hcol
  refine ⟨fun k n => P n k, ?_, fun k n => P2 n k, P3, P4⟩
  unfold cPhi
  have hpsi : (fun k => L.npsi (.fin (g k))) = fun k => .fin (L.psi (g k)) := funext fun k => (hs.toRange.psi (L := L) h k).1
  rw [hpsi, mapNum_fin he, Option.bind_some, mapMat_fin (e := fun k n => .fin (t k n)) (fun k n => by
    rw [hz k n]
    show some _ = _
    rw [ht k n]), Option.map_some]
  congr 1
  funext k n
  exact congrFun (P1 n) k

theorem cTau_fin (h : Sizes F X alpha A m) (hX : 0 < numWords X) (hv : Tags L X beta (fun k => eta k y) m) {p : Mat K V ℝ} (h0 : ∀ k n, 0 ≤ p k n)
    (h1 : ∀ n, ∑ k, p k n ≤ 11 / 10) : ∃ tau : Vec V ℝ, cTau L y (fun k c => .fin (eta k c)) (fun k n => .fin (p k n)) = some (fun n => .fin (tau n)) ∧
      (∀ n, 0 ≤ tau n) ∧ (∀ n, tau n ≤ 11 / 10) ∧ Rel ((2 * V + 3) * F.u) (∑ n, tau n) 1 := by
  have hF := h.wide.ok
  have hu := u_pos (F := F)
  have hu' := h.wide.u
  have k1 : ∀ n, ∃ x v : ℝ, (L.nsum fun k => nMul F (.fin (p k n)) (nLog L (.fin (eta k y)))) = .fin x ∧ lExp L.toMachine x = some v ∧
      0 < v ∧ v ≤ 2 ^ 88 ∧ fl F v = v := by
    intro n
    obtain ⟨x, hx, hx'⟩ := products (D := L.toDevice) h.wide h.topics.2 (a := fun k => L.log (eta k y)) (p := fun k => p k n) (R := 2205 / 50)
      (by norm_num) (by norm_num) (fun k => by
        obtain ⟨l1, l2⟩ := hv.log k
        exact abs_le.2 ⟨l1, by linarith⟩) (fun k => h0 k n) ((h1 n).trans (by norm_num))
    have hx2 : |x| ≤ 60 := hx'.trans (by norm_num)
    obtain ⟨v, hv1, hv2, hv3, _⟩ := exp_moderate h.wide L.toDevice hx2
    refine ⟨x, v, ?_, hv1, hv2.pos zero_lt_one, ?_, hv3⟩
    · rw [← hx]
      congr 1
      funext k
      rw [nLog_fin (hv.pos k)]
      show toNum F _ = toNum F _
      rw [mul_comm]
    · have := hv2.2
      rw [mul_one] at this
      refine this.trans (exp_le_two_pow 88 ?_)
      norm_num
      linarith
  choose x v hx hv1 v0 v1 v2 using k1
  obtain ⟨n0⟩ : Nonempty (Fin V) := by
    by_contra hc
    rw [not_nonempty_iff] at hc
    have := hX
    unfold numWords at this
    rw [univ_eq_empty, sum_empty] at this
    exact lt_irrefl _ this
  have hsum : ∑ n, v n ≤ 2 ^ F.high / 4 := by
    have e1 := sum_le_sum fun n (_ : n ∈ (univ : Finset (Fin V))) => v1 n
    rw [sum_const, card_univ, Fintype.card_fin, nsmul_eq_mul] at e1
    have e2 := mul_le_mul_of_nonneg_right (million h.vocabulary) (by positivity : (0 : ℝ) ≤ 2 ^ 88)
    have e3 := h.wide.big
    have e4 : (2 : ℝ) ^ 20 * 2 ^ 88 ≤ 2 ^ 128 / 4 := by norm_num
    linarith
  obtain ⟨tau, a1, a2, a3, a4⟩ := column_fin (D := L.toDevice) h.wide h.vocabulary (fun n => (v0 n).le) v2 hsum
  refine ⟨tau, ?_, a2, fun n => (single_le_sum (fun n _ => a2 n) (mem_univ n)).trans a3, a4 ⟨n0, v0 n0⟩⟩
  unfold cTau
  rw [show (fun n => L.nsum fun k => nMul F (.fin (p k n)) (nLog L (.fin (eta k y)))) = fun n => .fin (x n) from funext hx,
    mapNum_fin hv1, Option.map_some, a1]

theorem cLoop_fin (h : Sizes F X alpha A m) (hX : 0 < numWords X) (hv : Tags L X beta (fun k => eta k y) m) (tol : ℝ) : ∀ (i : ℕ) (old : Vec K Num)
    (g : Vec K ℝ) (p : Mat K V ℝ) (tau : Vec V ℝ), Sound F X alpha A g p → (∀ n, 0 ≤ tau n) → (∀ n, tau n ≤ 11 / 10) →
    Rel ((2 * V + 3) * F.u) (∑ n, tau n) 1 → ∃ (g' : Vec K ℝ) (p' : Mat K V ℝ) (tau' : Vec V ℝ),
    cLoop L X y alpha (fun k n => .fin (beta k n)) (fun k c => .fin (eta k c)) tol i old ⟨fun k => .fin (g k), fun k n => .fin (p k n), fun n => .fin (tau n)⟩ =
      some ⟨fun k => .fin (g' k), fun k n => .fin (p' k n), fun n => .fin (tau' n)⟩ ∧ Sound F X alpha A g' p' ∧
      (∀ n, 0 ≤ tau' n) ∧ Rel ((2 * V + 3) * F.u) (∑ n, tau' n) 1 := by
  intro i
  induction i with
  | zero => intro old g p tau hs t0 _ t2; exact ⟨g, p, tau, rfl, hs, t0, t2⟩
  | succ i ih =>
    intro old g p tau hs t0 t1 t2
    rw [cLoop]
    split_ifs
    · exact ⟨g, p, tau, rfl, hs, t0, t2⟩
    · obtain ⟨p', h1, h2, h3, h4⟩ := cPhi_fin h hv hs t0 t1
      obtain ⟨g', h5, h6⟩ := next_sound h h2 h3 h4
      obtain ⟨tau', h7, h8, h9, h10⟩ := cTau_fin h hX hv h2 h3
      simp only
      rw [h1, Option.bind_some, h7, Option.bind_some, h5]
      exact ih _ _ _ _ h6 h8 h9 h10

theorem cRun_fin (h : Sizes F X alpha A m) (hX : 0 < numWords X) (hv : Tags L X beta (fun k => eta k y) m) (tol : ℝ) (iterations : ℕ) :
    ∃ (g : Vec K ℝ) (p : Mat K V ℝ) (tau : Vec V ℝ), cRun L X y alpha (fun k n => .fin (beta k n)) (fun k c => .fin (eta k c)) tol iterations =
        some ⟨fun k => .fin (g k), fun k n => .fin (p k n), fun n => .fin (tau n)⟩ ∧
      Sound F X alpha A g p ∧ (∀ n, 0 ≤ tau n) ∧ Rel ((2 * V + 3) * F.u) (∑ n, tau n) 1 := by
  obtain ⟨g, p, h1, h2⟩ := first_sound h
  have hV : 0 < V := by
    rcases Nat.eq_zero_or_pos V with hV | hV
    · subst hV
      have := hX
      simp [numWords] at this
    · exact hV
  obtain ⟨_, p', e1, e2⟩ := start_good (K := V) (X := fun _ : Fin 1 => 1) (alpha := fun _ => 0) (A := 0) h.wide (by simp [numWords])
    (by simp [numWords]) h.vocabulary le_rfl (fun _ => le_rfl) (fun _ => le_rfl) (by norm_num) hV h.double
  have e3 : ∀ n, toNum F (fl double (1 / V)) = .fin (p' n 0) := fun n => congrFun (congrFun (Prod.mk.inj e1).2 n) 0
  have e4 := e2.sum 0
  obtain ⟨q, q1, q2, q3⟩ := first_phi (F := F) h.wide hV h.vocabulary
  have e5 : ∀ n, p' n 0 = q := fun n => by
    have := e3 n
    rw [q1] at this
    exact (Ieee.fin.inj this).symm
  unfold cRun
  rw [h1, show (fun _ : Fin V => toNum F (fl double (1 / V))) = fun n => .fin (p' n 0) from funext e3]
  exact cLoop_fin h hX hv tol _ _ _ _ _ h2 (fun n => e2.nonneg n 0) (fun n => by
    have hv1 : (1 : ℝ) ≤ V := by exact_mod_cast hV
    rw [e5 n]
    refine q3.trans ?_
    rw [div_le_iff₀ (by linarith)]
    linarith) e4

end Verif.Overflow
