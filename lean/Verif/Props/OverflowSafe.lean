import Verif.Props.Overflow

/-
C129, continued: weights for which all numbers of the fast supervised step are finite.
-/
namespace Verif.Overflow

open MathUtils EStep Limits Finset
open Rounded hiding fl_nonneg fl_zero

variable {K V C : ℕ} {F : Format} {D : Device F}

/-! ### Sums -/

theorem Wide.small_lt (h : Wide F) {x : ℝ} (hx : x ≤ 2 ^ 100) : x < 2 ^ F.high := by
  have h1 := h.big
  have h2 : (2 : ℝ) ^ 100 < 2 ^ 128 := by norm_num
  linarith

theorem nsum_fin (hF : F.Ok) {m : ℕ} {v : Vec m ℝ} (hr : ∀ i, fl F (v i) = v i)
    (hb : ∑ i, |v i| ≤ 2 ^ F.high / 2 * (1 - F.u) ^ m) : ∃ r r' : ℝ, D.nsum (fun i => .fin (v i)) = .fin r ∧
    Summation (fl F) (List.ofFn v) r ∧ Near F m 0 r' (∑ i, |v i|) ∧ |r| ≤ r' := by
  obtain ⟨r, r', h1, h2, h3, h4⟩ := numSum_fin hF (D.nsum_spec fun i => .fin (v i)) (List.ofFn v)
    (by rw [List.map_ofFn]; rfl)
    (by intro x hx; obtain ⟨i, rfl⟩ := (List.mem_ofFn' _ _).1 hx; exact hr i)
    (by rw [List.map_ofFn, List.sum_ofFn, List.length_ofFn]; exact hb)
  refine ⟨r, r', h1, h2, ?_, h4⟩
  have := near_summation hF h3 (by
    intro x hx
    obtain ⟨y, _, rfl⟩ := List.mem_map.1 hx
    exact abs_nonneg y) (by
    intro x hx
    obtain ⟨y, hy, rfl⟩ := List.mem_map.1 hx
    obtain ⟨i, rfl⟩ := (List.mem_ofFn' _ _).1 hy
    rw [← abs_fl, hr i])
  rw [List.map_ofFn, List.sum_ofFn, List.length_ofFn] at this
  exact this.2.2

theorem Wide.pow_count' (h : Wide F) {m : ℕ} (hm : m ≤ 2 ^ 20) : 93 / 100 ≤ (1 - F.u) ^ m :=
  (h.pow_count hm).trans (pow_le_pow_of_le_one (base h.ok).1.le (base h.ok).2 (by omega))

/-- A sum of numbers of any sign. -/
theorem nsum_abs (h : Wide F) {m : ℕ} (hm : m ≤ 2 ^ 20) {v : Vec m ℝ} (hr : ∀ i, fl F (v i) = v i) {A : ℝ}
    (hA : ∑ i, |v i| ≤ A) (hA' : A ≤ 2 ^ 100) : ∃ r : ℝ, D.nsum (fun i => .fin (v i)) = .fin r ∧ |r| ≤ 11 / 10 * A := by
  have hq := h.pow_count' hm
  have h0 : 0 ≤ ∑ i, |v i| := sum_nonneg fun i _ => abs_nonneg _
  obtain ⟨r, r', h1, _, h3, h4⟩ := nsum_fin (D := D) h.ok hr (by
    have h1 := h.big
    have h2 : (2 : ℝ) ^ 100 ≤ 2 ^ 128 / 2 * (93 / 100) := by norm_num
    have h3 : (2 : ℝ) ^ 128 / 2 * (93 / 100) ≤ 2 ^ F.high / 2 * (1 - F.u) ^ m :=
      mul_le_mul (by linarith) hq (by norm_num) (by positivity)
    linarith)
  refine ⟨r, h1, ?_⟩
  have h5 := h3.2
  have h6 := mul_le_mul_of_nonneg_right hq ((abs_nonneg r).trans h4)
  linarith

/-- Nonnegative numbers divided by their sum. -/
theorem normalize_fin (h : Wide F) {m : ℕ} (hm : m ≤ 2 ^ 20) {v : Vec m ℝ} (hv : ∀ i, 0 ≤ v i)
    (hr : ∀ i, fl F (v i) = v i) (hb : ∑ i, v i ≤ 2 ^ F.high / 4) :
    ∃ s : ℝ, D.nsum (fun i => .fin (v i)) = .fin s ∧ (s = 0 → ∀ i, v i = 0) ∧ 93 / 100 * s ≤ ∑ i, v i ∧
    (s ≠ 0 → (∀ i, nDiv F (.fin (v i)) (.fin s) = .fin (fl F (v i / s))) ∧ 0 < s ∧ ∃ p : Vec m ℝ, (∀ i, nDiv F (.fin (v i)) (.fin s) = .fin (p i)) ∧ (∀ i, 0 ≤ p i) ∧
      ∑ i, p i ≤ 11 / 10) := by
  have hF := h.ok
  have hq := h.pow_count' hm
  have habs : ∑ i, |v i| = ∑ i, v i := sum_congr rfl fun i _ => abs_of_nonneg (hv i)
  obtain ⟨s, _, h1, h2, _, _⟩ := nsum_fin (D := D) hF hr (by
    rw [habs]
    have h0 : (0 : ℝ) < 2 ^ F.high := by positivity
    have := mul_le_mul_of_nonneg_left hq (by positivity : (0 : ℝ) ≤ 2 ^ F.high / 2)
    linarith)
  have hn := near_summation hF h2 (by intro x hx; obtain ⟨i, rfl⟩ := (List.mem_ofFn' _ _).1 hx; exact hv i)
    (by intro x hx; obtain ⟨i, rfl⟩ := (List.mem_ofFn' _ _).1 hx; exact hr i)
  rw [List.length_ofFn, List.sum_ofFn] at hn
  obtain ⟨s0, _, n1, n2⟩ := hn
  rw [add_zero] at n1 n2
  have hle : ∀ i, v i ≤ ∑ i, v i := fun i => single_le_sum (fun j _ => hv j) (mem_univ i)
  have hs0 : 0 ≤ ∑ i, v i := sum_nonneg fun i _ => hv i
  have n3 := mul_le_mul_of_nonneg_right hq hs0
  have n4 := mul_le_mul_of_nonneg_right hq s0
  refine ⟨s, h1, fun hs i => ?_, by linarith, fun hs => ?_⟩
  · have := hv i
    have := hle i
    rw [hs] at n1
    linarith
  · have sp : 0 < s := lt_of_le_of_ne s0 (Ne.symm hs)
    have hd0 : ∀ i, 0 ≤ v i / s := fun i => div_nonneg (hv i) s0
    have hfl : ∀ i, fl F (v i / s) ≤ (1 + F.u) * (v i / s) + F.tiny := fun i => by
      have := abs_fl_le (F := F) (v i / s)
      rw [abs_of_nonneg (fl_nonneg (hd0 i)), abs_of_nonneg (hd0 i)] at this
      exact this
    have htot : ∑ i, fl F (v i / s) ≤ 11 / 10 := by
      have e1 : ∑ i, fl F (v i / s) ≤ ∑ i, ((1 + F.u) * (v i / s) + F.tiny) := sum_le_sum fun i _ => hfl i
      rw [sum_add_distrib, ← mul_sum, ← sum_div, sum_const, card_univ, Fintype.card_fin, nsmul_eq_mul] at e1
      have e2 := h.count_tiny hm
      have e3 : (∑ i, v i) / s ≤ 100 / 93 := by
        rw [div_le_iff₀ sp]; linarith
      have e4 : (1 + F.u) * ((∑ i, v i) / s) ≤ (1 + 1 / 1000) * (100 / 93) :=
        mul_le_mul (by linarith [h.u.trans (by norm_num : (1 : ℝ) / 2 ^ 24 ≤ 1 / 1000)]) e3 (div_nonneg hs0 s0) (by norm_num)
      have e5 : (1 : ℝ) / 2 ^ 129 ≤ 1 / 1000 := by norm_num
      generalize (1 : ℝ) / 2 ^ 129 = t at *
      linarith
    have hdiv : ∀ i, nDiv F (.fin (v i)) (.fin s) = .fin (fl F (v i / s)) := ?_
    · exact ⟨hdiv, sp, fun i => fl F (v i / s), hdiv, fun i => fl_nonneg (hd0 i), htot⟩
    intro i
    apply nDiv_fin hs
    rw [abs_of_nonneg (fl_nonneg (hd0 i))]
    apply h.small_lt
    have : fl F (v i / s) ≤ ∑ i, fl F (v i / s) := single_le_sum (f := fun i => fl F (v i / s))
      (fun j _ => fl_nonneg (hd0 j)) (mem_univ i)
    have e : (11 : ℝ) / 10 ≤ 2 ^ 100 := by norm_num
    linarith

/-! ### The mean topic proportions -/

theorem zbar_fin (h : Wide F) {X : Vec V ℕ} (hX : 0 < numWords X) (hX' : numWords X ≤ 2 ^ 31)
    (hK : K ≤ 2 ^ 20) (hV : V ≤ 2 ^ 20) {phi : Mat K V ℝ} (h0 : ∀ k n, 0 ≤ phi k n)
    (h1 : ∀ n, ∑ k, phi k n ≤ 11 / 10) :
    ∃ z : Vec K ℝ, (∀ k, nScaled F (nRatio F X) (fun k n => .fin (phi k n)) (.fin 0) k = .fin (z k)) ∧
      (∀ k, 0 ≤ z k) ∧ ∑ k, z k ≤ 6 / 5 := by
  have hF := h.ok
  obtain ⟨r1, r2, _⟩ := near_ratio h hX hX'
  obtain ⟨s1, s2⟩ := ratio_sum h hX hX' hV
  have q := h.pow_count hV
  have t := h.count_tiny hV
  have tk := h.count_tiny hK
  have hz := fun k => near_rScaled hF (w := rRatio F X) (phi := phi) (start := 0) (k := k) r2 (h0 k) le_rfl Limits.fl_zero
  have hz0 : ∀ k, 0 ≤ rScaled F (rRatio F X) phi 0 k := fun k => (hz k).1
  have hup : ∀ k, 93 / 100 * rScaled F (rRatio F X) phi 0 k ≤ ∑ n, rRatio F X n * phi k n + V * F.tiny := fun k => by
    have h2 := (hz k).2.2.2
    rw [zero_add] at h2
    have := mul_le_mul_of_nonneg_right q (hz0 k)
    linarith
  have htot : ∑ k, rScaled F (rRatio F X) phi 0 k ≤ 6 / 5 := by
    have e1 : ∑ k, 93 / 100 * rScaled F (rRatio F X) phi 0 k ≤ ∑ k : Fin K, (∑ n, rRatio F X n * phi k n + V * F.tiny) :=
      sum_le_sum fun k _ => hup k
    rw [← mul_sum, sum_add_distrib, sum_comm, sum_const, card_univ, Fintype.card_fin, nsmul_eq_mul] at e1
    have e2 : ∑ n, ∑ k, rRatio F X n * phi k n ≤ ∑ n, rRatio F X n * (11 / 10) := sum_le_sum fun n _ => by
      rw [← mul_sum]
      exact mul_le_mul_of_nonneg_left (h1 n) (r2 n)
    rw [← sum_mul] at e2
    have e3 : (K : ℝ) * (V * F.tiny) ≤ 2 ^ 20 * (1 / 2 ^ 129) :=
      mul_le_mul (million hK) t (mul_nonneg (Nat.cast_nonneg V) tiny_pos.le) (by norm_num)
    have e4 : (2 : ℝ) ^ 20 * (1 / 2 ^ 129) ≤ 1 / 1000 := by norm_num
    generalize (2 : ℝ) ^ 20 * (1 / 2 ^ 129) = t at *
    linarith
  refine ⟨rScaled F (rRatio F X) phi 0, fun k => ?_, hz0, htot⟩
  rw [show nRatio F X = fun n => .fin (rRatio F X n) from funext r1]
  refine nScaled_fin hF r2 (h0 k) le_rfl Limits.fl_zero (h.small_lt ?_)
  have : rScaled F (rRatio F X) phi 0 k ≤ ∑ k, rScaled F (rRatio F X) phi 0 k :=
    single_le_sum (fun j _ => hz0 j) (mem_univ k)
  have e : (6 : ℝ) / 5 ≤ 2 ^ 100 := by norm_num
  linarith

/-! ### The scores and the shares of the classes -/

/-- Products of bounded numbers with numbers that sum to little. -/
theorem products (h : Wide F) {m : ℕ} (hm : m ≤ 2 ^ 20) {a p : Vec m ℝ} {R : ℝ} (hR : 1 ≤ R) (hR' : R ≤ 2 ^ 90)
    (ha : ∀ i, |a i| ≤ R) (hp : ∀ i, 0 ≤ p i) (hsum : ∑ i, p i ≤ 6 / 5) :
    ∃ r : ℝ, D.nsum (fun i => nMul F (.fin (a i)) (.fin (p i))) = .fin r ∧ |r| ≤ 4 / 3 * R := by
  have hF := h.ok
  have hu := h.u.trans (by norm_num : (1 : ℝ) / 2 ^ 24 ≤ 1 / 1000)
  have hu0 := u_pos (F := F)
  have t1 : ∀ i, |fl F (a i * p i)| ≤ (1001 / 1000 * R) * p i + F.tiny := fun i => by
    have e1 := abs_fl_le (F := F) (a i * p i)
    rw [abs_mul, abs_of_nonneg (hp i)] at e1
    have e2 : |a i| * p i ≤ R * p i := mul_le_mul_of_nonneg_right (ha i) (hp i)
    have e3 : (1 + F.u) * (|a i| * p i) ≤ (1001 / 1000) * (R * p i) :=
      mul_le_mul (by linarith) e2 (mul_nonneg (abs_nonneg _) (hp i)) (by norm_num)
    linarith
  have t2 : ∑ i, |fl F (a i * p i)| ≤ 121 / 100 * R := by
    have e1 : ∑ i, |fl F (a i * p i)| ≤ ∑ i, ((1001 / 1000 * R) * p i + F.tiny) := sum_le_sum fun i _ => t1 i
    rw [sum_add_distrib, ← mul_sum, sum_const, card_univ, Fintype.card_fin, nsmul_eq_mul] at e1
    have e2 := h.count_tiny hm
    have e3 : (1001 / 1000 * R) * ∑ i, p i ≤ (1001 / 1000 * R) * (6 / 5) := mul_le_mul_of_nonneg_left hsum (by linarith)
    have e5 : (1 : ℝ) / 2 ^ 129 ≤ 1 / 1000 := by norm_num
    generalize (1 : ℝ) / 2 ^ 129 = t at *
    linarith
  have hbig : 121 / 100 * R ≤ 2 ^ 100 := by
    have : (121 : ℝ) / 100 * 2 ^ 90 ≤ 2 ^ 100 := by norm_num
    linarith
  have e : (fun i => nMul F (.fin (a i)) (.fin (p i))) = fun i => .fin (fl F (a i * p i)) := by
    funext i
    apply nMul_fin
    apply h.small_lt
    have : |fl F (a i * p i)| ≤ ∑ i, |fl F (a i * p i)| := single_le_sum (f := fun i => |fl F (a i * p i)|)
      (fun j _ => abs_nonneg _) (mem_univ i)
    linarith
  rw [e]
  obtain ⟨r, h1, h2⟩ := nsum_abs (D := D) h hm (fun i => fl_fl' hF _) t2 hbig
  exact ⟨r, h1, by linarith⟩

/-- `fast_exp` is finite up to `r`, and positive down to `-r`. -/
structure Moderate (D : Device F) (r : ℝ) (q : ℕ) : Prop where
  fin : ∀ x, x ≤ r → ∃ e : ℝ, lExp D.toMachine x = some e ∧ 0 ≤ e ∧ e ≤ 2 ^ q ∧ fl F e = e
  pos : ∀ x e, -r ≤ x → lExp D.toMachine x = some e → 0 < e
  high : q + 22 ≤ F.high

theorem Moderate.sum_le {r : ℝ} {q : ℕ} (h : Moderate D r q) {m : ℕ} (hm : m ≤ 2 ^ 20) {v : Vec m ℝ} (hv : ∀ i, v i ≤ 2 ^ q) :
    ∑ i, v i ≤ 2 ^ F.high / 4 := by
  have e1 : ∑ i, v i ≤ ∑ _i : Fin m, (2 : ℝ) ^ q := sum_le_sum fun i _ => hv i
  rw [sum_const, card_univ, Fintype.card_fin, nsmul_eq_mul] at e1
  have e2 : (m : ℝ) * 2 ^ q ≤ 2 ^ 20 * 2 ^ q := mul_le_mul_of_nonneg_right (million hm) (by positivity)
  have e3 : (2 : ℝ) ^ (q + 22) ≤ 2 ^ F.high := pow_le_pow_right₀ (by norm_num) h.high
  rw [pow_add] at e3
  have e4 : (2 : ℝ) ^ 22 = 4 * 2 ^ 20 := by norm_num
  rw [e4] at e3
  linarith

theorem softmax_fin (h : Wide F) {r : ℝ} {q : ℕ} (hm : Moderate D r q) (hC : C ≤ 2 ^ 20) (c : Fin C) {s : Vec C ℝ}
    (hs : ∀ c, |s c| ≤ r) :
    ∃ p : Vec C ℝ, nSoftmax D (fun c => .fin (s c)) = some (fun c => .fin (p c)) ∧ (∀ c, 0 ≤ p c) ∧ ∑ c, p c ≤ 11 / 10 := by
  have h1 := fun c => hm.fin (s c) (abs_le.1 (hs c)).2
  choose e he e0 eq er using h1
  have epos : ∀ c, 0 < e c := fun c => hm.pos _ _ (abs_le.1 (hs c)).1 (he c)
  obtain ⟨t, ht, t0, _, t1⟩ := normalize_fin (D := D) h hC e0 er (hm.sum_le hC eq)
  obtain ⟨_, _, p, hp, p0, p1⟩ := t1 fun h0 => (epos c).ne' (t0 h0 c)
  refine ⟨p, ?_, p0, p1⟩
  unfold nSoftmax
  have : mapNum (nExp D) (fun c => .fin (s c)) = some fun c => .fin (e c) := mapNum_some.2 fun c => by
    simp only [nExp, he c]
  rw [this, Option.map_some, ht]
  congr 1
  funext c
  exact hp c

/-! ### The exponents -/

/-- `digamma` as computed, for moderate arguments. -/
theorem psi_range (M : Machine F) {x : ℝ} (h1 : 1 / 1024 ≤ x) (h2 : x ≤ 2 ^ 34) : -1030 ≤ M.psi x ∧ M.psi x ≤ 27 := by
  have hx : 0 < x := by linarith
  constructor
  · have := psi_ge (M := M) hx h1 (by norm_num)
    norm_num at this
    linarith
  · obtain ⟨v, hv⟩ := FastExp.C32_positive x hx
    have e := M.psi_err x v hx hv
    have h7 := FastExp.C32_large (2 ^ 34) (by norm_num)
    have ha := FastExp.digamma_almost hx h2 hv h7
    have hl : Real.log (2 ^ 34 - 1 / 2 : ℝ) ≤ 24 := by
      have e1 : Real.log (2 ^ 34 - 1 / 2 : ℝ) ≤ Real.log (2 ^ 34) := Real.log_le_log (by norm_num) (by norm_num)
      rw [Real.log_pow] at e1
      have := Real.log_two_lt_d9
      push_cast at e1
      linarith
    have hv2 : v ≤ 26 := by
      norm_num at ha hl
      linarith
    have hv3 := (digamma_bounds hx hv).1
    have hd : 1 / x ≤ 1024 := by
      rw [div_le_iff₀ hx]; linarith
    rw [abs_le] at e
    rcases le_total 0 v with h | h
    · rw [abs_of_nonneg h] at e; linarith
    · rw [abs_of_nonpos h] at e; linarith

theorem fl_le_add (x : ℝ) : fl F x ≤ x + F.u * |x| + F.tiny := by
  rcases le_total 0 x with h | h
  · have := fl_err (F := F) h
    rw [abs_le] at this
    rw [abs_of_nonneg h]
    linarith [this.2]
  · have := fl_err (F := F) (x := -x) (by linarith)
    rw [abs_le, fl_neg] at this
    rw [abs_of_nonpos h]
    linarith [this.1]

/-- The weights in relation to their maximum, if it is positive. -/
def Scaled (eta : Mat K C ℝ) (S : ℝ) : Prop := ∀ m, maxCoeff eta = some m → ∀ k c, |eta k c| ≤ if 0 < m then S * m else S

theorem scaled_fin (h : Wide F) {eta : Mat K C ℝ} {S : ℝ} (hS : 1 ≤ S) (hS' : S ≤ 2 ^ 80) (heta : Scaled eta S)
    (k : Fin K) (c : Fin C) : ∃ es : Mat K C ℝ, nEtaScaled F eta = some (fun k c => .fin (es k c)) ∧
      ∀ k c, |es k c| ≤ 1001 / 1000 * S + F.tiny := by
  have hm : ∃ m, maxCoeff eta = some m := by
    unfold maxCoeff
    rw [dif_pos ⟨(k, c), mem_univ _⟩]
    exact ⟨_, rfl⟩
  obtain ⟨m, hm⟩ := hm
  have hb := heta m hm
  have ht := tiny_pos (F := F)
  unfold nEtaScaled
  rw [hm, Option.map_some]
  by_cases h0 : 0 < m
  · simp only [h0, if_true] at hb ⊢
    have hle : ∀ k c, |fl F (eta k c / m)| ≤ 1001 / 1000 * S + F.tiny := fun k c => by
      have e1 := abs_fl_le (F := F) (eta k c / m)
      have e2 : |eta k c / m| ≤ S := by
        rw [abs_div, abs_of_pos h0, div_le_iff₀ h0]
        exact hb k c
      have hu := h.u.trans (by norm_num : (1 : ℝ) / 2 ^ 24 ≤ 1 / 1000)
      have e3 : (1 + F.u) * |eta k c / m| ≤ 1001 / 1000 * S :=
        mul_le_mul (by linarith) e2 (abs_nonneg _) (by norm_num)
      linarith
    refine ⟨fun k c => fl F (eta k c / m), ?_, hle⟩
    congr 1
    funext k c
    apply nDiv_fin h0.ne'
    apply h.small_lt
    have e1 := hle k c
    have e2 := h.tiny
    have e3 : (1 : ℝ) / 2 ^ 149 ≤ 1 := by norm_num
    have e4 : 1001 / 1000 * (2 : ℝ) ^ 80 + 1 ≤ 2 ^ 100 := by norm_num
    linarith
  · simp only [h0, if_false] at hb ⊢
    exact ⟨eta, rfl, fun k c => by linarith [hb k c]⟩

theorem exponents_fin (h : Wide F) {es : Mat K C ℝ} {S T w : ℝ} (hS : 1 ≤ S) (hS' : S ≤ 2 ^ 80) (hw : 0 ≤ w)
    (hT : 1 ≤ T) (hwS : w * S ≤ T) (hT' : T ≤ 2 ^ 20) (hC : C ≤ 2 ^ 20)
    (hes : ∀ k c, |es k c| ≤ 1001 / 1000 * S + F.tiny) {p : Vec C ℝ} (hp : ∀ c, 0 ≤ p c) (hp1 : ∑ c, p c ≤ 11 / 10)
    {gamma : Vec K ℝ} (hg : ∀ k, 1 / 1024 ≤ gamma k) (hg' : ∀ k, gamma k ≤ 2 ^ 34) (y : Fin C) :
    ∃ x : Vec K ℝ, nExponents D y w (fun k c => .fin (es k c)) (fun k => .fin (gamma k)) (fun c => .fin (p c)) =
      (fun k => .fin (x k)) ∧ ∀ k, x k ≤ 28 + 5 / 2 * T := by
  have hF := h.ok
  have ht := tiny_pos (F := F)
  have ht' : F.tiny ≤ 1 / 1000 := h.tiny.trans (by norm_num)
  have hu0 := u_pos (F := F)
  have hu := h.u.trans (by norm_num : (1 : ℝ) / 2 ^ 24 ≤ 1 / 10000000)
  have hes' : ∀ k c, |es k c| ≤ 1002 / 1000 * S := fun k c => by linarith [hes k c]
  have key : ∀ k, ∃ x : ℝ, nExponents D y w (fun k c => .fin (es k c)) (fun k => .fin (gamma k)) (fun c => .fin (p c)) k =
      .fin x ∧ x ≤ 28 + 5 / 2 * T := by
    intro k
    obtain ⟨r, h1, h2⟩ := products (D := D) h hC (a := es k) (p := p) (R := 1002 / 1000 * S) (by linarith)
      (by have : (1002 : ℝ) / 1000 * 2 ^ 80 ≤ 2 ^ 90 := by norm_num
          linarith) (hes' k) hp (by linarith)
    have a1 : |es k y - r| ≤ 234 / 100 * S := by
      have := abs_sub (es k y) r
      linarith [hes' k y]
    have a2 : |fl F (es k y - r)| ≤ 235 / 100 * S := by
      have e1 := abs_fl_le (F := F) (es k y - r)
      have e2 : (1 + F.u) * |es k y - r| ≤ (1 + 1 / 10000000) * (234 / 100 * S) :=
        mul_le_mul (by linarith) a1 (abs_nonneg _) (by norm_num)
      linarith
    have a3 : |w * fl F (es k y - r)| ≤ 235 / 100 * T := by
      rw [abs_mul, abs_of_nonneg hw]
      have := mul_le_mul_of_nonneg_left a2 hw
      linarith
    have a4 : |fl F (w * fl F (es k y - r))| ≤ 236 / 100 * T := by
      have e1 := abs_fl_le (F := F) (w * fl F (es k y - r))
      have e2 : (1 + F.u) * |w * fl F (es k y - r)| ≤ (1 + 1 / 10000000) * (235 / 100 * T) :=
        mul_le_mul (by linarith) a3 (abs_nonneg _) (by norm_num)
      linarith
    obtain ⟨b1, b2⟩ := psi_range D.toMachine (hg k) (hg' k)
    have a5 := abs_le.1 a4
    have a6 : |D.psi (gamma k) + fl F (w * fl F (es k y - r))| ≤ 1030 + 236 / 100 * T := by
      rw [abs_le]
      constructor <;> linarith
    have a7 := abs_fl_le (F := F) (D.psi (gamma k) + fl F (w * fl F (es k y - r)))
    have a8 : F.u * |D.psi (gamma k) + fl F (w * fl F (es k y - r))| ≤ 1 / 10000000 * (1030 + 236 / 100 * T) :=
      mul_le_mul hu a6 (abs_nonneg _) (by norm_num)
    refine ⟨fl F (D.psi (gamma k) + fl F (w * fl F (es k y - r))), ?_, ?_⟩
    · unfold nExponents
      simp only
      have n1 : D.npsi (.fin (gamma k)) = .fin (D.psi (gamma k)) := by
        apply D.npsi_fin
        · refine le_trans ?_ (hg k)
          norm_num
        · apply h.small_lt
          have : (2 : ℝ) ^ 34 ≤ 2 ^ 100 := by norm_num
          linarith [hg' k]
      rw [h1, n1, nSub_fin, nMul_fin, nAdd_fin]
      · apply h.small_lt
        have : 1 + 2 * (1030 + 236 / 100 * (2 : ℝ) ^ 20) ≤ 2 ^ 100 := by norm_num
        linarith
      · apply h.small_lt
        have : 236 / 100 * (2 : ℝ) ^ 20 ≤ 2 ^ 100 := by norm_num
        linarith
      · apply h.small_lt
        have : 235 / 100 * (2 : ℝ) ^ 80 ≤ 2 ^ 100 := by norm_num
        linarith
    · have := fl_le_add (F := F) (D.psi (gamma k) + fl F (w * fl F (es k y - r)))
      linarith
  choose x hx hx' using key
  exact ⟨x, funext hx, hx'⟩

/-! ### A pass -/

/-- Numbers that a pass keeps. -/
structure Kept (alpha gamma : Vec K ℝ) (phi : Mat K V ℝ) : Prop where
  low : ∀ k, alpha k ≤ gamma k
  high : ∀ k, gamma k ≤ 2 ^ 34
  nonneg : ∀ k n, 0 ≤ phi k n
  sum : ∀ n, ∑ k, phi k n ≤ 11 / 10

theorem phi_fin (h : Wide F) {r : ℝ} {q : ℕ} (hm : Moderate D r q) {X : Vec V ℕ} (hX : 0 < numWords X)
    (hX' : numWords X ≤ 2 ^ 31) (hK : K ≤ 2 ^ 20) (hV : V ≤ 2 ^ 20) (hC : C ≤ 2 ^ 20) {y : Fin C} {beta : Mat K V ℝ}
    {eta : Mat K C ℝ} {w R S T : ℝ} (hb0 : ∀ k n, 0 ≤ beta k n) (hb1 : ∀ k n, beta k n ≤ 1) (hR : 1 ≤ R)
    (hR' : 4 / 3 * R ≤ r) (hRR : R ≤ 2 ^ 90) (heta : ∀ k c, |eta k c| ≤ R) (hS : 1 ≤ S) (hS' : S ≤ 2 ^ 80) (hw : 0 ≤ w)
    (hT : 1 ≤ T) (hwS : w * S ≤ T) (hT' : T ≤ 2 ^ 20) (hTr : 28 + 5 / 2 * T ≤ r) (hsc : Scaled eta S)
    {gamma : Vec K ℝ} {phi : Mat K V ℝ} (hg : ∀ k, 1 / 1024 ≤ gamma k) (hg' : ∀ k, gamma k ≤ 2 ^ 34)
    (h0 : ∀ k n, 0 ≤ phi k n) (h1 : ∀ n, ∑ k, phi k n ≤ 11 / 10) (hK0 : 0 < K) :
    ∃ p : Mat K V ℝ, nPhi D X y beta eta w (fun k => .fin (gamma k)) (fun k n => .fin (phi k n)) =
      some (fun k n => .fin (p k n)) ∧ (∀ k n, 0 ≤ p k n) ∧ ∀ n, ∑ k, p k n ≤ 11 / 10 := by
  have hF := h.ok
  obtain ⟨z, hz, z0, z1⟩ := zbar_fin h hX hX' hK hV h0 h1
  have hscore : ∀ c, ∃ s : ℝ, nScores D X eta (fun k n => .fin (phi k n)) c = .fin s ∧ |s| ≤ r := by
    intro c
    obtain ⟨s, s1, s2⟩ := products (D := D) h hK (a := fun k => eta k c) (p := z) hR hRR (fun k => heta k c) z0 z1
    refine ⟨s, ?_, s2.trans hR'⟩
    unfold nScores
    rw [← s1]
    congr 1
    funext k
    rw [hz k]
  choose s hs hs' using hscore
  obtain ⟨p, hp, p0, p1⟩ := softmax_fin h hm hC y hs'
  obtain ⟨es, hes, hes'⟩ := scaled_fin h hS hS' hsc ⟨0, hK0⟩ y
  obtain ⟨x, hx, hx'⟩ := exponents_fin (D := D) h hS hS' hw hT hwS hT' hC hes' p0 p1 hg hg' y
  have hexp := fun k => hm.fin (x k) ((hx' k).trans hTr)
  choose e he e0 eq er using hexp
  -- the columns
  have hv0 : ∀ k n, 0 ≤ fl F (beta k n * e k) := fun k n => fl_nonneg (mul_nonneg (hb0 k n) (e0 k))
  have hvq : ∀ k n, fl F (beta k n * e k) ≤ 2 ^ q := fun k n => by
    have h2 : beta k n * e k ≤ 2 ^ q := by
      have := mul_le_mul (hb1 k n) (eq k) (e0 k) (by norm_num)
      linarith
    have := fl_le hF (j := (q : ℤ)) (mul_nonneg (hb0 k n) (e0 k)) (by have := h.low; omega) (by rw [zpow_natCast]; exact h2)
    rwa [zpow_natCast] at this
  have hlt : (2 : ℝ) ^ q < 2 ^ F.high := pow_lt_pow_right₀ (by norm_num) (by have := hm.high; omega)
  have hcol : ∀ n, ∃ p : Vec K ℝ, nNormalize D (fun k => nMul F (.fin (beta k n)) (.fin (e k))) = (fun k => .fin (p k)) ∧
      (∀ k, 0 ≤ p k) ∧ ∑ k, p k ≤ 11 / 10 := by
    intro n
    have hmul : (fun k => nMul F (.fin (beta k n)) (.fin (e k))) = fun k => .fin (fl F (beta k n * e k)) := by
      funext k
      apply nMul_fin
      rw [abs_of_nonneg (hv0 k n)]
      exact (hvq k n).trans_lt hlt
    rw [hmul]
    obtain ⟨t, ht, t0, _, t1⟩ := normalize_fin (D := D) h hK (fun k => hv0 k n) (fun k => fl_fl' hF _)
      (hm.sum_le hK fun k => hvq k n)
    unfold nNormalize
    rw [ht]
    by_cases hz : t = 0
    · subst hz
      rw [if_neg (by simp)]
      refine ⟨fun k => fl F (beta k n * e k), rfl, fun k => hv0 k n, ?_⟩
      rw [sum_congr rfl fun k _ => t0 rfl k]
      norm_num
    · rw [if_pos fun hc => hz (Ieee.fin.inj hc)]
      obtain ⟨_, _, p, hp, p0, p1⟩ := t1 hz
      exact ⟨p, funext hp, p0, p1⟩
  choose P hP P0 P1 using hcol
  refine ⟨fun k n => P n k, ?_, fun k n => P0 n k, P1⟩
  unfold nPhi
  rw [if_neg hX.ne', show nScores D X eta (fun k n => .fin (phi k n)) = fun c => .fin (s c) from funext hs, hp,
    Option.bind_some, hes, Option.bind_some, hx]
  have : mapNum (nExp D) (fun k => .fin (x k)) = some fun k => .fin (e k) := mapNum_some.2 fun k => by
    simp only [nExp, he k]
  rw [this, Option.map_some]
  congr 1
  funext k n
  exact congrFun (hP n) k

theorem gamma_scaled (h : Wide F) {X : Vec V ℕ} (hX' : numWords X ≤ 2 ^ 31) (hV : V ≤ 2 ^ 20) {alpha : Vec K ℝ}
    {phi : Mat K V ℝ} (ha : ∀ k, 0 ≤ alpha k) (ha' : ∀ k, alpha k ≤ 2 ^ 32) (hr : ∀ k, fl F (alpha k) = alpha k)
    (h0 : ∀ k n, 0 ≤ phi k n) (h1 : ∀ n, ∑ k, phi k n ≤ 11 / 10) :
    nGamma F X alpha (fun k n => .fin (phi k n)) = (fun k => .fin (rScaled F (fun n => fl F (X n : ℝ)) phi (alpha k) k)) ∧
      (∀ k, alpha k ≤ rScaled F (fun n => fl F (X n : ℝ)) phi (alpha k) k) ∧
      ∀ k, rScaled F (fun n => fl F (X n : ℝ)) phi (alpha k) k ≤ 2 ^ 34 := by
  have hF := h.ok
  have hw : ∀ n, 0 ≤ fl F (X n : ℝ) := fun n => (near_nat hF (X n)).1
  have q := h.pow_count hV
  have t := h.count_tiny hV
  have hz := fun k => near_rScaled hF (w := fun n => fl F (X n : ℝ)) (phi := phi) (k := k) hw (h0 k) (ha k) (hr k)
  have hle : ∀ k, rScaled F (fun n => fl F (X n : ℝ)) phi (alpha k) k ≤ 2 ^ 34 := by
    intro k
    have h2 := (hz k).2.2.2
    have h3 : ∑ n, fl F (X n : ℝ) * phi k n ≤ ∑ n, (X n : ℝ) * (6 / 5) := sum_le_sum fun n _ => by
      obtain ⟨x0, _, x2⟩ := near_nat hF (X n)
      have e1 : phi k n ≤ 11 / 10 := (single_le_sum (f := fun k => phi k n) (fun j _ => h0 j n) (mem_univ k)).trans (h1 n)
      have hu := h.u.trans (by norm_num : (1 : ℝ) / 2 ^ 24 ≤ 1 / 1000)
      have e2 : 999 / 1000 * fl F (X n : ℝ) ≤ X n := by
        have := mul_le_mul_of_nonneg_right (by linarith : 999 / 1000 ≤ 1 - F.u) x0
        linarith
      have e3 : fl F (X n : ℝ) * phi k n ≤ fl F (X n : ℝ) * (11 / 10) := mul_le_mul_of_nonneg_left e1 x0
      have e4 : (0 : ℝ) ≤ X n := Nat.cast_nonneg _
      linarith
    rw [← sum_mul] at h3
    have e : (∑ n, (X n : ℝ)) = (numWords X : ℝ) := by unfold numWords; push_cast; rfl
    have hN : (numWords X : ℝ) ≤ 2 ^ 31 := by exact_mod_cast hX'
    rw [e] at h3
    have h4 := mul_le_mul_of_nonneg_right q ((ha k).trans (hz k).1)
    have h5 := ha' k
    have h6 : (1 : ℝ) / 2 ^ 129 ≤ 1 := by norm_num
    generalize (1 : ℝ) / 2 ^ 129 = t' at *
    have e1 : (2 : ℝ) ^ 32 = 2 * 2 ^ 31 := by norm_num
    have e2 : (2 : ℝ) ^ 34 = 8 * 2 ^ 31 := by norm_num
    have e3 : (1 : ℝ) ≤ 2 ^ 31 := by norm_num
    rw [e1] at h5
    rw [e2]
    generalize (2 : ℝ) ^ 31 = N at *
    linarith
  refine ⟨?_, fun k => (hz k).1, hle⟩
  funext k
  unfold nGamma
  rw [show (fun n => toNum F (X n : ℝ)) = fun n => .fin (fl F (X n : ℝ)) from
    funext fun n => h.toNum_nat ((word_le n).trans hX')]
  refine nScaled_fin hF hw (h0 k) (ha k) (hr k) (h.small_lt ?_)
  have := hle k
  have e : (2 : ℝ) ^ 34 ≤ 2 ^ 100 := by norm_num
  linarith

theorem gamma_fin (h : Wide F) {X : Vec V ℕ} (hX' : numWords X ≤ 2 ^ 31) (hV : V ≤ 2 ^ 20) {alpha : Vec K ℝ}
    {phi : Mat K V ℝ} (ha : ∀ k, 0 ≤ alpha k) (ha' : ∀ k, alpha k ≤ 2 ^ 32) (hr : ∀ k, fl F (alpha k) = alpha k)
    (h0 : ∀ k n, 0 ≤ phi k n) (h1 : ∀ n, ∑ k, phi k n ≤ 11 / 10) :
    ∃ g : Vec K ℝ, nGamma F X alpha (fun k n => .fin (phi k n)) = (fun k => .fin (g k)) ∧ (∀ k, alpha k ≤ g k) ∧
      ∀ k, g k ≤ 2 ^ 34 :=
  ⟨_, gamma_scaled h hX' hV ha ha' hr h0 h1⟩

theorem first_fin (h : Wide F) {X : Vec V ℕ} (hX' : numWords X ≤ 2 ^ 31) (hK : 0 < K) (hK' : K ≤ 2 ^ 20)
    {alpha : Vec K ℝ} (ha : ∀ k, 0 ≤ alpha k) (ha' : ∀ k, alpha k ≤ 2 ^ 32) (hr : ∀ k, fl F (alpha k) = alpha k) :
    ∃ (g : Vec K ℝ) (p : Mat K V ℝ), nFirst F X alpha = (fun k => .fin (g k), fun k n => .fin (p k n)) ∧
      Kept alpha g p := by
  have hF := h.ok
  obtain ⟨p, hp, p1, p2⟩ := first_phi h hK hK'
  have hk : (0 : ℝ) < K := Nat.cast_pos.2 hK
  have hk1 : (1 : ℝ) ≤ K := by exact_mod_cast hK
  obtain ⟨k0, k1, _⟩ := near_nat hF K
  have n0 := (near_nat hF (numWords X)).1
  have n1 := h.nat_lt hX'
  have hu := u_le hF
  have kpos : 3 / 4 ≤ fl F (K : ℝ) := by
    have : 3 / 4 * (K : ℝ) ≤ (1 - F.u) * K := mul_le_mul_of_nonneg_right (by linarith) hk.le
    linarith
  have d0 : 0 ≤ fl F (numWords X : ℝ) / fl F K := div_nonneg n0 k0
  have d1 : fl F (numWords X : ℝ) / fl F K ≤ 2 ^ 32 := by
    rw [div_le_iff₀ (by linarith)]
    have : (2 : ℝ) ^ 32 * (3 / 4) ≤ 2 ^ 32 * fl F K := mul_le_mul_of_nonneg_left kpos (by norm_num)
    norm_num at n1 this ⊢
    linarith
  have f0 := fl_nonneg (F := F) d0
  have f1 := fl_le hF (j := 32) d0 (by have := h.low; omega) (by exact_mod_cast d1)
  have f1' : fl F (fl F (numWords X : ℝ) / fl F K) ≤ 2 ^ 32 := by exact_mod_cast f1
  have s0 : ∀ k, 0 ≤ alpha k + fl F (fl F (numWords X : ℝ) / fl F K) := fun k => add_nonneg (ha k) f0
  have s1 : ∀ k, fl F (alpha k + fl F (fl F (numWords X : ℝ) / fl F K)) ≤ 2 ^ 33 := fun k => by
    have h2 : alpha k + fl F (fl F (numWords X : ℝ) / fl F K) ≤ 2 ^ (33 : ℤ) := by
      have := ha' k
      have e : (2 : ℝ) ^ (33 : ℤ) = 2 ^ 32 + 2 ^ 32 := by norm_num
      rw [e]
      linarith
    have := fl_le hF (j := 33) (s0 k) (by have := h.low; omega) h2
    exact_mod_cast this
  have e33 : (2 : ℝ) ^ 33 ≤ 2 ^ 34 := by norm_num
  have e34 : (2 : ℝ) ^ 34 ≤ 2 ^ 100 := by norm_num
  have e32 : (2 : ℝ) ^ 32 ≤ 2 ^ 33 := by norm_num
  refine ⟨fun k => fl F (alpha k + fl F (fl F (numWords X : ℝ) / fl F K)), fun _ _ => p, ?_, ?_⟩
  · unfold nFirst
    rw [hp, h.toNum_nat hX', h.toNum_nat (hK'.trans (by norm_num)), nDiv_fin (by linarith)]
    · congr 1
      funext k
      apply nAdd_fin
      rw [abs_of_nonneg (fl_nonneg (s0 k))]
      exact h.small_lt ((s1 k).trans (e33.trans e34))
    · rw [abs_of_nonneg f0]
      exact h.small_lt (f1'.trans (e32.trans (e33.trans e34)))
  · refine ⟨fun k => ?_, fun k => (s1 k).trans e33, fun _ _ => le_trans (by positivity) p1, fun n => ?_⟩
    · conv_lhs => rw [← hr k]
      exact fl_mono hF (ha k) (by linarith)
    · rw [sum_const, card_univ, Fintype.card_fin, nsmul_eq_mul]
      have := mul_le_mul_of_nonneg_left p2 hk.le
      have e : (K : ℝ) * (101 / 100 / K) = 101 / 100 := by field_simp
      rw [e] at this
      linarith

/-- All passes stay finite. -/
theorem passes_fin (h : Wide F) {r : ℝ} {q : ℕ} (hm : Moderate D r q) {X : Vec V ℕ} (hX' : numWords X ≤ 2 ^ 31)
    (hK0 : 0 < K) (hK : K ≤ 2 ^ 20) (hV : V ≤ 2 ^ 20) (hC : C ≤ 2 ^ 20) {y : Fin C} {alpha : Vec K ℝ} {beta : Mat K V ℝ}
    {eta : Mat K C ℝ} {w R S T : ℝ} (ha : ∀ k, 1 / 1024 ≤ alpha k) (ha' : ∀ k, alpha k ≤ 2 ^ 32)
    (hr : ∀ k, fl F (alpha k) = alpha k) (hb0 : ∀ k n, 0 ≤ beta k n) (hb1 : ∀ k n, beta k n ≤ 1) (hR : 1 ≤ R)
    (hR' : 4 / 3 * R ≤ r) (hRR : R ≤ 2 ^ 90) (heta : ∀ k c, |eta k c| ≤ R) (hS : 1 ≤ S) (hS' : S ≤ 2 ^ 80) (hw : 0 ≤ w)
    (hT : 1 ≤ T) (hwS : w * S ≤ T) (hT' : T ≤ 2 ^ 20) (hTr : 28 + 5 / 2 * T ≤ r) (hsc : Scaled eta S) (i : ℕ) :
    ∃ (g : Vec K ℝ) (p : Mat K V ℝ), nPasses D X y alpha beta eta w i = some (fun k => .fin (g k), fun k n => .fin (p k n)) ∧
      Kept alpha g p := by
  have ha0 : ∀ k, 0 ≤ alpha k := fun k => by linarith [ha k]
  induction i with
  | zero =>
    obtain ⟨g, p, h1, h2⟩ := first_fin (F := F) h hX' hK0 hK ha0 ha' hr
    exact ⟨g, p, by rw [nPasses, h1], h2⟩
  | succ i ih =>
    obtain ⟨g, p, h1, h2⟩ := ih
    rw [nPasses, h1, Option.bind_some]
    obtain ⟨p', e1, e2, e3⟩ : ∃ p' : Mat K V ℝ, nPhi D X y beta eta w (fun k => .fin (g k)) (fun k n => .fin (p k n)) =
        some (fun k n => .fin (p' k n)) ∧ (∀ k n, 0 ≤ p' k n) ∧ ∀ n, ∑ k, p' k n ≤ 11 / 10 := by
      by_cases hX : numWords X = 0
      · refine ⟨p, ?_, h2.nonneg, h2.sum⟩
        unfold nPhi
        rw [if_pos hX]
      · exact phi_fin h hm (Nat.pos_of_ne_zero hX) hX' hK hV hC hb0 hb1 hR hR' hRR heta hS hS' hw hT hwS hT' hTr hsc
          (fun k => (ha k).trans (h2.low k)) h2.high h2.nonneg h2.sum hK0
    obtain ⟨g', f1, f2, f3⟩ := gamma_fin (F := F) h hX' hV ha0 ha' hr e2 e3
    refine ⟨g', p', ?_, f2, f3, e2, e3⟩
    rw [e1, Option.map_some, f1]

/-! ### The range of fast_exp -/

theorem lSquare_rep (hF : F.Ok) : ∀ (n : ℕ) (x v : ℝ), 0 ≤ x → fl F x = x → lSquare F n (some x) = some v → fl F v = v := by
  intro n
  induction n with
  | zero => intro x v _ hr h; cases h; exact hr
  | succ n ih =>
    intro x v hx hr h
    rw [lSquare] at h
    unfold bounded at h
    split_ifs at h
    · rw [lSquare_none] at h; cases h
    · exact ih _ v (fl_nonneg (mul_nonneg hx hx)) (fl_fl hF (mul_nonneg hx hx)) h

theorem lExpPos_rep (hF : F.Ok) {x v : ℝ} (hx : 0 ≤ x) (h : lExpPos D.toMachine x = some v) : fl F v = v := by
  unfold lExpPos at h
  split_ifs at h with h1
  · exact D.stdExp_rep x v h1 h
  · have hs := (start_range hF hx).1
    refine lSquare_rep hF _ _ v (by linarith) ?_ h
    have := lut_range (index_lt hx)
    exact fl_fl hF (by linarith)

theorem moderate_of (hF : F.Ok) (hlow : F.low ≤ 0) {r : ℝ} {q q' : ℕ} (hq : 1 ≤ q) (hpos : Positive D.toMachine r q')
    (hhigh : q + 22 ≤ F.high) (h : ∀ x, 0 ≤ x → x ≤ r → ∃ v, lExpPos D.toMachine x = some v ∧ v ≤ 2 ^ q) :
    Moderate D r q := by
  refine ⟨fun x hx => ?_, fun x e hx he => (two_zpow_pos _).trans_le (hpos x e hx he), hhigh⟩
  have two : (2 : ℝ) ≤ 2 ^ q := by
    have := pow_le_pow_right₀ (by norm_num : (1 : ℝ) ≤ 2) hq
    simpa using this
  unfold lExp
  split_ifs with h0
  · cases hv : lExpPos D.toMachine (-x) with
    | none => exact ⟨0, rfl, le_rfl, by linarith, Limits.fl_zero⟩
    | some v =>
      have hv1 := lExpPos_ge hF (by linarith) hv
      have d0 : 0 ≤ 1 / v := by positivity
      refine ⟨fl F (1 / v), rfl, fl_nonneg d0, ?_, fl_fl hF d0⟩
      have d1 : 1 / v ≤ 2 ^ (1 : ℤ) := by
        rw [div_le_iff₀ (by linarith)]
        norm_num
        linarith
      have := fl_le hF d0 (by omega) d1
      rw [zpow_one] at this
      linarith
  · push Not at h0
    obtain ⟨v, hv, hv2⟩ := h x h0 hx
    exact ⟨v, hv, by linarith [lExpPos_ge hF h0 hv], hv2, lExpPos_rep hF h0 hv⟩

theorem moderate_float (D : Device float) : Moderate D 70 102 := by
  refine moderate_of float_ok (by decide) (by norm_num) (q' := 126) ?_ (by decide) ?_
  · intro x w hx
    exact positive_float D.toMachine x w (by linarith)
  · intro x h0 h1
    obtain ⟨v, hv, _, h2⟩ := lExpPos_upper (M := D.toMachine) float_ok (by unfold Format.u float; norm_num) h0 (by linarith)
      (exp_le_two_pow 102 (by norm_num; linarith)) (by
        show (2 : ℝ) ^ 102 < 2 ^ 128
        norm_num)
    exact ⟨v, hv, h2⟩

theorem moderate_double (D : Device double) : Moderate D 690 1000 := by
  refine moderate_of double_ok (by decide) (by norm_num) (q' := 1011) ?_ (by decide) ?_
  · intro x w hx
    exact positive_double D.toMachine x w (by linarith)
  · intro x h0 h1
    rcases le_or_gt x 100 with h | h
    · obtain ⟨v, hv, _, h2⟩ := lExpPos_upper (M := D.toMachine) double_ok (by unfold Format.u double; norm_num) h0 h
        (exp_le_two_pow 1000 (by norm_num; linarith)) (by
          show (2 : ℝ) ^ 1000 < 2 ^ 1024
          exact pow_lt_pow_right₀ (by norm_num) (by norm_num))
      exact ⟨v, hv, h2⟩
    · have e1 : Real.exp x ≤ 2 ^ 999 := exp_le_two_pow 999 (by norm_num; linarith)
      have e2 : (2 : ℝ) ^ 1000 = 2 * 2 ^ 999 := pow_succ' 2 999
      have e3 : (2 : ℝ) ^ 1000 < 2 ^ double.high := pow_lt_pow_right₀ (by norm_num) (by decide)
      have hp := Real.exp_pos x
      generalize (2 : ℝ) ^ 999 = A at e1 e2
      generalize (2 : ℝ) ^ 1000 = B at e2 e3 ⊢
      have hne := D.stdExp_fin x (by linarith)
      obtain ⟨v, hv⟩ := Option.ne_none_iff_exists'.1 hne
      have hv2 := D.stdExp_err x v hv
      rw [abs_le] at hv2
      refine ⟨v, ?_, by linarith [hv2.2]⟩
      unfold lExpPos
      rw [if_pos h]
      exact hv

/-! ### C129 -/

/-- What is assumed of a model in C129: `alpha` and `beta` as they are in use, and class weights of at most `R` whose
ratio to their maximum (to 1 if it is not positive), times the weight of the classes, is at most `T`. -/
structure Mild (F : Format) (R T : ℝ) (alpha : Vec K ℝ) (beta : Mat K V ℝ) (eta : Mat K C ℝ) (w : ℝ) : Prop where
  topics : 0 < K ∧ K ≤ 2 ^ 20
  voc : V ≤ 2 ^ 20
  classes : C ≤ 2 ^ 20
  prior : ∀ k, 1 / 1024 ≤ alpha k ∧ alpha k ≤ 2 ^ 32 ∧ fl F (alpha k) = alpha k
  words : ∀ k n, 0 ≤ beta k n ∧ beta k n ≤ 1
  size : ∀ k c, |eta k c| ≤ R
  weight : 0 ≤ w
  ratio : ∃ S, 1 ≤ S ∧ S ≤ 2 ^ 80 ∧ w * S ≤ T ∧
    ((∃ k₁ c₁, 0 < eta k₁ c₁ ∧ ∀ k c, |eta k c| ≤ S * eta k₁ c₁) ∨ ∀ k c, eta k c ≤ 0 ∧ -S ≤ eta k c)

theorem scaled_of {eta : Mat K C ℝ} {S : ℝ} (hS : 1 ≤ S)
    (h : (∃ k₁ c₁, 0 < eta k₁ c₁ ∧ ∀ k c, |eta k c| ≤ S * eta k₁ c₁) ∨ ∀ k c, eta k c ≤ 0 ∧ -S ≤ eta k c) :
    Scaled eta S := by
  intro m hm k c
  unfold maxCoeff at hm
  split_ifs at hm with hne
  simp only [Option.some.injEq] at hm
  rcases h with ⟨k₁, c₁, h1, h2⟩ | h
  · have hle : eta k₁ c₁ ≤ m := by
      rw [← hm]
      exact Finset.le_sup' (fun p : Fin K × Fin C => eta p.1 p.2) (mem_univ (k₁, c₁))
    rw [if_pos (h1.trans_le hle)]
    exact (h2 k c).trans (mul_le_mul_of_nonneg_left hle (by linarith))
  · have hle : m ≤ 0 := by
      rw [← hm]
      exact Finset.sup'_le _ _ fun p _ => (h p.1 p.2).1
    rw [if_neg (not_lt.2 hle), abs_of_nonpos (h k c).1]
    linarith [(h k c).2]

/-- What the passes of the step return (C129): no undefined behaviour, `gamma` and `phi` finite, `gamma` at least
`alpha`, and the shares of a word not negative and at most 1.1 in total. -/
def Safe (D : Device F) (X : Vec V ℕ) (y : Fin C) (alpha : Vec K ℝ) (beta : Mat K V ℝ) (eta : Mat K C ℝ) (w : ℝ) (i : ℕ) :
    Prop :=
  ∃ (gamma : Vec K ℝ) (phi : Mat K V ℝ),
    nPasses D X y alpha beta eta w i = some (fun k => .fin (gamma k), fun k n => .fin (phi k n)) ∧
    (∀ k, alpha k ≤ gamma k) ∧ (∀ k n, 0 ≤ phi k n) ∧ ∀ n, ∑ k, phi k n ≤ 11 / 10

theorem safe_of (h : Wide F) {r : ℝ} {q : ℕ} (hm : Moderate D r q) {R T : ℝ} (hR : 1 ≤ R)
    (hR' : 4 / 3 * R ≤ r) (hRR : R ≤ 2 ^ 90) (hT : 1 ≤ T) (hT' : T ≤ 2 ^ 20) (hTr : 28 + 5 / 2 * T ≤ r)
    {X : Vec V ℕ} (hX : numWords X ≤ 2 ^ 31) {y : Fin C} {alpha : Vec K ℝ} {beta : Mat K V ℝ} {eta : Mat K C ℝ} {w : ℝ}
    (hmild : Mild F R T alpha beta eta w) (i : ℕ) : Safe D X y alpha beta eta w i := by
  obtain ⟨S, s1, s2, s3, s4⟩ := hmild.ratio
  obtain ⟨g, p, h1, h2⟩ := passes_fin h hm hX hmild.topics.1 hmild.topics.2 hmild.voc hmild.classes (y := y)
    (fun k => (hmild.prior k).1) (fun k => (hmild.prior k).2.1) (fun k => (hmild.prior k).2.2)
    (fun k n => (hmild.words k n).1) (fun k n => (hmild.words k n).2) hR hR' hRR hmild.size s1 s2 hmild.weight hT s3 hT' hTr
    (scaled_of s1 s4) i
  exact ⟨g, p, h1, h2.low, h2.nonneg, h2.sum⟩

/-- **C129** (partial).  With `double`, class weights of at most 500 that are at most 250 times their maximum (for
a class weight factor of 1) keep the fast supervised step finite, for every document and every number of passes. -/
theorem C129_double_partial {D : Device double} {X : Vec V ℕ} (hX : numWords X ≤ 2 ^ 31) {y : Fin C} {alpha : Vec K ℝ}
    {beta : Mat K V ℝ} {eta : Mat K C ℝ} {w : ℝ} (h : Mild double 500 250 alpha beta eta w) (i : ℕ) :
    Safe D X y alpha beta eta w i :=
  safe_of wide_double (moderate_double D) (by norm_num) (by norm_num) (by norm_num) (by norm_num) (by norm_num)
    (by norm_num) hX h i

/-- **C129** (partial).  With `float` the weights may be up to 50, and 16 times their maximum. -/
theorem C129_float_partial {D : Device float} {X : Vec V ℕ} (hX : numWords X ≤ 2 ^ 31) {y : Fin C} {alpha : Vec K ℝ}
    {beta : Mat K V ℝ} {eta : Mat K C ℝ} {w : ℝ} (h : Mild float 50 16 alpha beta eta w) (i : ℕ) :
    Safe D X y alpha beta eta w i :=
  safe_of wide_float (moderate_float D) (by norm_num) (by norm_num) (by norm_num) (by norm_num) (by norm_num)
    (by norm_num) hX h i

end Verif.Overflow
