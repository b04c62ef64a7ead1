import Verif.Props.Labels

/-
What the multinomial and the correspondence expectation steps return with the numbers of the machine (C137).
-/
namespace Verif.Overflow

open MathUtils EStep Rounded Limits Classical Finset
open Rounded hiding fl_nonneg fl_zero

variable {K V C : ℕ} {F : Format} {X : Vec V ℕ} {y : Fin C} {beta : Mat K V ℝ} {eta : Mat K C ℝ} {alpha : Vec K ℝ} {A m : ℝ}

/-! ### Models for which the steps are defined -/

/-- `gamma` and `phi` are finite, `gamma` is the prior plus the expected number of words but for an error of `d`, and
every word of the document is shared out among the topics. -/
def Shared (F : Format) (X : Vec V ℕ) (alpha : Vec K ℝ) (d : ℝ) (gamma : Vec K Num) (phi : Mat K V Num) : Prop :=
  ∃ (g : Vec K ℝ) (p : Mat K V ℝ), gamma = (fun k => .fin (g k)) ∧ phi = (fun k n => .fin (p k n)) ∧ (∀ k, alpha k ≤ g k) ∧
    (∀ k, |g k - (alpha k + ∑ n, (X n : ℝ) * p k n)| ≤ d) ∧ (∀ k n, 0 ≤ p k n) ∧
    ∀ n, X n ≠ 0 → |∑ k, p k n - 1| ≤ (3 * K + 5) * F.u

theorem rel_abs {r : ℕ} (h : Wide F) (hr : r ≤ 2 ^ 20) {s : ℝ} (hs : Rel ((2 * r + 3) * F.u) s 1) : |s - 1| ≤ (3 * r + 5) * F.u := by
  have hr' := million hr
  have hu := u_pos (F := F)
  have hu' := h.u
  have r0 : (0 : ℝ) ≤ r := Nat.cast_nonneg _
  have d0 : 0 ≤ (2 * r + 3) * F.u := by positivity
  have d1 : (2 * r + 3) * F.u ≤ 3 / 10 := by
    have : (2 * (r : ℝ) + 3) * F.u ≤ (2 * 2 ^ 20 + 3) * (1 / 2 ^ 24) := mul_le_mul (by linarith) hu' hu.le (by norm_num)
    exact this.trans (by norm_num)
  have e1 := Real.exp_bound_div_one_sub_of_interval d0 (by linarith)
  have e2 := Real.add_one_le_exp (-((2 * r + 3) * F.u))
  rw [Rel, mul_one, mul_one] at hs
  have e3 : 1 / (1 - (2 * r + 3) * F.u) ≤ 1 + 10 / 7 * ((2 * r + 3) * F.u) := by
    rw [div_le_iff₀ (by linarith)]
    nlinarith
  have e4 : (2 * (r : ℝ) + 3) * F.u * (10 / 7) ≤ (3 * r + 5) * F.u := by
    have : 0 ≤ (r : ℝ) * F.u := by positivity
    nlinarith
  rw [abs_le]
  constructor <;> linarith [hs.1, hs.2]

theorem Sound.shared (h : Sizes F X alpha A m) {g : Vec K ℝ} {p : Mat K V ℝ} (hs : Sound F X alpha A g p) :
    Shared F X alpha ((2 * V + 16) * (2 * numWords X + A + 1) * F.u) (fun k => .fin (g k)) (fun k n => .fin (p k n)) :=
  ⟨g, p, rfl, rfl, hs.low, hs.gamma, hs.nonneg, fun n hn => rel_abs h.wide h.topics.2 (hs.known n hn)⟩

theorem exists_word {X : Vec V ℕ} (h : 0 < numWords X) : ∃ n, X n ≠ 0 := by
  by_contra hc
  push Not at hc
  have : numWords X = 0 := by
    unfold numWords
    simp [hc]
  omega

theorem votes_double {L : LogDevice double} (hX : 0 < numWords X) (hb0 : ∀ k n, 0 ≤ beta k n) (hb1 : ∀ k n, beta k n ≤ 1) {w : ℝ} (hw : 0 < w)
    (he0 : ∀ k, 0 ≤ eta k y) (he1 : ∀ k, eta k y ≤ 1) (he : ∀ k, 0 < eta k y → w * (1 - Real.log (eta k y)) ≤ 450)
    (hb : ∀ n, X n ≠ 0 → ∃ k, 0 < eta k y ∧ 1 / 2 ^ 60 ≤ beta k n) : Votes L X beta (fun k => eta k y) w 200 700 := by
  have hw' : w ≤ 450 := by
    obtain ⟨n, hn⟩ := exists_word hX
    obtain ⟨k, hk, -⟩ := hb n hn
    have h1 := he k hk
    have h2 : 0 ≤ w * -Real.log (eta k y) := mul_nonneg hw.le (by linarith [Real.log_nonpos hk.le (he1 k)])
    linarith
  exact ⟨hb0, hb1, hw.le, fun k => (he0 k).lt_or_eq.imp_right fun h => ⟨h.symm, hw⟩, he1,
    fun k hk => by
      have := he k hk
      unfold deep
      linarith,
    by norm_num, ⟨690, 1000, moderate_double L.toDevice, by unfold deep; linarith⟩, by unfold deep; linarith, fun n hn => by
      obtain ⟨k, hk0, hk⟩ := hb n hn
      refine ⟨k, hk0, fun x e hx he => ?_⟩
      have h1 := positive_double L.toMachine x e hx he
      have h2 : (2 : ℝ) ^ double.low ≤ 2 ^ (-60 : ℤ) * 2 ^ (-(1011 : ℤ)) := by
        rw [← zpow_add₀ (by norm_num)]
        exact zpow_le_zpow_right₀ (by norm_num) (by decide)
      have h3 : (2 : ℝ) ^ (-60 : ℤ) = 1 / 2 ^ 60 := by rw [zpow_neg, one_div]; norm_cast
      rw [h3] at h2
      exact h2.trans (mul_le_mul hk h1 (two_zpow_pos _).le (hb0 k n))⟩

/-- C137, the part that holds of the multinomial step with `double`: priors of at least 1/200, weights of the class that
are probabilities, of which the weighted logarithm is not too small unless they are zero, and a topic that produces the
class for every word of the document. -/
theorem C137_multinomial_double_partial (L : LogDevice double) (hX : 0 < numWords X) (hX' : numWords X ≤ 2 ^ 31) (hK : 0 < K) (hK' : K ≤ 2 ^ 20)
    (hV : V ≤ 2 ^ 20) (ha : ∀ k, 1 / 200 ≤ alpha k) (ha' : ∀ k, alpha k ≤ A) (hA : A ≤ 2 ^ 32) (hr : ∀ k, fl double (alpha k) = alpha k)
    (hb0 : ∀ k n, 0 ≤ beta k n) (hb1 : ∀ k n, beta k n ≤ 1) {w : ℝ} (hw : 0 < w) (he0 : ∀ k, 0 ≤ eta k y) (he1 : ∀ k, eta k y ≤ 1)
    (he : ∀ k, 0 < eta k y → w * (1 - Real.log (eta k y)) ≤ 450) (hb : ∀ n, X n ≠ 0 → ∃ k, 0 < eta k y ∧ 1 / 2 ^ 60 ≤ beta k n)
    (tol : ℝ) (iterations : ℕ) :
    ∃ gamma phi, mRun L X y alpha (fun k n => .fin (beta k n)) (fun k c => .fin (eta k c)) w tol iterations = some (gamma, phi) ∧
      Shared double X alpha ((2 * V + 16) * (2 * numWords X + A + 1) * double.u) gamma phi := by
  have hS : Sizes double X alpha A 200 := ⟨wide_double, le_rfl, hX', ⟨hK, hK'⟩, hV, by norm_num, ha, ha', hA, hr⟩
  obtain ⟨g, p, h1, h2⟩ := mRun_fin hS (votes_double hX hb0 hb1 hw he0 he1 he hb) tol iterations
  exact ⟨_, _, h1, h2.shared hS⟩

theorem votes_float {L : LogDevice float} (hX : 0 < numWords X) (hb0 : ∀ k n, 0 ≤ beta k n) (hb1 : ∀ k n, beta k n ≤ 1) {w : ℝ} (hw : 0 < w)
    (he0 : ∀ k, 0 ≤ eta k y) (he1 : ∀ k, eta k y ≤ 1) (he : ∀ k, 0 < eta k y → w * (1 - Real.log (eta k y)) ≤ 24)
    (hb : ∀ n, X n ≠ 0 → ∃ k, 0 < eta k y ∧ 1 / 2 ^ 23 ≤ beta k n) : Votes L X beta (fun k => eta k y) w 16 87 := by
  have hw' : w ≤ 24 := by
    obtain ⟨n, hn⟩ := exists_word hX
    obtain ⟨k, hk, -⟩ := hb n hn
    have h1 := he k hk
    have h2 : 0 ≤ w * -Real.log (eta k y) := mul_nonneg hw.le (by linarith [Real.log_nonpos hk.le (he1 k)])
    linarith
  exact ⟨hb0, hb1, hw.le, fun k => (he0 k).lt_or_eq.imp_right fun h => ⟨h.symm, hw⟩, he1,
    fun k hk => by
      have := he k hk
      unfold deep
      linarith,
    by norm_num, ⟨70, 102, moderate_float L.toDevice, by unfold deep; linarith⟩, by unfold deep; linarith, fun n hn => by
      obtain ⟨k, hk0, hk⟩ := hb n hn
      refine ⟨k, hk0, fun x e hx he => ?_⟩
      have h1 := positive_float L.toMachine x e hx he
      have h2 : (2 : ℝ) ^ float.low ≤ 2 ^ (-23 : ℤ) * 2 ^ (-(126 : ℤ)) := by
        rw [← zpow_add₀ (by norm_num)]
        exact zpow_le_zpow_right₀ (by norm_num) (by decide)
      have h3 : (2 : ℝ) ^ (-23 : ℤ) = 1 / 2 ^ 23 := by rw [zpow_neg, one_div]; norm_cast
      rw [h3] at h2
      exact h2.trans (mul_le_mul hk h1 (two_zpow_pos _).le (hb0 k n))⟩

/-- C137, the part that holds of the multinomial step with `float`. -/
theorem C137_multinomial_float_partial (L : LogDevice float) (hX : 0 < numWords X) (hX' : numWords X ≤ 2 ^ 31) (hK : 0 < K) (hK' : K ≤ 2 ^ 20)
    (hV : V ≤ 2 ^ 20) (ha : ∀ k, 1 / 16 ≤ alpha k) (ha' : ∀ k, alpha k ≤ A) (hA : A ≤ 2 ^ 32) (hr : ∀ k, fl float (alpha k) = alpha k)
    (hb0 : ∀ k n, 0 ≤ beta k n) (hb1 : ∀ k n, beta k n ≤ 1) {w : ℝ} (hw : 0 < w) (he0 : ∀ k, 0 ≤ eta k y) (he1 : ∀ k, eta k y ≤ 1)
    (he : ∀ k, 0 < eta k y → w * (1 - Real.log (eta k y)) ≤ 24) (hb : ∀ n, X n ≠ 0 → ∃ k, 0 < eta k y ∧ 1 / 2 ^ 23 ≤ beta k n)
    (tol : ℝ) (iterations : ℕ) :
    ∃ gamma phi, mRun L X y alpha (fun k n => .fin (beta k n)) (fun k c => .fin (eta k c)) w tol iterations = some (gamma, phi) ∧
      Shared float X alpha ((2 * V + 16) * (2 * numWords X + A + 1) * float.u) gamma phi := by
  have hS : Sizes float X alpha A 16 := ⟨wide_float, by unfold Format.u float double; norm_num, hX', ⟨hK, hK'⟩, hV, by norm_num, ha, ha', hA, hr⟩
  obtain ⟨g, p, h1, h2⟩ := mRun_fin hS (votes_float hX hb0 hb1 hw he0 he1 he hb) tol iterations
  exact ⟨_, _, h1, h2.shared hS⟩

theorem log_ge {x : ℝ} (h : 1 / 2 ^ 62 ≤ x) : 1 - Real.log x ≤ 44 := by
  have h1 := Real.log_le_log (by positivity) h
  rw [one_div, Real.log_inv, Real.log_pow] at h1
  have := Real.log_two_lt_d9
  push_cast at h1
  linarith

/-- The importance of the words: finite, nonnegative and of sum one. -/
def Spread (F : Format) (tau : Vec V Num) : Prop :=
  ∃ t : Vec V ℝ, tau = (fun n => .fin (t n)) ∧ (∀ n, 0 ≤ t n) ∧ |∑ n, t n - 1| ≤ (3 * V + 5) * F.u

theorem tags_double {L : LogDevice double} (hb0 : ∀ k n, 0 ≤ beta k n) (hb1 : ∀ k n, beta k n ≤ 1) (he0 : ∀ k, 1 / 2 ^ 62 ≤ eta k y) (he1 : ∀ k, eta k y ≤ 1)
    (hb : ∀ n, X n ≠ 0 → ∃ k, 1 / 2 ^ 900 ≤ beta k n) : Tags L X beta (fun k => eta k y) 50 :=
  ⟨hb0, hb1, fun k => lt_of_lt_of_le (by positivity) (he0 k), he1, fun k => log_ge (he0 k),
    by unfold deep; norm_num, 900, 76, fun n hn => by
      obtain ⟨k, hk⟩ := hb n hn
      refine ⟨k, ?_⟩
      rw [zpow_neg, ← one_div, zpow_natCast]
      exact hk, by decide, by unfold deep; norm_num⟩

/-- C137, the part that holds of the correspondence step with `double`: priors of at least 1/50, probabilities of the class
of at least 2^-62, and a topic that produces the word with a probability of at least 2^-900 for every word of the document. -/
theorem C137_correspondence_double_partial (L : LogDevice double) (hX : 0 < numWords X) (hX' : numWords X ≤ 2 ^ 31) (hK : 0 < K) (hK' : K ≤ 2 ^ 20)
    (hV : V ≤ 2 ^ 20) (ha : ∀ k, 1 / 50 ≤ alpha k) (ha' : ∀ k, alpha k ≤ A) (hA : A ≤ 2 ^ 32) (hr : ∀ k, fl double (alpha k) = alpha k)
    (hb0 : ∀ k n, 0 ≤ beta k n) (hb1 : ∀ k n, beta k n ≤ 1) (he0 : ∀ k, 1 / 2 ^ 62 ≤ eta k y) (he1 : ∀ k, eta k y ≤ 1)
    (hb : ∀ n, X n ≠ 0 → ∃ k, 1 / 2 ^ 900 ≤ beta k n) (tol : ℝ) (iterations : ℕ) :
    ∃ s, cRun L X y alpha (fun k n => .fin (beta k n)) (fun k c => .fin (eta k c)) tol iterations = some s ∧
      Shared double X alpha ((2 * V + 16) * (2 * numWords X + A + 1) * double.u) s.gamma s.phi ∧ Spread double s.tau := by
  have hS : Sizes double X alpha A 50 := ⟨wide_double, le_rfl, hX', ⟨hK, hK'⟩, hV, by norm_num, ha, ha', hA, hr⟩
  obtain ⟨g, p, t, h1, h2, h3, h4⟩ := cRun_fin hS hX (tags_double hb0 hb1 he0 he1 hb) tol iterations
  exact ⟨_, h1, h2.shared hS, t, rfl, h3, rel_abs wide_double hV h4⟩

theorem tags_float {L : LogDevice float} (hb0 : ∀ k n, 0 ≤ beta k n) (hb1 : ∀ k n, beta k n ≤ 1) (he0 : ∀ k, 1 / 2 ^ 62 ≤ eta k y) (he1 : ∀ k, eta k y ≤ 1)
    (hb : ∀ n, X n ≠ 0 → ∃ k, 1 / 2 ^ 50 ≤ beta k n) : Tags L X beta (fun k => eta k y) 16 :=
  ⟨hb0, hb1, fun k => lt_of_lt_of_le (by positivity) (he0 k), he1, fun k => log_ge (he0 k),
    by unfold deep; norm_num, 50, 27, fun n hn => by
      obtain ⟨k, hk⟩ := hb n hn
      refine ⟨k, ?_⟩
      rw [zpow_neg, ← one_div, zpow_natCast]
      exact hk, by decide, by unfold deep; norm_num⟩

/-- C137, the part that holds of the correspondence step with `float`. -/
theorem C137_correspondence_float_partial (L : LogDevice float) (hX : 0 < numWords X) (hX' : numWords X ≤ 2 ^ 31) (hK : 0 < K) (hK' : K ≤ 2 ^ 20)
    (hV : V ≤ 2 ^ 20) (ha : ∀ k, 1 / 16 ≤ alpha k) (ha' : ∀ k, alpha k ≤ A) (hA : A ≤ 2 ^ 32) (hr : ∀ k, fl float (alpha k) = alpha k)
    (hb0 : ∀ k n, 0 ≤ beta k n) (hb1 : ∀ k n, beta k n ≤ 1) (he0 : ∀ k, 1 / 2 ^ 62 ≤ eta k y) (he1 : ∀ k, eta k y ≤ 1)
    (hb : ∀ n, X n ≠ 0 → ∃ k, 1 / 2 ^ 50 ≤ beta k n) (tol : ℝ) (iterations : ℕ) :
    ∃ s, cRun L X y alpha (fun k n => .fin (beta k n)) (fun k c => .fin (eta k c)) tol iterations = some s ∧
      Shared float X alpha ((2 * V + 16) * (2 * numWords X + A + 1) * float.u) s.gamma s.phi ∧ Spread float s.tau := by
  have hS : Sizes float X alpha A 16 := ⟨wide_float, by unfold Format.u float double; norm_num, hX', ⟨hK, hK'⟩, hV, by norm_num, ha, ha', hA, hr⟩
  obtain ⟨g, p, t, h1, h2, h3, h4⟩ := cRun_fin hS hX (tags_float hb0 hb1 he0 he1 hb) tol iterations
  exact ⟨_, h1, h2.shared hS, t, rfl, h3, rel_abs wide_float hV h4⟩

/-! ### Models for which the steps are undefined -/

theorem mPhi_none {L : LogDevice F} {w : ℝ} {k : Fin K} (h : nMul F (.fin w) (nLog L (.fin (eta k y))) = .nan) (g : Vec K Num) :
    mPhi L y (fun k n => .fin (beta k n)) (fun k c => .fin (eta k c)) w g = none := by
  unfold mPhi
  rw [mapNum_none k, Option.map_none]
  unfold mExponents
  rw [h]
  rfl

theorem mRun_none {L : LogDevice F} {w tol : ℝ} (hc : nConverged L.toDevice (fun _ => .fin 0) (nFirst F X alpha).1 tol = false)
    (h : ∀ g, mPhi L y (fun k n => .fin (beta k n)) (fun k c => .fin (eta k c)) w g = none) (i : ℕ) : mRun L X y alpha (fun k n => .fin (beta k n)) (fun k c => .fin (eta k c)) w tol (i + 1) = none := by
  unfold mRun mLoop
  rw [hc, h]
  rfl

/-- C137 is false: with an `eta_weight` of zero the multinomial step is undefined for a class that a topic does not
produce, instead of ignoring the class. -/
theorem C137_weightless (L : LogDevice F) {k : Fin K} (hk : eta k y = 0) {tol : ℝ}
    (hc : nConverged L.toDevice (fun _ => .fin 0) (nFirst F X alpha).1 tol = false) (i : ℕ) :
    mRun L X y alpha (fun k n => .fin (beta k n)) (fun k c => .fin (eta k c)) 0 tol (i + 1) = none := by
  refine mRun_none hc (mPhi_none (k := k) ?_) i
  rw [hk]
  simp [nLog, nMul, Ieee.mul, Ieee.infMul]

/-- C137 is false: the multinomial step is undefined for a negative weight of the class, as the steps for logistic
regression produce them. -/
theorem C137_multinomial_negative (L : LogDevice F) {k : Fin K} (hk : eta k y < 0) {w tol : ℝ}
    (hc : nConverged L.toDevice (fun _ => .fin 0) (nFirst F X alpha).1 tol = false) (i : ℕ) :
    mRun L X y alpha (fun k n => .fin (beta k n)) (fun k c => .fin (eta k c)) w tol (i + 1) = none := by
  refine mRun_none hc (mPhi_none (k := k) ?_) i
  simp [nLog, nMul, Ieee.mul, not_lt.2 hk.le, hk.ne]

theorem mapMat_none {f : Num → Option Num} {v : Mat K V Num} (k : Fin K) (n : Fin V) (h : f (v k n) = none) : mapMat f v = none := by
  unfold mapMat
  rw [dif_neg]
  intro hc
  have := hc k n
  rw [h] at this
  exact absurd this (by simp)

theorem mapMat_some {f : Num → Option Num} {v w : Mat K V Num} (h : mapMat f v = some w) (k : Fin K) (n : Fin V) : f (v k n) = some (w k n) := by
  unfold mapMat at h
  split_ifs at h with hc
  rw [← Option.some.inj h, Option.some_get]

theorem cRun_none {L : LogDevice F} {tol : ℝ} (hc : nConverged L.toDevice (fun _ => .fin 0) (nFirst F X alpha).1 tol = false)
    (h : ∀ phi, cPhi L y (fun k n => .fin (beta k n)) (fun k c => .fin (eta k c)) (nFirst F X alpha).1 (fun _ => toNum F (fl double (1 / V))) = some phi → cTau L y (fun k c => .fin (eta k c)) phi = none) (i : ℕ) :
    cRun L X y alpha (fun k n => .fin (beta k n)) (fun k c => .fin (eta k c)) tol (i + 1) = none := by
  unfold cRun cLoop
  dsimp only
  rw [hc]
  cases hp : cPhi L y (fun k n => .fin (beta k n)) (fun k c => .fin (eta k c)) (nFirst F X alpha).1 (fun _ => toNum F (fl double (1 / V))) with
  | none => rfl
  | some phi =>
    simp only [Bool.false_eq_true, if_false, Option.bind_some]
    rw [h phi hp]
    rfl

/-- C137 is false: the correspondence step is undefined for a negative weight of the class. -/
theorem C137_correspondence_negative (L : LogDevice F) (hV : 0 < V) {k : Fin K} (hk : eta k y < 0) {tol : ℝ}
    (hc : nConverged L.toDevice (fun _ => .fin 0) (nFirst F X alpha).1 tol = false) (i : ℕ) :
    cRun L X y alpha (fun k n => .fin (beta k n)) (fun k c => .fin (eta k c)) tol (i + 1) = none := by
  refine cRun_none hc (fun phi hp => ?_) i
  unfold cPhi at hp
  rw [mapMat_none k ⟨0, hV⟩] at hp
  · cases h : mapNum (nExp L.toDevice) (fun k => L.npsi ((nFirst F X alpha).1 k)) <;> rw [h] at hp <;> simp at hp
  · simp [nLog, nMul, Ieee.mul, not_lt.2 hk.le, hk.ne, nExp]

theorem mul_zero_or_nan (x : Num) : nMul F x (.fin 0) = .fin 0 ∨ nMul F x (.fin 0) = .nan := by
  cases x with
  | fin a =>
    left
    show toNum F (a * 0) = _
    rw [mul_zero, toNum_zero]
  | _ => right; simp [nMul, Ieee.mul, Ieee.infMul]

theorem div_zero_or_nan {a b : Num} (ha : a = .fin 0 ∨ a = .nan) : nDiv F a b = .fin 0 ∨ nDiv F a b = .nan := by
  rcases ha with rfl | rfl
  · cases b with
    | fin b =>
      simp only [nDiv]
      by_cases h : b = 0
      · simp [h]
      · rw [if_neg h, zero_div, toNum_zero]
        exact Or.inl rfl
    | _ => simp [nDiv]
  · cases b <;> simp [nDiv]

theorem normalize_zero_or_nan {D : Device F} {r : ℕ} {v : Vec r Num} {i : Fin r} (h : v i = .fin 0 ∨ v i = .nan) :
    nNormalize D v i = .fin 0 ∨ nNormalize D v i = .nan := by
  unfold nNormalize
  split_ifs
  · exact div_zero_or_nan h
  · exact h

/-- C137 is false: the correspondence step is undefined for a class that a topic does not produce. -/
theorem C137_correspondence_undefined (L : LogDevice F) (hV : 0 < V) {k : Fin K} (hk : eta k y = 0) {tol : ℝ}
    (hc : nConverged L.toDevice (fun _ => .fin 0) (nFirst F X alpha).1 tol = false) (i : ℕ) :
    cRun L X y alpha (fun k n => .fin (beta k n)) (fun k c => .fin (eta k c)) tol (i + 1) = none := by
  refine cRun_none hc (fun phi hp => ?_) i
  have l0 : nLog L (.fin (eta k y)) = .ninf := by rw [hk]; simp [nLog]
  have key : phi k ⟨0, hV⟩ = .fin 0 ∨ phi k ⟨0, hV⟩ = .nan := by
    unfold cPhi at hp
    rw [Option.bind_eq_some_iff] at hp
    obtain ⟨e, -, hp⟩ := hp
    rw [Option.map_eq_some_iff] at hp
    obtain ⟨t, ht, rfl⟩ := hp
    have h1 := mapMat_some ht k ⟨0, hV⟩
    rw [l0] at h1
    have h2 : t k ⟨0, hV⟩ = .fin 0 := by
      have q0 : 0 ≤ fl F (fl double (1 / (V : ℝ))) := Limits.fl_nonneg (Limits.fl_nonneg (by positivity))
      unfold toNum at h1
      split_ifs at h1 with c1 c2
      · simpa [nMul, Ieee.mul, nExp] using h1.symm
      · have : (0 : ℝ) < 2 ^ F.high := by positivity
        linarith
      · rcases q0.eq_or_lt with q1 | q1
        · rw [← q1] at h1
          simp [nMul, Ieee.mul, Ieee.infMul, nExp] at h1
        · generalize fl F (fl double (1 / (V : ℝ))) = q at h1 q1
          simpa [nMul, Ieee.mul, Ieee.infMul, nExp, q1.ne', q1, not_le.2 q1] using h1.symm
    apply normalize_zero_or_nan
    rw [h2]
    exact mul_zero_or_nan _
  unfold cTau
  rw [mapNum_none ⟨0, hV⟩, Option.map_none]
  rw [nsum_nan k]
  · rfl
  · rw [l0]
    rcases key with h | h <;> rw [h] <;> simp [nMul, Ieee.mul, Ieee.infMul]

/-! ### Models for which all words are lost -/

theorem mPhi_lost {L : LogDevice F} (hF : F.Ok) {w : ℝ} {g : Vec K Num}
    (h : ∀ k, nExp L.toDevice (mExponents L w (fun k => .fin (eta k y)) g k) = some (.fin 0)) :
    mPhi L y (fun k n => .fin (beta k n)) (fun k c => .fin (eta k c)) w g = some fun _ _ => .fin 0 := by
  unfold mPhi
  rw [mapNum_some.2 h, Option.map_some]
  congr 1
  funext k n
  have h0 : (fun k => nMul F (.fin (beta k n)) (.fin 0)) = fun _ : Fin K => Ieee.fin (0 : ℝ) := by
    funext k
    show toNum F (beta k n * 0) = _
    rw [mul_zero, toNum_zero]
  rw [h0]
  obtain ⟨r, r', h1, -, h2, h3⟩ := nsum_fin (D := L.toDevice) hF (v := fun _ : Fin K => (0 : ℝ)) (fun _ => Limits.fl_zero) (by
    simp only [abs_zero, sum_const_zero]
    have := u_le hF
    have : (0 : ℝ) ≤ (1 - F.u) ^ K := pow_nonneg (by linarith) _
    positivity)
  have hr : r = 0 := by
    have := h2.2
    simp only [abs_zero, sum_const_zero] at this
    have p : 0 < (1 - F.u) ^ K := pow_pos (by linarith [u_le hF]) _
    have : r' ≤ 0 := by
      rw [add_zero] at this
      exact nonpos_of_mul_nonpos_right this p
    exact abs_nonpos_iff.1 (h3.trans this)
  unfold nNormalize
  rw [h1, hr, if_neg (by simp)]

theorem gamma_lost (h : Wide F) (hX' : numWords X ≤ 2 ^ 31) (hV : V ≤ 2 ^ 20) (ha : ∀ k, 0 ≤ alpha k) (ha' : ∀ k, alpha k ≤ 2 ^ 32)
    (hr : ∀ k, fl F (alpha k) = alpha k) : nGamma F X alpha (fun _ _ => .fin 0) = fun k => .fin (alpha k) := by
  have := (gamma_scaled h hX' hV ha ha' hr (phi := fun _ _ => 0) (fun _ _ => le_rfl) (fun n => by rw [sum_const_zero]; norm_num)).1
  rw [this]
  funext k
  congr 1
  unfold rScaled
  generalize List.finRange V = l
  induction l with
  | nil => rfl
  | cons n l ih =>
    rw [List.foldl_cons]
    simp only [mul_zero, Limits.fl_zero, add_zero, hr, ite_self] at ih ⊢
    exact ih

theorem mRun_lost {L : LogDevice F} (h : Sizes F X alpha A m) {w tol : ℝ}
    (hc : nConverged L.toDevice (fun _ => .fin 0) (nFirst F X alpha).1 tol = false)
    (he : ∀ g, Range F alpha g → ∀ k, nExp L.toDevice (mExponents L w (fun k => .fin (eta k y)) (fun k => .fin (g k)) k) = some (.fin 0)) (i : ℕ) :
    mRun L X y alpha (fun k n => .fin (beta k n)) (fun k c => .fin (eta k c)) w tol (i + 1) = some (fun k => .fin (alpha k), fun _ _ => .fin 0) := by
  obtain ⟨g, p, h1, h2⟩ := first_sound h
  have hA : ∀ k, alpha k ≤ 2 ^ 32 := fun k => (h.prior' k).trans h.big
  have hR : Range F alpha alpha := ⟨fun _ => le_rfl, fun k => (hA k).trans (by norm_num), h.rep⟩
  have hg := gamma_lost h.wide h.words' h.vocabulary (fun k => (h.alpha_pos k).le) hA h.rep
  have key : ∀ i old, mLoop L X y alpha (fun k n => .fin (beta k n)) (fun k c => .fin (eta k c)) w tol i old (fun k => .fin (alpha k), fun _ _ => .fin 0) =
      some (fun k => .fin (alpha k), fun _ _ => .fin 0) := by
    intro i
    induction i with
    | zero => intro old; rfl
    | succ i ih =>
      intro old
      unfold mLoop
      split_ifs
      · rfl
      · rw [mPhi_lost h.wide.ok (he alpha hR), Option.bind_some, hg]
        exact ih _
  unfold mRun mLoop
  rw [hc, h1]
  simp only [Bool.false_eq_true, if_false]
  rw [mPhi_lost h.wide.ok (he g h2.toRange), Option.bind_some, hg]
  exact key _ _

/-- C137 is false: for a class that no topic produces, the multinomial step loses all words, whatever the document. -/
theorem C137_lost (L : LogDevice F) (h : Sizes F X alpha A m) {w : ℝ} (hw : 0 < w) (hk : ∀ k, eta k y = 0) {tol : ℝ}
    (hc : nConverged L.toDevice (fun _ => .fin 0) (nFirst F X alpha).1 tol = false) (i : ℕ) :
    mRun L X y alpha (fun k n => .fin (beta k n)) (fun k c => .fin (eta k c)) w tol (i + 1) = some (fun k => .fin (alpha k), fun _ _ => .fin 0) := by
  refine mRun_lost h hc (fun g hg k => ?_) i
  rw [mExponents_zero h hg (hk k) hw]
  · rfl
  · have := h.inverse.2
    unfold deep
    linarith

theorem lost_exp {L : LogDevice F} (h : Sizes F X alpha A m) {w B c : ℝ} (hw : 0 ≤ w) (hw' : w ≤ 1000) (hk0 : ∀ k, 0 < eta k y) (hk1 : ∀ k, eta k y ≤ 1)
    (hk : ∀ k, w * Real.log (eta k y) ≤ -B) (hk' : ∀ k, -1900 ≤ w * Real.log (eta k y))
    (hB : c + deep (2 * m) + 28 ≤ 1023 / 1024 * B)
    (hz : ∀ x, x ≤ -c → lExp L.toMachine x = some 0) {g : Vec K ℝ} (hg : Range F alpha g) (k : Fin K) :
    nExp L.toDevice (mExponents L w (fun k => .fin (eta k y)) (fun k => .fin (g k)) k) = some (.fin 0) := by
  have hl : Real.log (eta k y) ≤ 0 := Real.log_nonpos (hk0 k).le (hk1 k)
  have e := abs_le.1 (L.log_err _ (hk0 k))
  rw [abs_of_nonpos hl] at e
  have e1 := mul_le_mul_of_nonneg_left e.1 hw
  have e2 := mul_le_mul_of_nonneg_left e.2 hw
  have h1 := hk k
  have h2 := hk' k
  have := h.inverse.2
  obtain ⟨x, hx, -, x1⟩ := mExponents_fin (L := L) h hg (ecol := fun k => eta k y) (w := w) (hk0 k) (by unfold deep; linarith)
    (by rw [abs_le]; constructor <;> linarith)
  rw [hx]
  show some _ = _
  rw [hz x (by linarith)]

/-- C137 is false with `double` even if all weights of the class are positive: with a large `eta_weight` all words are lost. -/
theorem C137_lost_double (L : LogDevice double) (h : Sizes double X alpha A 200) {w : ℝ} (hw : 0 ≤ w) (hw' : w ≤ 1000) (hk0 : ∀ k, 0 < eta k y)
    (hk1 : ∀ k, eta k y ≤ 1) (hk : ∀ k, w * Real.log (eta k y) ≤ -1200) (hk' : ∀ k, -1900 ≤ w * Real.log (eta k y)) {tol : ℝ}
    (hc : nConverged L.toDevice (fun _ => .fin 0) (nFirst double X alpha).1 tol = false) (i : ℕ) :
    mRun L X y alpha (fun k n => .fin (beta k n)) (fun k c => .fin (eta k c)) w tol (i + 1) = some (fun k => .fin (alpha k), fun _ _ => .fin 0) :=
  mRun_lost h hc (fun _ hg k => lost_exp h hw hw' hk0 hk1 hk hk' (c := 710) (by unfold deep; norm_num) (fun _ hx => lExp_zero_double hx) hg k) i

/-- C137 is false with `float` even if all weights of the class are positive. -/
theorem C137_lost_float (L : LogDevice float) (h : Sizes float X alpha A 16) {w : ℝ} (hw : 0 ≤ w) (hw' : w ≤ 1000) (hk0 : ∀ k, 0 < eta k y)
    (hk1 : ∀ k, eta k y ≤ 1) (hk : ∀ k, w * Real.log (eta k y) ≤ -160) (hk' : ∀ k, -1900 ≤ w * Real.log (eta k y)) {tol : ℝ}
    (hc : nConverged L.toDevice (fun _ => .fin 0) (nFirst float X alpha).1 tol = false) (i : ℕ) :
    mRun L X y alpha (fun k n => .fin (beta k n)) (fun k c => .fin (eta k c)) w tol (i + 1) = some (fun k => .fin (alpha k), fun _ _ => .fin 0) :=
  mRun_lost h hc (fun _ hg k => lost_exp h hw hw' hk0 hk1 hk hk' (c := 89) (by unfold deep; norm_num) (fun _ hx => lExp_zero_float hx) hg k) i

/-! ### Concrete cases -/

/-- A machine whose logarithm is rounded correctly. -/
noncomputable def plainLog (h : Wide F) : LogDevice F where
  toDevice := plainDevice h
  log x := fl F (Real.log x)
  log_err x _ := by
    have hu := h.u
    have ht := h.tiny
    have e : |fl F (Real.log x) - Real.log x| ≤ F.u * |Real.log x| + F.tiny := by
      rcases le_total 0 (Real.log x) with h0 | h0
      · rw [abs_of_nonneg h0]
        exact fl_err h0
      · have h1 : 0 ≤ -Real.log x := by linarith
        have := fl_err (F := F) h1
        rw [abs_of_nonpos h0]
        rwa [Verif.Overflow.fl_neg, ← neg_add', ← sub_eq_add_neg, abs_neg] at this
    have a0 := abs_nonneg (Real.log x)
    have : F.u * |Real.log x| ≤ 1 / 2 ^ 24 * |Real.log x| := mul_le_mul_of_nonneg_right hu a0
    have t1 : (1 : ℝ) / 2 ^ 149 ≤ 1 / 1024 := by norm_num
    have t2 : (1 : ℝ) / 2 ^ 24 * |Real.log x| ≤ 1 / 1024 * |Real.log x| := mul_le_mul_of_nonneg_right (by norm_num) a0
    linarith

/-- Half of the words belongs to either topic; the second topic does not produce the second word. -/
noncomputable def someBeta : Mat 2 3 ℝ := fun k n => if n = 0 then 1 / 2 else if k = 0 then 1 / 2 else 0

theorem half_log : 1 - Real.log (1 / 2) ≤ 17 / 10 := by
  have := Real.log_two_lt_d9
  rw [one_div, Real.log_inv]
  linarith

theorem someBeta_range (k : Fin 2) (n : Fin 3) : 0 ≤ someBeta k n ∧ someBeta k n ≤ 1 := by
  unfold someBeta
  split_ifs <;> norm_num

theorem someBeta_zero (n : Fin 3) : someBeta 0 n = 1 / 2 := by
  unfold someBeta
  split_ifs <;> first | rfl | simp_all

/-- The first class is produced by the first topic only. -/
noncomputable def someEta : Mat 2 2 ℝ := fun k c => if k = 0 then 1 / 2 else if c = 0 then 0 else 1

theorem someEta_range (k : Fin 2) : 0 ≤ someEta k 0 ∧ someEta k 0 ≤ 1 ∧ (0 < someEta k 0 → someEta k 0 = 1 / 2) := by
  unfold someEta
  by_cases h : k = 0 <;> simp [h]
  norm_num

example (tol : ℝ) (i : ℕ) : ∃ gamma phi, mRun (plainLog wide_double) ![1, 0, 2] 0 (fun _ => 1 / 2) (fun k n => .fin (someBeta k n)) (fun k c => .fin (someEta k c)) 100 tol i = some (gamma, phi) ∧
    Shared double ![1, 0, 2] (fun _ => 1 / 2) ((2 * (3 : ℕ) + 16) * (2 * numWords ![1, 0, 2] + 1 + 1) * double.u) gamma phi :=
  C137_multinomial_double_partial _ (by decide) (by decide) (by norm_num) (by norm_num) (by norm_num) (fun _ => by norm_num)
    (fun _ => by norm_num) (by norm_num) (fun _ => half_rep wide_double) (fun k n => (someBeta_range k n).1) (fun k n => (someBeta_range k n).2)
    (by norm_num) (fun k => (someEta_range k).1) (fun k => (someEta_range k).2.1)
    (fun k hk => by rw [(someEta_range k).2.2 hk]; linarith [half_log])
    (fun n _ => ⟨0, by simp [someEta], by rw [someBeta_zero]; norm_num⟩) tol i

example (tol : ℝ) (i : ℕ) : ∃ gamma phi, mRun (plainLog wide_float) ![1, 0, 2] 0 (fun _ => 1 / 2) (fun k n => .fin (someBeta k n)) (fun k c => .fin (someEta k c)) 10 tol i = some (gamma, phi) ∧
    Shared float ![1, 0, 2] (fun _ => 1 / 2) ((2 * (3 : ℕ) + 16) * (2 * numWords ![1, 0, 2] + 1 + 1) * float.u) gamma phi :=
  C137_multinomial_float_partial _ (by decide) (by decide) (by norm_num) (by norm_num) (by norm_num) (fun _ => by norm_num)
    (fun _ => by norm_num) (by norm_num) (fun _ => half_rep wide_float) (fun k n => (someBeta_range k n).1) (fun k n => (someBeta_range k n).2)
    (by norm_num) (fun k => (someEta_range k).1) (fun k => (someEta_range k).2.1)
    (fun k hk => by rw [(someEta_range k).2.2 hk]; linarith [half_log])
    (fun n _ => ⟨0, by simp [someEta], by rw [someBeta_zero]; norm_num⟩) tol i

example (tol : ℝ) (i : ℕ) : ∃ s, cRun (plainLog wide_double) ![1, 0, 2] (1 : Fin 2) (fun _ => 1 / 2) (fun k n => .fin (someBeta k n)) (fun k c => .fin (someEta k c)) tol i = some s ∧
    Shared double ![1, 0, 2] (fun _ => 1 / 2) ((2 * (3 : ℕ) + 16) * (2 * numWords ![1, 0, 2] + 1 + 1) * double.u) s.gamma s.phi ∧
    Spread double s.tau :=
  C137_correspondence_double_partial _ (by decide) (by decide) (by norm_num) (by norm_num) (by norm_num) (fun _ => by norm_num)
    (fun _ => by norm_num) (by norm_num) (fun _ => half_rep wide_double) (fun k n => (someBeta_range k n).1) (fun k n => (someBeta_range k n).2)
    (fun k => by unfold someEta; split_ifs <;> first | (exfalso; simp_all; done) | norm_num)
    (fun k => by unfold someEta; split_ifs <;> norm_num)
    (fun n _ => ⟨0, by rw [someBeta_zero]; exact one_div_le_one_div_of_le (by norm_num) (le_self_pow₀ (by norm_num) (by norm_num))⟩) tol i

example (tol : ℝ) (i : ℕ) : ∃ s, cRun (plainLog wide_float) ![1, 0, 2] (1 : Fin 2) (fun _ => 1 / 2) (fun k n => .fin (someBeta k n)) (fun k c => .fin (someEta k c)) tol i = some s ∧
    Shared float ![1, 0, 2] (fun _ => 1 / 2) ((2 * (3 : ℕ) + 16) * (2 * numWords ![1, 0, 2] + 1 + 1) * float.u) s.gamma s.phi ∧
    Spread float s.tau :=
  C137_correspondence_float_partial _ (by decide) (by decide) (by norm_num) (by norm_num) (by norm_num) (fun _ => by norm_num)
    (fun _ => by norm_num) (by norm_num) (fun _ => half_rep wide_float) (fun k n => (someBeta_range k n).1) (fun k n => (someBeta_range k n).2)
    (fun k => by unfold someEta; split_ifs <;> first | (exfalso; simp_all; done) | norm_num)
    (fun k => by unfold someEta; split_ifs <;> norm_num)
    (fun n _ => ⟨0, by rw [someBeta_zero]; norm_num⟩) tol i

example : ∀ i, mRun (plainLog wide_double) ![1, 0, 2] 0 (fun _ : Fin 2 => 1 / 2) (fun k n => .fin (someBeta k n)) (fun k c => .fin (someEta k c)) 0 0 (i + 1) = none :=
  C137_weightless (k := 1) _ (by simp [someEta]) (half_begins wide_double _ (by decide))

example : ∀ i, mRun (plainLog wide_double) ![1, 0, 2] (0 : Fin 1) (fun _ : Fin 2 => 1 / 2) (fun k n => .fin (someBeta k n)) (fun _ _ => .fin (-1)) 1 0 (i + 1) = none :=
  C137_multinomial_negative (k := 1) _ (by norm_num) (half_begins wide_double _ (by decide))

example : ∀ i, cRun (plainLog wide_double) ![1, 0, 2] (0 : Fin 1) (fun _ : Fin 2 => 1 / 2) (fun k n => .fin (someBeta k n)) (fun _ _ => .fin (-1)) 0 (i + 1) = none :=
  C137_correspondence_negative (k := 1) _ (by norm_num) (by norm_num) (half_begins wide_double _ (by decide))

example : ∀ i, cRun (plainLog wide_double) ![1, 0, 2] 0 (fun _ : Fin 2 => 1 / 2) (fun k n => .fin (someBeta k n)) (fun k c => .fin (someEta k c)) 0 (i + 1) = none :=
  C137_correspondence_undefined (k := 1) _ (by norm_num) (by simp [someEta]) (half_begins wide_double _ (by decide))

theorem some_sizes {m : ℝ} (h : Wide F) (hd : double.u ≤ F.u) (hm : 2 ≤ m) (hm' : m ≤ 512) :
    Sizes F ![1, 0, 2] (fun _ : Fin 2 => 1 / 2) 1 m :=
  ⟨h, hd, by decide, by norm_num, by norm_num, ⟨by linarith, hm'⟩, fun _ => one_div_le_one_div_of_le (by norm_num) hm, fun _ => by norm_num,
    by norm_num, fun _ => half_rep h⟩

example : ∀ i, mRun (plainLog wide_double) ![1, 0, 2] (0 : Fin 1) (fun _ : Fin 2 => 1 / 2) (fun k n => .fin (someBeta k n)) (fun _ _ => .fin 0) 1 0 (i + 1) =
    some (fun _ => .fin (1 / 2), fun _ _ => .fin 0) :=
  C137_lost _ (some_sizes (m := 2) wide_double le_rfl (by norm_num) (by norm_num)) (by norm_num) (fun _ => rfl)
    (half_begins wide_double _ (by decide))

example : ∀ i, mRun (plainLog wide_double) ![1, 0, 2] (0 : Fin 1) (fun _ : Fin 2 => 1 / 2) (fun k n => .fin (someBeta k n)) (fun _ _ => .fin (Real.exp (-2))) 800 0 (i + 1) =
    some (fun _ => .fin (1 / 2), fun _ _ => .fin 0) :=
  C137_lost_double _ (some_sizes wide_double le_rfl (by norm_num) (by norm_num)) (by norm_num) (by norm_num) (fun _ => Real.exp_pos _)
    (fun _ => Real.exp_le_one_iff.2 (by norm_num)) (fun _ => by rw [Real.log_exp]; norm_num) (fun _ => by rw [Real.log_exp]; norm_num)
    (half_begins wide_double _ (by decide))

example : ∀ i, mRun (plainLog wide_float) ![1, 0, 2] (0 : Fin 1) (fun _ : Fin 2 => 1 / 2) (fun k n => .fin (someBeta k n)) (fun _ _ => .fin (Real.exp (-2))) 100 0 (i + 1) =
    some (fun _ => .fin (1 / 2), fun _ _ => .fin 0) :=
  C137_lost_float _ (some_sizes wide_float (by unfold Format.u float double; norm_num) (by norm_num) (by norm_num)) (by norm_num) (by norm_num)
    (fun _ => Real.exp_pos _) (fun _ => Real.exp_le_one_iff.2 (by norm_num)) (fun _ => by rw [Real.log_exp]; norm_num)
    (fun _ => by rw [Real.log_exp]; norm_num) (half_begins wide_float _ (by decide))

end Verif.Overflow
