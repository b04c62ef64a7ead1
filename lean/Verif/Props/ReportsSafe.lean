import Verif.Props.Reports

/-
C138: the likelihood that an expectation step reports for a document is a number.  The bound 2^112 holds for `float`
too, whose numbers end at 2^128.
-/
namespace Verif.Overflow

open MathUtils EStep Limits Finset Classical

variable {K V C : ℕ} {F : Format} {X : Vec V ℕ} {y : Fin C} {beta : Mat K V ℝ} {eta : Mat K C ℝ} {alpha : Vec K ℝ} {A : ℝ}

theorem positive_beta_double (M : Machine double) {b : ℝ} (hb : 1 / 2 ^ 60 ≤ b) (x e : ℝ) (hx : -700 ≤ x) (he : lExp M x = some e) :
    2 ^ double.low ≤ b * e := by
  have h1 := positive_double M x e hx he
  have h2 : (2 : ℝ) ^ double.low ≤ 2 ^ (-60 : ℤ) * 2 ^ (-(1011 : ℤ)) := by
    rw [← zpow_add₀ (by norm_num)]
    exact zpow_le_zpow_right₀ (by norm_num) (by decide)
  have h3 : (2 : ℝ) ^ (-60 : ℤ) = 1 / 2 ^ 60 := by rw [zpow_neg, one_div]; norm_cast
  rw [h3] at h2
  exact h2.trans (mul_le_mul hb h1 (two_zpow_pos _).le (le_trans (by positivity) hb))

/-- C138, the part that holds of the unsupervised step with `double`. -/
theorem C138_unsupervised_double_partial (G : GammaDevice double) (hX' : numWords X ≤ 2 ^ 31) (hK : 0 < K)
    (hK' : K ≤ 2 ^ 20) (hV : V ≤ 2 ^ 20) (ha : ∀ k, 1 / 512 ≤ alpha k) (ha' : ∀ k, alpha k ≤ A) (hA : A ≤ 2 ^ 32)
    (hr : ∀ k, fl double (alpha k) = alpha k) (hb0 : ∀ k n, 0 ≤ beta k n) (hb1 : ∀ k n, beta k n ≤ 1)
    (hb : ∀ n, X n ≠ 0 → ∃ k, 1 / 2 ^ 60 ≤ beta k n) (tol : ℝ) (iterations : ℕ) :
    ∃ gamma phi, uRun G.toDevice X alpha (fun k n => .fin (beta k n)) tol iterations = some (gamma, phi) ∧
      Shared double X alpha ((2 * V + 16) * (2 * numWords X + A + 1) * double.u) gamma phi ∧
      ∃ r : ℝ, uReport G X alpha beta phi gamma = .fin r ∧ |r| ≤ 2 ^ 105 := by
  have hS : Sizes double X alpha A 512 := ⟨wide_double, le_rfl, hX', ⟨hK, hK'⟩, hV, by norm_num, ha, ha', hA, hr⟩
  have hv : Plain G.toDevice X beta 512 700 := ⟨hb0, hb1, by unfold deep; norm_num, ⟨690, 1000, moderate_double G.toDevice, by norm_num⟩, fun n hn => by
      obtain ⟨k, hk⟩ := hb n hn
      exact ⟨k, fun x e => positive_beta_double _ hk x e⟩⟩
  obtain ⟨g, p, h1, h2⟩ := uRun_fin hS hv tol iterations
  refine ⟨_, _, h1, h2.shared hS, uReport_bnd (j := 40) hS ?_ (by decide) (by norm_num) hb0 hb1 h2.toRange h2.nonneg h2.le_two⟩
  calc K * V ≤ 2 ^ 20 * 2 ^ 20 := Nat.mul_le_mul hK' hV
    _ = 2 ^ 40 := by norm_num

theorem positive_beta_float (M : Machine float) {b : ℝ} (hb : 1 / 2 ^ 23 ≤ b) (x e : ℝ) (hx : -87 ≤ x) (he : lExp M x = some e) :
    2 ^ float.low ≤ b * e := by
  have h1 := positive_float M x e hx he
  have h2 : (2 : ℝ) ^ float.low ≤ 2 ^ (-23 : ℤ) * 2 ^ (-(126 : ℤ)) := by
    rw [← zpow_add₀ (by norm_num)]
    exact zpow_le_zpow_right₀ (by norm_num) (by decide)
  have h3 : (2 : ℝ) ^ (-23 : ℤ) = 1 / 2 ^ 23 := by rw [zpow_neg, one_div]; norm_cast
  rw [h3] at h2
  exact h2.trans (mul_le_mul hb h1 (two_zpow_pos _).le (le_trans (by positivity) hb))

theorem float_u : double.u ≤ float.u := by unfold Format.u float double; norm_num

/-- C138, the part that holds of the unsupervised step with `float`: models with at most 2^24 numbers. -/
theorem C138_unsupervised_float_partial (G : GammaDevice float) (hX' : numWords X ≤ 2 ^ 31) (hK : 0 < K)
    (hK' : K ≤ 2 ^ 20) (hV : V ≤ 2 ^ 20) (hKV : K * V ≤ 2 ^ 24) (ha : ∀ k, 1 / 84 ≤ alpha k) (ha' : ∀ k, alpha k ≤ A) (hA : A ≤ 2 ^ 32)
    (hr : ∀ k, fl float (alpha k) = alpha k) (hb0 : ∀ k n, 0 ≤ beta k n) (hb1 : ∀ k n, beta k n ≤ 1)
    (hb : ∀ n, X n ≠ 0 → ∃ k, 1 / 2 ^ 23 ≤ beta k n) (tol : ℝ) (iterations : ℕ) :
    ∃ gamma phi, uRun G.toDevice X alpha (fun k n => .fin (beta k n)) tol iterations = some (gamma, phi) ∧
      Shared float X alpha ((2 * V + 16) * (2 * numWords X + A + 1) * float.u) gamma phi ∧
      ∃ r : ℝ, uReport G X alpha beta phi gamma = .fin r ∧ |r| ≤ 2 ^ 105 := by
  have hS : Sizes float X alpha A 84 := ⟨wide_float, float_u, hX', ⟨hK, hK'⟩, hV, by norm_num, ha, ha', hA, hr⟩
  have hv : Plain G.toDevice X beta 84 87 := ⟨hb0, hb1, by unfold deep; norm_num, ⟨70, 102, moderate_float G.toDevice, by norm_num⟩, fun n hn => by
      obtain ⟨k, hk⟩ := hb n hn
      exact ⟨k, fun x e => positive_beta_float _ hk x e⟩⟩
  obtain ⟨g, p, h1, h2⟩ := uRun_fin hS hv tol iterations
  exact ⟨_, _, h1, h2.shared hS, uReport_bnd hS hKV (by decide) (by norm_num) hb0 hb1 h2.toRange h2.nonneg h2.le_two⟩

/-- C138, the part that holds of the multinomial step with `double`: in addition to what C137 requires, no topic has the
probability zero of producing any of the classes, and the class of the document has a positive prior. -/
theorem C138_multinomial_double_partial (G : GammaDevice double) (hX : 0 < numWords X) (hX' : numWords X ≤ 2 ^ 31) (hK : 0 < K) (hK' : K ≤ 2 ^ 20)
    (hV : V ≤ 2 ^ 20) (hC : C ≤ 2 ^ 16) (ha : ∀ k, 1 / 200 ≤ alpha k) (ha' : ∀ k, alpha k ≤ A) (hA : A ≤ 2 ^ 32)
    (hr : ∀ k, fl double (alpha k) = alpha k) (hb0 : ∀ k n, 0 ≤ beta k n) (hb1 : ∀ k n, beta k n ≤ 1) {w : ℝ} (hw : 0 < w)
    (he0 : ∀ k c, 1 / 2 ^ 1074 ≤ eta k c) (he1 : ∀ k c, eta k c ≤ 1) (he : ∀ k, w * (1 - Real.log (eta k y)) ≤ 450)
    (hb : ∀ n, X n ≠ 0 → ∃ k, 1 / 2 ^ 60 ≤ beta k n) {prior mu portion : ℝ} (hq : 1 / 2 ^ 1074 ≤ prior) (hq' : prior ≤ 1)
    (hmu : 1 / 2 ^ 20 ≤ mu) (hmu' : mu ≤ 2 ^ 20) (hp : 0 ≤ portion) (hp' : portion ≤ 1) (tol : ℝ) (iterations : ℕ) :
    ∃ gamma phi, mRun G.toLogDevice X y alpha (fun k n => .fin (beta k n)) (fun k c => .fin (eta k c)) w tol iterations = some (gamma, phi) ∧
      ∃ r : ℝ, mReport G X y alpha beta eta prior mu portion phi gamma = .fin r ∧ |r| ≤ 2 ^ 112 := by
  have hS : Sizes double X alpha A 200 := ⟨wide_double, le_rfl, hX', ⟨hK, hK'⟩, hV, by norm_num, ha, ha', hA, hr⟩
  have p0 : ∀ k c, 0 < eta k c := fun k c => lt_of_lt_of_le (by positivity) (he0 k c)
  have hv := votes_double (L := G.toLogDevice) (y := y) hX hb0 hb1 hw (fun k => (p0 k y).le) (fun k => he1 k y) (fun k _ => he k)
    (fun n hn => (hb n hn).imp fun k h => ⟨p0 k y, h⟩)
  obtain ⟨g, p, h1, h2⟩ := mRun_fin hS hv tol iterations
  refine ⟨_, _, h1, mReport_bnd (j := 40) hS hX ?_ (by decide) (by norm_num) hb0 hb1 ⟨he0, he1, hmu, hmu', hp, hp', y.pos, hC⟩ ?_ hq hq' h2⟩
  · calc K * V ≤ 2 ^ 20 * 2 ^ 20 := Nat.mul_le_mul hK' hV
      _ = 2 ^ 40 := by norm_num
  · calc K * C ≤ 2 ^ 20 * 2 ^ 16 := Nat.mul_le_mul hK' hC
      _ ≤ 2 ^ double.prec := by decide

/-- C138, the part that holds of the multinomial step with `float`. -/
theorem C138_multinomial_float_partial (G : GammaDevice float) (hX : 0 < numWords X) (hX' : numWords X ≤ 2 ^ 31) (hK : 0 < K) (hK' : K ≤ 2 ^ 20)
    (hV : V ≤ 2 ^ 20) (hKV : K * V ≤ 2 ^ 24) (hC : C ≤ 2 ^ 16) (hKC : K * C ≤ 2 ^ 24) (ha : ∀ k, 1 / 16 ≤ alpha k) (ha' : ∀ k, alpha k ≤ A)
    (hA : A ≤ 2 ^ 32) (hr : ∀ k, fl float (alpha k) = alpha k) (hb0 : ∀ k n, 0 ≤ beta k n) (hb1 : ∀ k n, beta k n ≤ 1) {w : ℝ} (hw : 0 < w)
    (he0 : ∀ k c, 1 / 2 ^ 1074 ≤ eta k c) (he1 : ∀ k c, eta k c ≤ 1) (he : ∀ k, w * (1 - Real.log (eta k y)) ≤ 24)
    (hb : ∀ n, X n ≠ 0 → ∃ k, 1 / 2 ^ 23 ≤ beta k n) {prior mu portion : ℝ} (hq : 1 / 2 ^ 1074 ≤ prior) (hq' : prior ≤ 1)
    (hmu : 1 / 2 ^ 20 ≤ mu) (hmu' : mu ≤ 2 ^ 20) (hp : 0 ≤ portion) (hp' : portion ≤ 1) (tol : ℝ) (iterations : ℕ) :
    ∃ gamma phi, mRun G.toLogDevice X y alpha (fun k n => .fin (beta k n)) (fun k c => .fin (eta k c)) w tol iterations = some (gamma, phi) ∧
      ∃ r : ℝ, mReport G X y alpha beta eta prior mu portion phi gamma = .fin r ∧ |r| ≤ 2 ^ 112 := by
  have hS : Sizes float X alpha A 16 := ⟨wide_float, float_u, hX', ⟨hK, hK'⟩, hV, by norm_num, ha, ha', hA, hr⟩
  have p0 : ∀ k c, 0 < eta k c := fun k c => lt_of_lt_of_le (by positivity) (he0 k c)
  have hv := votes_float (L := G.toLogDevice) (y := y) hX hb0 hb1 hw (fun k => (p0 k y).le) (fun k => he1 k y) (fun k _ => he k)
    (fun n hn => (hb n hn).imp fun k h => ⟨p0 k y, h⟩)
  obtain ⟨g, p, h1, h2⟩ := mRun_fin hS hv tol iterations
  exact ⟨_, _, h1, mReport_bnd hS hX hKV (by decide) (by norm_num) hb0 hb1 ⟨he0, he1, hmu, hmu', hp, hp', y.pos, hC⟩ hKC hq hq' h2⟩

theorem tau_le_two (h : Wide F) (hV : V ≤ 2 ^ 20) {t : Vec V ℝ} (h0 : ∀ n, 0 ≤ t n) (h1 : Rel ((2 * V + 3) * F.u) (∑ n, t n) 1) (n : Fin V) :
    t n ≤ 2 := by
  have h2 := single_le_sum (f := t) (fun n _ => h0 n) (mem_univ n)
  have h3 := (abs_le.1 (rel_abs h hV h1)).2
  have hu := h.u
  have u0 : 0 ≤ F.u := by unfold Format.u; positivity
  have v : (V : ℝ) ≤ 2 ^ 20 := by exact_mod_cast hV
  have : (3 * V + 5) * F.u ≤ (3 * 2 ^ 20 + 5) * (1 / 2 ^ 24) := mul_le_mul (by linarith) hu u0 (by positivity)
  norm_num at this
  linarith

/-- C138, the part that holds of the correspondence step with `double`. -/
theorem C138_correspondence_double_partial (G : GammaDevice double) (hX : 0 < numWords X) (hX' : numWords X ≤ 2 ^ 31) (hK : 0 < K) (hK' : K ≤ 2 ^ 20)
    (hV : V ≤ 2 ^ 20) (hC : C ≤ 2 ^ 16) (ha : ∀ k, 1 / 50 ≤ alpha k) (ha' : ∀ k, alpha k ≤ A) (hA : A ≤ 2 ^ 32)
    (hr : ∀ k, fl double (alpha k) = alpha k) (hb0 : ∀ k n, 0 ≤ beta k n) (hb1 : ∀ k n, beta k n ≤ 1)
    (he0 : ∀ k c, 1 / 2 ^ 1074 ≤ eta k c) (he1 : ∀ k c, eta k c ≤ 1) (he : ∀ k, 1 / 2 ^ 62 ≤ eta k y)
    (hb : ∀ n, X n ≠ 0 → ∃ k, 1 / 2 ^ 900 ≤ beta k n) {mu portion : ℝ} (hmu : 1 / 2 ^ 20 ≤ mu) (hmu' : mu ≤ 2 ^ 20)
    (hp : 0 ≤ portion) (hp' : portion ≤ 1) (tol : ℝ) (iterations : ℕ) :
    ∃ s, cRun G.toLogDevice X y alpha (fun k n => .fin (beta k n)) (fun k c => .fin (eta k c)) tol iterations = some s ∧
      ∃ r : ℝ, cReport G X y alpha beta eta mu portion s = .fin r ∧ |r| ≤ 2 ^ 112 := by
  have hS : Sizes double X alpha A 50 := ⟨wide_double, le_rfl, hX', ⟨hK, hK'⟩, hV, by norm_num, ha, ha', hA, hr⟩
  obtain ⟨g, p, t, h1, h2, h3, h4⟩ := cRun_fin hS hX (tags_double (L := G.toLogDevice) hb0 hb1 he (fun k => he1 k y) hb) tol iterations
  refine ⟨_, h1, cReport_bnd (j := 40) hS hX ?_ (by decide) (by norm_num) hb0 hb1 ⟨he0, he1, hmu, hmu', hp, hp', y.pos, hC⟩ ?_ h2 h3
    (tau_le_two wide_double hV h3 h4)⟩
  · calc K * V ≤ 2 ^ 20 * 2 ^ 20 := Nat.mul_le_mul hK' hV
      _ = 2 ^ 40 := by norm_num
  · calc K * C ≤ 2 ^ 20 * 2 ^ 16 := Nat.mul_le_mul hK' hC
      _ ≤ 2 ^ double.prec := by decide

/-- C138, the part that holds of the correspondence step with `float`. -/
theorem C138_correspondence_float_partial (G : GammaDevice float) (hX : 0 < numWords X) (hX' : numWords X ≤ 2 ^ 31) (hK : 0 < K) (hK' : K ≤ 2 ^ 20)
    (hV : V ≤ 2 ^ 20) (hKV : K * V ≤ 2 ^ 24) (hC : C ≤ 2 ^ 16) (hKC : K * C ≤ 2 ^ 24) (ha : ∀ k, 1 / 16 ≤ alpha k) (ha' : ∀ k, alpha k ≤ A)
    (hA : A ≤ 2 ^ 32) (hr : ∀ k, fl float (alpha k) = alpha k) (hb0 : ∀ k n, 0 ≤ beta k n) (hb1 : ∀ k n, beta k n ≤ 1)
    (he0 : ∀ k c, 1 / 2 ^ 1074 ≤ eta k c) (he1 : ∀ k c, eta k c ≤ 1) (he : ∀ k, 1 / 2 ^ 62 ≤ eta k y)
    (hb : ∀ n, X n ≠ 0 → ∃ k, 1 / 2 ^ 50 ≤ beta k n) {mu portion : ℝ} (hmu : 1 / 2 ^ 20 ≤ mu) (hmu' : mu ≤ 2 ^ 20)
    (hp : 0 ≤ portion) (hp' : portion ≤ 1) (tol : ℝ) (iterations : ℕ) :
    ∃ s, cRun G.toLogDevice X y alpha (fun k n => .fin (beta k n)) (fun k c => .fin (eta k c)) tol iterations = some s ∧
      ∃ r : ℝ, cReport G X y alpha beta eta mu portion s = .fin r ∧ |r| ≤ 2 ^ 112 := by
  have hS : Sizes float X alpha A 16 := ⟨wide_float, float_u, hX', ⟨hK, hK'⟩, hV, by norm_num, ha, ha', hA, hr⟩
  obtain ⟨g, p, t, h1, h2, h3, h4⟩ := cRun_fin hS hX (tags_float (L := G.toLogDevice) hb0 hb1 he (fun k => he1 k y) hb) tol iterations
  exact ⟨_, h1, cReport_bnd hS hX hKV (by decide) (by norm_num) hb0 hb1 ⟨he0, he1, hmu, hmu', hp, hp', y.pos, hC⟩ hKC h2 h3
    (tau_le_two wide_float hV h3 h4)⟩

/-! ### Models for which no number is reported -/

theorem nAdd_only {a b : Num} {r : ℝ} (h : nAdd F a b = .fin r) : (∃ s, a = .fin s) ∧ ∃ s, b = .fin s := by
  cases a <;> cases b <;> first | exact ⟨⟨_, rfl⟩, _, rfl⟩ | (simp [nAdd, Ieee.add] at h)

theorem nMul_only {a b : Num} {r : ℝ} (h : nMul F a b = .fin r) : (∃ s, a = .fin s) ∧ ∃ s, b = .fin s := by
  cases a <;> cases b <;> first | exact ⟨⟨_, rfl⟩, _, rfl⟩ | (simp [nMul, Ieee.mul] at h; done) |
    (exfalso; simp only [nMul, Ieee.mul, Ieee.infMul] at h; split_ifs at h)

theorem nNeg_only {a : Num} {r : ℝ} (h : nNeg a = .fin r) : ∃ s, a = .fin s := by
  cases a <;> first | exact ⟨_, rfl⟩ | (simp [nNeg] at h)

theorem numSum_only {l : List Num} {s : Num} (h : NumSum F l s) : ∀ {r : ℝ}, s = .fin r → ∀ x ∈ l, ∃ t, x = .fin t := by
  induction h with
  | nil => simp
  | one x => intro r h y hy; rw [List.mem_singleton] at hy; exact ⟨r, hy.trans h⟩
  | add _ _ _ _ hp iha ihb =>
    intro r h x hx
    obtain ⟨⟨s, hs⟩, t, ht⟩ := nAdd_only h
    rcases List.mem_append.1 (hp.mem_iff.1 hx) with hx | hx
    · exact iha hs x hx
    · exact ihb ht x hx

theorem nsum_only {D : Device F} {n : ℕ} {v : Vec n Num} {r : ℝ} (h : D.nsum v = .fin r) (i : Fin n) : ∃ t, v i = .fin t :=
  numSum_only (D.nsum_spec v) h _ (List.mem_ofFn.2 ⟨i, rfl⟩)

theorem nTotal_only {G : GammaDevice F} {r c : ℕ} {v : Mat r c Num} {s : ℝ} (h : nTotal G v = .fin s) (k : Fin r) (n : Fin c) : ∃ t, v k n = .fin t := by
  obtain ⟨t, ht⟩ := nsum_only h (finProdFinEquiv (k, n))
  rw [Equiv.symm_apply_apply] at ht
  exact ⟨t, ht⟩

theorem nLog_only {L : LogDevice F} {x r : ℝ} (h : nLog L (.fin x) = .fin r) : 0 < x := by
  simp only [nLog] at h
  split_ifs at h
  assumption

theorem priorTerms_only {G : GammaDevice F} {mu portion r : ℝ} {l : Num} (h : nPriorTerms G eta mu portion l = .fin r) :
    (∃ s, l = .fin s) ∧ ∀ k c, 0 < eta k c := by
  obtain ⟨⟨s, h1⟩, -⟩ := nAdd_only h
  obtain ⟨h2, t, h3⟩ := nAdd_only h1
  obtain ⟨-, t, h4⟩ := nMul_only h3
  refine ⟨h2, fun k c => ?_⟩
  obtain ⟨t, h5⟩ := nTotal_only h4 k c
  exact nLog_only h5

/-- C138 is false: the multinomial step reports a number only if every topic has a positive probability of producing
every class, whatever the document is, and if the class of the document has a positive prior. -/
theorem C138_multinomial_needs (G : GammaDevice F) {prior mu portion r : ℝ} {phi : Mat K V Num} {gamma : Vec K Num}
    (h : mReport G X y alpha beta eta prior mu portion phi gamma = .fin r) : (∀ k c, 0 < eta k c) ∧ 0 < prior := by
  obtain ⟨⟨s, h1⟩, h2⟩ := priorTerms_only h
  obtain ⟨-, t, h3⟩ := nAdd_only h1
  obtain ⟨t, h4⟩ := nNeg_only h3
  obtain ⟨-, t, h5⟩ := nMul_only h4
  exact ⟨h2, nLog_only h5⟩

/-- C138 is false: the correspondence step reports a number only if every topic has a positive probability of producing
every class, whatever the document is. -/
theorem C138_correspondence_needs (G : GammaDevice F) {mu portion r : ℝ} {s : NumTriple K V}
    (h : cReport G X y alpha beta eta mu portion s = .fin r) : ∀ k c, 0 < eta k c :=
  (priorTerms_only h).2

theorem nAdd_nan (a : Num) : nAdd F a .nan = .nan ∧ nAdd F .nan a = .nan := by
  cases a <;> exact ⟨rfl, rfl⟩

theorem zero_mul_nan {b : Num} (h : ∀ r, b ≠ .fin r) : nMul F (.fin 0) b = .nan := by
  cases b with
  | fin r => exact absurd rfl (h r)
  | _ => simp [nMul, Ieee.mul, Ieee.infMul]

theorem priorTerms_nan (G : GammaDevice F) {portion : ℝ} {k : Fin K} {c : Fin C} (h : eta k c ≤ 0) (l : Num) :
    nPriorTerms G eta 1 portion l = .nan := by
  have e1 : nMul F (.fin portion) (nSub F (.fin 1) (.fin 1)) = .fin 0 := by
    simp only [nSub, nNeg, nAdd]
    rw [show (1 : ℝ) + -1 = 0 by norm_num, toNum_zero]
    simp only [nMul]
    rw [mul_zero, toNum_zero]
  unfold nPriorTerms
  rw [e1, zero_mul_nan, (nAdd_nan _).1, (nAdd_nan _).2]
  intro r hr
  obtain ⟨t, ht⟩ := nTotal_only hr k c
  exact absurd (nLog_only ht) (not_lt.2 h)

/-- C138 is false: without smoothing (`mu` = 1) a topic that does not produce one of the classes makes the multinomial
step report NaN for every document, which is what is reported for documents whose likelihood is not computed. -/
theorem C138_multinomial_unseen (G : GammaDevice F) {k : Fin K} {c : Fin C} (h : eta k c = 0) (prior portion : ℝ) (phi : Mat K V Num)
    (gamma : Vec K Num) : mReport G X y alpha beta eta prior 1 portion phi gamma = .nan :=
  priorTerms_nan G h.le _

/-- C138 is false: the same holds of the correspondence step. -/
theorem C138_correspondence_unseen (G : GammaDevice F) {k : Fin K} {c : Fin C} (h : eta k c = 0) (portion : ℝ) (s : NumTriple K V) :
    cReport G X y alpha beta eta 1 portion s = .nan :=
  priorTerms_nan G h.le _

/-! ### The theorems are not empty -/

/-- A machine whose `lgamma` is exact. -/
noncomputable def plainGamma (h : Wide F) : GammaDevice F where
  toLogDevice := plainLog h
  lgamma x := Real.log (Real.Gamma x)
  lgamma_err x _ := by
    rw [sub_self, abs_zero]
    positivity

example (tol : ℝ) (i : ℕ) : ∃ gamma phi, uRun (plainGamma wide_double).toDevice ![1, 0, 2] (fun _ => 1 / 2) (fun k n => .fin (someBeta k n)) tol i = some (gamma, phi) ∧
    Shared double ![1, 0, 2] (fun _ => 1 / 2) ((2 * (3 : ℕ) + 16) * (2 * numWords ![1, 0, 2] + 1 + 1) * double.u) gamma phi ∧
    ∃ r : ℝ, uReport (plainGamma wide_double) ![1, 0, 2] (fun _ => 1 / 2) someBeta phi gamma = .fin r ∧ |r| ≤ 2 ^ 105 :=
  C138_unsupervised_double_partial _ (by decide) (by norm_num) (by norm_num) (by norm_num) (fun _ => by norm_num)
    (fun _ => by norm_num) (by norm_num) (fun _ => half_rep wide_double) (fun k n => (someBeta_range k n).1) (fun k n => (someBeta_range k n).2)
    (fun n _ => ⟨0, by rw [someBeta_zero]; norm_num⟩) tol i

example (tol : ℝ) (i : ℕ) : ∃ gamma phi, uRun (plainGamma wide_float).toDevice ![1, 0, 2] (fun _ => 1 / 2) (fun k n => .fin (someBeta k n)) tol i = some (gamma, phi) ∧
    Shared float ![1, 0, 2] (fun _ => 1 / 2) ((2 * (3 : ℕ) + 16) * (2 * numWords ![1, 0, 2] + 1 + 1) * float.u) gamma phi ∧
    ∃ r : ℝ, uReport (plainGamma wide_float) ![1, 0, 2] (fun _ => 1 / 2) someBeta phi gamma = .fin r ∧ |r| ≤ 2 ^ 105 :=
  C138_unsupervised_float_partial _ (by decide) (by norm_num) (by norm_num) (by norm_num) (by norm_num) (fun _ => by norm_num)
    (fun _ => by norm_num) (by norm_num) (fun _ => half_rep wide_float) (fun k n => (someBeta_range k n).1) (fun k n => (someBeta_range k n).2)
    (fun n _ => ⟨0, by rw [someBeta_zero]; norm_num⟩) tol i

theorem half_low {n : ℕ} (h : 1 ≤ n) : (1 : ℝ) / 2 ^ n ≤ 1 / 2 :=
  one_div_le_one_div_of_le (by norm_num) (le_self_pow₀ (by norm_num) (by omega))

example (tol : ℝ) (i : ℕ) : ∃ gamma phi, mRun (plainGamma wide_double).toLogDevice ![1, 0, 2] (0 : Fin 2) (fun _ => 1 / 2) (fun k n => .fin (someBeta k n))
      (fun _ _ => .fin (1 / 2)) 100 tol i = some (gamma, phi) ∧
    ∃ r : ℝ, mReport (plainGamma wide_double) ![1, 0, 2] (0 : Fin 2) (fun _ => 1 / 2) someBeta (fun _ _ => 1 / 2) (1 / 2) 2 (1 / 4) phi gamma = .fin r ∧
      |r| ≤ 2 ^ 112 :=
  C138_multinomial_double_partial (A := 1) _ (by decide) (by decide) (by norm_num) (by norm_num) (by norm_num) (by norm_num) (fun _ => by norm_num)
    (fun _ => by norm_num) (by norm_num) (fun _ => half_rep wide_double) (fun k n => (someBeta_range k n).1) (fun k n => (someBeta_range k n).2)
    (by norm_num) (fun _ _ => half_low (by norm_num)) (fun _ _ => by norm_num) (fun _ => by linarith [half_log])
    (fun n _ => ⟨0, by rw [someBeta_zero]; norm_num⟩) (half_low (by norm_num)) (by norm_num) (by norm_num) (by norm_num) (by norm_num) (by norm_num) tol i

example (tol : ℝ) (i : ℕ) : ∃ gamma phi, mRun (plainGamma wide_float).toLogDevice ![1, 0, 2] (0 : Fin 2) (fun _ => 1 / 2) (fun k n => .fin (someBeta k n))
      (fun _ _ => .fin (1 / 2)) 10 tol i = some (gamma, phi) ∧
    ∃ r : ℝ, mReport (plainGamma wide_float) ![1, 0, 2] (0 : Fin 2) (fun _ => 1 / 2) someBeta (fun _ _ => 1 / 2) (1 / 2) 2 (1 / 4) phi gamma = .fin r ∧
      |r| ≤ 2 ^ 112 :=
  C138_multinomial_float_partial (A := 1) _ (by decide) (by decide) (by norm_num) (by norm_num) (by norm_num) (by norm_num) (by norm_num) (by norm_num)
    (fun _ => by norm_num) (fun _ => by norm_num) (by norm_num) (fun _ => half_rep wide_float) (fun k n => (someBeta_range k n).1)
    (fun k n => (someBeta_range k n).2) (by norm_num) (fun _ _ => half_low (by norm_num)) (fun _ _ => by norm_num) (fun _ => by linarith [half_log])
    (fun n _ => ⟨0, by rw [someBeta_zero]; norm_num⟩) (half_low (by norm_num)) (by norm_num) (by norm_num) (by norm_num) (by norm_num) (by norm_num) tol i

example (tol : ℝ) (i : ℕ) : ∃ s, cRun (plainGamma wide_double).toLogDevice ![1, 0, 2] (0 : Fin 2) (fun _ => 1 / 2) (fun k n => .fin (someBeta k n))
      (fun _ _ => .fin (1 / 2)) tol i = some s ∧
    ∃ r : ℝ, cReport (plainGamma wide_double) ![1, 0, 2] (0 : Fin 2) (fun _ => 1 / 2) someBeta (fun _ _ => 1 / 2) 2 (1 / 4) s = .fin r ∧ |r| ≤ 2 ^ 112 :=
  C138_correspondence_double_partial (A := 1) _ (by decide) (by decide) (by norm_num) (by norm_num) (by norm_num) (by norm_num) (fun _ => by norm_num)
    (fun _ => by norm_num) (by norm_num) (fun _ => half_rep wide_double) (fun k n => (someBeta_range k n).1) (fun k n => (someBeta_range k n).2)
    (fun _ _ => half_low (by norm_num)) (fun _ _ => by norm_num) (fun _ => half_low (by norm_num))
    (fun n _ => ⟨0, by rw [someBeta_zero]; exact half_low (by norm_num)⟩) (by norm_num) (by norm_num) (by norm_num) (by norm_num) tol i

example (tol : ℝ) (i : ℕ) : ∃ s, cRun (plainGamma wide_float).toLogDevice ![1, 0, 2] (0 : Fin 2) (fun _ => 1 / 2) (fun k n => .fin (someBeta k n))
      (fun _ _ => .fin (1 / 2)) tol i = some s ∧
    ∃ r : ℝ, cReport (plainGamma wide_float) ![1, 0, 2] (0 : Fin 2) (fun _ => 1 / 2) someBeta (fun _ _ => 1 / 2) 2 (1 / 4) s = .fin r ∧ |r| ≤ 2 ^ 112 :=
  C138_correspondence_float_partial (A := 1) _ (by decide) (by decide) (by norm_num) (by norm_num) (by norm_num) (by norm_num) (by norm_num) (by norm_num)
    (fun _ => by norm_num) (fun _ => by norm_num) (by norm_num) (fun _ => half_rep wide_float) (fun k n => (someBeta_range k n).1)
    (fun k n => (someBeta_range k n).2) (fun _ _ => half_low (by norm_num)) (fun _ _ => by norm_num) (fun _ => half_low (by norm_num))
    (fun n _ => ⟨0, by rw [someBeta_zero]; exact half_low (by norm_num)⟩) (by norm_num) (by norm_num) (by norm_num) (by norm_num) tol i

example (phi : Mat 2 3 Num) (gamma : Vec 2 Num) : mReport (plainGamma wide_double) ![1, 0, 2] (1 : Fin 2) (fun _ => 1 / 2) someBeta someEta (1 / 2) 1
    (1 / 4) phi gamma = .nan :=
  C138_multinomial_unseen (k := 1) (c := 0) _ (by simp [someEta]) _ _ _ _

example (s : NumTriple 2 3) : cReport (plainGamma wide_double) ![1, 0, 2] (1 : Fin 2) (fun _ => 1 / 2) someBeta someEta 1 (1 / 4) s = .nan :=
  C138_correspondence_unseen (k := 1) (c := 0) _ (by simp [someEta]) _ _

end Verif.Overflow
