import Verif.Props.Taught

/-
Training with the multinomial and the correspondence steps (C140).
-/
namespace Verif.Overflow

open MathUtils EStep Rounded Limits Classical Finset
open Rounded hiding fl_nonneg fl_zero

variable {K V C : ℕ} {F : Format} {L : LogDevice F} {X : Vec V ℕ} {y : Fin C} {beta : Mat K V ℝ} {eta : Mat K C ℝ} {alpha : Vec K ℝ} {A m : ℝ}

/-! ### What a document adds -/

theorem fl_nat (hF : F.Ok) (hp : 31 ≤ F.prec) {x : ℕ} (hx : x ≤ 2 ^ 31) (e : ℕ) : fl F ((x : ℝ) * 2 ^ e) = x * 2 ^ e :=
  fl_count hF (hx.trans (Nat.pow_le_pow_right (by norm_num) hp))

/-- A count times a number of at most `2^e'`. -/
theorem product_fin (h : Wide F) (hp : 31 ≤ F.prec) {x e e' : ℕ} (hx : x ≤ 2 ^ 31) (he : e + e' ≤ 10) {a c : ℝ} (ha0 : 0 ≤ a) (ha : a ≤ 2 ^ e') (hc0 : 0 ≤ c)
    (hc : c ≤ x * 2 ^ e) : nMul F (.fin a) (.fin c) = .fin (fl F (a * c)) ∧ 0 ≤ fl F (a * c) ∧ fl F (a * c) ≤ x * 2 ^ (e + e') := by
  have h0 := mul_nonneg ha0 hc0
  have h1 : fl F (a * c) ≤ x * 2 ^ (e + e') := by
    rw [← fl_nat h.ok hp hx]
    refine fl_mono h.ok h0 ((mul_le_mul ha hc hc0 (by positivity)).trans (le_of_eq ?_))
    rw [pow_add]
    ring
  refine ⟨nMul_fin ?_, Limits.fl_nonneg h0, h1⟩
  rw [abs_of_nonneg (Limits.fl_nonneg h0)]
  have x1 : (x : ℝ) ≤ 2 ^ 31 := by exact_mod_cast hx
  calc fl F (a * c) ≤ x * 2 ^ (e + e') := h1
    _ ≤ 2 ^ 31 * 2 ^ 10 := mul_le_mul x1 (pow_le_pow_right₀ (by norm_num) he) (by positivity) (by positivity)
    _ = 2 ^ 41 := by norm_num
    _ < 2 ^ F.high := pow_lt_pow_right₀ (by norm_num) (by have := h.high; omega)

theorem count_fin (h : Wide F) (hp : 31 ≤ F.prec) {x : ℕ} (hx : x ≤ 2 ^ 31) : toNum F (x : ℝ) = .fin x := by
  have e := fl_nat h.ok hp hx 0
  rw [pow_zero, mul_one] at e
  rw [toNum_fin, e]
  rw [e, abs_of_nonneg (Nat.cast_nonneg _)]
  have x1 : (x : ℝ) ≤ 2 ^ 31 := by exact_mod_cast hx
  exact x1.trans_lt (pow_lt_pow_right₀ (by norm_num) (by have := h.high; omega))

theorem weighted_adds (h : Sizes F X alpha A m) (hp : 31 ≤ F.prec) {g : Vec K ℝ} {p : Mat K V ℝ} (hs : Sound F X alpha A g p) :
    ∃ q : Mat K V ℝ, nWeighted F X (fun k n => .fin (p k n)) = (fun k n => .fin (q k n)) ∧ Adds F 21 X q := by
  have hF := h.wide.ok
  have hx : ∀ n, X n ≤ 2 ^ 31 := fun n => (le_numWords X n).trans h.words'
  have key := fun k n => product_fin h.wide hp (hx n) (e := 0) (e' := 1) (by norm_num) (hs.nonneg k n) (by simpa using hs.le_two k n) (Nat.cast_nonneg (X n)) (by simp)
  refine ⟨fun k n => fl F (p k n * X n), ?_, fun k n => (key k n).2.1, fun k n => fl_fl' hF _, fun k n => ?_, fun n hn => ?_⟩
  · funext k n
    unfold nWeighted
    rw [count_fin h.wide hp (hx n)]
    exact (key k n).1
  · have := (key k n).2.2
    have x0 : (0 : ℝ) ≤ X n := Nat.cast_nonneg _
    norm_num at this
    linarith
  · obtain ⟨k, hk⟩ := hs.share h hn
    refine ⟨k, ?_⟩
    have x1 : (1 : ℝ) ≤ X n := by exact_mod_cast Nat.one_le_iff_ne_zero.2 hn
    rw [← zpow_eq] at hk ⊢
    exact le_fl hF (by have := h.wide.low; push_cast; omega) (hk.trans (le_mul_of_one_le_right (hs.nonneg k n) x1))

/-- What a document adds with the correspondence step, if no word is less important than `2^-T`. -/
theorem important_adds (h : Sizes F X alpha A m) (hp : 31 ≤ F.prec) {T : ℕ} (hT : F.low ≤ -((21 + T : ℕ) : ℤ)) {g : Vec K ℝ} {p : Mat K V ℝ}
    (hs : Sound F X alpha A g p) {tau : Vec V ℝ} (t0 : ∀ n, 1 / 2 ^ T ≤ tau n) (t1 : ∀ n, tau n ≤ 2) :
    ∃ q : Mat K V ℝ, (fun k n => nMul F (.fin (p k n)) (nMul F (toNum F (X n)) (.fin (tau n)))) = (fun k n => .fin (q k n)) ∧ Adds F (21 + T) X q := by
  have hF := h.wide.ok
  have hx : ∀ n, X n ≤ 2 ^ 31 := fun n => (le_numWords X n).trans h.words'
  have tp : ∀ n, 0 ≤ tau n := fun n => le_trans (by positivity) (t0 n)
  have k1 := fun n => product_fin h.wide hp (hx n) (e := 0) (e' := 1) (by norm_num) (tp n) (by simpa using t1 n) (Nat.cast_nonneg (X n)) (by simp)
  have k2 := fun k n => product_fin h.wide hp (hx n) (e := 1) (e' := 1) (by norm_num) (hs.nonneg k n) (by simpa using hs.le_two k n) (k1 n).2.1 (k1 n).2.2
  refine ⟨fun k n => fl F (p k n * fl F (tau n * X n)), ?_, fun k n => (k2 k n).2.1, fun k n => fl_fl' hF _, fun k n => ?_, fun n hn => ?_⟩
  · funext k n
    rw [count_fin h.wide hp (hx n)]
    have e : nMul F (.fin (X n : ℝ)) (.fin (tau n)) = nMul F (.fin (tau n)) (.fin (X n : ℝ)) := by
      simp only [nMul]
      rw [mul_comm]
    rw [e, (k1 n).1]
    exact (k2 k n).1
  · have := (k2 k n).2.2
    norm_num at this
    linarith
  · obtain ⟨k, hk⟩ := hs.share h hn
    refine ⟨k, ?_⟩
    have x1 : (1 : ℝ) ≤ X n := by exact_mod_cast Nat.one_le_iff_ne_zero.2 hn
    have h1 : 2 ^ (-(T : ℤ)) ≤ fl F (tau n * X n) := by
      refine le_fl hF (by push_cast at hT; omega) ?_
      rw [zpow_eq]
      exact (t0 n).trans (le_mul_of_one_le_right (tp n) x1)
    rw [← zpow_eq]
    refine le_fl hF hT ?_
    rw [zpow_eq] at h1 ⊢
    refine le_trans (le_of_eq ?_) (mul_le_mul hk h1 (by positivity) (hs.nonneg k n))
    rw [pow_add]
    field_simp

/-! ### The importance of the words -/

theorem cTau_low (h : Sizes F X alpha A m) (hv : Tags L X beta (fun k => eta k y) m) (hl : F.low ≤ -(196 : ℤ)) {p : Mat K V ℝ} (h0 : ∀ k n, 0 ≤ p k n)
    (h1 : ∀ n, ∑ k, p k n ≤ 11 / 10) {tau : Vec V ℝ} (ht : cTau L y (fun k c => .fin (eta k c)) (fun k n => .fin (p k n)) = some (fun n => .fin (tau n))) (n : Fin V) :
    1 / 2 ^ 196 ≤ tau n := by
  have hF := h.wide.ok
  have hu' := h.wide.u
  have hh := h.wide.high
  have k1 : ∀ n, ∃ x v : ℝ, (L.nsum fun k => nMul F (.fin (p k n)) (nLog L (.fin (eta k y)))) = .fin x ∧ lExp L.toMachine x = some v ∧
      1 / 2 ^ 88 ≤ v ∧ v ≤ 2 ^ 88 ∧ fl F v = v := by
    intro n
    obtain ⟨x, hx, hx'⟩ := products (D := L.toDevice) h.wide h.topics.2 (a := fun k => L.log (eta k y)) (p := fun k => p k n) (R := 2205 / 50)
      (by norm_num) (by norm_num) (fun k => by
        obtain ⟨l1, l2⟩ := hv.log k
        exact abs_le.2 ⟨l1, by linarith⟩) (fun k => h0 k n) ((h1 n).trans (by norm_num))
    have hx2 : |x| ≤ 60 := hx'.trans (by norm_num)
    obtain ⟨v, hv1, hv2, hv3, _⟩ := exp_moderate h.wide L.toDevice hx2
    refine ⟨x, v, ?_, hv1, ?_, ?_, hv3⟩
    · rw [← hx]
      congr 1
      funext k
      rw [nLog_fin (hv.pos k)]
      show toNum F _ = toNum F _
      rw [mul_comm]
    · have := hv2.1
      rw [mul_one] at this
      rw [← zpow_eq]
      refine le_trans (two_pow_of_exp 88 ?_) this
      norm_num
      linarith
    · have := hv2.2
      rw [mul_one] at this
      refine this.trans (exp_le_two_pow 88 ?_)
      norm_num
      linarith
  choose x v hx hv1 v0 v1 v2 using k1
  have vp : ∀ n, 0 < v n := fun n => lt_of_lt_of_le (by positivity) (v0 n)
  obtain ⟨t, a1, -, -, -, a5, -⟩ := rows_fin h.wide L.toDevice (j := 20) (N := 88) h.vocabulary le_rfl (by omega) (fun n => (vp n).le) v2 v1
  unfold cTau at ht
  rw [show (fun n => L.nsum fun k => nMul F (.fin (p k n)) (nLog L (.fin (eta k y)))) = fun n => .fin (x n) from funext hx,
    mapNum_fin hv1, Option.map_some, a1] at ht
  rw [← Ieee.fin.inj (congrFun (Option.some.inj ht) n)]
  exact a5 88 n (by push_cast; exact hl) (v0 n)

theorem cLoop_low (h : Sizes F X alpha A m) (hX : 0 < numWords X) (hv : Tags L X beta (fun k => eta k y) m) (hl : F.low ≤ -(196 : ℤ)) (tol : ℝ) :
    ∀ (i : ℕ) (old : Vec K Num) (g : Vec K ℝ) (p : Mat K V ℝ) (tau : Vec V ℝ), Sound F X alpha A g p → (∀ n, 1 / 2 ^ 196 ≤ tau n) → (∀ n, tau n ≤ 11 / 10) →
    ∀ s, cLoop L X y alpha (fun k n => .fin (beta k n)) (fun k c => .fin (eta k c)) tol i old ⟨fun k => .fin (g k), fun k n => .fin (p k n), fun n => .fin (tau n)⟩ =
      some s → ∀ tau' : Vec V ℝ, s.tau = (fun n => .fin (tau' n)) → ∀ n, 1 / 2 ^ 196 ≤ tau' n := by
  intro i
  have done : ∀ (g : Vec K ℝ) (p : Mat K V ℝ) (tau : Vec V ℝ), (∀ n, 1 / 2 ^ 196 ≤ tau n) → ∀ s : NumTriple K V,
      some (⟨fun k => .fin (g k), fun k n => .fin (p k n), fun n => .fin (tau n)⟩ : NumTriple K V) = some s →
      ∀ tau' : Vec V ℝ, s.tau = (fun n => .fin (tau' n)) → ∀ n, 1 / 2 ^ 196 ≤ tau' n := by
    intro g p tau t0 s hs tau' ht n
    rw [← Option.some.inj hs] at ht
    rw [← Ieee.fin.inj (congrFun ht n)]
    exact t0 n
  induction i with
  | zero => intro old g p tau _ t0 _ s hs; exact done g p tau t0 s hs
  | succ i ih =>
    intro old g p tau hs t0 t1 s hr
    rw [cLoop] at hr
    split_ifs at hr
    · exact done g p tau t0 s hr
    · obtain ⟨p', h1, h2, h3, h4⟩ := cPhi_fin h hv hs (fun n => le_trans (by positivity) (t0 n)) t1
      obtain ⟨g', h5, h6⟩ := next_sound h h2 h3 h4
      obtain ⟨tau', h7, h8, h9, h10⟩ := cTau_fin h hX hv h2 h3
      simp only at hr
      rw [h1, Option.bind_some, h7, Option.bind_some, h5] at hr
      exact ih _ _ _ _ h6 (cTau_low h hv hl h2 h3 h7) h9 _ hr

theorem cRun_low (h : Sizes F X alpha A m) (hX : 0 < numWords X) (hv : Tags L X beta (fun k => eta k y) m) (hl : F.low ≤ -(196 : ℤ)) (tol : ℝ) (iterations : ℕ)
    {s : NumTriple K V} (hr : cRun L X y alpha (fun k n => .fin (beta k n)) (fun k c => .fin (eta k c)) tol iterations = some s) {tau : Vec V ℝ}
    (ht : s.tau = (fun n => .fin (tau n))) (n : Fin V) : 1 / 2 ^ 196 ≤ tau n := by
  have hF := h.wide.ok
  obtain ⟨g, p, h1, h2⟩ := first_sound h
  have hV : 0 < V := n.pos
  have v0 : (0 : ℝ) < V := Nat.cast_pos.2 hV
  obtain ⟨q, q1, q2, q3⟩ := first_phi (F := F) h.wide hV h.vocabulary
  have q4 : (2 : ℝ) ^ (-(20 : ℕ) : ℤ) ≤ q := by
    have e1 : (2 : ℝ) ^ (-(20 : ℕ) : ℤ) ≤ 1 / V := by
      rw [zpow_eq]
      exact one_div_le_one_div_of_le v0 (million h.vocabulary)
    have e2 := le_fl hF (j := (-(20 : ℕ) : ℤ)) (by push_cast; omega) (le_fl wide_double.ok (j := (-(20 : ℕ) : ℤ)) (by decide) e1)
    unfold toNum at q1
    split_ifs at q1
    rwa [Ieee.fin.inj q1] at e2
  rw [zpow_eq] at q4
  unfold cRun at hr
  rw [h1, show (fun _ : Fin V => toNum F (fl double (1 / V))) = fun _ => .fin q from funext fun _ => q1] at hr
  refine cLoop_low h hX hv hl tol _ _ _ _ (fun _ => q) h2 (fun _ => ?_) (fun _ => ?_) _ hr tau ht n
  · exact le_trans (one_div_le_one_div_of_le (by positivity) (pow_le_pow_right₀ (by norm_num) (by norm_num))) q4
  · have hv1 : (1 : ℝ) ≤ V := by exact_mod_cast hV
    refine q3.trans ?_
    rw [div_le_iff₀ (by linarith)]
    linarith

/-! ### The steps with trained parameters -/

theorem positive_fewer (M : Machine double) : Positive M 600 868 := by
  refine positive_of double_ok (by decide) (by norm_num) fun x h0 h1 => ?_
  rcases le_or_gt x 100 with h | h
  · obtain ⟨v, hv, _, h2⟩ := lExpPos_upper (M := M) double_ok (by unfold Format.u double; norm_num) h0 h
      (exp_le_two_pow 868 (by norm_num; linarith)) (by
        show (2 : ℝ) ^ 868 < 2 ^ 1024
        exact pow_lt_pow_right₀ (by norm_num) (by norm_num))
    exact ⟨v, hv, h2⟩
  · have e1 : Real.exp x ≤ 2 ^ 867 := exp_le_two_pow 867 (by norm_num; linarith)
    have e2 : (2 : ℝ) ^ 868 = 2 * 2 ^ 867 := pow_succ' 2 867
    have e3 : (2 : ℝ) ^ 868 < 2 ^ double.high := pow_lt_pow_right₀ (by norm_num) (by decide)
    have hp := Real.exp_pos x
    have hne := M.stdExp_fin x (by
      generalize (2 : ℝ) ^ 867 = A at e1 e2
      generalize (2 : ℝ) ^ 868 = B at e2 e3
      linarith)
    obtain ⟨v, hv⟩ := Option.ne_none_iff_exists'.1 hne
    refine ⟨v, ?_, ?_⟩
    · unfold lExpPos
      rw [if_pos h]
      exact hv
    · have := M.stdExp_err x v hv
      rw [abs_le] at this
      generalize (2 : ℝ) ^ 867 = A at e1 e2
      generalize (2 : ℝ) ^ 868 = B at e2 ⊢
      linarith

theorem log_trained {x : ℝ} (h : 1 / 2 ^ 81 ≤ x) : 1 - Real.log x ≤ 286 / 5 := by
  have h1 := Real.log_le_log (by positivity) h
  rw [one_div, Real.log_inv, Real.log_pow] at h1
  have := Real.log_two_lt_d9
  push_cast at h1
  linarith

theorem votes_trained {L : LogDevice double} (hb0 : ∀ k n, 0 ≤ beta k n) (hb1 : ∀ k n, beta k n ≤ 1) {w : ℝ} (hw : 0 ≤ w) (hw' : w ≤ 7)
    (he0 : ∀ k, 1 / 2 ^ 81 ≤ eta k y) (he1 : ∀ k, eta k y ≤ 1) (hb : ∀ n, X n ≠ 0 → ∃ k, 1 / 2 ^ 95 ≤ beta k n) :
    Votes L X beta (fun k => eta k y) w 100 600 := by
  have pos : ∀ k, 0 < eta k y := fun k => lt_of_lt_of_le (by positivity) (he0 k)
  refine ⟨hb0, hb1, hw, fun k => .inl (pos k), he1, fun k hk => ?_, by norm_num, ⟨690, 1000, moderate_double L.toDevice, by unfold deep; linarith⟩,
    by unfold deep; linarith, fun n hn => ?_⟩
  · have h1 := mul_le_mul hw' (log_trained (he0 k)) (by linarith [Real.log_nonpos hk.le (he1 k)]) (by norm_num)
    unfold deep
    linarith
  · obtain ⟨k, hk⟩ := hb n hn
    refine ⟨k, pos k, fun x e hx he => ?_⟩
    have h1 := positive_fewer L.toMachine x e hx he
    have h2 : (2 : ℝ) ^ double.low ≤ 2 ^ (-(95 : ℕ) : ℤ) * 2 ^ (-((868 : ℕ) : ℤ)) := by
      rw [← zpow_add₀ (by norm_num)]
      exact zpow_le_zpow_right₀ (by norm_num) (by decide)
    rw [zpow_eq 95] at h2
    exact h2.trans (mul_le_mul hk h1 (two_zpow_pos _).le (hb0 k n))

/-- The parameters `beta` and `eta` can be used: for every document with words and whatever is reported, the multinomial
step is defined, shares the words out and reports a number. -/
def UsableM (G : GammaDevice double) (docs : List (Vec V ℕ × Fin C)) (alpha : Vec K ℝ) (A mu w tol : ℝ) (iterations : ℕ) (beta : Mat K V ℝ)
    (eta : Mat K C ℝ) : Prop :=
  ∀ d ∈ docs, 0 < numWords d.1 → ∃ gamma phi, mRun G.toLogDevice d.1 d.2 alpha (fun k n => .fin (beta k n)) (fun k c => .fin (eta k c)) w tol iterations =
      some (gamma, phi) ∧ Shared double d.1 alpha ((2 * V + 16) * (2 * numWords d.1 + A + 1) * double.u) gamma phi ∧
    ∀ prior portion : ℝ, 1 / 2 ^ 1074 ≤ prior → prior ≤ 1 → 0 ≤ portion → portion ≤ 1 →
      ∃ r : ℝ, mReport G d.1 d.2 alpha beta eta prior mu portion phi gamma = .fin r ∧ |r| ≤ 2 ^ 112

/-- C140, the part that holds of the multinomial steps with `double`: priors of at least 1/100, a class weight of at most
7, smoothing of at least 1 + 2^-10 and a start that knows the words of the documents. -/
theorem C140_multinomial_double_partial (G : GammaDevice double) {docs : List (Vec V ℕ × Fin C)} (hX : ∀ d ∈ docs, numWords d.1 ≤ 2 ^ 31)
    (hne : docs ≠ []) (hlen : docs.length ≤ 2 ^ 20) (hK : 0 < K) (hK' : K ≤ 2 ^ 20) (hV : V ≤ 2 ^ 20) (hC : 0 < C) (hC' : C ≤ 2 ^ 16) (ha : ∀ k, 1 / 100 ≤ alpha k)
    (ha' : ∀ k, alpha k ≤ A) (hA : A ≤ 2 ^ 32) (hr : ∀ k, fl double (alpha k) = alpha k) {mu w : ℝ} (hmu : 1 + 1 / 2 ^ 10 ≤ mu) (hmu' : mu ≤ 2 ^ 20)
    (hmr : fl double mu = mu) (hw : 0 ≤ w) (hw' : w ≤ 7) (hb0 : ∀ k n, 0 ≤ beta k n) (hb1 : ∀ k n, beta k n ≤ 1)
    (hb : ∀ d ∈ docs, ∀ n, d.1 n ≠ 0 → ∃ k, 1 / 2 ^ 95 ≤ beta k n) (he0 : ∀ k c, 1 / 2 ^ 81 ≤ eta k c) (he1 : ∀ k c, eta k c ≤ 1) (tol : ℝ) (iterations : ℕ)
    (epochs : List (List (Vec V ℕ × Fin C))) (hp : ∀ e ∈ epochs, e.Perm docs) :
    ∃ (beta' : Mat K V ℝ) (eta' : Mat K C ℝ) (logs : List ℝ), lTrain G.toLogDevice mu (mScaled G.toLogDevice alpha w tol iterations) epochs
        ⟨fun k n => .fin (beta k n), fun k c => .fin (eta k c)⟩ =
        some (⟨fun k n => .fin (beta' k n), fun k c => .fin (eta' k c)⟩, logs.map .fin) ∧ logs.length = epochs.length ∧
      (epochs ≠ [] → Educated double docs beta' eta') ∧ UsableM G docs alpha A mu w tol iterations beta' eta' := by
  have hS : ∀ d ∈ docs, Sizes double d.1 alpha A 100 := fun d hd => ⟨wide_double, le_rfl, hX d hd, ⟨hK, hK'⟩, hV, by norm_num, ha, ha', hA, hr⟩
  have hc : Course double K V C 31 16 10 21 mu := ⟨wide_double, hK', hV, le_rfl, ⟨hC, hC'⟩, by norm_num, hmu, hmu'.trans (pow_le_pow_right₀ (by norm_num) (by norm_num)),
    hmr, by decide, by decide, by norm_num⟩
  obtain ⟨b', e', logs, h1, h2, h3, h4⟩ := lTrain_fin (L := G.toLogDevice) hc hX hne hlen (step := mScaled G.toLogDevice alpha w tol iterations) (fun beta eta hs d hd => by
    obtain ⟨g, p, h1, h2⟩ := mRun_fin (y := d.2) (hS d hd) (votes_trained (L := G.toLogDevice) hs.nonneg hs.le_one hw hw' (fun k => hs.weight k d.2) (fun k => hs.weight' k d.2)
      (hs.word d hd)) tol iterations
    obtain ⟨q, h3, h4⟩ := weighted_adds (hS d hd) (by decide) h2
    refine ⟨q, ?_, h4⟩
    unfold mScaled
    dsimp only
    rw [h1, Option.map_some, h3]) epochs hp ⟨hb0, hb1, hb, he0, he1⟩
  refine ⟨b', e', logs, h1, h2, h4, fun d hd hd' => ?_⟩
  obtain ⟨g, p, g1, g2⟩ := mRun_fin (y := d.2) (hS d hd) (votes_trained (L := G.toLogDevice) h3.nonneg h3.le_one hw hw' (fun k => h3.weight k d.2) (fun k => h3.weight' k d.2)
    (h3.word d hd)) tol iterations
  refine ⟨_, _, g1, g2.shared (hS d hd), fun prior portion q1 q2 q3 q4 => mReport_bnd (j := 40) (hS d hd) hd' ?_ (by decide) (by norm_num) h3.nonneg h3.le_one
    ⟨fun k c => le_trans (one_div_le_one_div_of_le (by positivity) (pow_le_pow_right₀ (by norm_num) (by norm_num))) (h3.weight k c), h3.weight',
      le_trans (by norm_num) hmu, hmu', q3, q4, hC, hC'⟩ ?_ q1 q2 g2⟩
  · calc K * V ≤ 2 ^ 20 * 2 ^ 20 := Nat.mul_le_mul hK' hV
      _ = 2 ^ 40 := by norm_num
  · calc K * C ≤ 2 ^ 20 * 2 ^ 16 := Nat.mul_le_mul hK' hC'
      _ ≤ 2 ^ double.prec := by decide

/-- The same for the correspondence step. -/
def UsableC (G : GammaDevice double) (docs : List (Vec V ℕ × Fin C)) (alpha : Vec K ℝ) (A mu tol : ℝ) (iterations : ℕ) (beta : Mat K V ℝ)
    (eta : Mat K C ℝ) : Prop :=
  ∀ d ∈ docs, ∃ s, cRun G.toLogDevice d.1 d.2 alpha (fun k n => .fin (beta k n)) (fun k c => .fin (eta k c)) tol iterations = some s ∧
    Shared double d.1 alpha ((2 * V + 16) * (2 * numWords d.1 + A + 1) * double.u) s.gamma s.phi ∧ Spread double s.tau ∧
    ∀ portion : ℝ, 0 ≤ portion → portion ≤ 1 → ∃ r : ℝ, cReport G d.1 d.2 alpha beta eta mu portion s = .fin r ∧ |r| ≤ 2 ^ 112

/-- C140, the part that holds of the correspondence steps with `double`: documents of one to 2^20 words, priors of at least
1/50, at most 2^10 classes, smoothing of at least 1 + 2^-8 and a start that knows the words of the documents. -/
theorem C140_correspondence_double_partial (G : GammaDevice double) {docs : List (Vec V ℕ × Fin C)} (hX0 : ∀ d ∈ docs, 0 < numWords d.1)
    (hX : ∀ d ∈ docs, numWords d.1 ≤ 2 ^ 20)
    (hne : docs ≠ []) (hlen : docs.length ≤ 2 ^ 20) (hK : 0 < K) (hK' : K ≤ 2 ^ 20) (hV : V ≤ 2 ^ 20) (hC : 0 < C) (hC' : C ≤ 2 ^ 10) (ha : ∀ k, 1 / 50 ≤ alpha k)
    (ha' : ∀ k, alpha k ≤ A) (hA : A ≤ 2 ^ 32) (hr : ∀ k, fl double (alpha k) = alpha k) {mu : ℝ} (hmu : 1 + 1 / 2 ^ 8 ≤ mu) (hmu' : mu ≤ 2 ^ 20)
    (hmr : fl double mu = mu) (hb0 : ∀ k n, 0 ≤ beta k n) (hb1 : ∀ k n, beta k n ≤ 1)
    (hb : ∀ d ∈ docs, ∀ n, d.1 n ≠ 0 → ∃ k, 1 / 2 ^ 280 ≤ beta k n) (he0 : ∀ k c, 1 / 2 ^ 62 ≤ eta k c) (he1 : ∀ k c, eta k c ≤ 1) (tol : ℝ) (iterations : ℕ)
    (epochs : List (List (Vec V ℕ × Fin C))) (hp : ∀ e ∈ epochs, e.Perm docs) :
    ∃ (beta' : Mat K V ℝ) (eta' : Mat K C ℝ) (logs : List ℝ), lTrain G.toLogDevice mu (cScaled G.toLogDevice alpha tol iterations) epochs
        ⟨fun k n => .fin (beta k n), fun k c => .fin (eta k c)⟩ =
        some (⟨fun k n => .fin (beta' k n), fun k c => .fin (eta' k c)⟩, logs.map .fin) ∧ logs.length = epochs.length ∧
      (epochs ≠ [] → Educated double docs beta' eta') ∧ UsableC G docs alpha A mu tol iterations beta' eta' := by
  have hS : ∀ d ∈ docs, Sizes double d.1 alpha A 50 := fun d hd =>
    ⟨wide_double, le_rfl, (hX d hd).trans (by norm_num), ⟨hK, hK'⟩, hV, by norm_num, ha, ha', hA, hr⟩
  have hc : Course double K V C 20 10 8 217 mu := ⟨wide_double, hK', hV, by norm_num, ⟨hC, hC'⟩, by norm_num, hmu, hmu'.trans (pow_le_pow_right₀ (by norm_num) (by norm_num)),
    hmr, by decide, by decide, by norm_num⟩
  have deep900 : (1 : ℝ) / 2 ^ 900 ≤ 1 / 2 ^ 280 := one_div_le_one_div_of_le (by positivity) (pow_le_pow_right₀ (by norm_num) (by norm_num))
  have tags : ∀ (beta : Mat K V ℝ) (eta : Mat K C ℝ), Schooled docs (217 + (20 + 23) + 20) (8 + (20 + 24) + 10) beta eta → ∀ d ∈ docs,
      Tags G.toLogDevice d.1 beta (fun k => eta k d.2) 50 := fun beta eta hs d hd =>
    tags_double hs.nonneg hs.le_one (fun k => hs.weight k d.2) (fun k => hs.weight' k d.2) (fun n hn => (hs.word d hd n hn).imp fun k hk => deep900.trans hk)
  obtain ⟨b', e', logs, h1, h2, h3, h4⟩ := lTrain_fin (L := G.toLogDevice) hc hX hne hlen (step := cScaled G.toLogDevice alpha tol iterations) (fun beta eta hs d hd => by
    obtain ⟨g, p, t, h1, h2, h3, h4⟩ := cRun_fin (hS d hd) (hX0 d hd) (tags beta eta hs d hd) tol iterations
    have h5 := cRun_low (hS d hd) (hX0 d hd) (tags beta eta hs d hd) (by decide) tol iterations h1 rfl
    obtain ⟨q, h6, h7⟩ := important_adds (hS d hd) (by decide) (T := 196) (by decide) h2 h5 (tau_le_two wide_double hV h3 h4)
    refine ⟨q, ?_, h7⟩
    unfold cScaled
    dsimp only
    rw [h1, Option.map_some, h6]) epochs hp ⟨hb0, hb1, hb, he0, he1⟩
  refine ⟨b', e', logs, h1, h2, h4, fun d hd => ?_⟩
  obtain ⟨g, p, t, g1, g2, g3, g4⟩ := cRun_fin (hS d hd) (hX0 d hd) (tags b' e' h3 d hd) tol iterations
  refine ⟨_, g1, g2.shared (hS d hd), ⟨t, rfl, g3, rel_abs wide_double hV g4⟩, fun portion q3 q4 => cReport_bnd (j := 40) (hS d hd) (hX0 d hd) ?_ (by decide) (by norm_num)
    h3.nonneg h3.le_one
    ⟨fun k c => le_trans (one_div_le_one_div_of_le (by positivity) (pow_le_pow_right₀ (by norm_num) (by norm_num))) (h3.weight k c), h3.weight',
      le_trans (by norm_num) hmu, hmu', q3, q4, hC, hC'.trans (by norm_num)⟩ ?_ g2 g3 (tau_le_two wide_double hV g3 g4)⟩
  · calc K * V ≤ 2 ^ 20 * 2 ^ 20 := Nat.mul_le_mul hK' hV
      _ = 2 ^ 40 := by norm_num
  · calc K * C ≤ 2 ^ 20 * 2 ^ 10 := Nat.mul_le_mul hK' hC'
      _ ≤ 2 ^ double.prec := by decide

end Verif.Overflow
