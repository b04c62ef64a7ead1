import Verif.Props.TaughtSafe

/-
Training with classes without smoothing (C140), and concrete cases.
-/
namespace Verif.Overflow

open MathUtils EStep Rounded Limits Classical Finset
open Rounded hiding fl_nonneg fl_zero

variable {K V C : ℕ} {F : Format} {L : LogDevice F} {X : Vec V ℕ} {y : Fin C} {beta : Mat K V ℝ} {eta : Mat K C ℝ} {alpha : Vec K ℝ} {A m : ℝ}

/-! ### Topics that do not have a word -/

/-- Zero, or not a number. -/
def Nil (x : Num) : Prop := x = .fin 0 ∨ x = .nan

theorem Nil.mul {a : Num} (ha : Nil a) (b : Num) : Nil (nMul F a b) := by
  rcases ha with rfl | rfl
  · cases b with
    | fin b =>
      left
      show toNum F (0 * b) = _
      rw [zero_mul, toNum_zero]
    | _ => right; simp [nMul, Ieee.mul, Ieee.infMul]
  · right
    cases b <;> simp [nMul, Ieee.mul]

theorem Nil.real {r : ℝ} (h : Nil (.fin r)) : r = 0 := by
  rcases h with h | h
  · exact Ieee.fin.inj h
  · cases h

theorem mPhi_nil {b : Mat K V Num} {e : Mat K C Num} {w : ℝ} {g : Vec K Num} {phi : Mat K V Num} (h : mPhi L y b e w g = some phi) {k : Fin K} {n : Fin V}
    (hb : b k n = .fin 0) : Nil (phi k n) := by
  unfold mPhi at h
  rw [Option.map_eq_some_iff] at h
  obtain ⟨v, -, rfl⟩ := h
  refine normalize_zero_or_nan ?_
  exact Nil.mul (.inl hb) _

theorem cPhi_nil {b : Mat K V Num} {e : Mat K C Num} {g : Vec K Num} {tau : Vec V Num} {phi : Mat K V Num} (h : cPhi L y b e g tau = some phi) {k : Fin K} {n : Fin V}
    (hb : b k n = .fin 0) : Nil (phi k n) := by
  unfold cPhi at h
  rw [Option.bind_eq_some_iff] at h
  obtain ⟨v, -, h⟩ := h
  rw [Option.map_eq_some_iff] at h
  obtain ⟨t, -, rfl⟩ := h
  refine normalize_zero_or_nan ?_
  exact Nil.mul (Nil.mul (.inl hb) _) _

theorem mLoop_nil {b : Mat K V Num} {e : Mat K C Num} {w tol : ℝ} {k : Fin K} {n : Fin V} (hb : b k n = .fin 0) : ∀ (i : ℕ) (old : Vec K Num)
    (s r : Vec K Num × Mat K V Num), Nil (s.2 k n) → mLoop L X y alpha b e w tol i old s = some r → Nil (r.2 k n) := by
  intro i
  induction i with
  | zero => intro old s r hs hr; rw [← Option.some.inj hr]; exact hs
  | succ i ih =>
    intro old s r hs hr
    rw [mLoop] at hr
    split_ifs at hr
    · rw [← Option.some.inj hr]; exact hs
    · rw [Option.bind_eq_some_iff] at hr
      obtain ⟨phi, h1, h2⟩ := hr
      exact ih _ _ _ (mPhi_nil h1 hb) h2

theorem mRun_nil {b : Mat K V Num} {e : Mat K C Num} {w tol : ℝ} {k : Fin K} {n : Fin V} (hb : b k n = .fin 0)
    (hc : nConverged L.toDevice (fun _ => .fin 0) (nFirst F X alpha).1 tol = false) {i : ℕ} {r : Vec K Num × Mat K V Num}
    (hr : mRun L X y alpha b e w tol (i + 1) = some r) : Nil (r.2 k n) := by
  unfold mRun at hr
  rw [mLoop, hc, if_neg (by simp), Option.bind_eq_some_iff] at hr
  obtain ⟨phi, h1, h2⟩ := hr
  exact mLoop_nil hb _ _ _ _ (mPhi_nil h1 hb) h2

theorem cLoop_nil {b : Mat K V Num} {e : Mat K C Num} {tol : ℝ} {k : Fin K} {n : Fin V} (hb : b k n = .fin 0) : ∀ (i : ℕ) (old : Vec K Num)
    (s r : NumTriple K V), Nil (s.phi k n) → cLoop L X y alpha b e tol i old s = some r → Nil (r.phi k n) := by
  intro i
  induction i with
  | zero => intro old s r hs hr; rw [← Option.some.inj hr]; exact hs
  | succ i ih =>
    intro old s r hs hr
    rw [cLoop] at hr
    split_ifs at hr
    · rw [← Option.some.inj hr]; exact hs
    · rw [Option.bind_eq_some_iff] at hr
      obtain ⟨phi, h1, h2⟩ := hr
      rw [Option.bind_eq_some_iff] at h2
      obtain ⟨tau, -, h2⟩ := h2
      exact ih _ _ _ (cPhi_nil h1 hb) h2

theorem cRun_nil {b : Mat K V Num} {e : Mat K C Num} {tol : ℝ} {k : Fin K} {n : Fin V} (hb : b k n = .fin 0)
    (hc : nConverged L.toDevice (fun _ => .fin 0) (nFirst F X alpha).1 tol = false) {i : ℕ} {r : NumTriple K V}
    (hr : cRun L X y alpha b e tol (i + 1) = some r) : Nil (r.phi k n) := by
  unfold cRun at hr
  rw [cLoop] at hr
  dsimp only at hr
  rw [hc, if_neg (by simp), Option.bind_eq_some_iff] at hr
  obtain ⟨phi, h1, h2⟩ := hr
  rw [Option.bind_eq_some_iff] at h2
  obtain ⟨tau, -, h2⟩ := h2
  exact cLoop_nil hb _ _ _ _ (cPhi_nil h1 hb) h2

theorem mScaled_nil {p : NumParams K V C} {d : Vec V ℕ × Fin C} {w tol : ℝ} {k : Fin K} (hb : ∀ n, d.1 n ≠ 0 → p.beta k n = .fin 0)
    (hc : nConverged L.toDevice (fun _ => .fin 0) (nFirst F d.1 alpha).1 tol = false) {i : ℕ} {q : Mat K V ℝ}
    (hr : mScaled L alpha w tol (i + 1) p d = some (fun k n => .fin (q k n))) (n : Fin V) : q k n = 0 := by
  unfold mScaled at hr
  rw [Option.map_eq_some_iff] at hr
  obtain ⟨r, h1, h2⟩ := hr
  have h3 : nMul F (r.2 k n) (toNum F (d.1 n)) = .fin (q k n) := congrFun (congrFun h2 k) n
  refine Nil.real ?_
  rw [← h3]
  by_cases hn : d.1 n = 0
  · rw [hn, Nat.cast_zero, toNum_zero]
    exact mul_zero_or_nan _
  · exact (mRun_nil (hb n hn) hc h1).mul _

theorem cScaled_nil {p : NumParams K V C} {d : Vec V ℕ × Fin C} {tol : ℝ} {k : Fin K} (hb : ∀ n, d.1 n ≠ 0 → p.beta k n = .fin 0)
    (hc : nConverged L.toDevice (fun _ => .fin 0) (nFirst F d.1 alpha).1 tol = false) {i : ℕ} {q : Mat K V ℝ}
    (hr : cScaled L alpha tol (i + 1) p d = some (fun k n => .fin (q k n))) (n : Fin V) : q k n = 0 := by
  unfold cScaled at hr
  rw [Option.map_eq_some_iff] at hr
  obtain ⟨r, h1, h2⟩ := hr
  have h3 : nMul F (r.phi k n) (nMul F (toNum F (d.1 n)) (r.tau n)) = .fin (q k n) := congrFun (congrFun h2 k) n
  refine Nil.real ?_
  by_cases hn : d.1 n = 0
  · rw [hn, Nat.cast_zero, toNum_zero] at h3
    rw [← h3]
    rcases Nil.mul (F := F) (.inl rfl : Nil (.fin 0)) (r.tau n) with h | h
    · rw [h]
      exact mul_zero_or_nan _
    · rw [h] at h3
      exfalso
      cases hr : r.phi k n <;> rw [hr] at h3 <;> simp [nMul, Ieee.mul] at h3
  · rw [← h3]
    exact (cRun_nil (hb n hn) hc h1).mul _

/-! ### Classes of which a topic has no word -/

theorem lGather_nil {e : Mat K C Num} {step : Vec V ℕ × Fin C → Option (Mat K V Num)} {k : Fin K} {c : Fin C} : ∀ (docs : List (Vec V ℕ × Fin C)),
    (∀ d ∈ docs, d.2 = c → ∀ q, step d = some q → ∀ n, q k n = .fin 0) → ∀ s r : NumStats K V C, s.h k c = .fin 0 → lGather L e step docs s = some r →
    r.h k c = .fin 0 := by
  intro docs
  induction docs with
  | nil => intro _ s r hs hr; rw [← Option.some.inj hr]; exact hs
  | cons d docs ih =>
    intro hd s r hs hr
    rw [lGather, Option.bind_eq_some_iff] at hr
    obtain ⟨q, h1, h2⟩ := hr
    refine ih (fun d' h => hd d' (by simp [h])) _ r ?_ h2
    unfold lAdd
    dsimp only
    split_ifs with hcd
    · have hz := hd d (by simp) hcd.symm q h1
      have e0 : L.nsum (q k) = .fin 0 := by
        refine numSum_zeros (L.nsum_spec _) ?_
        intro x hx
        obtain ⟨n, rfl⟩ := List.mem_ofFn.1 hx
        exact hz n
      rw [hs, e0]
      show toNum F (0 + 0) = _
      rw [add_zero, toNum_zero]
    · exact hs

theorem smooth_one (h : Wide F) {N : ℕ} (hN : N + 22 ≤ F.high) (hN1 : 1 ≤ N) {a : ℝ} (ha : 0 ≤ a) (ha' : a ≤ 2 ^ (N - 1)) :
    ∃ v : ℝ, nSub F (nAdd F (.fin a) (.fin 1)) (.fin 1) = .fin v ∧ 0 ≤ v ∧ v ≤ 2 ^ N ∧ fl F v = v ∧ (a = 0 → v = 0) := by
  have hF := h.ok
  have o1 : (1 : ℝ) ≤ 2 ^ (N - 1) := one_le_pow₀ (by norm_num)
  have e0 : (2 : ℝ) ^ N = 2 ^ (N - 1) + 2 ^ (N - 1) := by
    obtain ⟨M, rfl⟩ : ∃ M, N = M + 1 := ⟨N - 1, by omega⟩
    rw [Nat.add_sub_cancel, pow_succ]
    ring
  have f1 : fl F (1 : ℝ) = 1 := by
    have := fl_count hF (F := F) (s := 1) (e := 0) Nat.one_le_two_pow
    simpa using this
  have a1 : 1 ≤ fl F (a + 1) := by
    have := fl_mono hF (zero_le_one) (le_add_of_nonneg_left (a := (1 : ℝ)) ha)
    rwa [f1] at this
  have a2 : |fl F (a + 1)| ≤ 2 ^ N := abs_fl_pow hF (by rw [abs_of_nonneg (by linarith)]; linarith)
  have hlt : (2 : ℝ) ^ N < 2 ^ F.high := pow_lt_pow_right₀ (by norm_num) (by omega)
  have a3 := (le_abs_self _).trans a2
  have c2 : |fl F (fl F (a + 1) - 1)| ≤ 2 ^ N := abs_fl_pow hF (by rw [abs_of_nonneg (by linarith)]; linarith)
  rw [nAdd_fin (a2.trans_lt hlt), nSub_fin (c2.trans_lt hlt)]
  refine ⟨_, rfl, Limits.fl_nonneg (by linarith), (le_abs_self _).trans c2, fl_fl' hF _, ?_⟩
  rintro rfl
  rw [zero_add, f1, sub_self, Limits.fl_zero]

/-- Without smoothing, a topic that has no word of the documents of a class gets a weight of zero for the class. -/
theorem lEpoch_nil (h : Wide F) (hK : K ≤ 2 ^ 20) (hV : V ≤ 2 ^ 20) (hC : C ≤ 2 ^ 20) {x lo b c : ℕ} (hx : x ≤ 31) (hc : c ≤ 1074)
    {docs : List (Vec V ℕ × Fin C)} (hX : ∀ d ∈ docs, numWords d.1 ≤ 2 ^ x) (hne : docs ≠ []) (hlen : docs.length ≤ 2 ^ 20)
    {step : NumParams K V C → Vec V ℕ × Fin C → Option (Mat K V Num)} (hs : Schooled docs b c beta eta)
    (hstep : ∀ d ∈ docs, ∃ q, step ⟨fun k n => .fin (beta k n), fun k c => .fin (eta k c)⟩ d = some (fun k n => .fin (q k n)) ∧ Adds F lo d.1 q)
    {k : Fin K} (hz : ∀ d ∈ docs, d.2 = y → ∀ q : Mat K V ℝ, step ⟨fun k n => .fin (beta k n), fun k c => .fin (eta k c)⟩ d = some (fun k n => .fin (q k n)) →
      ∀ n, q k n = 0) :
    ∃ (beta' : Mat K V ℝ) (eta' : Mat K C ℝ) (l : ℝ), lEpoch L 1 step docs ⟨fun k n => .fin (beta k n), fun k c => .fin (eta k c)⟩ =
        some (⟨fun k n => .fin (beta' k n), fun k c => .fin (eta' k c)⟩, .fin l) ∧ eta' k y = 0 := by
  have hF := h.ok
  have hh := h.high
  have small : (1 : ℝ) / 2 ^ 1074 ≤ 1 / 2 ^ c := one_div_le_one_div_of_le (by positivity) (pow_le_pow_right₀ (by norm_num) hc)
  obtain ⟨b', g, l, h1, h2, -, -, -⟩ := lGather_fin (L := L) h hK hV hx (fun k c => small.trans (hs.weight k c)) hs.weight'
    (step ⟨fun k n => .fin (beta k n), fun k c => .fin (eta k c)⟩) docs (fun d hd => ⟨hX d hd, hstep d hd⟩) 0 (fun _ _ => 0) (fun _ _ => 0) 0 (by omega)
    ⟨fun _ _ => le_rfl, fun _ _ => Limits.fl_zero, fun _ _ => by simp, fun _ _ => le_rfl, fun _ _ => Limits.fl_zero, fun _ _ => by simp, by simp⟩
  have g0 : g k y = 0 := by
    refine Ieee.fin.inj (lGather_nil (k := k) (c := y) docs (fun d hd hy q hq n => ?_) _ _ rfl h1)
    obtain ⟨q', e1, -⟩ := hstep d hd
    have := hz d hd hy q' e1 n
    rw [hq] at e1
    rw [Option.some.inj e1]
    dsimp only
    rw [this]
  rw [Nat.zero_add] at h2
  have lift : ∀ a : ℝ, a ≤ (docs.length : ℝ) * 2 ^ (x + 3) → a ≤ 2 ^ (x + 23) := by
    intro a ha
    have e1 : (docs.length : ℝ) ≤ 2 ^ 20 := by exact_mod_cast hlen
    refine (ha.trans (mul_le_mul_of_nonneg_right e1 (by positivity))).trans (le_of_eq ?_)
    rw [← pow_add]
    congr 1
    omega
  have kb := fun k => rows_fin h L.toDevice (j := 20) (N := x + 23) hV le_rfl (by omega) (v := b' k) (h2.nonneg k) (h2.rep k) (fun n => lift _ (h2.high k n))
  choose p p1 p2 p3 p4 p5 p6 using kb
  have kv := fun k c => smooth_one h (N := x + 24) (by omega) (by omega) (h2.nonneg' k c) (lift _ (h2.high' k c))
  choose v v1 v2 v3 v4 v5 using kv
  have ke := fun k => rows_fin h L.toDevice (j := 20) (N := x + 24) hC le_rfl (by omega) (v := v k) (v2 k) (v4 k) (v3 k)
  choose w w1 w2 w3 w4 w5 w6 using ke
  refine ⟨p, w, l, ?_, w4 k y (v5 k y g0)⟩
  rw [lEpoch, if_neg hne, h1, Option.map_some]
  unfold lTopics
  dsimp only
  simp only [v1]
  congr 3
  · exact funext p1
  · exact funext w1

theorem lGather_none {e : Mat K C Num} {step : Vec V ℕ × Fin C → Option (Mat K V Num)} : ∀ (docs : List (Vec V ℕ × Fin C)),
    (∃ d ∈ docs, step d = none) → ∀ s : NumStats K V C, lGather L e step docs s = none := by
  intro docs
  induction docs with
  | nil => rintro ⟨d, hd, -⟩; simp at hd
  | cons d' docs ih =>
    rintro ⟨d, hd, h⟩ s
    rw [lGather]
    rcases List.mem_cons.1 hd with rfl | hd
    · rw [h, Option.bind_none]
    · cases step d' with
      | none => rfl
      | some q => exact ih ⟨d, hd, h⟩ _

/-- C140 is false without smoothing (`mu` = 1): if a topic has no word of the documents of a class, training with the
correspondence steps is undefined from the second epoch on. -/
theorem C140_correspondence_unsmoothed (L : LogDevice double) {docs : List (Vec V ℕ × Fin C)} (hX0 : ∀ d ∈ docs, 0 < numWords d.1)
    (hX : ∀ d ∈ docs, numWords d.1 ≤ 2 ^ 20)
    (hlen : docs.length ≤ 2 ^ 20) (hK : 0 < K) (hK' : K ≤ 2 ^ 20) (hV : V ≤ 2 ^ 20) (hC' : C ≤ 2 ^ 10) (ha : ∀ k, 1 / 50 ≤ alpha k)
    (ha' : ∀ k, alpha k ≤ A) (hA : A ≤ 2 ^ 32) (hr : ∀ k, fl double (alpha k) = alpha k) (hb0 : ∀ k n, 0 ≤ beta k n) (hb1 : ∀ k n, beta k n ≤ 1)
    (hb : ∀ d ∈ docs, ∀ n, d.1 n ≠ 0 → ∃ k, 1 / 2 ^ 280 ≤ beta k n) (he0 : ∀ k c, 1 / 2 ^ 62 ≤ eta k c) (he1 : ∀ k c, eta k c ≤ 1) {tol : ℝ} (i : ℕ)
    (hc : ∀ d ∈ docs, nConverged L.toDevice (fun _ => .fin 0) (nFirst double d.1 alpha).1 tol = false) {k : Fin K}
    (hz : ∀ d ∈ docs, d.2 = y → ∀ n, d.1 n ≠ 0 → beta k n = 0) (hy : ∃ d ∈ docs, d.2 = y) (rest : List (List (Vec V ℕ × Fin C))) :
    lTrain L 1 (cScaled L alpha tol (i + 1)) (docs :: docs :: rest) ⟨fun k n => .fin (beta k n), fun k c => .fin (eta k c)⟩ = none := by
  have hS : ∀ d ∈ docs, Sizes double d.1 alpha A 50 := fun d hd =>
    ⟨wide_double, le_rfl, (hX d hd).trans (by norm_num), ⟨hK, hK'⟩, hV, by norm_num, ha, ha', hA, hr⟩
  have hne : docs ≠ [] := by
    rintro rfl
    obtain ⟨d, hd, -⟩ := hy
    simp at hd
  have deep900 : (1 : ℝ) / 2 ^ 900 ≤ 1 / 2 ^ 280 := one_div_le_one_div_of_le (by positivity) (pow_le_pow_right₀ (by norm_num) (by norm_num))
  have tags : ∀ d ∈ docs, Tags L d.1 beta (fun k => eta k d.2) 50 := fun d hd =>
    tags_double hb0 hb1 (fun k => he0 k d.2) (fun k => he1 k d.2) (fun n hn => (hb d hd n hn).imp fun k hk => deep900.trans hk)
  obtain ⟨b', e', l, h1, h2⟩ := lEpoch_nil (L := L) (y := y) (k := k) (lo := 217) wide_double hK' hV (hC'.trans (by norm_num)) (by norm_num) (by norm_num) hX hne hlen
    (step := cScaled L alpha tol (i + 1)) (beta := beta) (eta := eta) (b := 280) (c := 62) ⟨hb0, hb1, hb, he0, he1⟩ (fun d hd => by
      obtain ⟨g, p, t, h1, h2, h3, h4⟩ := cRun_fin (hS d hd) (hX0 d hd) (tags d hd) tol (i + 1)
      have h5 := cRun_low (hS d hd) (hX0 d hd) (tags d hd) (by decide) tol (i + 1) h1 rfl
      obtain ⟨q, h6, h7⟩ := important_adds (hS d hd) (by decide) (T := 196) (by decide) h2 h5 (tau_le_two wide_double hV h3 h4)
      refine ⟨q, ?_, h7⟩
      unfold cScaled
      dsimp only
      rw [h1, Option.map_some, h6])
    (fun d hd hy' q hq n => cScaled_nil (fun n hn => by dsimp only; rw [hz d hd hy' n hn]) (hc d hd) hq n)
  obtain ⟨d, hd, hy⟩ := hy
  have hV0 : 0 < V := by
    obtain ⟨n, -⟩ := exists_word (hX0 d hd)
    exact n.pos
  rw [lTrain, h1, Option.bind_some]
  dsimp only
  rw [lTrain, lEpoch, if_neg hne, lGather_none docs ⟨d, hd, ?_⟩]
  · rfl
  · unfold cScaled
    dsimp only
    rw [C137_correspondence_undefined (k := k) L hV0 (by rw [hy]; exact h2) (hc d hd) i]
    rfl

/-- C140 is false without smoothing (`mu` = 1): if a topic has no word of the documents of a class, for instance because
the class has no documents, the multinomial step reports NaN for every document after the first epoch. -/
theorem C140_multinomial_unsmoothed (G : GammaDevice double) {docs : List (Vec V ℕ × Fin C)} (hX : ∀ d ∈ docs, numWords d.1 ≤ 2 ^ 31)
    (hne : docs ≠ []) (hlen : docs.length ≤ 2 ^ 20) (hK : 0 < K) (hK' : K ≤ 2 ^ 20) (hV : V ≤ 2 ^ 20) (hC' : C ≤ 2 ^ 16) (ha : ∀ k, 1 / 100 ≤ alpha k)
    (ha' : ∀ k, alpha k ≤ A) (hA : A ≤ 2 ^ 32) (hr : ∀ k, fl double (alpha k) = alpha k) {w : ℝ} (hw : 0 ≤ w) (hw' : w ≤ 7) (hb0 : ∀ k n, 0 ≤ beta k n)
    (hb1 : ∀ k n, beta k n ≤ 1) (hb : ∀ d ∈ docs, ∀ n, d.1 n ≠ 0 → ∃ k, 1 / 2 ^ 95 ≤ beta k n) (he0 : ∀ k c, 1 / 2 ^ 81 ≤ eta k c) (he1 : ∀ k c, eta k c ≤ 1)
    {tol : ℝ} (i : ℕ) (hc : ∀ d ∈ docs, nConverged G.toDevice (fun _ => .fin 0) (nFirst double d.1 alpha).1 tol = false) {k : Fin K}
    (hz : ∀ d ∈ docs, d.2 = y → ∀ n, d.1 n ≠ 0 → beta k n = 0) :
    ∃ (beta' : Mat K V ℝ) (eta' : Mat K C ℝ) (logs : List Num), lTrain G.toLogDevice 1 (mScaled G.toLogDevice alpha w tol (i + 1)) [docs]
        ⟨fun k n => .fin (beta k n), fun k c => .fin (eta k c)⟩ = some (⟨fun k n => .fin (beta' k n), fun k c => .fin (eta' k c)⟩, logs) ∧
      ∀ (d : Vec V ℕ × Fin C) (prior portion : ℝ) (phi : Mat K V Num) (gamma : Vec K Num),
        mReport G d.1 d.2 alpha beta' eta' prior 1 portion phi gamma = .nan := by
  have hS : ∀ d ∈ docs, Sizes double d.1 alpha A 100 := fun d hd => ⟨wide_double, le_rfl, hX d hd, ⟨hK, hK'⟩, hV, by norm_num, ha, ha', hA, hr⟩
  obtain ⟨b', e', l, h1, h2⟩ := lEpoch_nil (L := G.toLogDevice) (y := y) (k := k) (lo := 21) wide_double hK' hV (hC'.trans (by norm_num)) le_rfl (by norm_num) hX hne hlen
    (step := mScaled G.toLogDevice alpha w tol (i + 1)) (beta := beta) (eta := eta) (b := 95) (c := 81) ⟨hb0, hb1, hb, he0, he1⟩ (fun d hd => by
      obtain ⟨g, p, h1, h2⟩ := mRun_fin (y := d.2) (hS d hd) (votes_trained (L := G.toLogDevice) hb0 hb1 hw hw' (fun k => he0 k d.2) (fun k => he1 k d.2)
        (hb d hd)) tol (i + 1)
      obtain ⟨q, h3, h4⟩ := weighted_adds (hS d hd) (by decide) h2
      refine ⟨q, ?_, h4⟩
      unfold mScaled
      dsimp only
      rw [h1, Option.map_some, h3])
    (fun d hd hy' q hq n => mScaled_nil (fun n hn => by dsimp only; rw [hz d hd hy' n hn]) (hc d hd) hq n)
  refine ⟨b', e', [.fin l], ?_, fun d prior portion phi gamma => C138_multinomial_unseen (k := k) (c := y) G h2 prior portion phi gamma⟩
  rw [lTrain, h1, Option.bind_some]
  rfl

/-! ### Concrete cases -/

/-- Three documents over three words in two classes. -/
def classedDocs : List (Vec 3 ℕ × Fin 2) := [(![1, 0, 2], 0), (![0, 3, 0], 1), (![2, 2, 0], 1)]

theorem classedDocs_words : ∀ d ∈ classedDocs, 0 < numWords d.1 ∧ numWords d.1 ≤ 2 ^ 20 := by decide

theorem two_rep : fl double (2 : ℝ) = 2 := by
  have := fl_count double_ok (s := 1) (e := 1) (by decide)
  simpa using this

/-- A thousand epochs over the documents, in two orders. -/
example (tol : ℝ) (i : ℕ) : ∃ (beta' : Mat 2 3 ℝ) (eta' : Mat 2 2 ℝ) (logs : List ℝ), lTrain (plainGamma wide_double).toLogDevice 2
      (mScaled (plainGamma wide_double).toLogDevice (fun _ => 1 / 2) 1 tol i) (List.replicate 500 classedDocs ++ List.replicate 500 classedDocs.reverse)
      ⟨fun k n => .fin (someBeta k n), fun _ _ => .fin (1 / 2)⟩ = some (⟨fun k n => .fin (beta' k n), fun k c => .fin (eta' k c)⟩, logs.map .fin) ∧
    logs.length = (List.replicate 500 classedDocs ++ List.replicate 500 classedDocs.reverse).length ∧
    (List.replicate 500 classedDocs ++ List.replicate 500 classedDocs.reverse ≠ [] → Educated double classedDocs beta' eta') ∧
      UsableM (plainGamma wide_double) classedDocs (fun _ => 1 / 2) 1 2 1 tol i beta' eta' :=
  C140_multinomial_double_partial _ (fun d hd => (classedDocs_words d hd).2.trans (by norm_num)) (by decide) (by decide) (by norm_num) (by norm_num) (by norm_num) (by norm_num) (by norm_num)
    (fun _ => by norm_num) (fun _ => by norm_num) (by norm_num) (fun _ => half_rep wide_double) (by norm_num) (by norm_num) two_rep (by norm_num) (by norm_num)
    (fun k n => (someBeta_range k n).1) (fun k n => (someBeta_range k n).2) (fun _ _ n _ => ⟨0, by rw [someBeta_zero]; exact half_low (by norm_num)⟩)
    (fun _ _ => half_low (by norm_num)) (fun _ _ => by norm_num) tol i _ (fun e he => by
      rcases List.mem_append.1 he with h | h
      · rw [List.eq_of_mem_replicate h]
      · rw [List.eq_of_mem_replicate h]; exact List.reverse_perm _)

example (tol : ℝ) (i : ℕ) : ∃ (beta' : Mat 2 3 ℝ) (eta' : Mat 2 2 ℝ) (logs : List ℝ), lTrain (plainGamma wide_double).toLogDevice 2
      (cScaled (plainGamma wide_double).toLogDevice (fun _ => 1 / 2) tol i) (List.replicate 1000 classedDocs)
      ⟨fun k n => .fin (someBeta k n), fun _ _ => .fin (1 / 2)⟩ = some (⟨fun k n => .fin (beta' k n), fun k c => .fin (eta' k c)⟩, logs.map .fin) ∧
    logs.length = (List.replicate 1000 classedDocs).length ∧
    (List.replicate 1000 classedDocs ≠ [] → Educated double classedDocs beta' eta') ∧
      UsableC (plainGamma wide_double) classedDocs (fun _ => 1 / 2) 1 2 tol i beta' eta' :=
  C140_correspondence_double_partial _ (fun d hd => (classedDocs_words d hd).1) (fun d hd => (classedDocs_words d hd).2) (by decide) (by decide) (by norm_num) (by norm_num) (by norm_num) (by norm_num) (by norm_num)
    (fun _ => by norm_num) (fun _ => by norm_num) (by norm_num) (fun _ => half_rep wide_double) (by norm_num) (by norm_num) two_rep
    (fun k n => (someBeta_range k n).1) (fun k n => (someBeta_range k n).2) (fun _ _ n _ => ⟨0, by rw [someBeta_zero]; exact half_low (by norm_num)⟩)
    (fun _ _ => half_low (by norm_num)) (fun _ _ => by norm_num) tol i _ (fun e he => by rw [List.eq_of_mem_replicate he])

/-- The second topic knows only the first word, which the document of the second class does not have. -/
example (rest : List (List (Vec 3 ℕ × Fin 2))) : lTrain (plainLog wide_double) 1 (cScaled (plainLog wide_double) (fun _ => 1 / 2) 0 1)
    ([(![1, 0, 2], 0), (![0, 1, 2], 1)] :: [(![1, 0, 2], 0), (![0, 1, 2], 1)] :: rest) ⟨fun k n => .fin (someBeta k n), fun _ _ => .fin (1 / 2)⟩ = none := by
  refine C140_correspondence_unsmoothed (A := 1) (y := 1) (k := 1) _ ?_ ?_ (by decide) (by norm_num) (by norm_num) (by norm_num) (by norm_num) (fun _ => by norm_num) (fun _ => by norm_num)
    (by norm_num) (fun _ => half_rep wide_double) (fun k n => (someBeta_range k n).1) (fun k n => (someBeta_range k n).2)
    (fun _ _ n _ => ⟨0, by rw [someBeta_zero]; exact half_low (by norm_num)⟩) (fun _ _ => half_low (by norm_num)) (fun _ _ => by norm_num) 0 ?_ ?_ ⟨(![0, 1, 2], 1), by simp, rfl⟩ rest
  · decide
  · decide
  · intro d hd
    rcases List.mem_cons.1 hd with rfl | hd
    · exact half_begins wide_double _ (by decide)
    · obtain rfl := List.mem_singleton.1 hd
      exact half_begins wide_double _ (by decide)
  · intro d hd hy n hn
    rcases List.mem_cons.1 hd with rfl | hd
    · simp at hy
    · obtain rfl := List.mem_singleton.1 hd
      fin_cases n <;> simp [someBeta] at hn ⊢

/-- A class without documents. -/
example : ∃ (beta' : Mat 2 3 ℝ) (eta' : Mat 2 2 ℝ) (logs : List Num), lTrain (plainGamma wide_double).toLogDevice 1
      (mScaled (plainGamma wide_double).toLogDevice (fun _ => 1 / 2) 1 0 1) [[(![1, 0, 2], 0)]]
      ⟨fun k n => .fin (someBeta k n), fun _ _ => .fin (1 / 2)⟩ = some (⟨fun k n => .fin (beta' k n), fun k c => .fin (eta' k c)⟩, logs) ∧
    ∀ (d : Vec 3 ℕ × Fin 2) (prior portion : ℝ) (phi : Mat 2 3 Num) (gamma : Vec 2 Num),
      mReport (plainGamma wide_double) d.1 d.2 (fun _ => 1 / 2) beta' eta' prior 1 portion phi gamma = .nan := by
  refine C140_multinomial_unsmoothed (A := 1) (y := 1) (k := 0) _ ?_ (by simp) (by decide) (by norm_num) (by norm_num) (by norm_num) (by norm_num) (fun _ => by norm_num) (fun _ => by norm_num)
    (by norm_num) (fun _ => half_rep wide_double) (by norm_num) (by norm_num) (fun k n => (someBeta_range k n).1) (fun k n => (someBeta_range k n).2)
    (fun _ _ n _ => ⟨0, by rw [someBeta_zero]; exact half_low (by norm_num)⟩) (fun _ _ => half_low (by norm_num)) (fun _ _ => by norm_num) 0 ?_ ?_
  · decide
  · intro d hd
    obtain rfl := List.mem_singleton.1 hd
    exact half_begins wide_double _ (by decide)
  · intro d hd hy
    obtain rfl := List.mem_singleton.1 hd
    simp at hy

end Verif.Overflow
