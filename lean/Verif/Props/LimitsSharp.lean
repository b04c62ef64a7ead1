import Verif.Props.Limits

/-
C127, continued: how many topics are too many.
-/
namespace Verif.Limits

open MathUtils EStep Rounded Finset

variable {K V : ℕ} {F : Format} {M : Machine F}

/-- Squaring with rounding, from above. -/
theorem lSquare_upper (hF : F.Ok) {b : ℝ} : ∀ (n : ℕ) (x : ℝ), 1 ≤ x → (x * (1 + F.u)) ^ (2 ^ n) ≤ b →
    b < 2 ^ F.high → ∃ v, lSquare F n (some x) = some v ∧ 1 ≤ v ∧ v ≤ b := by
  have hu := u_pos (F := F)
  intro n
  induction n with
  | zero =>
    intro x h1 h2 _
    refine ⟨x, rfl, h1, ?_⟩
    rw [pow_zero, pow_one] at h2
    nlinarith
  | succ n ih =>
    intro x h1 h2 hb
    have hx2 : 1 ≤ x * x := by nlinarith
    have e2 := le_fl hF (j := 0) (by have := hF.low; omega) (x := x * x) (by rw [zpow_zero]; exact hx2)
    rw [zpow_zero] at e2
    have e3 := fl_err_big (F := F) (x := x * x) (j := 0) (by have := hF.low; omega) (by rw [zpow_zero]; exact hx2)
    rw [abs_le] at e3
    have e4 : fl F (x * x) * (1 + F.u) ≤ (x * (1 + F.u)) ^ 2 := by
      have : fl F (x * x) ≤ x * x * (1 + F.u) := by linarith [e3.2]
      calc fl F (x * x) * (1 + F.u) ≤ x * x * (1 + F.u) * (1 + F.u) := mul_le_mul_of_nonneg_right this (by linarith)
        _ = _ := by ring
    have e5 : (fl F (x * x) * (1 + F.u)) ^ (2 ^ n) ≤ b := by
      refine le_trans (pow_le_pow_left₀ (by positivity) e4 _) ?_
      rw [← pow_mul, ← pow_succ']
      exact h2
    have e6 : fl F (x * x) < 2 ^ F.high := by
      refine lt_of_le_of_lt ?_ hb
      refine le_trans ?_ e5
      have : 1 ≤ fl F (x * x) * (1 + F.u) := by nlinarith
      refine le_trans ?_ (le_self_pow₀ this (by positivity))
      nlinarith
    rw [lSquare]
    unfold bounded
    rw [if_neg (not_le.2 e6)]
    exact ih _ e2 e5 hb

/-- `fast_exp` by table and squares is not much above the exponential. -/
theorem lExpPos_upper (hF : F.Ok) (hu : F.u ≤ 1 / 10 ^ 7) {x : ℝ} (h0 : 0 ≤ x) (h1 : x ≤ 100) {b : ℝ}
    (hb : Real.exp (x * (1024 / 1023) + 1 / 1000) ≤ b) (hb' : b < 2 ^ F.high) :
    ∃ v, lExpPos M x = some v ∧ 1 ≤ v ∧ v ≤ b := by
  obtain ⟨a0, a1, a2, a3⟩ := FastExp.halve_spec x h0
  have hu0 := u_pos (F := F)
  have hcnt : (FastExp.halve x).2 ≤ 7 := FastExp.C29_halvings x h0 h1
  have hidx := index_lt h0
  have hr := lut_range hidx
  have hs := start_range hF h0
  have hfloor : ((⌊(FastExp.halve x).1 * 1024⌋₊ : ℕ) : ℝ) ≤ (FastExp.halve x).1 * 1024 := Nat.floor_le (by positivity)
  unfold lExpPos
  rw [if_neg (by linarith)]
  generalize ⌊(FastExp.halve x).1 * 1024⌋₊ = i at *
  obtain ⟨v, hv, hp, hl⟩ := FastExp.C30_table i hidx
  rw [hv, Option.getD_some] at hs hr ⊢
  rw [abs_le] at hl
  apply lSquare_upper hF _ _ hs.1 _ hb'
  refine le_trans ?_ hb
  have e1 := fl_err_big (F := F) (x := v) (j := 0) (by have := hF.low; omega) (by rw [zpow_zero]; exact hr.1)
  rw [abs_le] at e1
  have e2 : fl F v * (1 + F.u) ≤ Real.exp (Real.log v + 2 * F.u) := by
    rw [Real.exp_add, Real.exp_log hp]
    have h3 : (1 + F.u) * (1 + F.u) ≤ Real.exp (2 * F.u) := by
      rw [two_mul, Real.exp_add]
      have := Real.add_one_le_exp F.u
      exact mul_le_mul (by linarith) (by linarith) (by linarith) (Real.exp_pos _).le
    calc fl F v * (1 + F.u) ≤ v * (1 + F.u) * (1 + F.u) := mul_le_mul_of_nonneg_right (by linarith [e1.2]) (by linarith)
      _ = v * ((1 + F.u) * (1 + F.u)) := by ring
      _ ≤ _ := mul_le_mul_of_nonneg_left h3 hp.le
  refine le_trans (pow_le_pow_left₀ (by nlinarith [hs.1]) e2 _) ?_
  rw [← Real.exp_nat_mul]
  apply Real.exp_le_exp.2
  push_cast
  have hpw : (2 : ℝ) ^ (FastExp.halve x).2 ≤ 128 := by
    have : (2 : ℝ) ^ (FastExp.halve x).2 ≤ 2 ^ 7 := pow_le_pow_right₀ (by norm_num) hcnt
    norm_num at this ⊢
    exact this
  have hpp : (0 : ℝ) < 2 ^ (FastExp.halve x).2 := by positivity
  generalize (2 : ℝ) ^ (FastExp.halve x).2 = P at *
  have h5 : Real.log v + 2 * F.u ≤ (FastExp.halve x).1 * (1024 / 1023) + 3 / 10 ^ 7 := by
    have : (i : ℝ) / 1023 ≤ (FastExp.halve x).1 * 1024 / 1023 := by gcongr
    norm_num at hl hu ⊢
    linarith
  calc P * (Real.log v + 2 * F.u) ≤ P * ((FastExp.halve x).1 * (1024 / 1023) + 3 / 10 ^ 7) :=
        mul_le_mul_of_nonneg_left h5 hpp.le
    _ = x * (1024 / 1023) + P * (3 / 10 ^ 7) := by
      conv_rhs => rw [a2]
      ring
    _ ≤ _ := by
      norm_num
      nlinarith

theorem exp_le_two_pow (n : ℕ) {x : ℝ} (h : x ≤ n * 0.6931471803) : Real.exp x ≤ (2 : ℝ) ^ n := by
  have e : (2 : ℝ) ^ n = Real.exp (n * Real.log 2) := by
    rw [← Real.log_pow, Real.exp_log (by positivity)]
  rw [e]
  apply Real.exp_le_exp.2
  have : n * 0.6931471803 ≤ n * Real.log 2 := mul_le_mul_of_nonneg_left Real.log_two_gt_d9.le (Nat.cast_nonneg n)
  linarith

/-- An exponential of at least `2 ^ -q` down to `-r`. -/
def Positive (M : Machine F) (r : ℝ) (q : ℕ) : Prop := ∀ x w, -r ≤ x → lExp M x = some w → (2 : ℝ) ^ (-(q : ℤ)) ≤ w

theorem positive_of (hF : F.Ok) {r : ℝ} {q : ℕ} (hl : F.low ≤ -(q : ℤ)) (hq : 1 ≤ q)
    (h : ∀ x, 0 ≤ x → x ≤ r → ∃ v, lExpPos M x = some v ∧ v ≤ 2 ^ q) : Positive M r q := by
  intro x w hx hw
  unfold lExp at hw
  split_ifs at hw with h0
  · obtain ⟨v, hv, hv2⟩ := h (-x) (by linarith) (by linarith)
    rw [hv] at hw
    simp only [Option.some.injEq] at hw
    subst hw
    have hv1 := lExpPos_ge hF (by linarith) hv
    apply le_fl hF hl
    rw [zpow_neg, zpow_natCast, ← one_div]
    exact one_div_le_one_div_of_le (by linarith) hv2
  · have h3 := lExpPos_ge hF (by linarith) hw
    refine le_trans ?_ h3
    have : (2 : ℝ) ^ (-(q : ℤ)) ≤ 2 ^ (-1 : ℤ) := zpow_le_zpow_right₀ (by norm_num) (by omega)
    norm_num at this ⊢
    exact this

/-- With `float`, `fast_exp` is at least 2^-126 down to -87. -/
theorem positive_float (M : Machine float) : Positive M 87 126 := by
  refine positive_of float_ok (by decide) (by norm_num) fun x h0 h1 => ?_
  obtain ⟨v, hv, _, h2⟩ := lExpPos_upper (M := M) float_ok (by unfold Format.u float; norm_num) h0 (by linarith)
    (exp_le_two_pow 126 (by norm_num; linarith)) (by
      show (2 : ℝ) ^ 126 < 2 ^ 128
      norm_num)
  exact ⟨v, hv, h2⟩

/-- With `double`, `fast_exp` is at least 2^-1011 down to -700. -/
theorem positive_double (M : Machine double) : Positive M 700 1011 := by
  refine positive_of double_ok (by decide) (by norm_num) fun x h0 h1 => ?_
  rcases le_or_gt x 100 with h | h
  · obtain ⟨v, hv, _, h2⟩ := lExpPos_upper (M := M) double_ok (by unfold Format.u double; norm_num) h0 h
      (exp_le_two_pow 1011 (by norm_num; linarith)) (by
        show (2 : ℝ) ^ 1011 < 2 ^ 1024
        exact pow_lt_pow_right₀ (by norm_num) (by norm_num))
    exact ⟨v, hv, h2⟩
  · have e1 : Real.exp x ≤ 2 ^ 1010 := exp_le_two_pow 1010 (by norm_num; linarith)
    have e2 : (2 : ℝ) ^ 1011 = 2 * 2 ^ 1010 := pow_succ' 2 1010
    have e3 : (2 : ℝ) ^ 1011 < 2 ^ double.high := pow_lt_pow_right₀ (by norm_num) (by decide)
    have hp := Real.exp_pos x
    have hne := M.stdExp_fin x (by
      generalize (2 : ℝ) ^ 1010 = A at e1 e2
      generalize (2 : ℝ) ^ 1011 = B at e2 e3
      linarith)
    obtain ⟨v, hv⟩ := Option.ne_none_iff_exists'.1 hne
    refine ⟨v, ?_, ?_⟩
    · unfold lExpPos
      rw [if_pos h]
      exact hv
    · have := M.stdExp_err x v hv
      rw [abs_le] at this
      generalize (2 : ℝ) ^ 1010 = A at e1 e2
      generalize (2 : ℝ) ^ 1011 = B at e2 ⊢
      linarith

/-! ### C127 -/

/-- The condition for a pass: every word of the document has a topic that knows it and is not too small. -/
theorem word_kept (hF : F.Ok) {r m : ℝ} {q : ℕ} (hp : Positive M r q) (hm0 : 0 < m)
    (hm : (m + 2) * (1025 / 1024) + 1 / 1024 ≤ r) {b : ℤ} (hb : F.low + q ≤ b) {beta : Mat K V ℝ} {g w : Vec K ℝ}
    (hw : mapOpt (fun g => lExp M (M.psi g)) g = some w) {k : Fin K} {n : Fin V} (hg : 1 / m ≤ g k) (hk : 2 ^ b ≤ beta k n) :
    fl F (beta k n * w k) ≠ 0 := by
  have hg0 : 0 < g k := lt_of_lt_of_le (by positivity) hg
  have hpsi := psi_ge (M := M) hg0 hg hm0
  have h1 := hp _ _ (by linarith) (mapOpt_eq.1 hw k)
  have h2 : (2 : ℝ) ^ (b + -(q : ℤ)) ≤ beta k n * w k := by
    rw [zpow_add₀ (by norm_num)]
    exact mul_le_mul hk h1 (two_zpow_pos _).le (le_trans (two_zpow_pos _).le hk)
  have h3 := le_fl hF (by omega) h2
  exact ((two_zpow_pos _).trans_le h3).ne'

/-- `gamma` is at least the prior and the share of any one word. -/
theorem gamma_ge (hF : F.Ok) {X : Vec V ℕ} {alpha : Vec K ℝ} {phi : Mat K V ℝ} (ha : ∀ k, 0 ≤ alpha k)
    (hr : ∀ k, fl F (alpha k) = alpha k) (hphi : ∀ k n, 0 ≤ phi k n) (k : Fin K) {n : Fin V} (hn : X n ≠ 0)
    (hrep : fl F (phi k n) = phi k n) : fl F (alpha k + phi k n) ≤ lGamma F X alpha phi k := by
  have up : ∀ (l : List (Fin V)) (g : ℝ), 0 ≤ g → fl F g = g →
      (g ≤ l.foldl (fun g n => if X n = 0 then g else fl F (g + fl F (fl F (X n) * phi k n))) g) ∧
      (n ∈ l → fl F (g + phi k n) ≤
        l.foldl (fun g n => if X n = 0 then g else fl F (g + fl F (fl F (X n) * phi k n))) g) := by
    intro l
    induction l with
    | nil => intro g hg _; exact ⟨le_rfl, fun h => by cases h⟩
    | cons n' l ih =>
      intro g hg rg
      rw [List.foldl_cons]
      have t0 : 0 ≤ fl F (fl F (X n') * phi k n') :=
        fl_nonneg (mul_nonneg (fl_nonneg (Nat.cast_nonneg _)) (hphi k n'))
      have hs : 0 ≤ g + fl F (fl F (X n') * phi k n') := add_nonneg hg t0
      have hge : g ≤ fl F (g + fl F (fl F (X n') * phi k n')) := by
        conv_lhs => rw [← rg]
        exact fl_mono hF hg (by linarith)
      by_cases hX : X n' = 0
      · rw [if_pos hX]
        refine ⟨(ih g hg rg).1, fun h => ?_⟩
        rcases List.mem_cons.1 h with rfl | h
        · exact absurd hX hn
        · exact (ih g hg rg).2 h
      · rw [if_neg hX]
        have h1 := ih _ (fl_nonneg hs) (fl_fl hF hs)
        refine ⟨hge.trans h1.1, fun h => ?_⟩
        rcases List.mem_cons.1 h with rfl | h
        · refine le_trans ?_ h1.1
          apply fl_mono hF (add_nonneg hg (hphi k n))
          have hx1 : (1 : ℝ) ≤ fl F (X n) := by
            have := le_fl hF (j := 0) (x := (X n : ℝ)) (by have := hF.low; omega) (by
              rw [zpow_zero]
              exact_mod_cast Nat.one_le_iff_ne_zero.2 hn)
            rwa [zpow_zero] at this
          have : fl F (phi k n) ≤ fl F (fl F (X n) * phi k n) :=
            fl_mono hF (hphi k n) (by nlinarith [hphi k n])
          rw [hrep] at this
          linarith
        · refine le_trans ?_ (h1.2 h)
          exact fl_mono hF (add_nonneg hg (hphi k n)) (by linarith)
  exact (up (List.finRange V) (alpha k) (ha k) (hr k)).2 (List.mem_finRange n)

/-- All passes, for a prior of at least `1 / m`: every word of the document has at least `2 ^ b` in some topic. -/
theorem passes_prior (hF : F.Ok) {r m : ℝ} {q : ℕ} (hp : Positive M r q) (hm0 : 0 < m)
    (hm : (m + 2) * (1025 / 1024) + 1 / 1024 ≤ r) {b : ℤ} (hb1 : F.low + q ≤ b) {X : Vec V ℕ} {alpha : Vec K ℝ}
    {beta : Mat K V ℝ} (ha : ∀ k, 1 / m ≤ alpha k) (hr : ∀ k, fl F (alpha k) = alpha k) (hb : ∀ k n, 0 ≤ beta k n)
    (hw : ∀ n, X n ≠ 0 → ∃ k, 2 ^ b ≤ beta k n) (i : ℕ) {gamma : Vec K ℝ}
    (h : lPasses M X alpha beta (i + 1) = some gamma) : Accounted F X alpha gamma := by
  have a0 : ∀ k, 0 < alpha k := fun k => lt_of_lt_of_le (by positivity) (ha k)
  have step : ∀ g gamma : Vec K ℝ, (∀ k, alpha k ≤ g k) → (lPhi M beta g).map (lGamma F X alpha) = some gamma →
      (∀ k, alpha k ≤ gamma k) ∧ Accounted F X alpha gamma := by
    intro g gamma hg h
    obtain ⟨phi, hp', rfl⟩ := Option.map_eq_some_iff.1 h
    refine C127_pass_partial hF (fun k => (a0 k).le) hr hb hp' fun n hn => ?_
    obtain ⟨k, hk⟩ := hw n hn
    obtain ⟨w, hw1, _⟩ := Option.map_eq_some_iff.1 hp'
    exact ⟨k, w k, mapOpt_eq.1 hw1 k, word_kept hF hp hm0 hm hb1 hw1 ((ha k).trans (hg k)) hk⟩
  have inv : ∀ j g, lPasses M X alpha beta j = some g → ∀ k, alpha k ≤ g k := by
    intro j
    induction j with
    | zero =>
      intro g hg k
      cases hg
      unfold lFirst
      conv_lhs => rw [← hr k]
      apply fl_mono hF (a0 k).le
      have : 0 ≤ fl F (fl F (numWords X) / fl F K) :=
        fl_nonneg (div_nonneg (fl_nonneg (Nat.cast_nonneg _)) (fl_nonneg (Nat.cast_nonneg _)))
      linarith
    | succ j ih =>
      intro g hg
      obtain ⟨g', h1, h2⟩ := Option.bind_eq_some_iff.1 hg
      exact (step g' g (ih g' h1) h2).1
  obtain ⟨g', h1, h2⟩ := Option.bind_eq_some_iff.1 h
  exact (step g' gamma (inv i g' h1) h2).2

/-- All passes, for any prior, if one word in `K` makes a topic of at least `1 / m`: the topics of a document do
not become so small that a word is lost, for a topic that knows the word gets at least a `K`-th of it. -/
theorem passes_share (hF : F.Ok) {r m : ℝ} {q : ℕ} (hp : Positive M r q) (hm0 : 0 < m)
    (hm : (m + 2) * (1025 / 1024) + 1 / 1024 ≤ r) {b : ℤ} (hb1 : F.low + q ≤ b) {X : Vec V ℕ} {alpha : Vec K ℝ}
    {beta : Mat K V ℝ} (ha : ∀ k, 0 ≤ alpha k) (hr : ∀ k, fl F (alpha k) = alpha k)
    (hb : ∀ k n, beta k n = 0 ∨ 2 ^ b ≤ beta k n) (hw : ∀ n, X n ≠ 0 → ∃ k, beta k n ≠ 0)
    (hfirst : numWords X ≠ 0 → ∀ k, 1 / m ≤ lFirst F X alpha k)
    (hpos : 0 < K → 0 < ((1 - F.u) ^ (K + 1) - K * F.tiny) / K)
    (hshare : ∀ k p, ((1 - F.u) ^ (K + 1) - K * F.tiny) / K ≤ p → 1 / m ≤ fl F (alpha k + p)) (i : ℕ) {gamma : Vec K ℝ}
    (h : lPasses M X alpha beta (i + 1) = some gamma) : Accounted F X alpha gamma := by
  have b0 : ∀ k n, 0 ≤ beta k n := by
    intro k n
    rcases hb k n with h | h
    · exact h.ge
    · exact (two_zpow_pos b).le.trans h
  have step : ∀ g gamma : Vec K ℝ, (∀ n, X n ≠ 0 → ∃ k, beta k n ≠ 0 ∧ 1 / m ≤ g k) →
      (lPhi M beta g).map (lGamma F X alpha) = some gamma →
      (∀ n, X n ≠ 0 → ∃ k, beta k n ≠ 0 ∧ 1 / m ≤ gamma k) ∧ Accounted F X alpha gamma := by
    intro g gamma hg h
    obtain ⟨phi, hp', rfl⟩ := Option.map_eq_some_iff.1 h
    obtain ⟨w, hw1, hw3⟩ := Option.map_eq_some_iff.1 hp'
    have hw2 := mapOpt_eq.1 hw1
    have w0 : ∀ k, 0 ≤ w k := fun k => lExp_nonneg hF (hw2 k)
    have c0 : ∀ n k, 0 ≤ lWeights (F := F) beta w k n := fun n k => fl_nonneg (mul_nonneg (b0 k n) (w0 k))
    have cr : ∀ n k, fl F (lWeights (F := F) beta w k n) = lWeights (F := F) beta w k n :=
      fun n k => fl_fl hF (mul_nonneg (b0 k n) (w0 k))
    have kept : ∀ n, X n ≠ 0 → ∃ k, lWeights (F := F) beta w k n ≠ 0 := by
      intro n hn
      obtain ⟨k, hk, hgk⟩ := hg n hn
      exact ⟨k, word_kept hF hp hm0 hm hb1 hw1 hgk ((hb k n).resolve_left hk)⟩
    have ephi : ∀ k n, phi k n = lNormalize M (fun k => lWeights (F := F) beta w k n) k := by
      intro k n; rw [← hw3]
    have phi0 : ∀ k n, 0 ≤ phi k n := by
      intro k n
      rw [ephi]
      unfold lNormalize
      split_ifs
      · exact fl_nonneg (div_nonneg (c0 n k) (near_sum hF (c0 n) (cr n)).1)
      · exact c0 n k
    refine ⟨fun n hn => ?_, (C127_pass_partial hF ha hr b0 hp' fun n hn => ?_).2⟩
    · have hs := (near_normalize (M := M) hF (c0 n) (cr n) (kept n hn)).2.1
      rw [mul_one] at hs
      have hKne : (univ : Finset (Fin K)).Nonempty := by
        obtain ⟨k, _⟩ := kept n hn
        exact ⟨k, mem_univ k⟩
      have hK0 : (0 : ℝ) < K := by
        obtain ⟨k, _⟩ := kept n hn
        have := k.pos
        exact_mod_cast this
      obtain ⟨k, _, hk⟩ := exists_le_of_sum_le (s := univ) (f := fun _ : Fin K => ((1 - F.u) ^ (K + 1) - K * F.tiny) / K)
        (g := fun k => phi k n) hKne (by
          rw [sum_const, card_univ, Fintype.card_fin, nsmul_eq_mul, mul_div_cancel₀ _ hK0.ne']
          have : ∑ k, phi k n = ∑ k, lNormalize M (fun k => lWeights (F := F) beta w k n) k :=
            sum_congr rfl fun k _ => ephi k n
          rw [this]
          linarith)
      have hk' : ((1 - F.u) ^ (K + 1) - K * F.tiny) / K ≤ phi k n := hk
      refine ⟨k, fun hz => ?_, (hshare k _ hk').trans (gamma_ge hF ha hr phi0 k hn ?_)⟩
      · have z : lWeights (F := F) beta w k n = 0 := by
          unfold lWeights
          rw [hz, zero_mul, fl_zero]
        have : phi k n = 0 := by
          rw [ephi]
          unfold lNormalize
          split_ifs
          · show fl F (lWeights (F := F) beta w k n / _) = 0
            rw [z, zero_div, fl_zero]
          · exact z
        linarith [hpos k.pos]
      · rw [ephi]
        unfold lNormalize
        split_ifs
        · exact fl_fl hF (div_nonneg (c0 n k) (near_sum hF (c0 n) (cr n)).1)
        · exact cr n k
    · obtain ⟨k, hk⟩ := kept n hn
      exact ⟨k, w k, hw2 k, hk⟩
  have inv : ∀ j g, lPasses M X alpha beta j = some g → ∀ n, X n ≠ 0 → ∃ k, beta k n ≠ 0 ∧ 1 / m ≤ g k := by
    intro j
    induction j with
    | zero =>
      intro g hg n hn
      cases hg
      obtain ⟨k, hk⟩ := hw n hn
      refine ⟨k, hk, hfirst (fun h0 => hn ?_) k⟩
      exact (sum_eq_zero_iff.1 h0) n (mem_univ n)
    | succ j ih =>
      intro g hg
      obtain ⟨g', h1, h2⟩ := Option.bind_eq_some_iff.1 hg
      exact (step g' g (ih g' h1) h2).1
  obtain ⟨g', h1, h2⟩ := Option.bind_eq_some_iff.1 h
  exact (step g' gamma (inv i g' h1) h2).2

/-- With the prior 1/K, a topic with about a `K`-th of a word is at least `1 / m`. -/
theorem share_ge (hu : F.u ≤ 1 / 10 ^ 6) (hlow : F.low + F.prec ≤ -10) {m : ℝ} (hm0 : 0 < m)
    (hK0 : 0 < K) (hK1 : K ≤ 2 ^ 11) (hK : (K : ℝ) ≤ 1998 / 1000 * m) {alpha : Vec K ℝ} (ha : ∀ k, alpha k = fl F (1 / K))
    (k : Fin K) {p : ℝ} (hp : (1 - 3 / 10 ^ 4) / K ≤ p) : 1 / m ≤ fl F (alpha k + p) := by
  have hu0 := u_pos (F := F)
  have hKr : (0 : ℝ) < K := by exact_mod_cast hK0
  have hinv : (2 : ℝ) ^ (-11 : ℤ) ≤ 1 / K := by
    rw [zpow_neg, inv_eq_one_div]
    exact one_div_le_one_div_of_le hKr (by exact_mod_cast hK1)
  have h1 := fl_err_big (F := F) (by omega) hinv
  rw [← ha k, abs_le] at h1
  set c : ℝ := 1 / K with hc
  have hc0 : 0 < c := by positivity
  have hp' : (1 - 3 / 10 ^ 4) * c ≤ p := by rw [hc, mul_one_div]; exact hp
  have huc : F.u * c ≤ 1 / 10 ^ 6 * c := mul_le_mul_of_nonneg_right hu hc0.le
  have hs : (2 - 4 / 10 ^ 4) * c ≤ alpha k + p := by linarith [h1.1]
  have h2 := fl_err_big (F := F) (x := alpha k + p) (j := -11) (by omega) (by linarith)
  rw [abs_le] at h2
  have h3 : F.u * (alpha k + p) ≤ 1 / 10 ^ 6 * (alpha k + p) := mul_le_mul_of_nonneg_right hu (by linarith)
  have h4 : 1998 / 1000 * c ≤ fl F (alpha k + p) := by linarith [h2.1]
  refine le_trans ?_ h4
  rw [hc, mul_one_div, div_le_div_iff₀ hm0 hKr]
  linarith

/-- All passes, for the prior 1/K. -/
theorem passes_default (hF : F.Ok) (hu : F.u ≤ 1 / 10 ^ 7) (hlow : F.low + F.prec ≤ -40) {r m : ℝ} {q : ℕ}
    (hp : Positive M r q) (hm0 : 0 < m) (hm : (m + 2) * (1025 / 1024) + 1 / 1024 ≤ r) {b : ℤ} (hb1 : F.low + q ≤ b)
    (hKu : ((K + 1 : ℕ) : ℝ) * F.u ≤ 1 / 10 ^ 4) (hK1 : K ≤ 2 ^ 11) (hK : (K : ℝ) ≤ 1998 / 1000 * m) {X : Vec V ℕ}
    {alpha : Vec K ℝ} {beta : Mat K V ℝ} (ha : ∀ k, alpha k = fl F (1 / K))
    (hb : ∀ k n, beta k n = 0 ∨ 2 ^ b ≤ beta k n) (hw : ∀ n, X n ≠ 0 → ∃ k, beta k n ≠ 0) (i : ℕ) {gamma : Vec K ℝ}
    (h : lPasses M X alpha beta (i + 1) = some gamma) : Accounted F X alpha gamma := by
  have hu0 := u_pos (F := F)
  have ht0 := tiny_pos (F := F)
  have hshare : (1 - 2 / 10 ^ 4 : ℝ) ≤ (1 - F.u) ^ (K + 1) - K * F.tiny := by
    have h1 := one_add_mul_le_pow (a := -F.u) (by linarith) (K + 1)
    have h2 : F.tiny ≤ 1 / 2 ^ 41 := by
      unfold Format.tiny
      have : (2 : ℝ) ^ F.low ≤ 2 ^ (-40 : ℤ) := zpow_le_zpow_right₀ (by norm_num) (by omega)
      norm_num at this ⊢
      linarith
    have h3 : (K : ℝ) ≤ 2 ^ 11 := by exact_mod_cast hK1
    have h4 : (K : ℝ) * F.tiny ≤ 2 ^ 11 * (1 / 2 ^ 41) := mul_le_mul h3 h2 ht0.le (by norm_num)
    rw [← sub_eq_add_neg] at h1
    norm_num at h4 ⊢
    linarith
  have hge : ∀ k : Fin K, ∀ p : ℝ, (1 - 3 / 10 ^ 4) / K ≤ p → 1 / m ≤ fl F (alpha k + p) := fun k p hp =>
    share_ge (hu.trans (by norm_num)) (by omega) hm0 k.pos hK1 hK ha k hp
  refine passes_share hF hp hm0 hm hb1 (fun k => ?_) (fun k => ?_) hb hw (fun hN k => ?_) (fun hK0 => div_pos (by linarith) (by exact_mod_cast hK0))
    (fun k p hp => ?_) i h
  · rw [ha k]; exact fl_nonneg (by positivity)
  · rw [ha k]; exact fl_fl hF (by positivity)
  · have hK0 : 0 < K := k.pos
    have hKr : (0 : ℝ) < K := by exact_mod_cast hK0
    unfold lFirst
    apply hge
    have hn : (1 : ℝ) ≤ fl F (numWords X) := by
      have := le_fl hF (j := 0) (x := (numWords X : ℝ)) (by omega) (by
        rw [zpow_zero]
        exact_mod_cast Nat.one_le_iff_ne_zero.2 hN)
      rwa [zpow_zero] at this
    have hk1 : (1 : ℝ) ≤ K := by exact_mod_cast hK0
    have hk := fl_err_big (F := F) (x := (K : ℝ)) (j := 0) (by omega) (by rw [zpow_zero]; exact hk1)
    rw [abs_le] at hk
    have huk : F.u * K ≤ 1 / 10 ^ 7 * K := mul_le_mul_of_nonneg_right hu hKr.le
    have hfk : 0 < fl F (K : ℝ) := by linarith [hk.1]
    have hq : (1 - 1 / 10 ^ 6) / K ≤ fl F (numWords X) / fl F K := by
      rw [div_le_div_iff₀ hKr hfk]
      have : (1 - 1 / 10 ^ 6) * fl F (K : ℝ) ≤ K := by linarith [hk.2]
      refine this.trans ?_
      exact le_mul_of_one_le_left hKr.le hn
    have hq2 : (2 : ℝ) ^ (-12 : ℤ) ≤ fl F (numWords X) / fl F K := by
      refine le_trans ?_ hq
      rw [zpow_neg, inv_eq_one_div, div_le_div_iff₀ (by positivity) hKr]
      have : (K : ℝ) ≤ 2048 := by exact_mod_cast hK1
      norm_num
      linarith
    have hf := fl_err_big (F := F) (by omega) hq2
    rw [abs_le] at hf
    have hq0 : 0 < fl F (numWords X) / fl F K := by positivity
    have := mul_le_mul_of_nonneg_right hu hq0.le
    have hc0 : (0 : ℝ) < 1 / K := by positivity
    have hq' : (1 - 1 / 10 ^ 6) * (1 / (K : ℝ)) ≤ fl F (numWords X) / fl F K := by rw [mul_one_div]; exact hq
    rw [← mul_one_div]
    set Q := fl F (numWords X) / fl F K
    set c : ℝ := 1 / K
    linarith [hf.1]
  · refine hge k p (le_trans ?_ hp)
    exact div_le_div_of_nonneg_right (by linarith) (Nat.cast_nonneg _)

/-- C127 with `double` and a prior of at least 1/697: no word is lost that has at least 2^-63 in some topic. -/
theorem C127_double_prior_partial {M : Machine double} {X : Vec V ℕ} {alpha : Vec K ℝ} {beta : Mat K V ℝ}
    (ha : ∀ k, 1 / 697 ≤ alpha k) (hr : ∀ k, fl double (alpha k) = alpha k) (hb : ∀ k n, 0 ≤ beta k n)
    (hw : ∀ n, X n ≠ 0 → ∃ k, 2 ^ (-63 : ℤ) ≤ beta k n) (i : ℕ) {gamma : Vec K ℝ}
    (h : lPasses M X alpha beta (i + 1) = some gamma) : Accounted double X alpha gamma :=
  passes_prior double_ok (positive_double M) (by norm_num) (by norm_num) (by decide) ha hr hb hw i h

/-- C127 with `float` and a prior of at least 1/84: no word is lost that has at least 2^-23 in some topic. -/
theorem C127_float_prior_partial {M : Machine float} {X : Vec V ℕ} {alpha : Vec K ℝ} {beta : Mat K V ℝ}
    (ha : ∀ k, 1 / 84 ≤ alpha k) (hr : ∀ k, fl float (alpha k) = alpha k) (hb : ∀ k n, 0 ≤ beta k n)
    (hw : ∀ n, X n ≠ 0 → ∃ k, 2 ^ (-23 : ℤ) ≤ beta k n) (i : ℕ) {gamma : Vec K ℝ}
    (h : lPasses M X alpha beta (i + 1) = some gamma) : Accounted float X alpha gamma :=
  passes_prior float_ok (positive_float M) (by norm_num) (by norm_num) (by decide) ha hr hb hw i h

/-- C127 with `double` and the prior that the builder chooses, 1/K, for at most 1392 topics: whatever the length of
the document, no word is lost in any pass, if every entry of the model is zero or at least 2^-63 and every word of the
document has some topic. With 1430 topics a document of one word is lost (`C127_lost_double`). -/
theorem C127_double_default_partial {M : Machine double} (hK : K ≤ 1392) {X : Vec V ℕ} {alpha : Vec K ℝ}
    {beta : Mat K V ℝ} (ha : ∀ k, alpha k = fl double (1 / K)) (hb : ∀ k n, beta k n = 0 ∨ 2 ^ (-63 : ℤ) ≤ beta k n)
    (hw : ∀ n, X n ≠ 0 → ∃ k, beta k n ≠ 0) (i : ℕ) {gamma : Vec K ℝ}
    (h : lPasses M X alpha beta (i + 1) = some gamma) : Accounted double X alpha gamma := by
  have hKr : (K : ℝ) ≤ 1392 := by exact_mod_cast hK
  have hu : double.u = 1 / 2 ^ 53 := by unfold Format.u double; norm_num
  refine passes_default double_ok (by rw [hu]; norm_num) (by decide) (positive_double M) (m := 697) (by norm_num)
    (by norm_num) (by decide) ?_ (by omega) (by linarith) ha hb hw i h
  rw [hu, Nat.cast_add, Nat.cast_one]
  norm_num
  linarith

/-- C127 with `float` and the prior that the builder chooses, for at most 167 topics. With 184 topics a document of
one word is lost (`C127_lost_float`). -/
theorem C127_float_default_partial {M : Machine float} (hK : K ≤ 167) {X : Vec V ℕ} {alpha : Vec K ℝ}
    {beta : Mat K V ℝ} (ha : ∀ k, alpha k = fl float (1 / K)) (hb : ∀ k n, beta k n = 0 ∨ 2 ^ (-23 : ℤ) ≤ beta k n)
    (hw : ∀ n, X n ≠ 0 → ∃ k, beta k n ≠ 0) (i : ℕ) {gamma : Vec K ℝ}
    (h : lPasses M X alpha beta (i + 1) = some gamma) : Accounted float X alpha gamma := by
  have hKr : (K : ℝ) ≤ 167 := by exact_mod_cast hK
  have hu : float.u = 1 / 2 ^ 24 := by unfold Format.u float; norm_num
  refine passes_default float_ok (by rw [hu]; norm_num) (by decide) (positive_float M) (m := 84) (by norm_num)
    (by norm_num) (by decide) ?_ (by omega) (by linarith) ha hb hw i h
  rw [hu, Nat.cast_add, Nat.cast_one]
  norm_num
  linarith

/-- A document of three words and two topics, with `float` and the prior 1/2. -/
example : ∃ (X : Vec 2 ℕ) (alpha : Vec 2 ℝ) (beta : Mat 2 2 ℝ) (gamma : Vec 2 ℝ), numWords X = 3 ∧
    (∀ k, alpha k = fl float (1 / (2 : ℕ))) ∧ (∀ k, 1 / 84 ≤ alpha k) ∧ (∀ k n, beta k n = 0 ∨ 2 ^ (-23 : ℤ) ≤ beta k n) ∧
    (∀ n, X n ≠ 0 → ∃ k, beta k n ≠ 0) ∧ lPasses (plainMachine float) X alpha beta 1 = some gamma ∧
    Accounted float X alpha gamma := by
  obtain ⟨hhalf, gamma, hg⟩ := small_document
  have ha : ∀ k : Fin 2, (fun _ => 1 / 2 : Vec 2 ℝ) k = fl float (1 / (2 : ℕ)) := fun k => by
    rw [Nat.cast_ofNat, hhalf]
  have hb : ∀ (k n : Fin 2), (fun k _ => if k = 0 then 1 / 2 else 1 / 4 : Mat 2 2 ℝ) k n = 0 ∨
      2 ^ (-23 : ℤ) ≤ (fun k _ => if k = 0 then 1 / 2 else 1 / 4 : Mat 2 2 ℝ) k n := fun k n => Or.inr (by
    dsimp only; split_ifs <;> norm_num)
  have hw : ∀ n : Fin 2, (![1, 2] : Vec 2 ℕ) n ≠ 0 →
      ∃ k, (fun k _ => if k = 0 then 1 / 2 else 1 / 4 : Mat 2 2 ℝ) k n ≠ 0 := fun n _ => ⟨0, by norm_num⟩
  exact ⟨![1, 2], fun _ => 1 / 2, fun k _ => if k = 0 then 1 / 2 else 1 / 4, gamma, by decide, ha,
    fun _ => by norm_num, hb, hw, hg, C127_float_default_partial (by norm_num) ha hb hw 0 hg⟩

end Verif.Limits
