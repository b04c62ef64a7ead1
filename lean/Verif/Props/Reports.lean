import Verif.Lemmas.Reports
import Verif.Props.LabelsSafe

/-
The likelihoods that are reported are finite numbers (C138).
-/
namespace Verif.Overflow

open MathUtils EStep Rounded Limits Classical Finset
open Rounded hiding fl_nonneg fl_zero

variable {K V C : ℕ} {F : Format} {G : GammaDevice F} {X : Vec V ℕ} {y : Fin C} {beta : Mat K V ℝ} {eta : Mat K C ℝ} {alpha : Vec K ℝ}
  {A m : ℝ} {j : ℕ}

theorem Wide.prec (h : Wide F) : 24 ≤ F.prec := by
  have hu := h.u
  unfold Format.u at hu
  rw [one_div_pow] at hu
  have h1 := (one_div_le_one_div (by positivity) (by positivity)).1 hu
  exact (pow_le_pow_iff_right₀ (by norm_num : (1 : ℝ) < 2)).1 h1

theorem deep_le (h : Sizes F X alpha A m) : deep m ≤ 1023 ∧ deep (2 * m) ≤ 1100 ∧ 0 ≤ deep m ∧ 0 ≤ deep (2 * m) := by
  have := h.inverse
  unfold deep
  refine ⟨?_, ?_, ?_, ?_⟩ <;> linarith

theorem bnd_expected (h : Sizes F X alpha A m) {g : Vec K ℝ} (hs : Range F alpha g) (k : Fin K) : Bnd 12 (nExpected G (fun k => .fin (g k)) k) := by
  obtain ⟨e1, p1, p2⟩ := hs.psi (L := G.toLogDevice) h k
  obtain ⟨t, e2, t1, t2⟩ := hs.total (L := G.toLogDevice) h
  obtain ⟨d1, d2, d3, d4⟩ := deep_le h
  unfold nExpected
  rw [e1, e2]
  have := h.wide.high
  refine Bnd.sub h.wide.ok (bnd_fin ?_) (bnd_fin ?_) (by omega) <;> rw [abs_le] <;> constructor <;> norm_num <;> linarith

theorem bnd_guardLog (h : Wide F) {x : ℝ} (h0 : 0 ≤ x) (h1 : x ≤ 2) : Bnd 10 (nGuardLog G (.fin x)) := by
  have hF := h.ok
  have hh := h.high
  have g0 : (2 : ℝ) ^ (-149 : ℤ) ≤ fl F (1 / 10 ^ 44) := le_fl hF h.low (by
    rw [zpow_neg, ← one_div]
    refine one_div_le_one_div_of_le (by positivity) ?_
    norm_num)
  have g1 : fl F (1 / 10 ^ 44) ≤ 1 := by
    have := fl_le hF (x := 1 / 10 ^ 44) (by positivity) (j := 0) (by have := h.low; omega) (by norm_num)
    simpa using this
  have g2 : 0 ≤ fl F (1 / 10 ^ 44) := (two_zpow_pos _).le.trans g0
  have lt : |fl F (1 / 10 ^ 44)| < 2 ^ F.high := by
    rw [abs_of_nonneg g2]
    exact lt_of_le_of_lt g1 (one_lt_pow₀ (by norm_num) (by omega))
  unfold nGuardLog
  rw [toNum_fin lt]
  obtain ⟨s, hs⟩ : ∃ s, s = x + fl F (1 / 10 ^ 44) := ⟨_, rfl⟩
  have s0 : (2 : ℝ) ^ (-149 : ℤ) ≤ fl F s := le_fl hF h.low (by rw [hs]; linarith)
  have s1 : fl F s ≤ 2 ^ 2 := by
    have := abs_fl_pow hF (x := s) (e := 2) (by rw [abs_le]; constructor <;> norm_num <;> linarith)
    exact (le_abs_self _).trans this
  have sp : 0 ≤ fl F s := (two_zpow_pos _).le.trans s0
  have e : nAdd F (.fin x) (.fin (fl F (1 / 10 ^ 44))) = .fin (fl F s) := by
    rw [hs]
    apply nAdd_fin
    rw [← hs, abs_of_nonneg sp]
    exact s1.trans_lt (pow_lt_pow_right₀ (by norm_num) (by omega))
  rw [e]
  refine bnd_log (le_trans ?_ s0) (s1.trans (by norm_num))
  rw [zpow_neg, ← one_div]
  exact one_div_le_one_div_of_le (by positivity) (by exact_mod_cast pow_le_pow_right₀ (by norm_num) (by norm_num))

theorem bnd_present (h : Wide F) {p : ℝ} (h0 : 0 ≤ p) (h1 : p ≤ 2) (x : ℕ) :
    ∃ q : ℝ, nMul F (.fin p) (.fin (if x ≠ 0 then 1 else 0)) = .fin q ∧ 0 ≤ q ∧ q ≤ 2 := by
  have hh := h.high
  have e : 0 ≤ p * (if x ≠ 0 then (1 : ℝ) else 0) ∧ p * (if x ≠ 0 then (1 : ℝ) else 0) ≤ 2 := by split_ifs <;> constructor <;> linarith
  have f0 := Limits.fl_nonneg (F := F) e.1
  have f1 := abs_fl_pow h.ok (x := p * (if x ≠ 0 then (1 : ℝ) else 0)) (e := 1) (by rw [abs_of_nonneg e.1]; linarith [e.2])
  refine ⟨_, nMul_fin (f1.trans_lt (pow_lt_pow_right₀ (by norm_num) (by omega))), f0, ?_⟩
  rw [abs_of_nonneg f0] at f1
  linarith

theorem bnd_count (h : Wide F) {x : ℕ} (hx : x ≤ 2 ^ 31) : Bnd 31 (toNum F (x : ℝ)) :=
  bnd_toNum h.ok (by have := h.high; omega) (by rw [abs_of_nonneg (Nat.cast_nonneg _)]; exact_mod_cast hx)

theorem le_numWords (X : Vec V ℕ) (n : Fin V) : X n ≤ numWords X := by
  unfold numWords
  exact single_le_sum (f := X) (fun _ _ => Nat.zero_le _) (mem_univ n)

/-- The likelihood of plain LDA. -/
theorem uReport_bnd (h : Sizes F X alpha A m) (hKV : K * V ≤ 2 ^ j) (hj : j ≤ F.prec) (hj' : j ≤ 53) (hb0 : ∀ k n, 0 ≤ beta k n)
    (hb1 : ∀ k n, beta k n ≤ 1) {g : Vec K ℝ} (hs : Range F alpha g) {p : Mat K V ℝ} (hp0 : ∀ k n, 0 ≤ p k n) (hp1 : ∀ k n, p k n ≤ 2) :
    Bnd 105 (uReport G X alpha beta (fun k n => .fin (p k n)) (fun k => .fin (g k))) := by
  have hF := h.wide.ok
  have hh := h.wide.high
  have hpr := h.wide.prec
  have hK := h.topics.2
  have hV := h.vocabulary
  have hA : ∀ k, alpha k ≤ 2 ^ 32 := fun k => (h.prior' k).trans h.big
  have ha : Range F alpha alpha := ⟨fun _ => le_rfl, fun k => (hA k).trans (by norm_num), h.rep⟩
  have lowg : ∀ {g : Vec K ℝ}, Range F alpha g → ∀ k, 1 / 512 ≤ g k := fun hs k =>
    (one_div_le_one_div_of_le (by linarith [h.inverse.1]) h.inverse.2).trans ((h.prior k).trans (hs.low k))
  have t1 := bnd_expected (G := G) h hs
  have dot : ∀ {g' : Vec K ℝ}, Range F alpha g' → Bnd 67 (G.nsum fun k => nMul F (nSub F (.fin (g' k)) (.fin 1)) (nExpected G (fun k => .fin (g k)) k)) := by
    intro g' hg'
    refine Bnd.sum (e := 47) (j := 20) hF (fun k => ?_) hK (by omega) (by omega)
    have l := lowg hg' k
    have hi := hg'.high k
    have b1 : Bnd 34 (.fin (g' k)) := bnd_fin (by rw [abs_of_nonneg (by linarith)]; exact hi)
    have b2 : Bnd 34 (.fin (1 : ℝ)) := bnd_fin (by norm_num)
    exact (b1.sub hF b2 (by omega)).mul hF (t1 k) (by omega)
  have lg : ∀ {g' : Vec K ℝ}, Range F alpha g' → Bnd 68 (nLgamma G (G.nsum fun k => .fin (g' k))) ∧ Bnd 88 (G.nsum fun k => nLgamma G (.fin (g' k))) := by
    intro g' hg'
    obtain ⟨s, e1, -, s0, s1⟩ := hg'.sum (L := G.toLogDevice) h
    refine ⟨?_, Bnd.sum (e := 68) (j := 20) hF (fun k => ?_) hK (by omega) (by omega)⟩
    · rw [e1]
      exact bnd_lgamma hF (by omega) (le_trans (by norm_num) s0) (s1.trans (by norm_num))
    · exact bnd_lgamma hF (by omega) (le_trans (by norm_num) (lowg hg' k)) ((hg'.high k).trans (by norm_num))
  have pres : ∀ k n, ∃ q : ℝ, nPresent F X (fun k n => .fin (p k n)) k n = .fin q ∧ 0 ≤ q ∧ q ≤ 2 := fun k n =>
    bnd_present h.wide (hp0 k n) (hp1 k n) (X n)
  have b2 : ∀ {q : ℝ}, 0 ≤ q → q ≤ 2 → Bnd 1 (.fin q) := fun h0 h1 => bnd_fin (by rw [abs_of_nonneg h0]; linarith)
  have l1 : Bnd 68 (nAdd F (.fin 0) (G.nsum fun k => nMul F (nSub F (.fin (alpha k)) (.fin 1)) (nExpected G (fun k => .fin (g k)) k))) :=
    Bnd.add hF (bnd_fin (by norm_num)) (dot ha) (by omega)
  have l2 := Bnd.add hF (l1.mono (show 68 ≤ 89 by norm_num)) (Bnd.sub hF ((lg ha).1.mono (show 68 ≤ 88 by norm_num)) (lg ha).2 (by omega)) (by omega)
  have z : Bnd 53 (G.nsum fun n => G.nsum fun k => nMul F (nPresent F X (fun k n => .fin (p k n)) k n) (nExpected G (fun k => .fin (g k)) k)) := by
    refine Bnd.sum (e := 33) (j := 20) hF (fun n => Bnd.sum (e := 13) (j := 20) hF (fun k => ?_) hK (by omega) (by omega)) hV (by omega) (by omega)
    obtain ⟨q, e, q0, q1⟩ := pres k n
    rw [e]
    exact (b2 q0 q1).mul hF (t1 k) (by omega)
  have l3 := Bnd.add hF l2 (z.mono (show 53 ≤ 90 by norm_num)) (by omega)
  have w : Bnd (42 + j) (nTotal G fun k n => nMul F (nWeighted F X (fun k n => .fin (p k n)) k n) (nGuardLog G (.fin (beta k n)))) := by
    refine Bnd.total hF (fun k n => ?_) hKV hj (by omega)
    exact ((b2 (hp0 k n) (hp1 k n)).mul hF (bnd_count h.wide ((le_numWords X n).trans h.words')) (by omega)).mul hF
      (bnd_guardLog h.wide (hb0 k n) ((hb1 k n).trans (by norm_num))) (by omega)
  have l4 := Bnd.add hF (l3.mono (show 91 ≤ 95 by norm_num)) (w.mono (show 42 + j ≤ 95 by omega)) (by omega)
  have l5 := Bnd.add hF l4 ((dot hs).neg.mono (show 67 ≤ 96 by norm_num)) (by omega)
  have l6 := Bnd.add hF l5 ((Bnd.add hF ((lg hs).1.neg.mono (show 68 ≤ 88 by norm_num)) (lg hs).2 (by omega)).mono (show 89 ≤ 97 by norm_num)) (by omega)
  have en : Bnd (11 + j) (nTotal G fun k n => nMul F (nPresent F X (fun k n => .fin (p k n)) k n) (nGuardLog G (nPresent F X (fun k n => .fin (p k n)) k n))) := by
    refine Bnd.total hF (fun k n => ?_) hKV hj (by omega)
    obtain ⟨q, e, q0, q1⟩ := pres k n
    rw [e]
    exact (b2 q0 q1).mul hF (bnd_guardLog h.wide q0 q1) (by omega)
  exact (Bnd.add hF l6 (en.neg.mono (show 11 + j ≤ 98 by omega)) (by omega)).mono (by norm_num)

/-! ### The unsupervised step -/

/-- Bounds for which no exponential overflows and no word is lost. -/
structure Plain (D : Device F) (X : Vec V ℕ) (beta : Mat K V ℝ) (m R : ℝ) : Prop where
  nonneg : ∀ k n, 0 ≤ beta k n
  le_one : ∀ k n, beta k n ≤ 1
  low : deep m ≤ R
  exps : ∃ (r : ℝ) (q : ℕ), Moderate D r q ∧ 27 ≤ r
  word : ∀ n, X n ≠ 0 → ∃ k, ∀ x e, -R ≤ x → lExp D.toMachine x = some e → 2 ^ F.low ≤ beta k n * e

theorem uPhi_fin {L : LogDevice F} (h : Sizes F X alpha A m) {R : ℝ} (hv : Plain L.toDevice X beta m R) {g : Vec K ℝ} (hs : Range F alpha g) :
    ∃ p : Mat K V ℝ, uPhi L.toDevice (fun k n => .fin (beta k n)) (fun k => .fin (g k)) = some (fun k n => .fin (p k n)) ∧
      (∀ k n, 0 ≤ p k n) ∧ (∀ n, ∑ k, p k n ≤ 11 / 10) ∧ ∀ n, X n ≠ 0 → Rel ((2 * K + 3) * F.u) (∑ k, p k n) 1 := by
  obtain ⟨r, q, hm, hr⟩ := hv.exps
  have key : ∀ k, ∃ e : ℝ, nExp L.toDevice (L.npsi (.fin (g k))) = some (.fin e) ∧ 0 ≤ e ∧ e ≤ 2 ^ q ∧ fl F e = e ∧
      ∃ x, -R ≤ x ∧ lExp L.toMachine x = some e := by
    intro k
    obtain ⟨e1, p1, p2⟩ := hs.psi (L := L) h k
    obtain ⟨e, he, e0, eq, er⟩ := hm.fin (L.psi (g k)) (by linarith)
    rw [e1]
    refine ⟨e, ?_, e0, eq, er, _, by linarith [hv.low], he⟩
    show some _ = _
    rw [he]
  choose e he e0 eq er ex using key
  obtain ⟨P, P1, P2, P3, P4⟩ := columns_fin (D := L.toDevice) h.wide h.topics.2 hm hv.nonneg hv.le_one e0 eq er (X := X) (fun n hn => by
    obtain ⟨k, hk⟩ := hv.word n hn
    obtain ⟨x, x1, hx⟩ := ex k
    exact ⟨k, hk _ _ x1 hx⟩)
  refine ⟨P, ?_, P2, P3, P4⟩
  unfold uPhi
  rw [mapNum_some.2 he, Option.map_some, P1]

theorem uLoop_fin {L : LogDevice F} (h : Sizes F X alpha A m) {R : ℝ} (hv : Plain L.toDevice X beta m R) (tol : ℝ) : ∀ (i : ℕ) (old : Vec K Num)
    (g : Vec K ℝ) (p : Mat K V ℝ), Sound F X alpha A g p → ∃ (g' : Vec K ℝ) (p' : Mat K V ℝ),
    uLoop L.toDevice X alpha (fun k n => .fin (beta k n)) tol i old (fun k => .fin (g k), fun k n => .fin (p k n)) =
      some (fun k => .fin (g' k), fun k n => .fin (p' k n)) ∧ Sound F X alpha A g' p' := by
  intro i
  induction i with
  | zero => intro old g p hs; exact ⟨g, p, rfl, hs⟩
  | succ i ih =>
    intro old g p hs
    rw [uLoop]
    split_ifs
    · exact ⟨g, p, rfl, hs⟩
    · obtain ⟨p', h1, h2, h3, h4⟩ := uPhi_fin h hv hs.toRange
      obtain ⟨g', h5, h6⟩ := next_sound h h2 h3 h4
      rw [h1, Option.bind_some, h5]
      exact ih _ _ _ h6

theorem uRun_fin {L : LogDevice F} (h : Sizes F X alpha A m) {R : ℝ} (hv : Plain L.toDevice X beta m R) (tol : ℝ) (iterations : ℕ) :
    ∃ (g : Vec K ℝ) (p : Mat K V ℝ), uRun L.toDevice X alpha (fun k n => .fin (beta k n)) tol iterations = some (fun k => .fin (g k), fun k n => .fin (p k n)) ∧
      Sound F X alpha A g p := by
  obtain ⟨g, p, h1, h2⟩ := first_sound h
  unfold uRun
  rw [h1]
  exact uLoop_fin h hv tol _ _ _ _ h2

/-! ### The terms of the class -/

theorem Sound.le_two {g : Vec K ℝ} {p : Mat K V ℝ} (hs : Sound F X alpha A g p) (k : Fin K) (n : Fin V) : p k n ≤ 2 := by
  have := single_le_sum (f := fun k => p k n) (fun k _ => hs.nonneg k n) (mem_univ k)
  have := hs.sum n
  linarith

/-- The numbers of the prior of the weights, and those weights: positive numbers of `double`. -/
structure Prob (eta : Mat K C ℝ) (mu portion : ℝ) : Prop where
  weight : ∀ k c, 1 / 2 ^ 1074 ≤ eta k c
  weight' : ∀ k c, eta k c ≤ 1
  smooth : 1 / 2 ^ 20 ≤ mu
  smooth' : mu ≤ 2 ^ 20
  part : 0 ≤ portion
  part' : portion ≤ 1
  classes : 0 < C ∧ C ≤ 2 ^ 16

theorem Prob.log {L : LogDevice F} {mu portion : ℝ} (hp : Prob eta mu portion) (k : Fin K) (c : Fin C) : Bnd 10 (nLog L (.fin (eta k c))) :=
  bnd_log (hp.weight k c) ((hp.weight' k c).trans (by norm_num))

theorem priorTerms_bnd (h : Wide F) {mu portion : ℝ} (hp : Prob eta mu portion) (hK : K ≤ 2 ^ 20) (hKC : K * C ≤ 2 ^ F.prec)
    {l : Num} (hl : Bnd 110 l) : Bnd 112 (nPriorTerms G eta mu portion l) := by
  have hF := h.ok
  have hh := h.high
  have hpr := h.prec
  have bp : Bnd 0 (.fin portion) := bnd_fin (by rw [abs_of_nonneg hp.part]; simpa using hp.part')
  have mu0 : 0 ≤ mu := le_trans (by positivity) hp.smooth
  have bm : Bnd 20 (.fin mu) := bnd_fin (by rw [abs_of_nonneg mu0]; exact hp.smooth')
  obtain ⟨j, hj, hj', hj''⟩ : ∃ j, K * C ≤ 2 ^ j ∧ j ≤ F.prec ∧ j ≤ 36 := by
    rcases le_total F.prec 36 with c | c
    · exact ⟨F.prec, hKC, le_rfl, c⟩
    · refine ⟨36, ?_, c, le_rfl⟩
      calc K * C ≤ 2 ^ 20 * 2 ^ 16 := Nat.mul_le_mul hK hp.classes.2
        _ = 2 ^ 36 := by norm_num
  have t1 : Bnd (10 + j) (nTotal G fun k c => nLog G.toLogDevice (.fin (eta k c))) :=
    Bnd.total hF (fun k c => hp.log k c) hj hj' (by omega)
  have b1 := (bp.mul hF (bm.sub hF (bnd_fin (by norm_num : |(1 : ℝ)| ≤ 2 ^ 20)) (by omega)) (by omega)).mul hF t1 (by omega)
  have c0 : (0 : ℝ) < C := by exact_mod_cast hp.classes.1
  have c1 : (C : ℝ) ≤ 2 ^ 16 := by exact_mod_cast hp.classes.2
  have ec : toNum F (C : ℝ) = .fin (C : ℝ) := by
    have := fl_count hF (F := F) (s := C) (e := 0) (hp.classes.2.trans (Nat.pow_le_pow_right (by norm_num) (by omega)))
    rw [pow_zero, mul_one] at this
    rw [toNum_fin, this]
    rw [this, abs_of_pos c0]
    exact c1.trans_lt (pow_lt_pow_right₀ (by norm_num) (by omega))
  have e2 : ∃ s, nMul F (.fin (C : ℝ)) (.fin mu) = .fin s ∧ 1 / 2 ^ 20 ≤ s ∧ s ≤ 2 ^ 60 := by
    have c2 : 1 ≤ (C : ℝ) := by exact_mod_cast hp.classes.1
    have m1 : 1 / 2 ^ 20 ≤ C * mu := by
      have := mul_le_mul c2 hp.smooth (by positivity) c0.le
      linarith
    have m2 : C * mu ≤ 2 ^ 36 := by
      have := mul_le_mul c1 hp.smooth' mu0 (by positivity)
      refine this.trans ?_
      norm_num
    have f1 : |fl F (C * mu)| ≤ 2 ^ 36 := abs_fl_pow hF (by rw [abs_of_nonneg (by positivity)]; exact m2)
    have f2 : 2 ^ (-20 : ℤ) ≤ fl F (C * mu) := le_fl hF (by have := h.low; omega) (by
      rw [zpow_neg, ← one_div]
      exact_mod_cast m1)
    refine ⟨_, nMul_fin (f1.trans_lt (pow_lt_pow_right₀ (by norm_num) (by omega))), ?_, ?_⟩
    · rw [zpow_neg, ← one_div] at f2
      exact_mod_cast f2
    · exact (le_abs_self _).trans (f1.trans (by norm_num))
  obtain ⟨s, es, s0, s1⟩ := e2
  have b2 : Bnd 85 (nMul F (.fin portion) (nSub F (nLgamma G (nMul F (toNum F C) (.fin mu))) (nMul F (toNum F C) (nLgamma G (.fin mu))))) := by
    rw [ec, es]
    have l1 : Bnd 68 (nLgamma G (.fin s)) := bnd_lgamma hF (by omega) s0 s1
    have l2 : Bnd 68 (nLgamma G (.fin mu)) := bnd_lgamma hF (by omega) hp.smooth (hp.smooth'.trans (by norm_num))
    have l3 : Bnd (16 + 68) (nMul F (.fin (C : ℝ)) (nLgamma G (.fin mu))) :=
      Bnd.mul hF (bnd_fin (by rw [abs_of_pos c0]; exact c1)) l2 (by omega)
    exact (bp.mul hF ((l1.mono (show 68 ≤ 84 by norm_num)).sub hF l3 (by omega)) (by omega)).mono (by norm_num)
  unfold nPriorTerms
  exact Bnd.add hF (Bnd.add hF hl (b1.mono (by omega)) (by omega)) (b2.mono (show 85 ≤ 111 by norm_num)) (by omega)

theorem mReport_bnd (h : Sizes F X alpha A m) (hX : 0 < numWords X) (hKV : K * V ≤ 2 ^ j) (hj : j ≤ F.prec) (hj' : j ≤ 53) (hb0 : ∀ k n, 0 ≤ beta k n)
    (hb1 : ∀ k n, beta k n ≤ 1) {mu portion prior : ℝ} (hp : Prob eta mu portion) (hKC : K * C ≤ 2 ^ F.prec) (hq : 1 / 2 ^ 1074 ≤ prior) (hq' : prior ≤ 1)
    {g : Vec K ℝ} {p : Mat K V ℝ} (hs : Sound F X alpha A g p) :
    Bnd 112 (mReport G X y alpha beta eta prior mu portion (fun k n => .fin (p k n)) (fun k => .fin (g k))) := by
  have hF := h.wide.ok
  have hh := h.wide.high
  have b2 : ∀ {q : ℝ}, 0 ≤ q → q ≤ 2 → Bnd 1 (.fin q) := fun h0 h1 => bnd_fin (by rw [abs_of_nonneg h0]; linarith)
  have l0 := uReport_bnd (G := G) h hKV hj hj' hb0 hb1 hs.toRange hs.nonneg hs.le_two
  have t1 : Bnd (42 + j) (nTotal G fun k n => nMul F (nWeighted F X (fun k n => .fin (p k n)) k n) (nLog G.toLogDevice (.fin (eta k y)))) := by
    refine Bnd.total hF (fun k n => ?_) hKV hj (by omega)
    exact ((b2 (hs.nonneg k n) (hs.le_two k n)).mul hF (bnd_count h.wide ((le_numWords X n).trans h.words')) (by omega)).mul hF (hp.log k y) (by omega)
  have l1 := Bnd.add hF l0 (t1.mono (show 42 + j ≤ 105 by omega)) (by omega)
  have t2 : Bnd 41 (nMul F (toNum F ((numWords X : ℤ) - 1 : ℤ)) (nLog G.toLogDevice (.fin prior))) := by
    refine Bnd.mul (e := 31) (e' := 10) hF (bnd_toNum hF (by omega) ?_) (bnd_log hq (hq'.trans (by norm_num))) (by omega)
    have w1 : (1 : ℝ) ≤ numWords X := by exact_mod_cast hX
    have w2 : (numWords X : ℝ) ≤ 2 ^ 31 := by exact_mod_cast h.words'
    push_cast
    rw [abs_of_nonneg (by linarith)]
    linarith
  have l2 := Bnd.sub hF l1 (t2.mono (show 41 ≤ 106 by norm_num)) (by omega)
  exact priorTerms_bnd h.wide hp h.topics.2 hKC (l2.mono (by norm_num))

theorem cReport_bnd (h : Sizes F X alpha A m) (hX : 0 < numWords X) (hKV : K * V ≤ 2 ^ j) (hj : j ≤ F.prec) (hj' : j ≤ 53) (hb0 : ∀ k n, 0 ≤ beta k n)
    (hb1 : ∀ k n, beta k n ≤ 1) {mu portion : ℝ} (hp : Prob eta mu portion) (hKC : K * C ≤ 2 ^ F.prec)
    {g : Vec K ℝ} {p : Mat K V ℝ} (hs : Sound F X alpha A g p) {t : Vec V ℝ} (ht0 : ∀ n, 0 ≤ t n) (ht1 : ∀ n, t n ≤ 2) :
    Bnd 112 (cReport G X y alpha beta eta mu portion ⟨fun k => .fin (g k), fun k n => .fin (p k n), fun n => .fin (t n)⟩) := by
  have hF := h.wide.ok
  have hh := h.wide.high
  have hpr := h.wide.prec
  have b2 : ∀ {q : ℝ}, 0 ≤ q → q ≤ 2 → Bnd 1 (.fin q) := fun h0 h1 => bnd_fin (by rw [abs_of_nonneg h0]; linarith)
  have bx : ∀ n, Bnd 31 (toNum F (X n : ℝ)) := fun n => bnd_count h.wide ((le_numWords X n).trans h.words')
  have l0 := uReport_bnd (G := G) h hKV hj hj' hb0 hb1 hs.toRange hs.nonneg hs.le_two
  have t1 : Bnd 62 (G.nsum fun n => nMul F (nMul F (.fin (t n)) (toNum F (X n))) (nGuardLog G (.fin (t n)))) := by
    refine Bnd.sum (e := 42) (j := 20) hF (fun n => ?_) h.vocabulary (by omega) (by omega)
    exact ((b2 (ht0 n) (ht1 n)).mul hF (bx n) (by omega)).mul hF (bnd_guardLog h.wide (ht0 n) (ht1 n)) (by omega)
  have l1 := Bnd.add hF l0 (t1.neg.mono (show 62 ≤ 105 by norm_num)) (by omega)
  have t2 : Bnd (43 + j) (nTotal G fun k n => nMul F (nMul F (.fin (p k n)) (nMul F (toNum F (X n)) (.fin (t n)))) (nLog G.toLogDevice (.fin (eta k y)))) := by
    refine Bnd.total hF (fun k n => ?_) hKV hj (by omega)
    exact ((b2 (hs.nonneg k n) (hs.le_two k n)).mul hF ((bx n).mul hF (b2 (ht0 n) (ht1 n)) (by omega)) (by omega)).mul hF (hp.log k y) (by omega)
  have l2 := Bnd.add hF l1 (t2.mono (show 43 + j ≤ 106 by omega)) (by omega)
  have t3 : Bnd 10 (nLog G.toLogDevice (toNum F (numWords X))) := by
    obtain ⟨r, e, hr⟩ := bnd_count h.wide h.words'
    have w1 : (1 : ℝ) ≤ numWords X := by exact_mod_cast hX
    have : r = fl F (numWords X : ℝ) := by
      have := toNum_fin (F := F) (x := (numWords X : ℝ)) ((abs_fl_pow hF (e := 31) (by rw [abs_of_nonneg (by positivity)]; exact_mod_cast h.words')).trans_lt
        (pow_lt_pow_right₀ (by norm_num) (by omega)))
      rw [e] at this
      exact Ieee.fin.inj this
    have r1 : 1 ≤ r := by
      have := le_fl hF (x := (numWords X : ℝ)) (j := 0) (by have := h.wide.low; omega) (by simpa using w1)
      rw [‹r = _›]
      simpa using this
    rw [e]
    refine bnd_log (le_trans ?_ r1) ((le_abs_self _).trans (hr.trans (by norm_num)))
    rw [div_le_one (by positivity)]
    exact one_le_pow₀ (by norm_num)
  have l3 := Bnd.add hF l2 (t3.neg.mono (show 10 ≤ 107 by norm_num)) (by omega)
  exact priorTerms_bnd h.wide hp h.topics.2 hKC (l3.mono (by norm_num))

end Verif.Overflow
