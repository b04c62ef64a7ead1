import Verif.Model.Lasting
import Verif.Props.ReportsSafe

/-
C139: training with the unsupervised steps stays finite.
-/
namespace Verif.Overflow

open MathUtils EStep Rounded Limits Classical Finset
open Rounded hiding fl_nonneg fl_zero

variable {K V : ℕ} {F : Format} {L : LogDevice F} {X : Vec V ℕ} {beta : Mat K V ℝ} {alpha : Vec K ℝ} {A m : ℝ}

/-! ### One document -/

theorem exp_low (h : Wide F) (D : Device F) {d x e : ℝ} {q : ℕ} (hd0 : 0 ≤ d) (hd : d ≤ 58) (hq : d * (1002 / 1000) + 1 / 1000 ≤ q * 0.6931471803)
    (hx : -d ≤ x) (he : lExp D.toMachine x = some e) : 2 ^ (-(q : ℤ)) ≤ e := by
  have hu := h.u
  rcases le_total 0 x with h0 | h0
  · have g1 : lExpPos D.toMachine x = some e := by
      unfold lExp at he
      rwa [if_neg (by linarith)] at he
    have := lExpPos_ge h.ok h0 g1
    refine le_trans ?_ this
    have q0 : q ≠ 0 := by
      rintro rfl
      norm_num at hq
      linarith
    have : (2 : ℝ) ^ (-(q : ℤ)) ≤ 2 ^ (-1 : ℤ) := zpow_le_zpow_right₀ (by norm_num) (by omega)
    norm_num at this ⊢
    exact this
  · obtain ⟨v, h1, h2, -⟩ := exp_moderate h D (x := x) (abs_le.2 ⟨by linarith, by linarith⟩)
    rw [he] at h1
    obtain rfl := Option.some.inj h1
    have r1 := h2.1
    rw [mul_one] at r1
    refine le_trans (two_pow_of_exp q ?_) r1
    rw [abs_of_nonpos h0]
    linarith

/-- The priors and the format for which training is considered: `2^-q` is below the exponentials. -/
structure Steady (D : Device F) (m : ℝ) (q : ℕ) : Prop where
  wide : Wide F
  deep : deep m ≤ 58
  exp : Verif.Overflow.deep m * (1002 / 1000) + 1 / 1000 ≤ q * 0.6931471803
  room : F.low ≤ -((q : ℤ) + 100)
  exps : ∃ (r : ℝ) (q' : ℕ), Moderate D r q' ∧ 27 ≤ r

theorem zpow_eq (n : ℕ) : (2 : ℝ) ^ (-(n : ℤ)) = 1 / 2 ^ n := by
  rw [zpow_neg, one_div, zpow_natCast]

theorem Steady.plain {D : Device F} {q : ℕ} (h : Steady D m q) (hm : 0 ≤ Verif.Overflow.deep m) (hb0 : ∀ k n, 0 ≤ beta k n) (hb1 : ∀ k n, beta k n ≤ 1)
    (hb : ∀ n, X n ≠ 0 → ∃ k, 1 / 2 ^ 100 ≤ beta k n) : Plain D X beta m (Verif.Overflow.deep m) := by
  refine ⟨hb0, hb1, le_rfl, h.exps, fun n hn => ?_⟩
  obtain ⟨k, hk⟩ := hb n hn
  refine ⟨k, fun x e hx he => ?_⟩
  have h1 := exp_low h.wide D hm h.deep h.exp hx he
  rw [← zpow_eq] at hk
  have h2 := mul_le_mul hk h1 (two_zpow_pos _).le (hb0 k n)
  refine le_trans ?_ h2
  rw [← zpow_add₀ (by norm_num)]
  refine zpow_le_zpow_right₀ (by norm_num) ?_
  have := h.room
  push_cast
  omega

theorem normalize_low {D : Device F} (h : Wide F) {r c : ℕ} (hr : r ≤ 2 ^ 20) {v : Vec r ℝ} (hv : ∀ i, 0 ≤ v i) (hf : ∀ i, fl F (v i) = v i)
    (hv' : ∀ i, v i ≤ 2 ^ 40) {p : Vec r ℝ} (hp : nNormalize D (fun i => .fin (v i)) = fun i => .fin (p i)) (hc : F.low ≤ -((c : ℤ) + 60)) {i : Fin r}
    (hi : 1 / 2 ^ c ≤ v i) : 1 / 2 ^ (c + 60) ≤ p i := by
  have hF := h.ok
  have hs : ∑ i, v i ≤ 2 ^ 100 := by
    have e1 := sum_le_sum fun k (_ : k ∈ (univ : Finset (Fin r))) => hv' k
    rw [sum_const, card_univ, Fintype.card_fin, nsmul_eq_mul] at e1
    have e2 := mul_le_mul_of_nonneg_right (million hr) (by positivity : (0 : ℝ) ≤ 2 ^ 40)
    refine (e1.trans e2).trans ?_
    norm_num
  obtain ⟨t, ht, -, -, t1⟩ := normalize_fin (D := D) h hr hv hf (h.quarter hs)
  have hi' := congrFun hp i
  unfold nNormalize at hi'
  rw [ht] at hi'
  by_cases hz : t = 0
  · rw [if_neg (by rw [hz]; simp)] at hi'
    rw [← Ieee.fin.inj hi']
    refine le_trans ?_ hi
    exact one_div_le_one_div_of_le (by positivity) (pow_le_pow_right₀ (by norm_num) (by omega))
  · rw [if_pos (fun hc => hz (Ieee.fin.inj hc))] at hi'
    obtain ⟨t2, t0, -⟩ := t1 hz
    rw [t2 i] at hi'
    rw [← Ieee.fin.inj hi', ← zpow_eq]
    obtain ⟨t', e1, e2⟩ := Bnd.sum (D := D) hF (e := 40) (j := 20) (fun i => bnd_fin (by rw [abs_of_nonneg (hv i)]; exact hv' i)) hr
      (by have := h.prec; omega) (by have := h.high; omega)
    rw [ht] at e1
    obtain rfl := Ieee.fin.inj e1
    refine le_fl hF (by push_cast; exact hc) ?_
    rw [zpow_eq, le_div_iff₀ t0]
    have e3 : t ≤ 2 ^ 60 := (le_abs_self _).trans e2
    calc 1 / 2 ^ (c + 60) * t ≤ 1 / 2 ^ (c + 60) * 2 ^ 60 := mul_le_mul_of_nonneg_left e3 (by positivity)
      _ = 1 / 2 ^ c := by rw [pow_add]; field_simp
      _ ≤ v i := hi

/-- What is known of a topic for a word is not lost in a pass. -/
theorem uPhi_low (h : Sizes F X alpha A m) {q : ℕ} (hq : Steady L.toDevice m q) (hb0 : ∀ k n, 0 ≤ beta k n) (hb1 : ∀ k n, beta k n ≤ 1)
    {g : Vec K ℝ} (hs : Range F alpha g) {p : Mat K V ℝ} (hp : uPhi L.toDevice (fun k n => .fin (beta k n)) (fun k => .fin (g k)) = some (fun k n => .fin (p k n)))
    {k : Fin K} {n : Fin V} (hb : 1 / 2 ^ 21 ≤ beta k n) : 1 / 2 ^ (q + 21 + 60) ≤ p k n := by
  have hF := h.wide.ok
  obtain ⟨-, -, d0, -⟩ := deep_le h
  have key : ∀ k, ∃ e : ℝ, nExp L.toDevice (L.npsi (.fin (g k))) = some (.fin e) ∧ 0 ≤ e ∧ e ≤ 2 ^ 40 ∧ fl F e = e ∧ 2 ^ (-(q : ℤ)) ≤ e := by
    intro k
    obtain ⟨e1, p1, p2⟩ := hs.psi (L := L) h k
    obtain ⟨e, he, er, ef, eu⟩ := exp_moderate h.wide L.toDevice (x := L.psi (g k)) (abs_le.2 ⟨by linarith [hq.deep], by linarith⟩)
    have el := exp_low h.wide L.toDevice d0 hq.deep hq.exp (by linarith) he
    rw [e1]
    refine ⟨e, ?_, (er.pos zero_lt_one).le, eu p2, ef, el⟩
    show some _ = _
    rw [he]
  choose e he e0 eq er el using key
  unfold uPhi at hp
  rw [mapNum_some.2 he, Option.map_some] at hp
  have hp := Option.some.inj hp
  have hcol : nNormalize L.toDevice (fun k => .fin (fl F (beta k n * e k))) = fun k => .fin (p k n) := by
    funext k'
    rw [← congrFun (congrFun hp k') n]
    congr 1
    funext k
    symm
    have b0 : 0 ≤ beta k n * e k := mul_nonneg (hb0 k n) (e0 k)
    apply nMul_fin
    rw [abs_of_nonneg (Limits.fl_nonneg b0)]
    have : fl F (beta k n * e k) ≤ fl F (e k) := fl_mono hF b0 (mul_le_of_le_one_left (e0 k) (hb1 k n))
    rw [er k] at this
    exact (this.trans (eq k)).trans_lt (pow_lt_pow_right₀ (by norm_num) (by have := h.wide.high; omega))
  refine normalize_low h.wide h.topics.2 (fun k => Limits.fl_nonneg (mul_nonneg (hb0 k n) (e0 k))) (fun k => fl_fl' hF _) (fun k => ?_) hcol ?_ ?_
  · have : fl F (beta k n * e k) ≤ fl F (e k) := fl_mono hF (mul_nonneg (hb0 k n) (e0 k)) (mul_le_of_le_one_left (e0 k) (hb1 k n))
    rw [er k] at this
    exact this.trans (eq k)
  · have := hq.room
    push_cast
    omega
  · rw [← zpow_eq]
    refine le_fl hF (by have := hq.room; push_cast; omega) ?_
    rw [zpow_eq, pow_add]
    have := mul_le_mul hb (el k) (two_zpow_pos _).le (hb0 k n)
    rw [zpow_eq] at this
    refine le_trans (le_of_eq ?_) this
    field_simp

/-- `gamma` and `phi` are sound, and the topics keep their words. -/
structure Held (F : Format) (X : Vec V ℕ) (alpha : Vec K ℝ) (A : ℝ) (beta : Mat K V ℝ) (q : ℕ) (g : Vec K ℝ) (p : Mat K V ℝ) : Prop extends
    Sound F X alpha A g p where
  held : ∀ k n, 1 / 2 ^ 21 ≤ beta k n → 1 / 2 ^ (q + 21 + 60) ≤ p k n

theorem uLoop_held (h : Sizes F X alpha A m) {q : ℕ} (hq : Steady L.toDevice m q) {R : ℝ} (hv : Plain L.toDevice X beta m R) (tol : ℝ) : ∀ (i : ℕ)
    (old : Vec K Num) (g : Vec K ℝ) (p : Mat K V ℝ), Held F X alpha A beta q g p → ∃ (g' : Vec K ℝ) (p' : Mat K V ℝ),
    uLoop L.toDevice X alpha (fun k n => .fin (beta k n)) tol i old (fun k => .fin (g k), fun k n => .fin (p k n)) =
      some (fun k => .fin (g' k), fun k n => .fin (p' k n)) ∧ Held F X alpha A beta q g' p' := by
  intro i
  induction i with
  | zero => intro old g p hs; exact ⟨g, p, rfl, hs⟩
  | succ i ih =>
    intro old g p hs
    rw [uLoop]
    split_ifs
    · exact ⟨g, p, rfl, hs⟩
    · obtain ⟨p', h1, h2, h3, h4⟩ := uPhi_fin h hv hs.toRange
      obtain ⟨g', h5, h6⟩ := next_sound h h2 h3 h4
      have h7 := fun k n => uPhi_low h hq hv.nonneg hv.le_one hs.toRange h1 (k := k) (n := n)
      rw [h1, Option.bind_some, h5]
      exact ih _ _ _ ⟨h6, h7⟩

theorem uRun_held (h : Sizes F X alpha A m) {q : ℕ} (hq : Steady L.toDevice m q) {R : ℝ} (hv : Plain L.toDevice X beta m R) (tol : ℝ) (iterations : ℕ) :
    ∃ (g : Vec K ℝ) (p : Mat K V ℝ), uRun L.toDevice X alpha (fun k n => .fin (beta k n)) tol iterations =
      some (fun k => .fin (g k), fun k n => .fin (p k n)) ∧ Held F X alpha A beta q g p := by
  have hF := h.wide.ok
  obtain ⟨g, p, h1, h2⟩ := first_sound h
  have h3 : ∀ k n, 1 / 2 ^ 20 ≤ p k n := by
    intro k n
    have e := congrFun (congrFun (Prod.mk.inj h1).2 k) n
    have k0 : (0 : ℝ) < K := Nat.cast_pos.2 h.topics.1
    have e1 : (2 : ℝ) ^ (-(20 : ℕ) : ℤ) ≤ 1 / K := by
      rw [zpow_eq]
      exact one_div_le_one_div_of_le k0 (million h.topics.2)
    have hl := h.wide.low
    have e2 := le_fl hF (j := (-(20 : ℕ) : ℤ)) (by push_cast; omega) (le_fl wide_double.ok (j := (-(20 : ℕ) : ℤ)) (by decide) e1)
    unfold toNum at e
    split_ifs at e
    rw [zpow_eq, Ieee.fin.inj e] at e2
    exact e2
  unfold uRun
  rw [h1]
  exact uLoop_held h hq hv tol _ _ _ _ ⟨h2, fun k n _ => le_trans
    (one_div_le_one_div_of_le (by positivity) (pow_le_pow_right₀ (by norm_num) (by omega))) (h3 k n)⟩

/-- Each word of the document has a topic with a share of it. -/
theorem Sound.share (h : Sizes F X alpha A m) {g : Vec K ℝ} {p : Mat K V ℝ} (hs : Sound F X alpha A g p) {n : Fin V} (hn : X n ≠ 0) :
    ∃ k, 1 / 2 ^ 21 ≤ p k n := by
  by_contra hc
  push Not at hc
  have h1 := (abs_le.1 (rel_abs h.wide h.topics.2 (hs.known n hn))).1
  have u0 : 0 ≤ F.u := by unfold Format.u; positivity
  have k1 := million h.topics.2
  have h2 : (3 * K + 5) * F.u ≤ (3 * 2 ^ 20 + 5) * (1 / 2 ^ 24) := mul_le_mul (by linarith) h.wide.u u0 (by positivity)
  have h3 : ∑ k, p k n ≤ K * (1 / 2 ^ 21) := by
    refine (sum_le_sum fun k _ => (hc k).le).trans ?_
    rw [sum_const, card_univ, Fintype.card_fin, nsmul_eq_mul]
  have h4 : (K : ℝ) * (1 / 2 ^ 21) ≤ 2 ^ 20 * (1 / 2 ^ 21) := mul_le_mul_of_nonneg_right k1 (by positivity)
  norm_num at h2 h4
  linarith

/-! ### The counts of an epoch -/

/-- The counts after some documents: numbers of the machine between zero and `s * 2^32`. -/
structure Tally (F : Format) (s : ℕ) (b : Mat K V ℝ) : Prop where
  nonneg : ∀ k n, 0 ≤ b k n
  rep : ∀ k n, fl F (b k n) = b k n
  high : ∀ k n, b k n ≤ s * 2 ^ 32

theorem counts_fin (h : Sizes F X alpha A m) {g : Vec K ℝ} {p : Mat K V ℝ} (hs : Sound F X alpha A g p) {s : ℕ} (hj : s + 1 ≤ 2 ^ 20) {b : Mat K V ℝ}
    (hb : Tally F s b) : ∃ b' : Mat K V ℝ, nCounts F X (fun k n => .fin (p k n)) (fun k n => .fin (b k n)) = (fun k n => .fin (b' k n)) ∧
      Tally F (s + 1) b' ∧ (∀ k n, b k n ≤ b' k n) ∧ (∀ k n, X n = 0 → b' k n = b k n) ∧
      ∀ (c : ℕ) k n, X n ≠ 0 → F.low ≤ -(c : ℤ) → 1 / 2 ^ c ≤ p k n → 1 / 2 ^ c ≤ b' k n := by
  have hF := h.wide.ok
  have hl := h.wide.low
  have hh := h.wide.high
  have hpr := h.wide.prec
  have hx : ∀ n, X n ≤ 2 ^ 31 := fun n => (le_numWords X n).trans h.words'
  have x1 : ∀ n, fl F (X n : ℝ) ≤ 2 ^ 31 := fun n => h.wide.nat_lt (hx n)
  have x0 : ∀ n, 0 ≤ fl F (X n : ℝ) := fun n => Limits.fl_nonneg (Nat.cast_nonneg _)
  have ex : ∀ n, toNum F (X n : ℝ) = .fin (fl F (X n)) := fun n => toNum_fin (by
    rw [abs_of_nonneg (x0 n)]
    exact (x1 n).trans_lt (pow_lt_pow_right₀ (by norm_num) (by omega)))
  have c0 : ∀ k n, 0 ≤ p k n * fl F (X n) := fun k n => mul_nonneg (hs.nonneg k n) (x0 n)
  have d0 : ∀ k n, 0 ≤ fl F (p k n * fl F (X n)) := fun k n => Limits.fl_nonneg (c0 k n)
  have d1 : ∀ k n, fl F (p k n * fl F (X n)) ≤ 2 ^ 32 := by
    intro k n
    have := abs_fl_pow hF (x := p k n * fl F (X n)) (e := 32) (by
      rw [abs_of_nonneg (c0 k n)]
      have := mul_le_mul (hs.le_two k n) (x1 n) (x0 n) (by norm_num)
      refine this.trans ?_
      norm_num)
    exact (le_abs_self _).trans this
  have ed : ∀ k n, nMul F (.fin (p k n)) (toNum F (X n)) = .fin (fl F (p k n * fl F (X n))) := by
    intro k n
    rw [ex]
    apply nMul_fin
    rw [abs_of_nonneg (d0 k n)]
    exact (d1 k n).trans_lt (pow_lt_pow_right₀ (by norm_num) (by omega))
  have s0 : ∀ k n, 0 ≤ b k n + fl F (p k n * fl F (X n)) := fun k n => add_nonneg (hb.nonneg k n) (d0 k n)
  have s1 : ∀ k n, fl F (b k n + fl F (p k n * fl F (X n))) ≤ ((s + 1 : ℕ) : ℝ) * 2 ^ 32 := by
    intro k n
    have : s + 1 ≤ 2 ^ F.prec := hj.trans (Nat.pow_le_pow_right (by norm_num) (by omega))
    rw [← fl_count hF this]
    refine fl_mono hF (s0 k n) ?_
    push_cast
    have := hb.high k n
    have := d1 k n
    linarith
  have es : ∀ k n, nAdd F (.fin (b k n)) (nMul F (.fin (p k n)) (toNum F (X n))) = .fin (fl F (b k n + fl F (p k n * fl F (X n)))) := by
    intro k n
    rw [ed]
    apply nAdd_fin
    rw [abs_of_nonneg (Limits.fl_nonneg (s0 k n))]
    refine (s1 k n).trans_lt ?_
    have e1 : ((s + 1 : ℕ) : ℝ) ≤ 2 ^ 20 := by exact_mod_cast hj
    have e2 := mul_le_mul_of_nonneg_right e1 (by positivity : (0 : ℝ) ≤ 2 ^ 32)
    refine (e2.trans (le_of_eq (by norm_num : (2 : ℝ) ^ 20 * 2 ^ 32 = 2 ^ 52))).trans_lt ?_
    exact pow_lt_pow_right₀ (by norm_num) (by omega)
  refine ⟨fun k n => fl F (b k n + fl F (p k n * fl F (X n))), ?_, ⟨fun k n => Limits.fl_nonneg (s0 k n), fun k n => fl_fl' hF _, s1⟩, ?_, ?_, ?_⟩
  · funext k n
    exact es k n
  · intro k n
    have := fl_mono hF (hb.nonneg k n) (le_add_of_nonneg_right (a := b k n) (d0 k n))
    rwa [hb.rep k n] at this
  · intro k n hn
    show fl F (b k n + fl F (p k n * fl F (X n))) = _
    rw [hn, Nat.cast_zero, Limits.fl_zero, mul_zero, Limits.fl_zero, add_zero, hb.rep k n]
  · intro c k n hn hc hp
    have y1 : 1 ≤ fl F (X n : ℝ) := by
      have := le_fl hF (x := (X n : ℝ)) (j := 0) (by omega) (by
        have : (1 : ℝ) ≤ X n := by exact_mod_cast Nat.one_le_iff_ne_zero.2 hn
        simpa using this)
      simpa using this
    rw [← zpow_eq] at hp ⊢
    have y2 : (2 : ℝ) ^ (-(c : ℤ)) ≤ p k n * fl F (X n) := hp.trans (le_mul_of_one_le_right (hs.nonneg k n) y1)
    have y3 := le_fl hF hc y2
    have y4 := fl_mono hF (d0 k n) (le_add_of_nonneg_left (a := fl F (p k n * fl F (X n))) (hb.nonneg k n))
    rw [fl_fl' hF] at y4
    exact y3.trans y4

/-- The topics know the words of the documents, and each topic knows one of them. -/
structure Fit (docs : List (Vec V ℕ)) (beta : Mat K V ℝ) : Prop where
  nonneg : ∀ k n, 0 ≤ beta k n
  le_one : ∀ k n, beta k n ≤ 1
  word : ∀ X ∈ docs, ∀ n, X n ≠ 0 → ∃ k, 1 / 2 ^ 100 ≤ beta k n
  topic : ∀ k, ∃ X ∈ docs, ∃ n, X n ≠ 0 ∧ 1 / 2 ^ 21 ≤ beta k n

theorem gather_fin {q : ℕ} (hq : Steady L.toDevice m q) (hb0 : ∀ k n, 0 ≤ beta k n) (hb1 : ∀ k n, beta k n ≤ 1) (tol : ℝ) (iterations : ℕ) :
    ∀ (docs : List (Vec V ℕ)), (∀ X ∈ docs, Sizes F X alpha A m) → (∀ X ∈ docs, ∀ n, X n ≠ 0 → ∃ k, 1 / 2 ^ 100 ≤ beta k n) →
    ∀ (s : ℕ) (b : Mat K V ℝ), s + docs.length ≤ 2 ^ 20 → Tally F s b →
    ∃ b' : Mat K V ℝ, uGather L.toDevice alpha tol iterations (fun k n => .fin (beta k n)) docs (fun k n => .fin (b k n)) = some (fun k n => .fin (b' k n)) ∧
      Tally F (s + docs.length) b' ∧ (∀ k n, b k n ≤ b' k n) ∧ (∀ k n, (∀ X ∈ docs, X n = 0) → b' k n = b k n) ∧
      ∀ X ∈ docs, ∀ n, X n ≠ 0 → (∃ k, 1 / 2 ^ 21 ≤ b' k n) ∧ ∀ k, 1 / 2 ^ 21 ≤ beta k n → 1 / 2 ^ (q + 21 + 60) ≤ b' k n := by
  intro docs
  induction docs with
  | nil => intro _ _ s b _ hb; exact ⟨b, rfl, hb, fun _ _ => le_rfl, fun _ _ _ => rfl, by simp⟩
  | cons X docs ih =>
    intro hS hw s b hlen hb
    rw [List.length_cons] at hlen
    have hX := hS X (by simp)
    obtain ⟨-, -, d0, -⟩ := deep_le hX
    obtain ⟨g, p, h1, h2⟩ := uRun_held hX hq (hq.plain (X := X) d0 hb0 hb1 (hw X (by simp))) tol iterations
    obtain ⟨b1, e1, t1, t2, t3, t4⟩ := counts_fin hX h2.toSound (s := s) (by omega) hb
    obtain ⟨b', e2, r1, r2, r3, r4⟩ := ih (fun Y hY => hS Y (by simp [hY])) (fun Y hY => hw Y (by simp [hY])) (s + 1) b1 (by omega) t1
    refine ⟨b', ?_, ?_, fun k n => (t2 k n).trans (r2 k n), fun k n hn => ?_, ?_⟩
    · rw [uGather, h1, Option.bind_some, e1, e2]
    · rw [List.length_cons, show s + (docs.length + 1) = s + 1 + docs.length by omega]
      exact r1
    · rw [r3 k n fun Y hY => hn Y (by simp [hY]), t3 k n (hn X (by simp))]
    · intro Y hY n hn
      rcases List.mem_cons.1 hY with rfl | hY
      · have hl := hq.wide.low
        have hr := hq.room
        obtain ⟨k, hk⟩ := h2.toSound.share hX hn
        exact ⟨⟨k, (t4 21 k n hn (by push_cast; omega) hk).trans (r2 k n)⟩,
          fun k hk => (t4 _ k n hn (by push_cast; omega) (h2.held k n hk)).trans (r2 k n)⟩
      · exact r4 Y hY n hn

/-! ### The topics -/

theorem numSum_ge (hF : F.Ok) {l : List Num} {s : Num} (h : NumSum F l s) : (∀ x ∈ l, ∃ t : ℝ, x = .fin t ∧ 0 ≤ t ∧ fl F t = t) → ∀ {r : ℝ}, s = .fin r →
    0 ≤ r ∧ fl F r = r ∧ ∀ t : ℝ, .fin t ∈ l → t ≤ r := by
  induction h with
  | nil => intro _ r hr; obtain rfl := Ieee.fin.inj hr; exact ⟨le_rfl, Limits.fl_zero, by simp⟩
  | one x =>
    intro hl r hr
    obtain ⟨t, h1, h2, h3⟩ := hl x (by simp)
    rw [h1] at hr
    obtain rfl := Ieee.fin.inj hr
    refine ⟨h2, h3, fun u hu => ?_⟩
    rw [List.mem_singleton, h1] at hu
    exact (Ieee.fin.inj hu).le
  | add _ _ _ _ hp iha ihb =>
    intro hl r hr
    obtain ⟨⟨a, rfl⟩, b, rfl⟩ := nAdd_only hr
    obtain ⟨a0, a1, a2⟩ := iha (fun x hx => hl x (hp.mem_iff.2 (List.mem_append_left _ hx))) rfl
    obtain ⟨b0, b1, b2⟩ := ihb (fun x hx => hl x (hp.mem_iff.2 (List.mem_append_right _ hx))) rfl
    have hr' : fl F (a + b) = r := by
      simp only [nAdd] at hr
      unfold toNum at hr
      split_ifs at hr
      exact Ieee.fin.inj hr
    rw [← hr']
    refine ⟨Limits.fl_nonneg (by linarith), fl_fl' hF _, fun t ht => ?_⟩
    rcases List.mem_append.1 (hp.mem_iff.1 ht) with ht | ht
    · have := fl_mono hF a0 (le_add_of_nonneg_right (a := a) b0)
      rw [a1] at this
      exact (a2 t ht).trans this
    · have := fl_mono hF b0 (le_add_of_nonneg_left (a := b) a0)
      rw [b1] at this
      exact (b2 t ht).trans this

theorem topics_fin (h : Wide F) (D : Device F) (hV : V ≤ 2 ^ 20) {s : ℕ} (hs : s ≤ 2 ^ 20) {b : Mat K V ℝ} (hb : Tally F s b) (hpos : ∀ k, ∃ n, 0 < b k n) :
    ∃ p : Mat K V ℝ, nTopics D (fun k n => .fin (b k n)) = (fun k n => .fin (p k n)) ∧ (∀ k n, 0 ≤ p k n) ∧ (∀ k n, p k n ≤ 1) ∧
      (∀ k n, b k n = 0 → p k n = 0) ∧ (∀ k n, 1 / 2 ^ 21 ≤ b k n → 1 / 2 ^ 100 ≤ p k n) ∧ ∀ k, Rel ((2 * V + 3) * F.u) (∑ n, p k n) 1 := by
  have hF := h.ok
  have hl := h.low
  have b1 : ∀ k n, b k n ≤ 2 ^ 52 := by
    intro k n
    have e1 : (s : ℝ) ≤ 2 ^ 20 := by exact_mod_cast hs
    have e2 := mul_le_mul_of_nonneg_right e1 (by positivity : (0 : ℝ) ≤ 2 ^ 32)
    exact ((hb.high k n).trans e2).trans (le_of_eq (by norm_num))
  have key : ∀ k, ∃ p : Vec V ℝ, (fun n => nDiv F (.fin (b k n)) (D.nsum fun n => .fin (b k n))) = (fun n => .fin (p n)) ∧ (∀ n, 0 ≤ p n) ∧ (∀ n, p n ≤ 1) ∧
      (∀ n, b k n = 0 → p n = 0) ∧ (∀ n, 1 / 2 ^ 21 ≤ b k n → 1 / 2 ^ 100 ≤ p n) ∧ Rel ((2 * V + 3) * F.u) (∑ n, p n) 1 := by
    intro k
    have hsum : ∑ n, b k n ≤ 2 ^ 100 := by
      have e1 := sum_le_sum fun n (_ : n ∈ (univ : Finset (Fin V))) => b1 k n
      rw [sum_const, card_univ, Fintype.card_fin, nsmul_eq_mul] at e1
      have e2 := mul_le_mul_of_nonneg_right (million hV) (by positivity : (0 : ℝ) ≤ 2 ^ 52)
      refine (e1.trans e2).trans ?_
      norm_num
    obtain ⟨t, ht, t0, -, t1⟩ := normalize_fin (D := D) h hV (hb.nonneg k) (hb.rep k) (h.quarter hsum)
    obtain ⟨n0, hn0⟩ := hpos k
    have tz : t ≠ 0 := fun hz => hn0.ne' (t0 hz n0)
    obtain ⟨d, tp, -⟩ := t1 tz
    obtain ⟨p, p1, p2, p3, p4⟩ := column_fin (D := D) h hV (hb.nonneg k) (hb.rep k) (h.quarter hsum)
    unfold nNormalize at p1
    rw [if_pos (by rw [ht]; exact fun hc => tz (Ieee.fin.inj hc))] at p1
    have ep : ∀ n, p n = fl F (b k n / t) := by
      intro n
      have := congrFun p1 n
      rw [ht] at this
      exact (Ieee.fin.inj ((d n).symm.trans this)).symm
    have hge := numSum_ge hF (D.nsum_spec fun n => .fin (b k n)) (by
      intro x hx
      obtain ⟨n, rfl⟩ := List.mem_ofFn.1 hx
      exact ⟨_, rfl, hb.nonneg k n, hb.rep k n⟩) ht
    obtain ⟨t', e1, e2⟩ := Bnd.sum (D := D) hF (e := 52) (j := 20) (fun n => bnd_fin (by rw [abs_of_nonneg (hb.nonneg k n)]; exact b1 k n)) hV
      (by have := h.prec; omega) (by have := h.high; omega)
    rw [ht] at e1
    obtain rfl := Ieee.fin.inj e1
    have e3 : t ≤ 2 ^ 72 := (le_abs_self _).trans e2
    refine ⟨p, p1, p2, fun n => ?_, fun n hn => ?_, fun n hn => ?_, p4 ⟨n0, hn0⟩⟩
    · rw [ep]
      have q1 : b k n / t ≤ 1 := (div_le_one tp).2 (hge.2.2 _ (List.mem_ofFn.2 ⟨n, rfl⟩))
      have := fl_le hF (j := 0) (div_nonneg (hb.nonneg k n) tp.le) (by omega) (by simpa using q1)
      simpa using this
    · rw [ep, hn, zero_div, Limits.fl_zero]
    · rw [ep, ← zpow_eq]
      refine le_fl hF (by push_cast; omega) ?_
      rw [zpow_eq, le_div_iff₀ tp]
      refine le_trans ?_ hn
      refine (mul_le_mul_of_nonneg_left e3 (by positivity)).trans ?_
      norm_num
  choose p p1 p2 p3 p4 p5 p6 using key
  exact ⟨p, funext fun k => p1 k, p2, p3, p4, p5, p6⟩

/-! ### Epochs -/

theorem epoch_fin {q : ℕ} (hq : Steady L.toDevice m q) {docs : List (Vec V ℕ)} (hS : ∀ X ∈ docs, Sizes F X alpha A m) (hV : V ≤ 2 ^ 20)
    (hlen : docs.length ≤ 2 ^ 20) (hf : Fit docs beta) (tol : ℝ) (iterations : ℕ) :
    ∃ p : Mat K V ℝ, uEpoch L.toDevice alpha tol iterations docs (fun k n => .fin (beta k n)) = some (fun k n => .fin (p k n)) ∧ Fit docs p ∧
      (∀ k n, (∀ X ∈ docs, X n = 0) → p k n = 0) ∧ ∀ k, |∑ n, p k n - 1| ≤ (3 * V + 5) * F.u := by
  obtain ⟨b, h1, h2, -, h4, h5⟩ := gather_fin hq hf.nonneg hf.le_one tol iterations docs hS hf.word 0 (fun _ _ => 0) (by omega)
    ⟨fun _ _ => le_rfl, fun _ _ => Limits.fl_zero, fun _ _ => by simp⟩
  rw [Nat.zero_add] at h2
  obtain ⟨p, e1, p0, p1, pz, pl, pr⟩ := topics_fin hq.wide L.toDevice hV hlen h2 (fun k => by
    obtain ⟨X, hX, n, hn, hb⟩ := hf.topic k
    exact ⟨n, lt_of_lt_of_le (by positivity) ((h5 X hX n hn).2 k hb)⟩)
  have hr := fun k => rel_abs hq.wide hV (pr k)
  refine ⟨p, by rw [uEpoch, h1, Option.map_some, e1], ⟨p0, p1, fun X hX n hn => ?_, fun k => ?_⟩, fun k n hn => pz k n (h4 k n hn), hr⟩
  · obtain ⟨k, hk⟩ := (h5 X hX n hn).1
    exact ⟨k, pl k n hk⟩
  · have hn : ∃ n, 1 / 2 ^ 21 ≤ p k n := by
      by_contra hc
      push Not at hc
      have u0 : 0 ≤ F.u := by unfold Format.u; positivity
      have k1 := million hV
      have g1 := (abs_le.1 (hr k)).1
      have g2 : (3 * V + 5) * F.u ≤ (3 * 2 ^ 20 + 5) * (1 / 2 ^ 24) := mul_le_mul (by linarith) hq.wide.u u0 (by positivity)
      have g3 : ∑ n, p k n ≤ V * (1 / 2 ^ 21) := by
        refine (sum_le_sum fun n _ => (hc n).le).trans ?_
        rw [sum_const, card_univ, Fintype.card_fin, nsmul_eq_mul]
      have g4 : (V : ℝ) * (1 / 2 ^ 21) ≤ 2 ^ 20 * (1 / 2 ^ 21) := mul_le_mul_of_nonneg_right k1 (by positivity)
      norm_num at g2 g4
      linarith
    obtain ⟨n, hn⟩ := hn
    by_contra hc
    push Not at hc
    have : p k n = 0 := pz k n (h4 k n fun X hX => by
      by_contra hx
      exact absurd hn (not_le.2 (hc X hX n hx)))
    rw [this] at hn
    norm_num at hn

/-- What holds of the topics `p` after some epochs with the documents `docs`. -/
structure Learned (F : Format) (docs : List (Vec V ℕ)) (p : Mat K V ℝ) : Prop where
  nonneg : ∀ k n, 0 ≤ p k n
  sum : ∀ k, |∑ n, p k n - 1| ≤ (3 * V + 5) * F.u
  known : ∀ X ∈ docs, ∀ n, X n ≠ 0 → ∃ k, 0 < p k n
  unknown : ∀ n, (∀ X ∈ docs, X n = 0) → ∀ k, p k n = 0

theorem train_fin {q : ℕ} (hq : Steady L.toDevice m q) {docs : List (Vec V ℕ)} (hS : ∀ X ∈ docs, Sizes F X alpha A m) (hV : V ≤ 2 ^ 20)
    (tol : ℝ) (iterations : ℕ) : ∀ (epochs : List (List (Vec V ℕ))), (∀ e ∈ epochs, e.Perm docs) → docs.length ≤ 2 ^ 20 → ∀ {beta : Mat K V ℝ}, Fit docs beta →
    ∃ p : Mat K V ℝ, uTrain L.toDevice alpha tol iterations epochs (fun k n => .fin (beta k n)) = some (fun k n => .fin (p k n)) ∧ Fit docs p ∧
      (epochs ≠ [] → Learned F docs p) := by
  intro epochs
  induction epochs with
  | nil => intro _ _ beta hf; exact ⟨beta, rfl, hf, fun h => absurd rfl h⟩
  | cons e epochs ih =>
    intro hp hlen beta hf
    have he := hp e (by simp)
    have hm : ∀ X, X ∈ e ↔ X ∈ docs := fun X => he.mem_iff
    obtain ⟨p, h1, h2, h3, h4⟩ := epoch_fin hq (docs := e) (fun X hX => hS X ((hm X).1 hX)) hV (he.length_eq.trans_le hlen)
      ⟨hf.nonneg, hf.le_one, fun X hX => hf.word X ((hm X).1 hX), fun k => by
        obtain ⟨X, hX, h⟩ := hf.topic k
        exact ⟨X, (hm X).2 hX, h⟩⟩ tol iterations
    have h2' : Fit docs p := ⟨h2.nonneg, h2.le_one, fun X hX => h2.word X ((hm X).2 hX), fun k => by
      obtain ⟨X, hX, h⟩ := h2.topic k
      exact ⟨X, (hm X).1 hX, h⟩⟩
    obtain ⟨p', g1, g2, g3⟩ := ih (fun e he => hp e (by simp [he])) hlen h2'
    refine ⟨p', by rw [uTrain, h1, Option.bind_some, g1], g2, fun _ => ?_⟩
    cases epochs with
    | cons => exact g3 (by simp)
    | nil =>
      have : p = p' := by
        funext k n
        exact Ieee.fin.inj (congrFun (congrFun (Option.some.inj g1) k) n)
      subst this
      exact ⟨h2.nonneg, h4, fun X hX n hn => (h2'.word X hX n hn).imp fun k hk => lt_of_lt_of_le (by positivity) hk,
        fun n hn k => h3 k n fun X hX => hn X ((hm X).1 hX)⟩

end Verif.Overflow
