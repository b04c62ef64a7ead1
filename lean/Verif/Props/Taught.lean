import Verif.Model.Taught
import Verif.Props.LastingSafe

/-
C140: training with classes stays finite.
-/
namespace Verif.Overflow

open MathUtils EStep Rounded Limits Classical Finset
open Rounded hiding fl_nonneg fl_zero

variable {K V C : ℕ} {F : Format} {L : LogDevice F} {X : Vec V ℕ} {y : Fin C} {beta : Mat K V ℝ} {eta : Mat K C ℝ} {alpha : Vec K ℝ} {A m : ℝ}

/-! ### Rows -/

theorem rows_fin (h : Wide F) (D : Device F) {r N j : ℕ} (hr : r ≤ 2 ^ j) (hj : j ≤ 20) (hN : N + 22 ≤ F.high) {v : Vec r ℝ} (hv : ∀ i, 0 ≤ v i)
    (hf : ∀ i, fl F (v i) = v i) (hv' : ∀ i, v i ≤ 2 ^ N) : ∃ p : Vec r ℝ, nNormalize D (fun i => .fin (v i)) = (fun i => .fin (p i)) ∧ (∀ i, 0 ≤ p i) ∧
      (∀ i, p i ≤ 1) ∧ (∀ i, v i = 0 → p i = 0) ∧ (∀ (lo : ℕ) i, F.low ≤ -((lo + N + j : ℕ) : ℤ) → 1 / 2 ^ lo ≤ v i → 1 / 2 ^ (lo + N + j) ≤ p i) ∧
      ((∃ i, 0 < v i) → |∑ i, p i - 1| ≤ (3 * r + 5) * F.u) := by
  have hF := h.ok
  have hl := h.low
  have hr20 : r ≤ 2 ^ 20 := hr.trans (Nat.pow_le_pow_right (by norm_num) hj)
  have hsum : ∑ i, v i ≤ 2 ^ F.high / 4 := by
    have e1 := sum_le_sum fun i (_ : i ∈ (univ : Finset (Fin r))) => hv' i
    rw [sum_const, card_univ, Fintype.card_fin, nsmul_eq_mul] at e1
    have e2 := mul_le_mul_of_nonneg_right (million hr20) (by positivity : (0 : ℝ) ≤ 2 ^ N)
    refine (e1.trans e2).trans ?_
    rw [le_div_iff₀ (by norm_num)]
    calc (2 : ℝ) ^ 20 * 2 ^ N * 4 = 2 ^ (N + 22) := by rw [pow_add]; ring
      _ ≤ 2 ^ F.high := pow_le_pow_right₀ (by norm_num) hN
  obtain ⟨t, ht, t0, -, t1⟩ := normalize_fin (D := D) h hr20 hv hf hsum
  obtain ⟨p, p1, p2, -, p4⟩ := column_fin (D := D) h hr20 hv hf hsum
  have p5 : (∃ i, 0 < v i) → |∑ i, p i - 1| ≤ (3 * r + 5) * F.u := fun hc => rel_abs h hr20 (p4 hc)
  by_cases hz : t = 0
  · have ep : ∀ i, p i = v i := by
      intro i
      have := congrFun p1 i
      unfold nNormalize at this
      rw [ht, if_neg (by rw [hz]; simp)] at this
      exact (Ieee.fin.inj this).symm
    refine ⟨p, p1, p2, fun i => ?_, fun i hi => by rw [ep, hi], fun lo i _ hi => ?_, p5⟩
    · rw [ep, t0 hz i]
      norm_num
    · rw [t0 hz i] at hi
      exact absurd hi (not_le.2 (by positivity))
  · obtain ⟨d, tp, -⟩ := t1 hz
    have ep : ∀ i, p i = fl F (v i / t) := by
      intro i
      have := congrFun p1 i
      unfold nNormalize at this
      rw [ht, if_pos (fun hc => hz (Ieee.fin.inj hc)), d i] at this
      exact (Ieee.fin.inj this).symm
    have hge := numSum_ge hF (D.nsum_spec fun i => .fin (v i)) (by
      intro x hx
      obtain ⟨i, rfl⟩ := List.mem_ofFn.1 hx
      exact ⟨_, rfl, hv i, hf i⟩) ht
    obtain ⟨t', e1, e2⟩ := Bnd.sum (D := D) hF (e := N) (j := j) (fun i => bnd_fin (by rw [abs_of_nonneg (hv i)]; exact hv' i)) hr
      (by have := h.prec; omega) (by omega)
    rw [ht] at e1
    obtain rfl := Ieee.fin.inj e1
    have e3 : t ≤ 2 ^ (N + j) := (le_abs_self _).trans e2
    refine ⟨p, p1, p2, fun i => ?_, fun i hi => ?_, fun lo i hlo hi => ?_, p5⟩
    · rw [ep]
      have q1 : v i / t ≤ 1 := (div_le_one tp).2 (hge.2.2 _ (List.mem_ofFn.2 ⟨i, rfl⟩))
      have := fl_le hF (j := 0) (div_nonneg (hv i) tp.le) (by omega) (by simpa using q1)
      simpa using this
    · rw [ep, hi, zero_div, Limits.fl_zero]
    · rw [ep, ← zpow_eq]
      refine le_fl hF hlo ?_
      rw [zpow_eq, le_div_iff₀ tp]
      refine le_trans ?_ hi
      refine (mul_le_mul_of_nonneg_left e3 (by positivity)).trans (le_of_eq ?_)
      rw [add_assoc, pow_add 2 lo]
      field_simp

/-! ### The statistics -/

/-- The statistics after `s` documents: numbers of the machine, those of words and classes between zero and `s * 2^e`. -/
structure Ledger (F : Format) (e s : ℕ) (b : Mat K V ℝ) (h : Mat K C ℝ) (l : ℝ) : Prop where
  nonneg : ∀ k n, 0 ≤ b k n
  rep : ∀ k n, fl F (b k n) = b k n
  high : ∀ k n, b k n ≤ s * 2 ^ e
  nonneg' : ∀ k c, 0 ≤ h k c
  rep' : ∀ k c, fl F (h k c) = h k c
  high' : ∀ k c, h k c ≤ s * 2 ^ e
  log : |l| ≤ s * 2 ^ (e + 30)

/-- Adding a number of at most `2^e` to a count. -/
theorem count_add (h : Wide F) {e s : ℕ} (hs : s + 1 ≤ 2 ^ 20) (he : e + 20 < F.high) {a q : ℝ} (ha : |a| ≤ s * 2 ^ e) (hq : |q| ≤ 2 ^ e) :
    nAdd F (.fin a) (.fin q) = .fin (fl F (a + q)) ∧ |fl F (a + q)| ≤ ((s + 1 : ℕ) : ℝ) * 2 ^ e := by
  have h1 : |fl F (a + q)| ≤ ((s + 1 : ℕ) : ℝ) * 2 ^ e := by
    rw [abs_fl, ← fl_count h.ok (hs.trans (Nat.pow_le_pow_right (by norm_num) (by have := h.prec; omega)))]
    refine fl_mono h.ok (abs_nonneg _) ((abs_add_le _ _).trans ?_)
    push_cast
    linarith
  refine ⟨nAdd_fin (h1.trans_lt ?_), h1⟩
  calc ((s + 1 : ℕ) : ℝ) * 2 ^ e ≤ 2 ^ 20 * 2 ^ e := mul_le_mul_of_nonneg_right (by exact_mod_cast hs) (by positivity)
    _ = 2 ^ (e + 20) := by rw [pow_add]; ring
    _ < 2 ^ F.high := pow_lt_pow_right₀ (by norm_num) he

/-- What a document may add for its words. -/
structure Adds (F : Format) (lo : ℕ) (X : Vec V ℕ) (q : Mat K V ℝ) : Prop where
  nonneg : ∀ k n, 0 ≤ q k n
  rep : ∀ k n, fl F (q k n) = q k n
  high : ∀ k n, q k n ≤ 4 * X n
  word : ∀ n, X n ≠ 0 → ∃ k, 1 / 2 ^ lo ≤ q k n

theorem row_fin (h : Wide F) (hV : V ≤ 2 ^ 20) {x lo : ℕ} (hx : x ≤ 31) (hX : numWords X ≤ 2 ^ x) {q : Mat K V ℝ} (hq : Adds F lo X q) (k : Fin K) :
    ∃ r : ℝ, L.nsum (fun n => .fin (q k n)) = .fin r ∧ 0 ≤ r ∧ fl F r = r ∧ r ≤ 2 ^ (x + 3) := by
  have eN : (∑ n, (X n : ℝ)) = (numWords X : ℝ) := by unfold numWords; push_cast; rfl
  have hx' : (numWords X : ℝ) ≤ 2 ^ x := by exact_mod_cast hX
  have e1 : ∑ n, q k n ≤ 4 * 2 ^ x := by
    refine (sum_le_sum fun n _ => hq.high k n).trans ?_
    rw [← mul_sum, eN]
    linarith
  have e2 : (4 : ℝ) * 2 ^ x ≤ 2 ^ 100 := by
    have : (2 : ℝ) ^ x ≤ 2 ^ 31 := pow_le_pow_right₀ (by norm_num) hx
    refine (mul_le_mul_of_nonneg_left this (by norm_num)).trans ?_
    norm_num
  obtain ⟨r, h1, h2, h3⟩ := sum_near (D := L.toDevice) h hV (hq.nonneg k) (hq.rep k) (h.quarter (e1.trans e2))
  obtain ⟨g0, g1, -⟩ := numSum_ge h.ok (L.nsum_spec fun n => .fin (q k n)) (by
    intro z hz
    obtain ⟨n, rfl⟩ := List.mem_ofFn.1 hz
    exact ⟨_, rfl, hq.nonneg k n, hq.rep k n⟩) h1
  refine ⟨r, h1, g0, g1, ?_⟩
  have : (2 : ℝ) ^ (x + 3) = 8 * 2 ^ x := by rw [pow_add]; ring
  rw [this]
  linarith

theorem lAdd_fin (h : Wide F) (hK : K ≤ 2 ^ 20) (hV : V ≤ 2 ^ 20) {x lo : ℕ} (hx : x ≤ 31) (hX : numWords X ≤ 2 ^ x) (he0 : ∀ k, 1 / 2 ^ 1074 ≤ eta k y)
    (he1 : ∀ k, eta k y ≤ 1) {q : Mat K V ℝ} (hq : Adds F lo X q) {s : ℕ} (hs : s + 1 ≤ 2 ^ 20) {b : Mat K V ℝ} {g : Mat K C ℝ} {l : ℝ}
    (hb : Ledger F (x + 3) s b g l) : ∃ (b' : Mat K V ℝ) (g' : Mat K C ℝ) (l' : ℝ),
      lAdd L (fun k c => .fin (eta k c)) y (fun k n => .fin (q k n)) ⟨fun k n => .fin (b k n), fun k c => .fin (g k c), .fin l⟩ =
        ⟨fun k n => .fin (b' k n), fun k c => .fin (g' k c), .fin l'⟩ ∧ Ledger F (x + 3) (s + 1) b' g' l' ∧ (∀ k n, b k n ≤ b' k n) ∧
      (∀ k n, X n = 0 → b' k n = b k n) ∧ ∀ k n, q k n ≤ b' k n := by
  have hF := h.ok
  have hh := h.high
  have hpr := h.prec
  have q1 : ∀ k n, q k n ≤ 2 ^ (x + 3) := by
    intro k n
    have e1 : (X n : ℝ) ≤ 2 ^ x := by exact_mod_cast (le_numWords X n).trans hX
    have e2 : (2 : ℝ) ^ (x + 3) = 8 * 2 ^ x := by rw [pow_add]; ring
    have e3 : (0 : ℝ) < 2 ^ x := by positivity
    have := hq.high k n
    rw [e2]
    linarith
  choose r r1 r2 r3 r4 using row_fin (L := L) h hV hx hX hq
  have B := fun k n => count_add h hs (e := x + 3) (by omega) (a := b k n) (q := q k n) (by rw [abs_of_nonneg (hb.nonneg k n)]; exact hb.high k n)
    (by rw [abs_of_nonneg (hq.nonneg k n)]; exact q1 k n)
  have G := fun k c => count_add h hs (e := x + 3) (by omega) (a := g k c) (q := r k) (by rw [abs_of_nonneg (hb.nonneg' k c)]; exact hb.high' k c)
    (by rw [abs_of_nonneg (r2 k)]; exact r4 k)
  have b0 : ∀ k n, 0 ≤ b k n + q k n := fun k n => add_nonneg (hb.nonneg k n) (hq.nonneg k n)
  have g0 : ∀ k c, 0 ≤ g k c + r k := fun k c => add_nonneg (hb.nonneg' k c) (r2 k)
  have hl : Bnd (x + 33) (L.nsum fun k => nMul F (L.nsum fun n => .fin (q k n)) (nLog L (.fin (eta k y)))) := by
    have := Bnd.sum (D := L.toDevice) hF (e := x + 3 + 10) (j := 20) (v := fun k => nMul F (L.nsum fun n => .fin (q k n)) (nLog L (.fin (eta k y))))
      (fun k => by
        rw [r1 k]
        exact (bnd_fin (by rw [abs_of_nonneg (r2 k)]; exact r4 k)).mul hF (bnd_log (he0 k) ((he1 k).trans (one_le_pow₀ (by norm_num)))) (by omega))
      hK (by omega) (by omega)
    exact this.mono (by omega)
  obtain ⟨z, z1, z2⟩ := hl
  obtain ⟨l1, l2⟩ := count_add h hs (e := x + 33) (by omega) (a := l) (q := z) hb.log z2
  refine ⟨fun k n => fl F (b k n + q k n), fun k c => if c = y then fl F (g k c + r k) else g k c, fl F (l + z), ?_, ?_, ?_, ?_, ?_⟩
  · unfold lAdd
    beta_reduce
    simp only [r1] at z1 ⊢
    rw [z1, l1]
    congr 1
    · funext k n
      exact (B k n).1
    · funext k c
      split_ifs
      · exact (G k c).1
      · rfl
  · refine ⟨fun k n => Limits.fl_nonneg (b0 k n), fun k n => fl_fl' hF _, fun k n => (le_abs_self _).trans (B k n).2, fun k c => ?_, fun k c => ?_, fun k c => ?_, l2⟩
    · split_ifs
      · exact Limits.fl_nonneg (g0 k c)
      · exact hb.nonneg' k c
    · split_ifs
      · exact fl_fl' hF _
      · exact hb.rep' k c
    · split_ifs
      · exact (le_abs_self _).trans (G k c).2
      · refine (hb.high' k c).trans (mul_le_mul_of_nonneg_right ?_ (by positivity))
        push_cast
        linarith
  · intro k n
    have := fl_mono hF (hb.nonneg k n) (le_add_of_nonneg_right (a := b k n) (hq.nonneg k n))
    rwa [hb.rep k n] at this
  · intro k n hn
    have h1 := hq.high k n
    rw [hn, Nat.cast_zero, mul_zero] at h1
    show fl F (b k n + q k n) = _
    rw [le_antisymm h1 (hq.nonneg k n), add_zero, hb.rep k n]
  · intro k n
    have := fl_mono hF (hq.nonneg k n) (le_add_of_nonneg_left (a := q k n) (hb.nonneg k n))
    rwa [hq.rep k n] at this

/-! ### Epochs -/

/-- The parameters with which an epoch may begin. -/
structure Schooled (docs : List (Vec V ℕ × Fin C)) (b c : ℕ) (beta : Mat K V ℝ) (eta : Mat K C ℝ) : Prop where
  nonneg : ∀ k n, 0 ≤ beta k n
  le_one : ∀ k n, beta k n ≤ 1
  word : ∀ d ∈ docs, ∀ n, d.1 n ≠ 0 → ∃ k, 1 / 2 ^ b ≤ beta k n
  weight : ∀ k y, 1 / 2 ^ c ≤ eta k y
  weight' : ∀ k y, eta k y ≤ 1

/-- What holds of the parameters after some epochs with the documents `docs`. -/
structure Educated (F : Format) (docs : List (Vec V ℕ × Fin C)) (beta : Mat K V ℝ) (eta : Mat K C ℝ) : Prop where
  nonneg : ∀ k n, 0 ≤ beta k n
  sum : ∀ k, (∀ n, beta k n = 0) ∨ |∑ n, beta k n - 1| ≤ (3 * V + 5) * F.u
  known : ∀ d ∈ docs, ∀ n, d.1 n ≠ 0 → ∃ k, 0 < beta k n
  unknown : ∀ n, (∀ d ∈ docs, d.1 n = 0) → ∀ k, beta k n = 0
  weight : ∀ k c, 0 < eta k c
  sum' : ∀ k, |∑ c, eta k c - 1| ≤ (3 * C + 5) * F.u

theorem lGather_fin (h : Wide F) (hK : K ≤ 2 ^ 20) (hV : V ≤ 2 ^ 20) {x lo : ℕ} (hx : x ≤ 31) (he0 : ∀ k c, 1 / 2 ^ 1074 ≤ eta k c)
    (he1 : ∀ k c, eta k c ≤ 1) (step : Vec V ℕ × Fin C → Option (Mat K V Num)) : ∀ (docs : List (Vec V ℕ × Fin C)),
    (∀ d ∈ docs, numWords d.1 ≤ 2 ^ x ∧ ∃ q, step d = some (fun k n => .fin (q k n)) ∧ Adds F lo d.1 q) →
    ∀ (s : ℕ) (b : Mat K V ℝ) (g : Mat K C ℝ) (l : ℝ), s + docs.length ≤ 2 ^ 20 → Ledger F (x + 3) s b g l →
    ∃ (b' : Mat K V ℝ) (g' : Mat K C ℝ) (l' : ℝ), lGather L (fun k c => .fin (eta k c)) step docs ⟨fun k n => .fin (b k n), fun k c => .fin (g k c), .fin l⟩ =
        some ⟨fun k n => .fin (b' k n), fun k c => .fin (g' k c), .fin l'⟩ ∧ Ledger F (x + 3) (s + docs.length) b' g' l' ∧ (∀ k n, b k n ≤ b' k n) ∧
      (∀ k n, (∀ d ∈ docs, d.1 n = 0) → b' k n = b k n) ∧ ∀ d ∈ docs, ∀ n, d.1 n ≠ 0 → ∃ k, 1 / 2 ^ lo ≤ b' k n := by
  intro docs
  induction docs with
  | nil => intro _ s b g l _ hb; exact ⟨b, g, l, rfl, hb, fun _ _ => le_rfl, fun _ _ _ => rfl, by simp⟩
  | cons d docs ih =>
    intro hd s b g l hlen hb
    rw [List.length_cons] at hlen
    obtain ⟨hX, q, h1, h2⟩ := hd d (by simp)
    obtain ⟨b1, g1, l1, e1, t1, t2, t3, t4⟩ := lAdd_fin (L := L) (y := d.2) h hK hV hx hX (fun k => he0 k d.2) (fun k => he1 k d.2) h2 (s := s) (by omega) hb
    obtain ⟨b', g', l', e2, r1, r2, r3, r4⟩ := ih (fun d hd' => hd d (by simp [hd'])) (s + 1) b1 g1 l1 (by omega) t1
    refine ⟨b', g', l', ?_, ?_, fun k n => (t2 k n).trans (r2 k n), fun k n hn => ?_, ?_⟩
    · rw [lGather, h1, Option.bind_some, e1, e2]
    · rw [List.length_cons, show s + (docs.length + 1) = s + 1 + docs.length by omega]
      exact r1
    · rw [r3 k n fun d hd => hn d (by simp [hd]), t3 k n (hn d (by simp))]
    · intro d' hd' n hn
      rcases List.mem_cons.1 hd' with rfl | hd'
      · obtain ⟨k, hk⟩ := h2.word n hn
        exact ⟨k, (hk.trans (t4 k n)).trans (r2 k n)⟩
      · exact r4 d' hd' n hn

/-- What is divided by the sum of the row for the classes. -/
theorem smooth_fin (h : Wide F) {N t : ℕ} (hN : N + 22 ≤ F.high) (ht : F.low ≤ -(t : ℤ)) {a mu : ℝ} (ha : 0 ≤ a) (ha' : a ≤ 2 ^ (N - 1)) (hmu : 1 + 1 / 2 ^ t ≤ mu)
    (hmu' : mu ≤ 2 ^ (N - 1)) (hr : fl F mu = mu) (hN1 : 1 ≤ N) : ∃ v : ℝ, nSub F (nAdd F (.fin a) (.fin mu)) (.fin 1) = .fin v ∧ 1 / 2 ^ t ≤ v ∧ v ≤ 2 ^ N ∧ fl F v = v := by
  have hF := h.ok
  have t0 : (0 : ℝ) < 1 / 2 ^ t := by positivity
  have e0 : (2 : ℝ) ^ N = 2 ^ (N - 1) + 2 ^ (N - 1) := by
    obtain ⟨M, rfl⟩ : ∃ M, N = M + 1 := ⟨N - 1, by omega⟩
    rw [Nat.add_sub_cancel, pow_succ]
    ring
  have a1 : mu ≤ fl F (a + mu) := by
    have := fl_mono hF (by linarith : 0 ≤ mu) (le_add_of_nonneg_left (a := mu) ha)
    rwa [hr] at this
  have a2 : |fl F (a + mu)| ≤ 2 ^ N := abs_fl_pow hF (by rw [abs_of_nonneg (by linarith)]; linarith)
  have hlt : (2 : ℝ) ^ N < 2 ^ F.high := pow_lt_pow_right₀ (by norm_num) (by omega)
  have a3 := (le_abs_self _).trans a2
  have c0 : 1 / 2 ^ t ≤ fl F (a + mu) - 1 := by linarith
  have c1 : 2 ^ (-(t : ℤ)) ≤ fl F (fl F (a + mu) - 1) := le_fl hF ht (by rw [zpow_eq]; exact c0)
  have c2 : |fl F (fl F (a + mu) - 1)| ≤ 2 ^ N := abs_fl_pow hF (by rw [abs_of_nonneg (by linarith)]; linarith)
  rw [nAdd_fin (a2.trans_lt hlt), nSub_fin (c2.trans_lt hlt)]
  rw [zpow_eq] at c1
  exact ⟨_, rfl, c1, (le_abs_self _).trans c2, fl_fl' hF _⟩

/-- The numbers of an epoch: `2^x` words in a document, `2^j` classes, smoothing of `1 + 2^-t`. -/
structure Course (F : Format) (K V C x j t lo : ℕ) (mu : ℝ) : Prop where
  wide : Wide F
  topics : K ≤ 2 ^ 20
  vocabulary : V ≤ 2 ^ 20
  words : x ≤ 31
  classes : 0 < C ∧ C ≤ 2 ^ j
  classes' : j ≤ 20
  smooth : 1 + 1 / 2 ^ t ≤ mu
  smooth' : mu ≤ 2 ^ (x + 23)
  rep : fl F mu = mu
  room : F.low ≤ -((lo + (x + 23) + 20 : ℕ) : ℤ)
  room' : F.low ≤ -((t + (x + 24) + j : ℕ) : ℤ)
  small : t + (x + 24) + j ≤ 1074

theorem lEpoch_fin {x j t lo : ℕ} {mu : ℝ} (hc : Course F K V C x j t lo mu) {docs : List (Vec V ℕ × Fin C)} (hX : ∀ d ∈ docs, numWords d.1 ≤ 2 ^ x)
    (hne : docs ≠ []) (hlen : docs.length ≤ 2 ^ 20) {step : NumParams K V C → Vec V ℕ × Fin C → Option (Mat K V Num)}
    (hs : Schooled docs (lo + (x + 23) + 20) (t + (x + 24) + j) beta eta) (hstep : ∀ d ∈ docs, ∃ q, step ⟨fun k n => .fin (beta k n), fun k c => .fin (eta k c)⟩ d = some (fun k n => .fin (q k n)) ∧ Adds F lo d.1 q) :
    ∃ (beta' : Mat K V ℝ) (eta' : Mat K C ℝ) (l : ℝ), lEpoch L mu step docs ⟨fun k n => .fin (beta k n), fun k c => .fin (eta k c)⟩ =
        some (⟨fun k n => .fin (beta' k n), fun k c => .fin (eta' k c)⟩, .fin l) ∧
      Schooled docs (lo + (x + 23) + 20) (t + (x + 24) + j) beta' eta' ∧ Educated F docs beta' eta' := by
  have hF := hc.wide.ok
  have hh := hc.wide.high
  have hx := hc.words
  have small : (1 : ℝ) / 2 ^ 1074 ≤ 1 / 2 ^ (t + (x + 24) + j) :=
    one_div_le_one_div_of_le (by positivity) (pow_le_pow_right₀ (by norm_num) hc.small)
  obtain ⟨b, g, l, h1, h2, -, h4, h5⟩ := lGather_fin (L := L) hc.wide hc.topics hc.vocabulary hx (fun k c => small.trans (hs.weight k c)) hs.weight'
    (step ⟨fun k n => .fin (beta k n), fun k c => .fin (eta k c)⟩) docs (fun d hd => ⟨hX d hd, hstep d hd⟩) 0 (fun _ _ => 0) (fun _ _ => 0) 0 (by omega)
    ⟨fun _ _ => le_rfl, fun _ _ => Limits.fl_zero, fun _ _ => by simp, fun _ _ => le_rfl, fun _ _ => Limits.fl_zero, fun _ _ => by simp, by simp⟩
  rw [Nat.zero_add] at h2
  have lift : ∀ a : ℝ, a ≤ (docs.length : ℝ) * 2 ^ (x + 3) → a ≤ 2 ^ (x + 23) := by
    intro a ha
    have e1 : (docs.length : ℝ) ≤ 2 ^ 20 := by exact_mod_cast hlen
    refine (ha.trans (mul_le_mul_of_nonneg_right e1 (by positivity))).trans (le_of_eq ?_)
    rw [← pow_add]
    congr 1
    omega
  have kb := fun k => rows_fin hc.wide L.toDevice (j := 20) (N := x + 23) hc.vocabulary le_rfl (by omega) (v := b k) (h2.nonneg k) (h2.rep k)
    (fun n => lift _ (h2.high k n))
  choose p p1 p2 p3 p4 p5 p6 using kb
  have tl : F.low ≤ -(t : ℤ) := by have := hc.room'; push_cast at this; omega
  have kv := fun k c => smooth_fin hc.wide (N := x + 24) (t := t) (by omega) tl (h2.nonneg' k c) (lift _ (h2.high' k c)) hc.smooth hc.smooth' hc.rep (by omega)
  choose v v1 v2 v3 v4 using kv
  have v0 : ∀ k c, 0 < v k c := fun k c => lt_of_lt_of_le (by positivity) (v2 k c)
  have ke := fun k => rows_fin hc.wide L.toDevice (j := j) (N := x + 24) hc.classes.2 hc.classes' (by omega) (v := v k) (fun c => (v0 k c).le) (v4 k) (v3 k)
  choose w w1 w2 w3 w4 w5 w6 using ke
  have w7 : ∀ k c, 1 / 2 ^ (t + (x + 24) + j) ≤ w k c := fun k c => w5 k t c hc.room' (v2 k c)
  have sch : ∀ d ∈ docs, ∀ n, d.1 n ≠ 0 → ∃ k, 1 / 2 ^ (lo + (x + 23) + 20) ≤ p k n := fun d hd n hn => by
    obtain ⟨k, hk⟩ := h5 d hd n hn
    exact ⟨k, p5 k lo n hc.room hk⟩
  refine ⟨p, w, l, ?_, ⟨p2, p3, sch, w7, w3⟩, ⟨p2, fun k => ?_, fun d hd n hn => ?_, fun n hn k => p4 k n (h4 k n hn), fun k c => ?_, fun k => ?_⟩⟩
  · rw [lEpoch, if_neg hne, h1, Option.map_some]
    unfold lTopics
    dsimp only
    simp only [v1]
    congr 3
    · exact funext p1
    · exact funext w1
  · by_cases hz : ∃ n, 0 < b k n
    · exact .inr (p6 k hz)
    · push Not at hz
      exact .inl fun n => p4 k n (le_antisymm (hz n) (h2.nonneg k n))
  · obtain ⟨k, hk⟩ := sch d hd n hn
    exact ⟨k, lt_of_lt_of_le (by positivity) hk⟩
  · exact lt_of_lt_of_le (by positivity) (w7 k c)
  · exact w6 k ⟨⟨0, hc.classes.1⟩, v0 k _⟩

theorem lTrain_fin {x j t lo : ℕ} {mu : ℝ} (hc : Course F K V C x j t lo mu) {docs : List (Vec V ℕ × Fin C)} (hX : ∀ d ∈ docs, numWords d.1 ≤ 2 ^ x)
    (hne : docs ≠ []) (hlen : docs.length ≤ 2 ^ 20) {step : NumParams K V C → Vec V ℕ × Fin C → Option (Mat K V Num)}
    (hstep : ∀ (beta : Mat K V ℝ) (eta : Mat K C ℝ), Schooled docs (lo + (x + 23) + 20) (t + (x + 24) + j) beta eta →
      ∀ d ∈ docs, ∃ q, step ⟨fun k n => .fin (beta k n), fun k c => .fin (eta k c)⟩ d = some (fun k n => .fin (q k n)) ∧ Adds F lo d.1 q) :
    ∀ (epochs : List (List (Vec V ℕ × Fin C))), (∀ e ∈ epochs, e.Perm docs) → ∀ {beta : Mat K V ℝ} {eta : Mat K C ℝ},
    Schooled docs (lo + (x + 23) + 20) (t + (x + 24) + j) beta eta →
    ∃ (beta' : Mat K V ℝ) (eta' : Mat K C ℝ) (logs : List ℝ), lTrain L mu step epochs ⟨fun k n => .fin (beta k n), fun k c => .fin (eta k c)⟩ =
        some (⟨fun k n => .fin (beta' k n), fun k c => .fin (eta' k c)⟩, logs.map .fin) ∧ logs.length = epochs.length ∧
      Schooled docs (lo + (x + 23) + 20) (t + (x + 24) + j) beta' eta' ∧ (epochs ≠ [] → Educated F docs beta' eta') := by
  intro epochs
  induction epochs with
  | nil => intro _ beta eta hs; exact ⟨beta, eta, [], rfl, rfl, hs, fun h => absurd rfl h⟩
  | cons e epochs ih =>
    intro hp beta eta hs
    have he := hp e (by simp)
    have hm : ∀ d, d ∈ e ↔ d ∈ docs := fun d => he.mem_iff
    obtain ⟨b1, e1, l, h1, h2, h3⟩ := lEpoch_fin (L := L) hc (docs := e) (step := step) (fun d hd => hX d ((hm d).1 hd))
      (fun hc => hne (List.perm_nil.1 (hc ▸ he.symm))) (he.length_eq.trans_le hlen)
      ⟨hs.nonneg, hs.le_one, fun d hd => hs.word d ((hm d).1 hd), hs.weight, hs.weight'⟩ (fun d hd => hstep beta eta hs d ((hm d).1 hd))
    have h2' : Schooled docs (lo + (x + 23) + 20) (t + (x + 24) + j) b1 e1 := ⟨h2.nonneg, h2.le_one, fun d hd => h2.word d ((hm d).2 hd), h2.weight, h2.weight'⟩
    obtain ⟨b', e', logs, g1, g2, g3, g4⟩ := ih (fun e he => hp e (by simp [he])) h2'
    refine ⟨b', e', l :: logs, ?_, by simp [g2], g3, fun _ => ?_⟩
    · rw [lTrain, h1, Option.bind_some]
      dsimp only
      rw [g1]
      rfl
    cases epochs with
    | cons => exact g4 (by simp)
    | nil =>
      have hpar := (Prod.mk.inj (Option.some.inj g1)).1
      injection hpar with hb heta
      have eb : b1 = b' := funext fun k => funext fun n => Ieee.fin.inj (congrFun (congrFun hb k) n)
      have ee : e1 = e' := funext fun k => funext fun n => Ieee.fin.inj (congrFun (congrFun heta k) n)
      subst eb ee
      exact ⟨h3.nonneg, h3.sum, fun d hd => h3.known d ((hm d).2 hd), fun n hn => h3.unknown n fun d hd => hn d ((hm d).1 hd), h3.weight, h3.sum'⟩

end Verif.Overflow
