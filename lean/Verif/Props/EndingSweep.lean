import Verif.Props.EndingSteps
import Verif.Props.Lasting
import Verif.Props.ReportsSafe

/-! Property C142: the calls of `digamma` in the supervised expectation step, which subtracts from `gamma`. -/
namespace Verif.Overflow

open MathUtils EStep Limits

variable {K V C : ℕ} {F : Format} {D : Device F}

/-- A probability, or NaN. -/
def Unital : Num → Prop
  | .fin x => 0 ≤ x ∧ x ≤ 1
  | .nan => True
  | _ => False

/-- Not less than `-m`; NaN is allowed. -/
def Above (m : ℕ) : Num → Prop
  | .fin x => -(m : ℝ) ≤ x
  | .ninf => False
  | _ => True

theorem exact_nat (hF : Stepped F) {m : ℕ} (hm : m ≤ 2 ^ F.prec) : fl F (m : ℝ) = m := by
  have := fl_count hF.ok (s := m) (e := 0) hm
  rwa [pow_zero, mul_one] at this

theorem room (hF : Stepped F) {m : ℕ} (hm : m ≤ 2 ^ F.prec) : (m : ℝ) < 2 ^ F.high := by
  have h1 : (m : ℝ) ≤ 2 ^ F.prec := by exact_mod_cast hm
  have h2 : (2 : ℝ) ^ F.prec < 2 ^ F.high := pow_lt_pow_right₀ (by norm_num) (by have := hF.high; omega)
  linarith

theorem toNum_nat (hF : Stepped F) {m : ℕ} (hm : m ≤ 2 ^ F.prec) : toNum F (m : ℝ) = .fin m := by
  have h1 := room hF hm
  have h2 : (0 : ℝ) ≤ m := Nat.cast_nonneg _
  unfold toNum
  rw [exact_nat hF hm, if_neg (by linarith), if_neg (by linarith)]

theorem toNum_above (hF : Stepped F) {m : ℕ} (hm : m ≤ 2 ^ F.prec) {x : ℝ} (h : -(m : ℝ) ≤ x) : Above m (toNum F x) := by
  have h1 : -(m : ℝ) ≤ fl F x := by
    rcases le_total 0 x with h0 | h0
    · have := Limits.fl_nonneg (F := F) h0
      have : (0 : ℝ) ≤ m := Nat.cast_nonneg _
      linarith
    · have h2 := fl_mono hF.ok (x := -x) (y := m) (by linarith) (by linarith)
      rw [fl_neg, exact_nat hF hm] at h2
      linarith
  have h2 := room hF hm
  unfold toNum
  split_ifs with h3 h4
  · trivial
  · linarith
  · exact h1

theorem above_sub (hF : Stepped F) {a b : Num} (ha : Unital a) (hb : Unital b) : Above 1 (nSub F a b) := by
  cases a with
  | fin a =>
    cases b with
    | fin b => exact toNum_above hF Nat.one_le_two_pow (by push_cast; linarith [ha.1, hb.2])
    | nan => trivial
    | pinf => exact hb.elim
    | ninf => exact hb.elim
  | nan => cases b <;> trivial
  | pinf => exact ha.elim
  | ninf => exact ha.elim

theorem above_mul (hF : Stepped F) {m : ℕ} (hm : m ≤ 2 ^ F.prec) {a : Num} (ha : Above 1 a) :
    Above m (nMul F (toNum F (m : ℝ)) a) := by
  rw [toNum_nat hF hm]
  have hm0 : (0 : ℝ) ≤ m := Nat.cast_nonneg _
  cases a with
  | fin a =>
    simp only [Above] at ha
    push_cast at ha
    exact toNum_above hF hm (by nlinarith)
  | nan => trivial
  | pinf =>
    simp only [nMul, Ieee.mul]
    rcases hm0.eq_or_lt with h | h
    · rw [← h]; simp [Ieee.infMul, Above]
    · simp [Ieee.infMul, Above, h, h.ne', not_lt.2 h.le]
  | ninf => exact ha.elim

theorem above_add (hF : Stepped F) {m m' : ℕ} (hm : m + m' ≤ 2 ^ F.prec) {a b : Num} (ha : Above m a) (hb : Above m' b) :
    Above (m + m') (nAdd F a b) := by
  cases a with
  | fin a =>
    cases b with
    | fin b =>
      simp only [Above] at ha hb
      exact toNum_above hF hm (by push_cast; linarith)
    | nan => trivial
    | pinf => trivial
    | ninf => exact hb.elim
  | nan => cases b <;> trivial
  | pinf =>
    cases b with
    | ninf => exact hb.elim
    | fin b => trivial
    | nan => trivial
    | pinf => trivial
  | ninf => exact ha.elim

theorem Above.mono {m m' : ℕ} (h : m ≤ m') {a : Num} (ha : Above m a) : Above m' a := by
  cases a with
  | fin a =>
    have : (m : ℝ) ≤ m' := by exact_mod_cast h
    simp only [Above] at ha ⊢
    linarith
  | nan => trivial
  | pinf => trivial
  | ninf => exact ha.elim

theorem Above.rounds (hF : Stepped F) {m : ℕ} (hm : m ≤ 2 ^ F.prec) {x : Num} (h : Above m x) : ∃ n ≤ 2 * m + 15, Rounds F x n := by
  cases x with
  | fin x =>
    rcases le_total 0 x with h0 | h0
    · obtain ⟨n, hn, hr⟩ := C142_nonneg hF h0
      exact ⟨n, by omega, hr⟩
    · simp only [Above] at h
      have h1 : (m : ℝ) ≤ 2 ^ F.prec := by exact_mod_cast hm
      obtain ⟨n, hn, hr⟩ := C142_negative_partial hF (x := x) (by linarith)
      refine ⟨n, ?_, hr⟩
      rw [abs_of_nonpos h0] at hn
      have : (n : ℝ) ≤ ((2 * m + 15 : ℕ) : ℝ) := by push_cast; linarith
      exact_mod_cast this
  | nan => exact ⟨0, by omega, C142_special.1⟩
  | pinf => exact ⟨0, by omega, C142_special.2⟩
  | ninf => exact h.elim

/-- Numbers divided by their sum are probabilities, or NaN. -/
theorem unital_div (hF : Stepped F) {v : Vec K Num} (hu : ∀ k, Upward (v k)) (hr : ∀ k t, v k = .fin t → fl F t = t) (k : Fin K) :
    Unital (nDiv F (v k) (D.nsum v)) := by
  have hs := D.nsum_spec v
  by_cases hn : .nan ∈ List.ofFn v
  · rw [numSum_nan hs hn]
    cases v k <;> trivial
  have hat : ∀ x ∈ List.ofFn v, AtLeast 0 x := by
    intro x hx
    obtain ⟨i, rfl⟩ := List.mem_ofFn.1 hx
    have h := hu i
    cases hv : v i with
    | fin t => rw [hv] at h; exact h
    | pinf => trivial
    | ninf => rw [hv] at h; exact h.elim
    | nan => exact absurd (hv ▸ hx) hn
  by_cases hi : .pinf ∈ List.ofFn v
  · rw [numSum_pinf hs hat hi]
    have h := hu k
    cases hv : v k with
    | fin t => simp [nDiv, Unital]
    | pinf => trivial
    | ninf => rw [hv] at h; exact h.elim
    | nan => trivial
  have hfin : ∀ x ∈ List.ofFn v, ∃ t : ℝ, x = .fin t ∧ 0 ≤ t ∧ fl F t = t := by
    intro x hx
    have h0 := hat x hx
    obtain ⟨i, hxi⟩ := List.mem_ofFn.1 hx
    cases x with
    | fin t => exact ⟨t, rfl, h0, hr i t hxi⟩
    | pinf => exact absurd hx hi
    | ninf => exact h0.elim
    | nan => exact absurd hx hn
  obtain ⟨t, ht, ht0, -⟩ := hfin (v k) (List.mem_ofFn.2 ⟨k, rfl⟩)
  rw [ht]
  cases hsum : D.nsum v with
  | fin r =>
    obtain ⟨-, -, hge⟩ := numSum_ge hF.ok hs hfin hsum
    have htr := hge t (ht ▸ List.mem_ofFn.2 ⟨k, rfl⟩)
    simp only [nDiv]
    split_ifs with h1 h2 h3
    · trivial
    · subst h1; exact absurd (le_antisymm htr ht0) h2
    · subst h1; exact absurd (le_antisymm htr ht0) h2
    · have hr0 : 0 < r := lt_of_le_of_ne (ht0.trans htr) (Ne.symm h1)
      have hq0 : 0 ≤ t / r := div_nonneg ht0 hr0.le
      have hq1 : t / r ≤ 1 := (div_le_one hr0).2 htr
      have h4 := Limits.fl_nonneg (F := F) hq0
      have h5 := fl_mono hF.ok hq0 hq1
      have h6 : fl F (1 : ℝ) = 1 := by simpa using exact_nat hF (m := 1) Nat.one_le_two_pow
      have h7 := room hF (m := 1) Nat.one_le_two_pow
      rw [h6] at h5
      push_cast at h7
      unfold toNum
      rw [if_neg (by linarith), if_neg (by linarith)]
      exact ⟨h4, h5⟩
  | pinf => simp [nDiv, Unital]
  | ninf => simp [nDiv, Unital]
  | nan => trivial

theorem toNum_rep' (hF : F.Ok) {x t : ℝ} (h : toNum F x = .fin t) : fl F t = t := by
  unfold toNum at h
  split_ifs at h
  obtain rfl := Ieee.fin.inj h
  exact fl_fl' hF x

theorem nMul_rep' (hF : F.Ok) {b : ℝ} {a : Num} {t : ℝ} (h : nMul F (.fin b) a = .fin t) : fl F t = t := by
  cases a with
  | fin a => exact toNum_rep' hF h
  | nan => cases h
  | pinf => simp only [nMul, Ieee.mul, Ieee.infMul] at h; split_ifs at h
  | ninf => simp only [nMul, Ieee.mul, Ieee.infMul] at h; split_ifs at h

theorem unital_points (hF : Stepped F) {x : ℕ} {xr : Num} {bcol ey : Vec K ℝ} (hb : ∀ k, 0 ≤ bcol k) {psi h : Vec K Num} (i : ℕ) :
    ∀ {col col' : Vec K Num}, (∀ k, Unital (col k)) → nFixedPoints D x xr bcol ey psi h i col = some col' → ∀ k, Unital (col' k) := by
  induction i with
  | zero =>
    intro col col' hc he
    rw [nFixedPoints] at he
    rw [← Option.some.inj he]
    exact hc
  | succ i ih =>
    intro col col' hc he
    rw [nFixedPoints, Option.bind_eq_some_iff] at he
    obtain ⟨c, h1, h2⟩ := he
    refine ih (fun k => ?_) h2
    unfold nFixedPoint at h1
    obtain ⟨e, h3, rfl⟩ := Option.map_eq_some_iff.1 h1
    exact unital_div hF (v := fun k => nMul F (.fin (bcol k)) (e k))
      (fun k => upward_mul (a := .fin (bcol k)) (hb k) (nExp_nonneg hF.ok (mapNum_some.1 h3 k)).upward)
      (fun k t ht => nMul_rep' hF.ok ht) k

theorem above_words (hF : Stepped F) {X : Vec V ℕ} {y : Fin C} {beta : Mat K V ℝ} {eta : Mat K C ℝ} {fp : ℕ}
    (hb : ∀ k n, 0 ≤ beta k n) (l : List (Fin V)) : ∀ (m : ℕ) (s r : NumSweep K V C), m + (l.map X).sum ≤ 2 ^ F.prec →
    (∀ k, Above m (s.gamma k)) → (∀ k n, Unital (s.phi k n)) → nSweepWords D X y beta eta fp l s = some r →
    (∀ k, Above (m + (l.map X).sum) (r.gamma k)) ∧ ∀ k n, Unital (r.phi k n) := by
  induction l with
  | nil =>
    intro m s r _ hg hp hr
    rw [nSweepWords] at hr
    rw [← Option.some.inj hr]
    exact ⟨hg, hp⟩
  | cons n l ih =>
    intro m s r hm hg hp hr
    rw [List.map_cons, List.sum_cons] at hm ⊢
    rw [nSweepWords, Option.bind_eq_some_iff] at hr
    obtain ⟨s', h1, h2⟩ := hr
    unfold nSweepWord at h1
    split_ifs at h1 with h0
    · obtain rfl := Option.some.inj h1
      rw [h0, zero_add] at hm ⊢
      exact ih m s r hm hg hp h2
    · rw [Option.bind_eq_some_iff] at h1
      obtain ⟨e, -, h1⟩ := h1
      obtain ⟨col, h3, rfl⟩ := Option.map_eq_some_iff.1 h1
      have hc := unital_points hF (fun k => hb k n) fp (fun k => hp k n) h3
      rw [← add_assoc] at hm ⊢
      refine ih (m + X n) _ r hm (fun k => ?_) (fun k i => ?_) h2
      · exact above_add hF (by omega) (hg k) (above_mul hF (by omega) (above_sub hF (hc k) (hp k n)))
      · dsimp only
        by_cases hi : i = n
        · subst hi; rw [Function.update_self]; exact hc k
        · rw [Function.update_of_ne hi]; exact hp k i

theorem words_sum (X : Vec V ℕ) : ((List.finRange V).map X).sum = numWords X := by
  rw [numWords, ← List.ofFn_eq_map, List.sum_ofFn]

theorem above_loop (hF : Stepped F) {X : Vec V ℕ} {y : Fin C} {beta : Mat K V ℝ} {eta : Mat K C ℝ} {fp : ℕ} {tol : ℝ}
    (hb : ∀ k n, 0 ≤ beta k n) (i : ℕ) : ∀ (m : ℕ) (old : Vec K Num) (t s : Vec K Num × Mat K V Num),
    m + i * numWords X ≤ 2 ^ F.prec → (∀ k, Above m (t.1 k)) → (∀ k n, Unital (t.2 k n)) →
    nSupervisedLoop D X y beta eta fp tol i old t = some s →
    (∀ k, Above (m + i * numWords X) (s.1 k)) ∧ ∀ k n, Unital (s.2 k n) := by
  induction i with
  | zero =>
    intro m old t s _ hg hp hs
    rw [nSupervisedLoop] at hs
    rw [← Option.some.inj hs, zero_mul, add_zero]
    exact ⟨hg, hp⟩
  | succ i ih =>
    intro m old t s hm hg hp hs
    rw [nSupervisedLoop] at hs
    have e : m + (i + 1) * numWords X = (m + numWords X) + i * numWords X := by ring
    split_ifs at hs with hc
    · rw [← Option.some.inj hs]
      exact ⟨fun k => (hg k).mono (by omega), hp⟩
    · rw [Option.bind_eq_some_iff] at hs
      obtain ⟨u, hu, hs⟩ := hs
      rw [nPhiGamma, Option.bind_eq_some_iff] at hu
      obtain ⟨p, -, hu⟩ := hu
      obtain ⟨r, hr, rfl⟩ := Option.map_eq_some_iff.1 hu
      rw [e] at hm ⊢
      have hw := above_words hF hb (List.finRange V) m _ r (by rw [words_sum]; omega) hg hp hr
      rw [words_sum] at hw
      exact ih (m + numWords X) _ _ s hm hw.1 hw.2 hs

theorem unital_first (hF : Stepped F) {X : Vec V ℕ} {alpha : Vec K ℝ} (k : Fin K) (n : Fin V) :
    Unital ((nFirst F X alpha).2 k n) := by
  have hK : (1 : ℝ) ≤ K := by exact_mod_cast k.pos
  have q0 : (0 : ℝ) ≤ 1 / K := by positivity
  have q1 : (1 : ℝ) / K ≤ 1 := by rw [div_le_one (by linarith)]; exact hK
  have one : ∀ {G : Format}, Stepped G → ∀ {x : ℝ}, 0 ≤ x → x ≤ 1 → 0 ≤ fl G x ∧ fl G x ≤ 1 := by
    intro G hG x h0 h1
    have h6 : fl G (1 : ℝ) = 1 := by simpa using exact_nat hG (m := 1) Nat.one_le_two_pow
    have := fl_mono hG.ok h0 h1
    rw [h6] at this
    exact ⟨Limits.fl_nonneg h0, this⟩
  have d := one double_stepped q0 q1
  have f := one hF d.1 d.2
  have h7 := room hF (m := 1) Nat.one_le_two_pow
  push_cast at h7
  simp only [nFirst, toNum]
  rw [if_neg (by linarith [f.2]), if_neg (by linarith [f.1])]
  exact f

/-- **C142**, the supervised step: after `i` passes and any part `l` of the next one, for every document, every weight of the
classes, every number of fixed point iterations and any overflow on the way, `digamma` of the elements of `gamma` takes at
most `2 (i + 1) N + 15` rounds for a document of `N` words, if `(i + 1) N` is at most `2^prec`. -/
theorem C142_supervised (hF : Stepped F) {X : Vec V ℕ} {y : Fin C} {alpha : Vec K ℝ} {beta : Mat K V ℝ} {eta : Mat K C ℝ}
    {fp : ℕ} {tol : ℝ} (ha : ∀ k, 0 ≤ alpha k) (hb : ∀ k n, 0 ≤ beta k n) {i : ℕ} (hN : (i + 1) * numWords X ≤ 2 ^ F.prec)
    {s : Vec K Num × Mat K V Num} (hs : nSupervisedRun D X y alpha beta eta fp tol i = some s) {l : List (Fin V)}
    (hl : l <+: List.finRange V) {psi : Vec K Num} {p : Vec C Num} {r : NumSweep K V C}
    (hr : nSweepWords D X y beta eta fp l ⟨s.2, s.1, psi, p⟩ = some r) (k : Fin K) :
    ∃ n ≤ 2 * ((i + 1) * numWords X) + 15, Rounds F (r.gamma k) n := by
  have h1 := above_loop hF hb i 0 _ _ s (by rw [zero_add]; refine le_trans ?_ hN; rw [add_mul]; omega)
    (fun k => by
      have h := (upward_first (F := F) (X := X) ha).1 k
      cases hx : (nFirst F X alpha).1 k with
      | fin x => rw [hx] at h; simp only [Above, Upward] at h ⊢; push_cast; linarith
      | nan => trivial
      | pinf => trivial
      | ninf => rw [hx] at h; exact h.elim)
    (unital_first hF) hs
  rw [zero_add] at h1
  have hle : (l.map X).sum ≤ numWords X := by
    rw [← words_sum]
    obtain ⟨l', hl'⟩ := hl
    rw [← hl', List.map_append, List.sum_append]
    omega
  have h2 := above_words hF hb l (i * numWords X) _ r (by rw [add_mul] at hN; omega) h1.1 h1.2 hr
  exact ((h2.1 k).mono (by rw [add_mul]; omega)).rounds hF hN

/-! ### The theorems are not empty -/

/-- A case of `C142_unsupervised`: any number of passes over a document of three words. -/
example (tol : ℝ) (i : ℕ) : ∃ s, uRun (plainGamma wide_double).toDevice ![1, 0, 2] (fun _ => 1 / 2) (fun k n => .fin (someBeta k n)) tol i = some s ∧
    ∀ k, ∃ n ≤ 7, Rounds double (s.1 k) n := by
  obtain ⟨g, p, hs, -⟩ := C138_unsupervised_double_partial (plainGamma wide_double) (X := ![1, 0, 2]) (alpha := fun _ => 1 / 2)
    (beta := someBeta) (A := 1) (by decide) (by norm_num) (by norm_num) (by norm_num) (fun _ => by norm_num)
    (fun _ => by norm_num) (by norm_num) (fun _ => half_rep wide_double) (fun k n => (someBeta_range k n).1) (fun k n => (someBeta_range k n).2)
    (fun n _ => ⟨0, by rw [someBeta_zero]; norm_num⟩) tol i
  exact ⟨_, hs, (C142_unsupervised double_stepped (beta := fun k n => .fin (someBeta k n)) (fun _ => by norm_num)
    (fun k n => (someBeta_range k n).1) hs).1⟩

/-- A case of `C142_supervised`: the first calls for a document of three words. -/
example (D : Device double) (beta : Mat 2 3 ℝ) (hb : ∀ k n, 0 ≤ beta k n) (eta : Mat 2 2 ℝ) (k : Fin 2) :
    ∃ n ≤ 2 * ((0 + 1) * numWords ![1, 0, 2]) + 15, Rounds double ((nFirst double ![1, 0, 2] fun _ : Fin 2 => 1 / 2).1 k) n :=
  C142_supervised (D := D) (X := ![1, 0, 2]) (y := (0 : Fin 2)) (alpha := fun _ => 1 / 2) (beta := beta) (eta := eta) (fp := 10) (tol := 0) (i := 0)
    (psi := fun _ => .fin 0) (p := fun _ => .fin 1) (l := []) double_stepped (fun _ => by norm_num) hb
    (by decide) rfl List.nil_prefix rfl k

end Verif.Overflow
