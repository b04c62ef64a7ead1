import Verif.Props.Ending
import Verif.Props.Overflow
import Verif.Model.Reports

/-! Property C142: the calls of `digamma` in the expectation steps. -/
namespace Verif.Overflow

open MathUtils EStep Limits

variable {K V C : ℕ} {F : Format} {D : Device F}

/-- Not a negative number and not minus infinity; NaN is allowed. -/
def Upward : Num → Prop
  | .fin x => 0 ≤ x
  | .ninf => False
  | _ => True

theorem AtLeast.upward {x : Num} (h : AtLeast 0 x) : Upward x := by
  cases x <;> simp only [AtLeast] at h <;> first | exact h | trivial

theorem upward_add {a b : Num} (ha : Upward a) (hb : Upward b) : Upward (nAdd F a b) := by
  cases a <;> cases b <;> simp only [Upward] at ha hb <;>
    first
    | exact (toNum_nonneg (add_nonneg ha hb)).upward
    | trivial

theorem upward_mul {a b : Num} (ha : Upward a) (hb : Upward b) : Upward (nMul F a b) := by
  have inf : ∀ x : ℝ, 0 ≤ x → Upward (Ieee.infMul true x) := by
    intro x hx
    rcases hx.eq_or_lt with rfl | h
    · simp [Ieee.infMul, Upward]
    · simp [Ieee.infMul, Upward, h, h.ne', not_lt.2 h.le]
  cases a <;> cases b <;> simp only [Upward] at ha hb <;>
    first
    | exact (toNum_nonneg (mul_nonneg ha hb)).upward
    | exact inf _ ha
    | exact inf _ hb
    | trivial

theorem upward_div {a b : Num} (ha : Upward a) (hb : Upward b) : Upward (nDiv F a b) := by
  cases a with
  | fin a =>
    cases b with
    | fin b =>
      simp only [Upward] at ha hb
      simp only [nDiv]
      split_ifs with h1 h2 h3
      · trivial
      · trivial
      · exact absurd (lt_of_le_of_ne ha (Ne.symm h2)) h3
      · exact (toNum_nonneg (div_nonneg ha hb)).upward
    | pinf => simp [nDiv, Upward]
    | ninf => exact hb.elim
    | nan => trivial
  | pinf =>
    cases b with
    | fin b =>
      simp only [Upward] at hb
      simp only [nDiv]
      rw [if_neg (not_lt.2 hb)]
      trivial
    | pinf => trivial
    | ninf => exact hb.elim
    | nan => trivial
  | ninf => exact ha.elim
  | nan => cases b <;> trivial

theorem upward_sum {l : List Num} {s : Num} (h : NumSum F l s) (hn : ∀ x ∈ l, Upward x) : Upward s := by
  induction h with
  | nil => exact le_refl (0 : ℝ)
  | one x => exact hn x (by simp)
  | @add l l' l'' a b _ _ _ _ hp iha ihb =>
    refine upward_add (iha fun x hx => hn x ?_) (ihb fun x hx => hn x ?_)
    · exact hp.mem_iff.2 (List.mem_append_left _ hx)
    · exact hp.mem_iff.2 (List.mem_append_right _ hx)

theorem upward_nsum {n : ℕ} {v : Vec n Num} (h : ∀ i, Upward (v i)) : Upward (D.nsum v) :=
  upward_sum (D.nsum_spec v) fun x hx => by
    obtain ⟨i, rfl⟩ := List.mem_ofFn.1 hx
    exact h i

theorem upward_normalize {r : ℕ} {v : Vec r Num} (h : ∀ i, Upward (v i)) (i : Fin r) : Upward (nNormalize D v i) := by
  unfold nNormalize
  split_ifs
  · exact upward_div (h i) (upward_nsum h)
  · exact h i

theorem upward_gamma {X : Vec V ℕ} {alpha : Vec K ℝ} (ha : ∀ k, 0 ≤ alpha k) {phi : Mat K V Num} (hp : ∀ k n, Upward (phi k n))
    (k : Fin K) : Upward (nGamma F X alpha phi k) := by
  unfold nGamma nScaled
  have key : ∀ (l : List (Fin V)) (g : Num), Upward g →
      Upward (l.foldl (fun g n => if toNum F (X n) = .fin 0 then g else nAdd F g (nMul F (toNum F (X n)) (phi k n))) g) := by
    intro l
    induction l with
    | nil => intro g hg; exact hg
    | cons n l ih =>
      intro g hg
      rw [List.foldl_cons]
      refine ih _ ?_
      split_ifs
      · exact hg
      · exact upward_add hg (upward_mul (toNum_nonneg (Nat.cast_nonneg _)).upward (hp k n))
  exact key _ _ (ha k)

theorem upward_first {X : Vec V ℕ} {alpha : Vec K ℝ} (ha : ∀ k, 0 ≤ alpha k) :
    (∀ k, Upward ((nFirst F X alpha).1 k)) ∧ ∀ k n, Upward ((nFirst F X alpha).2 k n) := by
  refine ⟨fun k => upward_add (ha k) (upward_div ?_ ?_), fun k n => ?_⟩
  · exact (toNum_nonneg (by exact_mod_cast Nat.zero_le _)).upward
  · exact (toNum_nonneg (Nat.cast_nonneg _)).upward
  · exact (toNum_nonneg (Limits.fl_nonneg (by positivity))).upward

/-- A number that is not negative is counted up at most seven times. -/
theorem Upward.rounds (hF : Stepped F) {x : Num} (h : Upward x) : ∃ n ≤ 7, Rounds F x n := by
  cases x with
  | fin x => exact C142_nonneg hF h
  | pinf => exact ⟨0, by omega, C142_special.2⟩
  | ninf => exact h.elim
  | nan => exact ⟨0, by omega, C142_special.1⟩

theorem upward_passes (hF : F.Ok) {X : Vec V ℕ} {y : Fin C} {alpha : Vec K ℝ} {beta : Mat K V ℝ} {eta : Mat K C ℝ} {w : ℝ}
    (ha : ∀ k, 0 ≤ alpha k) (hb : ∀ k n, 0 ≤ beta k n) (i : ℕ) : ∀ s, nPasses D X y alpha beta eta w i = some s →
    (∀ k, Upward (s.1 k)) ∧ ∀ k n, Upward (s.2 k n) := by
  induction i with
  | zero =>
    intro s hs
    obtain rfl : nFirst F X alpha = s := Option.some.inj hs
    exact upward_first ha
  | succ i ih =>
    intro s hs
    rw [nPasses, Option.bind_eq_some_iff] at hs
    obtain ⟨t, ht, hs⟩ := hs
    obtain ⟨phi, hphi, rfl⟩ := Option.map_eq_some_iff.1 hs
    have hp : ∀ k n, Upward (phi k n) := by
      unfold nPhi at hphi
      split_ifs at hphi with h0
      · rw [← Option.some.inj hphi]; exact (ih t ht).2
      · rw [Option.bind_eq_some_iff] at hphi
        obtain ⟨sm, -, hphi⟩ := hphi
        rw [Option.bind_eq_some_iff] at hphi
        obtain ⟨es, -, hphi⟩ := hphi
        obtain ⟨e, he, rfl⟩ := Option.map_eq_some_iff.1 hphi
        intro k n
        exact upward_normalize
          (fun k => upward_mul (a := .fin (beta k n)) (hb k n) (nExp_nonneg hF (mapNum_some.1 he k)).upward) k
    exact ⟨upward_gamma ha hp, hp⟩

/-- **C142**, the fast supervised step: for every document, every weight of the classes, every number of passes, and any
overflow on the way, every call of `digamma` makes at most seven rounds if `alpha` and `beta` are not negative: on the
elements of `gamma` and on their sum. -/
theorem C142_fast (hF : Stepped F) {X : Vec V ℕ} {y : Fin C} {alpha : Vec K ℝ} {beta : Mat K V ℝ} {eta : Mat K C ℝ} {w : ℝ}
    (ha : ∀ k, 0 ≤ alpha k) (hb : ∀ k n, 0 ≤ beta k n) {i : ℕ} {s : Vec K Num × Mat K V Num}
    (hs : nPasses D X y alpha beta eta w i = some s) :
    (∀ k, ∃ n ≤ 7, Rounds F (s.1 k) n) ∧ ∃ n ≤ 7, Rounds F (D.nsum s.1) n :=
  ⟨fun k => ((upward_passes hF.ok ha hb i s hs).1 k).rounds hF, (upward_nsum (upward_passes hF.ok ha hb i s hs).1).rounds hF⟩

theorem upward_loop (hF : F.Ok) {X : Vec V ℕ} {alpha : Vec K ℝ} {beta : Mat K V Num} {tol : ℝ} (ha : ∀ k, 0 ≤ alpha k)
    (hb : ∀ k n, Upward (beta k n)) (i : ℕ) : ∀ old t s, (∀ k, Upward (t.1 k)) → uLoop D X alpha beta tol i old t = some s →
    ∀ k, Upward (s.1 k) := by
  induction i with
  | zero =>
    intro old t s ht hs
    rw [uLoop] at hs
    rw [← Option.some.inj hs]
    exact ht
  | succ i ih =>
    intro old t s ht hs
    rw [uLoop] at hs
    split_ifs at hs with hc
    · rw [← Option.some.inj hs]; exact ht
    · rw [Option.bind_eq_some_iff] at hs
      obtain ⟨phi, hphi, hs⟩ := hs
      refine ih _ _ s ?_ hs
      obtain ⟨e, he, rfl⟩ := Option.map_eq_some_iff.1 hphi
      exact upward_gamma ha fun k n => upward_normalize
        (fun k => upward_mul (hb k n) (nExp_nonneg hF (mapNum_some.1 he k)).upward) k

/-- **C142**, the unsupervised step (and every step built on it): for every document, every tolerance and every number of
iterations.  Since the number of iterations is arbitrary, this is about every `gamma` the loop has had. -/
theorem C142_unsupervised (hF : Stepped F) {X : Vec V ℕ} {alpha : Vec K ℝ} {beta : Mat K V Num} {tol : ℝ}
    (ha : ∀ k, 0 ≤ alpha k) (hb : ∀ k n, Upward (beta k n)) {i : ℕ} {s : Vec K Num × Mat K V Num}
    (hs : uRun D X alpha beta tol i = some s) :
    (∀ k, ∃ n ≤ 7, Rounds F (s.1 k) n) ∧ ∃ n ≤ 7, Rounds F (D.nsum s.1) n := by
  have h := upward_loop hF.ok ha hb i _ _ s (upward_first ha).1 hs
  exact ⟨fun k => (h k).rounds hF, (upward_nsum h).rounds hF⟩

/-- **C142**, false for a negative prior: the first call of `digamma` in the first pass over any document with at most
`K · 2^prec` words is never left if an element of `alpha` is at most `-2^(prec+2)`. -/
theorem C142_negative_prior (hF : Stepped F) (hl : F.low ≤ 0) (hK : 0 < K) (hK' : (K : ℝ) ≤ 2 ^ F.prec) {X : Vec V ℕ}
    (hX : (numWords X : ℝ) ≤ 2 ^ F.prec) {alpha : Vec K ℝ} {k : Fin K} (ha : alpha k ≤ -2 ^ (F.prec + 2)) (n : ℕ) :
    ¬ Rounds F ((nFirst F X alpha).1 k) n := by
  have p0 : (0 : ℝ) < 2 ^ F.prec := by positivity
  have hi : (2 : ℝ) ^ F.prec * 4 ≤ 2 ^ F.high := by
    calc (2 : ℝ) ^ F.prec * 4 = 2 ^ (F.prec + 2) := by rw [pow_add]; norm_num
      _ ≤ 2 ^ F.high := pow_le_pow_right₀ (by norm_num) hF.high
  have hexact : ∀ m : ℕ, (m : ℝ) ≤ 2 ^ F.prec → toNum F (m : ℝ) = .fin m := by
    intro m hm
    have h1 : fl F (m : ℝ) = m := by
      have := fl_count hF.ok (s := m) (e := 0) (by exact_mod_cast hm)
      rwa [pow_zero, mul_one] at this
    have h2 : (0 : ℝ) ≤ m := Nat.cast_nonneg _
    unfold toNum
    rw [h1, if_neg (by linarith), if_neg (by linarith)]
  have hK1 : (1 : ℝ) ≤ K := by exact_mod_cast hK
  have hN : (0 : ℝ) ≤ (numWords X : ℝ) := by exact_mod_cast Nat.zero_le _
  obtain ⟨r, hr, hr1⟩ : ∃ r : ℝ, nDiv F (toNum F (numWords X)) (toNum F K) = .fin r ∧ r ≤ 2 ^ F.prec := by
    have hq : (numWords X : ℝ) / K ≤ 2 ^ (F.prec : ℤ) := by
      rw [zpow_natCast]
      exact (div_le_self hN hK1).trans hX
    have hq0 : (0 : ℝ) ≤ (numWords X : ℝ) / K := by positivity
    have h1 := fl_le hF.ok hq0 (by omega) hq
    have h2 := Limits.fl_nonneg (F := F) hq0
    rw [zpow_natCast] at h1
    refine ⟨_, ?_, h1⟩
    rw [hexact _ hK']
    have hx : toNum F (numWords X : ℝ) = .fin (numWords X : ℝ) := hexact _ hX
    rw [hx]
    simp only [nDiv]
    rw [if_neg (by positivity)]
    unfold toNum
    rw [if_neg (by linarith), if_neg (by linarith)]
  have e : (nFirst F X alpha).1 k = toNum F (alpha k + r) := by
    simp only [nFirst]
    rw [hr]
    rfl
  have hle : fl F (alpha k + r) ≤ -2 ^ (F.prec + 1) := by
    have h1 : (2 : ℝ) ^ ((F.prec : ℤ) + 1) ≤ -(alpha k + r) := by
      have : (2 : ℝ) ^ ((F.prec : ℤ) + 1) = 2 ^ F.prec * 2 := by rw [zpow_add₀ (by norm_num), zpow_natCast, zpow_one]
      rw [this]
      rw [pow_add] at ha
      norm_num at ha
      linarith
    have h2 := le_fl hF.ok (by omega) h1
    rw [fl_neg] at h2
    have : (2 : ℝ) ^ ((F.prec : ℤ) + 1) = 2 ^ (F.prec + 1) := by exact_mod_cast rfl
    rw [this] at h2
    linarith
  rw [e]
  have hp1 : (2 : ℝ) ^ (F.prec + 1) = 2 ^ F.prec * 2 := pow_succ _ _
  unfold toNum
  rw [if_neg (by linarith)]
  split_ifs with h
  · exact C142_ninf n
  · push Not at h
    intro hn
    have := (C142_iff hF (fl_fl' hF.ok _) h).1 ⟨n, hn⟩
    have p4 : (16 : ℝ) ≤ 2 ^ F.prec := by
      calc (16 : ℝ) = 2 ^ 4 := by norm_num
        _ ≤ 2 ^ F.prec := pow_le_pow_right₀ (by norm_num) hF.prec
    linarith

/-- A case of `C142_negative_prior`: two topics, three words, `alpha = -2^55` in `double`. -/
example (n : ℕ) : ¬ Rounds double ((nFirst double (fun _ : Fin 3 => 1) (fun _ : Fin 2 => -2 ^ 55)).1 0) n := by
  refine C142_negative_prior double_stepped (by decide) (by norm_num) ?_ ?_ ?_ n
  · norm_num [double]
  · norm_num [double, numWords, Fin.sum_univ_succ]
  · norm_num [double]

/-- A case of `C142_iff`: the loop ends for `-2^53`, the first number in question, in `double`. -/
example : ∃ n, Rounds double (.fin (-2 ^ 53)) n := by
  obtain ⟨n, -, h⟩ := C142_negative_partial double_stepped (x := -2 ^ 53) (by norm_num [double])
  exact ⟨n, h⟩

end Verif.Overflow
