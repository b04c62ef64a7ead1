import Verif.Lemmas.Limits
import Verif.Lemmas.WeightMono
import Verif.Props.Symmetry
import Verif.Props.Tolerance

/-
C127: the words of a document in `float` and `double`.
-/
namespace Verif.Limits

open MathUtils EStep Rounded Finset

variable {K V : ℕ} {F : Format} {M : Machine F}

/-! ### Errors, relative and absolute -/

/-- `x` and `y` differ by `m` roundings and by `d` in addition. -/
def Near (F : Format) (m : ℕ) (d x y : ℝ) : Prop := (1 - F.u) ^ m * y ≤ x + d ∧ (1 - F.u) ^ m * x ≤ y + d

theorem base (hF : F.Ok) : 0 < 1 - F.u ∧ 1 - F.u ≤ 1 := by
  have := u_le hF
  have := u_pos (F := F)
  constructor <;> linarith

theorem Near.refl (hF : F.Ok) {m : ℕ} {x d : ℝ} (hx : 0 ≤ x) (hd : 0 ≤ d) : Near F m d x x := by
  have h : (1 - F.u) ^ m ≤ 1 := pow_le_one₀ (base hF).1.le (base hF).2
  have := mul_le_mul_of_nonneg_right h hx
  constructor <;> linarith

theorem Near.trans (hF : F.Ok) {m m' : ℕ} {d d' x y z : ℝ} (hd : 0 ≤ d) (hd' : 0 ≤ d') (h : Near F m d x y)
    (h' : Near F m' d' y z) : Near F (m + m') (d + d') x z := by
  have p : (0 : ℝ) ≤ (1 - F.u) ^ m := pow_nonneg (base hF).1.le _
  have p' : (0 : ℝ) ≤ (1 - F.u) ^ m' := pow_nonneg (base hF).1.le _
  have q : (1 - F.u) ^ m ≤ 1 := pow_le_one₀ (base hF).1.le (base hF).2
  have q' : (1 - F.u) ^ m' ≤ 1 := pow_le_one₀ (base hF).1.le (base hF).2
  constructor
  · have h1 := mul_le_mul_of_nonneg_left h'.1 p
    have h2 := mul_le_mul_of_nonneg_right q hd'
    have := h.1
    rw [pow_add]
    nlinarith
  · have h1 := mul_le_mul_of_nonneg_left h.2 p'
    have h2 := mul_le_mul_of_nonneg_right q' hd
    have := h'.2
    rw [pow_add]
    nlinarith

theorem Near.mono (hF : F.Ok) {m m' : ℕ} (hm : m ≤ m') {d d' x y : ℝ} (hd : d ≤ d') (hx : 0 ≤ x) (hy : 0 ≤ y)
    (h : Near F m d x y) : Near F m' d' x y := by
  have q : (1 - F.u) ^ m' ≤ (1 - F.u) ^ m := pow_le_pow_of_le_one (base hF).1.le (base hF).2 hm
  have h1 := mul_le_mul_of_nonneg_right q hx
  have h2 := mul_le_mul_of_nonneg_right q hy
  exact ⟨by linarith [h.1], by linarith [h.2]⟩

theorem Near.add {m : ℕ} {d d' x y x' y' : ℝ} (h : Near F m d x y) (h' : Near F m d' x' y') :
    Near F m (d + d') (x + x') (y + y') := by
  obtain ⟨a, b⟩ := h
  obtain ⟨a', b'⟩ := h'
  constructor <;> rw [mul_add] <;> linarith

theorem Near.sum {ι : Type} {s : Finset ι} {m : ℕ} {d x y : ι → ℝ} (h : ∀ i ∈ s, Near F m (d i) (x i) (y i)) :
    Near F m (∑ i ∈ s, d i) (∑ i ∈ s, x i) (∑ i ∈ s, y i) := by
  constructor
  · rw [mul_sum, ← sum_add_distrib]
    exact sum_le_sum fun i hi => (h i hi).1
  · rw [mul_sum, ← sum_add_distrib]
    exact sum_le_sum fun i hi => (h i hi).2

theorem Near.mul_left {m : ℕ} {d x y c : ℝ} (hc : 0 ≤ c) (h : Near F m d x y) : Near F m (c * d) (c * x) (c * y) := by
  have h1 := mul_le_mul_of_nonneg_left h.1 hc
  have h2 := mul_le_mul_of_nonneg_left h.2 hc
  constructor <;> linarith

/-- Rounding with a relative error. -/
theorem near_of_rel (hF : F.Ok) {x y : ℝ} (hx : 0 ≤ x) (h : |y - x| ≤ F.u * x) : Near F 1 0 y x := by
  have hu := u_pos (F := F)
  have h0 := (base hF).1
  rw [abs_le] at h
  constructor
  · rw [pow_one]; linarith
  · have : (1 - F.u) * y ≤ (1 - F.u) * ((1 + F.u) * x) := mul_le_mul_of_nonneg_left (by linarith) h0.le
    rw [pow_one]
    nlinarith [mul_nonneg (mul_nonneg hu.le hu.le) hx]

/-- Rounding, with underflow. -/
theorem near_fl (hF : F.Ok) {x : ℝ} (hx : 0 ≤ x) : Near F 1 F.tiny (fl F x) x := by
  have hu := u_pos (F := F)
  have ht := tiny_pos (F := F)
  have h0 := (base hF).1
  have h := fl_err (F := F) hx
  rw [abs_le] at h
  constructor
  · rw [pow_one]; linarith
  · have : (1 - F.u) * fl F x ≤ (1 - F.u) * ((1 + F.u) * x + F.tiny) := mul_le_mul_of_nonneg_left (by linarith) h0.le
    rw [pow_one]
    nlinarith [mul_nonneg (mul_nonneg hu.le hu.le) hx, mul_nonneg hu.le ht.le]

/-- Additions have no underflow: sums of numbers of the format have a relative error, in any order. -/
theorem near_summation (hF : F.Ok) {l : List ℝ} {s : ℝ} (h : Summation (fl F) l s) (hl : ∀ x ∈ l, 0 ≤ x)
    (hr : ∀ x ∈ l, fl F x = x) : 0 ≤ s ∧ fl F s = s ∧ Near F l.length 0 s l.sum := by
  induction h with
  | nil => exact ⟨le_rfl, fl_zero, by simpa using Near.refl hF le_rfl le_rfl⟩
  | one x =>
    have := hl x (by simp)
    exact ⟨this, hr x (by simp), by simpa using Near.refl hF this le_rfl⟩
  | @add l l' l'' a b hne hne' _ _ hp iha ihb =>
    obtain ⟨a0, ra, na⟩ := iha (fun x hx => hl x (hp.mem_iff.2 (List.mem_append_left _ hx)))
      fun x hx => hr x (hp.mem_iff.2 (List.mem_append_left _ hx))
    obtain ⟨b0, rb, nb⟩ := ihb (fun x hx => hl x (hp.mem_iff.2 (List.mem_append_right _ hx)))
      fun x hx => hr x (hp.mem_iff.2 (List.mem_append_right _ hx))
    have sa : 0 ≤ l.sum := List.sum_nonneg fun x hx => hl x (hp.mem_iff.2 (List.mem_append_left _ hx))
    have sb : 0 ≤ l'.sum := List.sum_nonneg fun x hx => hl x (hp.mem_iff.2 (List.mem_append_right _ hx))
    have h1 : 1 ≤ l.length := List.length_pos_iff.2 hne
    have h1' : 1 ≤ l'.length := List.length_pos_iff.2 hne'
    refine ⟨fl_nonneg (add_nonneg a0 b0), fl_fl hF (add_nonneg a0 b0), ?_⟩
    have e := (near_of_rel hF (add_nonneg a0 b0) (fl_add_err a0 b0 ra rb)).trans hF le_rfl (by norm_num)
      ((na.mono hF (m' := l.length + l'.length - 1) (by omega) le_rfl a0 sa).add
        (nb.mono hF (m' := l.length + l'.length - 1) (by omega) le_rfl b0 sb))
    rw [hp.length_eq, hp.sum_eq, List.length_append, List.sum_append]
    refine e.mono hF (by omega) (by norm_num) (fl_nonneg (add_nonneg a0 b0)) (add_nonneg sa sb)

theorem near_sum (hF : F.Ok) {r : ℕ} {v : Vec r ℝ} (hv : ∀ i, 0 ≤ v i) (hr : ∀ i, fl F (v i) = v i) :
    0 ≤ M.sum v ∧ Near F r 0 (M.sum v) (∑ i, v i) := by
  have := near_summation hF (M.sum_spec v)
    (by intro x hx; obtain ⟨i, rfl⟩ := (List.mem_ofFn' _ _).1 hx; exact hv i)
    (by intro x hx; obtain ⟨i, rfl⟩ := (List.mem_ofFn' _ _).1 hx; exact hr i)
  rw [List.length_ofFn, List.sum_ofFn] at this
  exact ⟨this.1, this.2.2⟩

/-- A column that is not zero sums to one after the normalisation, up to rounding and underflow. -/
theorem near_normalize (hF : F.Ok) {r : ℕ} {v : Vec r ℝ} (hv : ∀ i, 0 ≤ v i) (hr : ∀ i, fl F (v i) = v i)
    (hne : ∃ i, v i ≠ 0) : (∀ i, 0 ≤ lNormalize M v i) ∧ Near F (r + 1) (r * F.tiny) (∑ i, lNormalize M v i) 1 := by
  obtain ⟨i0, hi0⟩ := hne
  have hpos : 0 < ∑ j, v j :=
    (lt_of_le_of_ne (hv i0) (Ne.symm hi0)).trans_le (single_le_sum (fun j _ => hv j) (mem_univ i0))
  obtain ⟨hs0, hs⟩ := near_sum (M := M) hF hv hr
  have pr : (0 : ℝ) < (1 - F.u) ^ r := pow_pos (base hF).1 _
  have hs1 : 0 < M.sum v := by
    have := hs.1
    have := mul_pos pr hpos
    linarith
  have hN : lNormalize M v = fun i => fl F (v i / M.sum v) := by
    unfold lNormalize
    rw [if_pos hs1.ne']
  have hq : ∀ i, 0 ≤ v i / M.sum v := fun i => div_nonneg (hv i) hs1.le
  rw [hN]
  refine ⟨fun i => fl_nonneg (hq i), ?_⟩
  have h1 := Near.sum (F := F) (s := univ) fun i _ => near_fl hF (hq i)
  rw [← sum_div, sum_const, card_univ, Fintype.card_fin, nsmul_eq_mul] at h1
  have h2 : Near F r 0 ((∑ i, v i) / M.sum v) 1 := by
    constructor
    · rw [mul_one, add_zero, le_div_iff₀ hs1]
      simpa using hs.2
    · rw [add_zero, ← mul_div_assoc, div_le_one hs1]
      simpa using hs.1
  have h3 := h1.trans hF (mul_nonneg (Nat.cast_nonneg r) tiny_pos.le) le_rfl h2
  rw [add_zero, add_comm 1 r] at h3
  exact h3

/-! ### gamma -/

theorem fl_nat (hF : F.Ok) (x : ℕ) : 0 ≤ fl F (x : ℝ) ∧ Near F 1 0 (fl F (x : ℝ)) x := by
  have hx : (0 : ℝ) ≤ x := Nat.cast_nonneg x
  refine ⟨fl_nonneg hx, near_of_rel hF hx ?_⟩
  rcases Nat.eq_zero_or_pos x with rfl | h
  · simp
  · have h1 : (1 : ℝ) ≤ x := by exact_mod_cast h
    have := hF.low
    exact fl_err_big (j := 0) (by omega) (by simpa using h1)

theorem near_term (hF : F.Ok) {x : ℕ} {p : ℝ} (hp : 0 ≤ p) : 0 ≤ fl F (fl F x * p) ∧
    fl F (fl F (fl F x * p)) = fl F (fl F x * p) ∧ Near F 2 F.tiny (fl F (fl F x * p)) (x * p) := by
  obtain ⟨h0, h1⟩ := fl_nat hF x
  have hq : 0 ≤ fl F x * p := mul_nonneg h0 hp
  refine ⟨fl_nonneg hq, fl_fl hF hq, ?_⟩
  have h2 := h1.mul_left hp
  rw [mul_zero, mul_comm p, mul_comm p] at h2
  simpa using (near_fl hF hq).trans hF tiny_pos.le le_rfl h2

theorem near_gamma (hF : F.Ok) {X : Vec V ℕ} {alpha : Vec K ℝ} {phi : Mat K V ℝ} (ha : ∀ k, 0 ≤ alpha k)
    (hr : ∀ k, fl F (alpha k) = alpha k) (hphi : ∀ k n, 0 ≤ phi k n) (k : Fin K) :
    alpha k ≤ lGamma F X alpha phi k ∧
    Near F (V + 2) (V * F.tiny) (lGamma F X alpha phi k) (alpha k + ∑ n, X n * phi k n) := by
  have key : ∀ (l : List (Fin V)) (j : ℕ) (g e : ℝ), 0 ≤ g → fl F g = g → 0 ≤ e → Near F (j + 2) (j * F.tiny) g e →
      g ≤ l.foldl (fun g n => if X n = 0 then g else fl F (g + fl F (fl F (X n) * phi k n))) g ∧
      Near F (j + l.length + 2) ((j + l.length : ℕ) * F.tiny)
        (l.foldl (fun g n => if X n = 0 then g else fl F (g + fl F (fl F (X n) * phi k n))) g)
        (e + (l.map fun n => X n * phi k n).sum) := by
    intro l
    induction l with
    | nil =>
      intro j g e hg _ he h
      simpa using h
    | cons n l ih =>
      intro j g e hg rg he h
      have hterm : 0 ≤ (X n : ℝ) * phi k n := mul_nonneg (Nat.cast_nonneg _) (hphi k n)
      simp only [List.foldl_cons, List.map_cons, List.sum_cons, List.length_cons]
      rw [← add_assoc e]
      have hj : j + (l.length + 1) = (j + 1) + l.length := by omega
      rw [hj]
      split
      · rename_i hX
        apply ih (j + 1) g _ hg rg (add_nonneg he hterm)
        rw [hX]
        simp only [Nat.cast_zero, zero_mul, add_zero]
        refine h.mono hF (by omega) ?_ hg he
        have := tiny_pos (F := F)
        push_cast
        nlinarith
      · obtain ⟨t0, rt, t1⟩ := near_term hF (x := X n) (hphi k n)
        have hs : 0 ≤ g + fl F (fl F (X n) * phi k n) := add_nonneg hg t0
        have hge : g ≤ fl F (g + fl F (fl F (X n) * phi k n)) := by
          conv_lhs => rw [← rg]
          exact fl_mono hF hg (by linarith)
        have := ih (j + 1) _ _ (fl_nonneg hs) (fl_fl hF hs) (add_nonneg he hterm) (by
          have h1 := h.add (t1.mono hF (m' := j + 2) (by omega) le_rfl t0 hterm)
          have h2 := (near_of_rel hF hs (fl_add_err hg t0 rg rt)).trans hF le_rfl (by
            have := tiny_pos (F := F)
            positivity) h1
          have e : 1 + (j + 2) = j + 1 + 2 := by omega
          rw [e, zero_add] at h2
          refine h2.mono hF le_rfl (le_of_eq ?_) (fl_nonneg hs) (add_nonneg he hterm)
          push_cast; ring)
        exact ⟨hge.trans this.1, this.2⟩
  have h := key (List.finRange V) 0 (alpha k) (alpha k) (ha k) (hr k) (ha k) (by
    simpa using Near.refl hF (ha k) le_rfl)
  rw [List.length_finRange, zero_add] at h
  have e : ((List.finRange V).map fun n => (X n : ℝ) * phi k n).sum = ∑ n, (X n : ℝ) * phi k n := by
    rw [← List.ofFn_eq_map, List.sum_ofFn]
  rw [e] at h
  exact h

/-! ### fast_exp -/

theorem lSquare_none (n : ℕ) : lSquare F n none = none := by cases n <;> rfl

theorem low_le_nat (hF : F.Ok) (n : ℕ) : F.low ≤ (n : ℤ) := by
  have := hF.low
  omega

theorem square_ge (hF : F.Ok) {i : ℕ} {x : ℝ} (hx : (2 : ℝ) ^ (2 ^ i) ≤ x) : (2 : ℝ) ^ (2 ^ (i + 1)) ≤ fl F (x * x) := by
  have h1 : (2 : ℝ) ^ ((2 ^ (i + 1) : ℕ) : ℤ) ≤ x * x := by
    rw [zpow_natCast, pow_succ, pow_mul, pow_two]
    exact mul_le_mul hx hx (by positivity) (le_trans (by positivity) hx)
  have h2 := le_fl hF (low_le_nat hF _) h1
  rwa [zpow_natCast] at h2

/-- Squaring overflows if the result is that large. -/
theorem lSquare_over (hF : F.Ok) : ∀ (n i : ℕ) (x : ℝ), F.high = 2 ^ (i + n + 1) →
    (2 : ℝ) ^ (2 ^ i) ≤ x → lSquare F (n + 1) (some x) = none := by
  intro n
  induction n with
  | zero =>
    intro i x hi hx
    have h2 := square_ge hF hx
    simp only [lSquare, bounded]
    rw [hi, if_pos (by simpa using h2)]
  | succ n ih =>
    intro i x hi hx
    have h2 := square_ge hF hx
    rw [lSquare]
    unfold bounded
    split_ifs
    · exact lSquare_none _
    · exact ih (i + 1) _ (by rw [hi]; congr 1; omega) h2

theorem lSquare_ge (hF : F.Ok) : ∀ (n : ℕ) (x v : ℝ), 1 ≤ x → lSquare F n (some x) = some v → 1 ≤ v := by
  intro n
  induction n with
  | zero => intro x v hx h; cases h; exact hx
  | succ n ih =>
    intro x v hx h
    rw [lSquare] at h
    unfold bounded at h
    split_ifs at h
    · rw [lSquare_none] at h; cases h
    · refine ih _ v ?_ h
      have := le_fl hF (j := 0) (by have := hF.low; omega) (x := x * x) (by rw [zpow_zero]; nlinarith)
      rwa [zpow_zero] at this

/-- Squaring does not overflow if the result is small enough. -/
theorem lSquare_le (hF : F.Ok) : ∀ (n i : ℕ) (x : ℝ), 2 ^ (i + n) < F.high → 1 ≤ x → x ≤ 2 ^ (2 ^ i) →
    ∃ v, lSquare F n (some x) = some v ∧ 1 ≤ v ∧ v ≤ 2 ^ (2 ^ (i + n)) := by
  intro n
  induction n with
  | zero => intro i x _ h1 h2; exact ⟨x, rfl, h1, h2⟩
  | succ n ih =>
    intro i x hi h1 h2
    have e : x * x ≤ (2 : ℝ) ^ ((2 ^ (i + 1) : ℕ) : ℤ) := by
      rw [zpow_natCast, pow_succ, pow_mul, pow_two]
      exact mul_le_mul h2 h2 (by linarith) (by positivity)
    have e1 := fl_le hF (by nlinarith) (low_le_nat hF _) e
    rw [zpow_natCast] at e1
    have e2 := le_fl hF (j := 0) (by have := hF.low; omega) (x := x * x) (by rw [zpow_zero]; nlinarith)
    rw [zpow_zero] at e2
    have hlt : (2 : ℝ) ^ (2 ^ (i + 1)) < 2 ^ F.high := by
      apply pow_lt_pow_right₀ (by norm_num)
      refine lt_of_le_of_lt (Nat.pow_le_pow_right (by norm_num) ?_) hi
      omega
    rw [lSquare]
    unfold bounded
    rw [if_neg (not_le.2 (lt_of_le_of_lt e1 hlt))]
    obtain ⟨v, a, b, c⟩ := ih (i + 1) _ (by rw [show i + 1 + n = i + (n + 1) by omega]; exact hi) e2 e1
    exact ⟨v, a, b, by rwa [show i + (n + 1) = i + 1 + n by omega]⟩

/-- Every entry of the table is between 1 and 4. -/
theorem lut_range {i : ℕ} (h : i < 1024) : 1 ≤ (FastExp.lut i).getD 0 ∧ (FastExp.lut i).getD 0 ≤ 4 := by
  rcases Nat.eq_zero_or_pos i with rfl | h0
  · have : FastExp.lut 0 = some 1 := by
      rw [FastExp.lut]
      rw [show FastExp.lutNat[0]? = some 1000000000000000000 from rfl]
      norm_num
    rw [this]; norm_num
  obtain ⟨v, hv, hp, hl⟩ := FastExp.C30_table i h
  rw [hv]
  simp only [Option.getD_some]
  rw [abs_le] at hl
  have h1 : (1 : ℝ) ≤ i := by exact_mod_cast h0
  have h2 : (i : ℝ) ≤ 1023 := by exact_mod_cast (by omega : i ≤ 1023)
  constructor
  · rw [← Real.log_nonneg_iff hp]
    have : (1 : ℝ) / 1023 ≤ i / 1023 := by gcongr
    norm_num at this hl ⊢
    linarith
  · rw [← Real.log_le_log_iff hp (by norm_num)]
    have : (i : ℝ) / 1023 ≤ 1 := by rw [div_le_one (by norm_num)]; exact h2
    have e : Real.log 4 = 2 * Real.log 2 := by
      rw [show (4 : ℝ) = 2 ^ 2 by norm_num, Real.log_pow]; norm_num
    have := Real.log_two_gt_d9
    rw [e]
    norm_num at hl
    linarith

theorem index_lt {x : ℝ} (hx : 0 ≤ x) : ⌊(FastExp.halve x).1 * 1024⌋₊ < 1024 := FastExp.idx_lt x hx

theorem start_range (hF : F.Ok) {x : ℝ} (hx : 0 ≤ x) :
    1 ≤ fl F ((FastExp.lut ⌊(FastExp.halve x).1 * 1024⌋₊).getD 0) ∧
      fl F ((FastExp.lut ⌊(FastExp.halve x).1 * 1024⌋₊).getD 0) ≤ 4 := by
  obtain ⟨h1, h2⟩ := lut_range (index_lt hx)
  have hl := hF.low
  have e1 := le_fl hF (j := 0) (x := (FastExp.lut ⌊(FastExp.halve x).1 * 1024⌋₊).getD 0) (by omega)
    (by rw [zpow_zero]; exact h1)
  have e2 := fl_le hF (j := 2) (x := (FastExp.lut ⌊(FastExp.halve x).1 * 1024⌋₊).getD 0) (by linarith) (by omega)
    (h2.trans (by norm_num))
  rw [zpow_zero] at e1
  norm_num at e2
  exact ⟨e1, e2⟩

theorem lExpPos_ge (hF : F.Ok) {x v : ℝ} (hx : 0 ≤ x) (h : lExpPos M x = some v) : 1 / 2 ≤ v := by
  unfold lExpPos at h
  split_ifs at h
  · have := M.stdExp_err x v h
    have h1 : 1 ≤ Real.exp x := Real.one_le_exp hx
    rw [abs_le] at this
    linarith
  · have := lSquare_ge hF _ _ _ (start_range hF hx).1 h
    linarith

theorem lExp_nonneg (hF : F.Ok) {x w : ℝ} (h : lExp M x = some w) : 0 ≤ w := by
  unfold lExp at h
  split_ifs at h with hx
  · split at h
    · cases h; exact le_rfl
    · rename_i v hv
      cases h
      have := lExpPos_ge hF (by linarith) hv
      exact fl_nonneg (by positivity)
  · have := lExpPos_ge hF (by linarith) h
    linarith

/-- Not too far below zero the exponential is not too small. -/
theorem lExp_ge (hF : F.Ok) {c : ℕ} (hc : 2 ^ (c + 1) < F.high) (hl : F.low ≤ -(2 ^ (c + 1) : ℕ)) {x w : ℝ}
    (h1 : -100 ≤ x) (h2 : -(2 : ℝ) ^ c < x) (h : lExp M x = some w) : (2 : ℝ) ^ (-((2 ^ (c + 1) : ℕ) : ℤ)) ≤ w := by
  unfold lExp at h
  split_ifs at h with hx
  · obtain ⟨a0, a1, a2, a3⟩ := FastExp.halve_spec (-x) (by linarith)
    have hcnt : (FastExp.halve (-x)).2 ≤ c := by
      by_contra hcon
      have hne : (FastExp.halve (-x)).2 ≠ 0 := by omega
      have h3 := a3 hne
      have h4 : (2 : ℝ) ^ (c + 1) ≤ 2 ^ (FastExp.halve (-x)).2 := pow_le_pow_right₀ (by norm_num) (by omega)
      have h5 : (2 : ℝ) ^ (c + 1) = 2 * 2 ^ c := by ring
      have h6 : (0 : ℝ) < 2 ^ c := by positivity
      nlinarith
    have hstart := start_range hF (x := -x) (by linarith)
    obtain ⟨v, hv, v1, v2⟩ := lSquare_le hF (FastExp.halve (-x)).2 1 _
      (lt_of_le_of_lt (Nat.pow_le_pow_right (by norm_num) (by omega : 1 + (FastExp.halve (-x)).2 ≤ c + 1)) hc)
      hstart.1 (hstart.2.trans (by norm_num))
    have hpos : lExpPos M (-x) = some v := by
      unfold lExpPos
      rw [if_neg (by linarith)]
      exact hv
    rw [hpos] at h
    simp only [Option.some.injEq] at h
    subst h
    apply le_fl hF (by omega)
    have v3 : v ≤ (2 : ℝ) ^ (2 ^ (c + 1)) :=
      v2.trans (pow_le_pow_right₀ (by norm_num) (Nat.pow_le_pow_right (by norm_num) (by omega)))
    rw [zpow_neg, zpow_natCast, ← one_div]
    exact one_div_le_one_div_of_le (by linarith) v3
  · have h3 := lExpPos_ge hF (by linarith) h
    refine le_trans ?_ h3
    have : (2 : ℝ) ^ (-((2 ^ (c + 1) : ℕ) : ℤ)) ≤ 2 ^ (-1 : ℤ) := by
      apply zpow_le_zpow_right₀ (by norm_num)
      have : 1 ≤ 2 ^ (c + 1) := Nat.one_le_two_pow
      omega
    norm_num at this ⊢
    exact this

theorem pow_two_le_exp (n : ℕ) {x : ℝ} (h : n * 0.6931471808 + 1 / 100 ≤ x) :
    (2 : ℝ) ^ n ≤ Real.exp x * (1 - 1 / 1024) := by
  have e : (2 : ℝ) ^ n = Real.exp (n * Real.log 2) := by
    rw [← Real.log_pow, Real.exp_log (by positivity)]
  have h1 : n * Real.log 2 ≤ n * 0.6931471808 :=
    mul_le_mul_of_nonneg_left Real.log_two_lt_d9.le (Nat.cast_nonneg n)
  have h2 : Real.exp (n * Real.log 2) * Real.exp (1 / 100) ≤ Real.exp x := by
    rw [← Real.exp_add]
    exact Real.exp_le_exp.2 (by linarith)
  have h3 : 1 + 1 / 100 ≤ Real.exp (1 / 100 : ℝ) := by
    have := Real.add_one_le_exp (1 / 100 : ℝ)
    linarith
  have h4 : 0 < Real.exp (n * Real.log 2) := Real.exp_pos _
  rw [e]
  nlinarith

/-- With `double`, `fast_exp` of 710 and more is infinite. -/
theorem lExpPos_over_double {M : Machine double} {x : ℝ} (hx : 710 ≤ x) : lExpPos M x = none := by
  unfold lExpPos
  rw [if_pos (by linarith)]
  apply M.stdExp_over
  exact pow_two_le_exp 1024 (by norm_num; linarith)

/-- With `double`, `fast_exp` of -710 and less is zero. -/
theorem lExp_zero_double {M : Machine double} {x : ℝ} (hx : x ≤ -710) : lExp M x = some 0 := by
  unfold lExp
  rw [if_pos (by linarith), lExpPos_over_double (by linarith)]

/-- With `float`, `fast_exp` of 89 and more is infinite. -/
theorem lExpPos_over_float {M : Machine float} {x : ℝ} (hx : 89 ≤ x) : lExpPos M x = none := by
  unfold lExpPos
  split_ifs with h100
  · apply M.stdExp_over
    exact pow_two_le_exp 128 (by norm_num; linarith)
  · obtain ⟨a0, a1, a2, a3⟩ := FastExp.halve_spec x (by linarith)
    have h7 : (FastExp.halve x).2 = 7 := by
      rcases lt_trichotomy (FastExp.halve x).2 7 with hlt | e | hgt
      · have h4 : (2 : ℝ) ^ (FastExp.halve x).2 ≤ 2 ^ 6 := pow_le_pow_right₀ (by norm_num) (by omega)
        have h6 : (0 : ℝ) < 2 ^ (FastExp.halve x).2 := by positivity
        nlinarith
      · exact e
      · have h4 : (2 : ℝ) ^ 8 ≤ 2 ^ (FastExp.halve x).2 := pow_le_pow_right₀ (by norm_num) (by omega)
        have h6 := a3 (by omega)
        nlinarith
    rw [h7] at a2 ⊢
    have hidx : 712 ≤ ⌊(FastExp.halve x).1 * 1024⌋₊ := by
      apply Nat.le_floor
      push_cast
      linarith
    have hlt := index_lt (x := x) (by linarith)
    generalize ⌊(FastExp.halve x).1 * 1024⌋₊ = i at hidx hlt
    obtain ⟨v, hv, hp, hl⟩ := FastExp.C30_table i hlt
    rw [hv]
    simp only [Option.getD_some]
    have h2 : 2 ≤ v := by
      rw [← Real.log_le_log_iff (by norm_num) hp]
      rw [abs_le] at hl
      have : (712 : ℝ) / 1023 ≤ i / 1023 := by gcongr; exact_mod_cast hidx
      have := Real.log_two_lt_d9
      norm_num at *
      linarith
    apply lSquare_over float_ok 6 0 _ rfl
    have := le_fl float_ok (j := 1) (by decide) (x := v) (by rw [zpow_one]; exact h2)
    simpa using this

/-- With `float`, `fast_exp` of -89 and less is zero. -/
theorem lExp_zero_float {M : Machine float} {x : ℝ} (hx : x ≤ -89) : lExp M x = some 0 := by
  unfold lExp
  rw [if_pos (by linarith), lExpPos_over_float (by linarith)]

/-! ### digamma -/

/-- `digamma` in exact arithmetic is above -1/x - 2 and, for small arguments, below -1/x + 2. -/
theorem digamma_bounds {x v : ℝ} (hx : 0 < x) (h : FastExp.digamma x = some v) :
    -(1 / x) - 2 ≤ v ∧ (x ≤ 1 → v ≤ -(1 / x) + 2) := by
  obtain ⟨d, h1, h2, h3, h4⟩ := EStep.digamma_one
  by_cases hx1 : x ≤ 1
  · have e := FastExp.C32_recurrence x (by linarith) hx.ne'
    obtain ⟨v', hv'⟩ := FastExp.C32_positive (x + 1) (by linarith)
    rw [hv', h] at e
    simp only [Option.map_some, Option.some.injEq] at e
    have a1 := FastExp.digamma_almost (by norm_num) (by linarith : (1 : ℝ) ≤ x + 1) h1 hv'
    have a2 := FastExp.digamma_almost (by linarith) (by linarith : x + 1 ≤ 2) hv' h2
    norm_num at a1 a2
    exact ⟨by linarith, fun _ => by linarith⟩
  · have a1 := FastExp.digamma_almost (by norm_num) (by linarith : (1 : ℝ) ≤ x) h1 h
    have : 0 < 1 / x := by positivity
    norm_num at a1
    exact ⟨by linarith, fun h => absurd h hx1⟩

/-- `digamma` as computed, for an argument of at least `1 / m`. -/
theorem psi_ge {x m : ℝ} (hx : 0 < x) (hm : 1 / m ≤ x) (hm0 : 0 < m) : -((m + 2) * (1025 / 1024) + 1 / 1024) ≤ M.psi x := by
  obtain ⟨v, hv⟩ := FastExp.C32_positive x hx
  have h1 := M.psi_err x v hx hv
  have h2 := (digamma_bounds hx hv).1
  have h3 : 1 / x ≤ m := by
    rw [div_le_iff₀ hm0] at hm
    rw [div_le_iff₀ hx]
    linarith
  rw [abs_le] at h1
  rcases le_total 0 v with h | h
  · rw [abs_of_nonneg h] at h1; linarith
  · rw [abs_of_nonpos h] at h1; linarith

/-- `digamma` as computed, for a small argument. -/
theorem psi_le {x b : ℝ} (hx : 0 < x) (h1 : x ≤ 1 / 50) (hb : b ≤ (1 / x - 2) * (1023 / 1024) - 1 / 1024) : M.psi x ≤ -b := by
  obtain ⟨v, hv⟩ := FastExp.C32_positive x hx
  have e := M.psi_err x v hx hv
  have h2 := (digamma_bounds hx hv).2 (by linarith)
  have h3 : 50 ≤ 1 / x := by
    rw [le_div_iff₀ hx]; linarith
  rw [abs_le, abs_of_nonpos (by linarith)] at e
  linarith

/-! ### C127 -/

/-- The words of a document are all accounted for: its topics add up to the prior plus its words, up to `V + K + 3`
relative rounding errors and `K * (V + words)` times half of the smallest number. -/
def Accounted (F : Format) (X : Vec V ℕ) (alpha gamma : Vec K ℝ) : Prop :=
  Near F (V + K + 3) (K * (V + numWords X) * F.tiny) (∑ k, gamma k) (∑ k, alpha k + numWords X)

/-- One pass accounts for all words if no word of the document has only weights that underflow. -/
theorem C127_pass_partial (hF : F.Ok) {X : Vec V ℕ} {alpha : Vec K ℝ} {beta : Mat K V ℝ} {g : Vec K ℝ}
    {phi : Mat K V ℝ} (ha : ∀ k, 0 ≤ alpha k) (hr : ∀ k, fl F (alpha k) = alpha k) (hb : ∀ k n, 0 ≤ beta k n)
    (h : lPhi M beta g = some phi)
    (hw : ∀ n, X n ≠ 0 → ∃ k w, lExp M (M.psi (g k)) = some w ∧ fl F (beta k n * w) ≠ 0) :
    (∀ k, alpha k ≤ lGamma F X alpha phi k) ∧ Accounted F X alpha (lGamma F X alpha phi) := by
  obtain ⟨w, hw1, rfl⟩ := Option.map_eq_some_iff.1 h
  have hw2 := mapOpt_eq.1 hw1
  have w0 : ∀ k, 0 ≤ w k := fun k => lExp_nonneg hF (hw2 k)
  have c0 : ∀ n k, 0 ≤ lWeights (F := F) beta w k n := fun n k => fl_nonneg (mul_nonneg (hb k n) (w0 k))
  have cr : ∀ n k, fl F (lWeights (F := F) beta w k n) = lWeights (F := F) beta w k n :=
    fun n k => fl_fl hF (mul_nonneg (hb k n) (w0 k))
  have phi0 : ∀ k n, 0 ≤ lNormalize M (fun k => lWeights (F := F) beta w k n) k := by
    intro k n
    unfold lNormalize
    split_ifs
    · exact fl_nonneg (div_nonneg (c0 n k) (near_sum hF (c0 n) (cr n)).1)
    · exact c0 n k
  have hG := near_gamma (X := X) hF ha hr phi0
  refine ⟨fun k => (hG k).1, ?_⟩
  have ht := tiny_pos (F := F)
  have h1 := Near.sum (F := F) (s := univ) fun k _ => (hG k).2
  have h2 : Near F (K + 1) (∑ n, (X n : ℝ) * (K * F.tiny))
      (∑ k, (alpha k + ∑ n, (X n : ℝ) * lNormalize M (fun k => lWeights (F := F) beta w k n) k))
      (∑ k, alpha k + ∑ n, (X n : ℝ)) := by
    rw [sum_add_distrib, sum_comm]
    have e := (Near.refl hF (m := K + 1) (sum_nonneg fun k (_ : k ∈ univ) => ha k) le_rfl).add
      (Near.sum (F := F) (s := univ) (m := K + 1) (d := fun n => (X n : ℝ) * (K * F.tiny))
        (x := fun n => ∑ k, (X n : ℝ) * lNormalize M (fun k => lWeights (F := F) beta w k n) k)
        (y := fun n => (X n : ℝ)) fun n _ => by
          rw [← mul_sum]
          by_cases hX : X n = 0
          · rw [hX]
            simpa using Near.refl hF (m := K + 1) (le_refl (0 : ℝ)) le_rfl
          · obtain ⟨k, w', hk, hne⟩ := hw n hX
            rw [hw2 k, Option.some.injEq] at hk
            have := ((near_normalize (M := M) hF (c0 n) (cr n) ⟨k, by
              unfold lWeights; rw [hk]; exact hne⟩).2).mul_left (c := (X n : ℝ)) (Nat.cast_nonneg _)
            rwa [mul_one] at this)
    rwa [zero_add] at e
  have h3 := h1.trans hF (by positivity) (by positivity) h2
  have e1 : V + 2 + (K + 1) = V + K + 3 := by omega
  have e2 : (∑ _k : Fin K, (V : ℝ) * F.tiny) + ∑ n, (X n : ℝ) * (K * F.tiny) = K * (V + numWords X) * F.tiny := by
    rw [sum_const, card_univ, Fintype.card_fin, nsmul_eq_mul, ← sum_mul,
      show (∑ n, (X n : ℝ)) = numWords X by rw [numWords]; push_cast; rfl]
    ring
  have e3 : (∑ n, (X n : ℝ)) = numWords X := by rw [numWords]; push_cast; rfl
  rw [e1, e2, e3] at h3
  exact h3

/-- All passes: prior at least `1 / m`, and every word of the document has at least `2 ^ b` in some topic. -/
theorem passes_accounted (hF : F.Ok) {c : ℕ} (hc : 2 ^ (c + 1) < F.high) {m : ℝ} (hm0 : 0 < m)
    (hm1 : (m + 2) * (1025 / 1024) + 1 / 1024 ≤ 100) (hm2 : (m + 2) * (1025 / 1024) + 1 / 1024 < 2 ^ c) {b : ℤ}
    (hb1 : F.low + (2 ^ (c + 1) : ℕ) ≤ b) (hl : F.low ≤ -(2 ^ (c + 1) : ℕ)) {X : Vec V ℕ} {alpha : Vec K ℝ} {beta : Mat K V ℝ}
    (ha : ∀ k, 1 / m ≤ alpha k) (hr : ∀ k, fl F (alpha k) = alpha k) (hb : ∀ k n, 0 ≤ beta k n)
    (hw : ∀ n, X n ≠ 0 → ∃ k, 2 ^ b ≤ beta k n) (i : ℕ) {gamma : Vec K ℝ}
    (h : lPasses M X alpha beta (i + 1) = some gamma) : Accounted F X alpha gamma := by
  have a0 : ∀ k, 0 < alpha k := fun k => lt_of_lt_of_le (by positivity) (ha k)
  have step : ∀ g gamma : Vec K ℝ, (∀ k, alpha k ≤ g k) → (lPhi M beta g).map (lGamma F X alpha) = some gamma →
      (∀ k, alpha k ≤ gamma k) ∧ Accounted F X alpha gamma := by
    intro g gamma hg h
    obtain ⟨phi, hp, rfl⟩ := Option.map_eq_some_iff.1 h
    refine C127_pass_partial hF (fun k => (a0 k).le) hr hb hp fun n hn => ?_
    obtain ⟨k, hk⟩ := hw n hn
    obtain ⟨w, hw1, _⟩ := Option.map_eq_some_iff.1 hp
    have hw2 := mapOpt_eq.1 hw1 k
    refine ⟨k, w k, hw2, ?_⟩
    have hpsi := psi_ge (M := M) ((a0 k).trans_le (hg k)) ((ha k).trans (hg k)) hm0
    have h1 := lExp_ge hF hc hl (by linarith) (by linarith) hw2
    have h2 : (2 : ℝ) ^ (b + -((2 ^ (c + 1) : ℕ) : ℤ)) ≤ beta k n * w k := by
      rw [zpow_add₀ (by norm_num)]
      exact mul_le_mul hk h1 (two_zpow_pos _).le (hb k n)
    have h3 := le_fl hF (by omega) h2
    exact ((two_zpow_pos _).trans_le h3).ne'
  have inv : ∀ j g, lPasses M X alpha beta j = some g → ∀ k, alpha k ≤ g k := by
    intro j
    induction j with
    | zero =>
      intro g hg k
      cases hg
      unfold lFirst
      conv_lhs => rw [← hr k]
      apply fl_mono hF (a0 k).le
      have : 0 ≤ fl F (fl F (numWords X) / fl F K) :=
        fl_nonneg (div_nonneg (fl_nonneg (Nat.cast_nonneg _)) (fl_nonneg (Nat.cast_nonneg _)))
      linarith
    | succ j ih =>
      intro g hg
      obtain ⟨g', h1, h2⟩ := Option.bind_eq_some_iff.1 hg
      exact (step g' g (ih g' h1) h2).1
  obtain ⟨g', h1, h2⟩ := Option.bind_eq_some_iff.1 h
  exact (step g' gamma (inv i g' h1) h2).2

/-- C127 with `double`: if the prior is at least 1/97 for every topic and every word of the document has a
probability of at least 2^-800 in some topic, every pass accounts for all words. -/
theorem C127_double_partial {M : Machine double} {X : Vec V ℕ} {alpha : Vec K ℝ} {beta : Mat K V ℝ}
    (ha : ∀ k, 1 / 97 ≤ alpha k) (hr : ∀ k, fl double (alpha k) = alpha k) (hb : ∀ k n, 0 ≤ beta k n)
    (hw : ∀ n, X n ≠ 0 → ∃ k, 2 ^ (-800 : ℤ) ≤ beta k n) (i : ℕ) {gamma : Vec K ℝ}
    (h : lPasses M X alpha beta (i + 1) = some gamma) : Accounted double X alpha gamma :=
  passes_accounted double_ok (c := 7) (by decide) (m := 97) (by norm_num) (by norm_num) (by norm_num) (b := -800)
    (by decide) (by decide) ha hr hb hw i h

/-- C127 with `float`: if the prior is at least 1/29 for every topic and every word of the document has a
probability of at least 2^-85 in some topic, every pass accounts for all words. -/
theorem C127_float_partial {M : Machine float} {X : Vec V ℕ} {alpha : Vec K ℝ} {beta : Mat K V ℝ}
    (ha : ∀ k, 1 / 29 ≤ alpha k) (hr : ∀ k, fl float (alpha k) = alpha k) (hb : ∀ k n, 0 ≤ beta k n)
    (hw : ∀ n, X n ≠ 0 → ∃ k, 2 ^ (-85 : ℤ) ≤ beta k n) (i : ℕ) {gamma : Vec K ℝ}
    (h : lPasses M X alpha beta (i + 1) = some gamma) : Accounted float X alpha gamma :=
  passes_accounted float_ok (c := 5) (by decide) (m := 29) (by norm_num) (by norm_num) (by norm_num) (b := -85)
    (by decide) (by decide) ha hr hb hw i h

/-- If the weights of all topics underflow, every pass ends with the prior: all words are lost. -/
theorem passes_lost {B : ℝ} (hz : ∀ x, x ≤ -B → lExp M x = some 0) {X : Vec V ℕ} {alpha : Vec K ℝ}
    {beta : Mat K V ℝ} (hr : ∀ k, fl F (alpha k) = alpha k)
    (h0 : ∀ k, M.psi (lFirst F X alpha k) ≤ -B) (h1 : ∀ k, M.psi (alpha k) ≤ -B) (i : ℕ) :
    lPasses M X alpha beta (i + 1) = some alpha := by
  have step : ∀ g : Vec K ℝ, (∀ k, M.psi (g k) ≤ -B) → (lPhi M beta g).map (lGamma F X alpha) = some alpha := by
    intro g hg
    have e : mapOpt (fun g => lExp M (M.psi g)) g = some fun _ => 0 := mapOpt_eq.2 fun k => hz _ (hg k)
    rw [lPhi, e, Option.map_some, Option.map_some]
    congr 1
    funext k
    have hsum : ∀ {l : List ℝ} {s : ℝ}, Summation (fl F) l s → (∀ x ∈ l, x = 0) → s = 0 := by
      intro l s h
      induction h with
      | nil => intro _; rfl
      | one x => intro h; exact h x (by simp)
      | @add l l' l'' a b _ _ _ _ hp iha ihb =>
        intro h
        rw [iha fun x hx => h x (hp.mem_iff.2 (List.mem_append_left _ hx)),
          ihb fun x hx => h x (hp.mem_iff.2 (List.mem_append_right _ hx))]
        simp
    have hphi : ∀ n, lNormalize M (fun k => lWeights (F := F) beta (fun _ : Fin K => (0 : ℝ)) k n) k = 0 := by
      intro n
      have hs : M.sum (fun k => lWeights (F := F) beta (fun _ : Fin K => (0 : ℝ)) k n) = 0 := by
        refine hsum (M.sum_spec _) fun x hx => ?_
        obtain ⟨k, rfl⟩ := (List.mem_ofFn' _ _).1 hx
        simp [lWeights]
      unfold lNormalize
      rw [hs, if_neg (by simp)]
      simp [lWeights]
    unfold lGamma
    have key : ∀ (l : List (Fin V)), l.foldl (fun g n => if X n = 0 then g else fl F (g + fl F (fl F (X n) *
        lNormalize M (fun k => lWeights (F := F) beta (fun _ : Fin K => (0 : ℝ)) k n) k))) (alpha k) = alpha k := by
      intro l
      induction l with
      | nil => rfl
      | cons n l ih =>
        rw [List.foldl_cons, hphi n]
        simp only [mul_zero, fl_zero, add_zero, hr k, ite_self]
        exact ih
    exact key _
  induction i with
  | zero => exact step _ h0
  | succ i ih =>
    rw [lPasses, ih]
    exact step _ h1

/-- The prior and the first topics of a document with few words for the number of topics. -/
theorem first_small (hF : F.Ok) (hu : F.u ≤ 1 / 10 ^ 6) (ht : F.tiny ≤ 1 / 10 ^ 30) {X : Vec V ℕ} {m : ℕ} (hm : 60 ≤ m)
    (hK : m * (numWords X + 1) ≤ K) (hK' : K ≤ 2 ^ 31) {alpha : Vec K ℝ} (ha : ∀ k, alpha k = fl F (1 / K)) (k : Fin K) :
    0 < alpha k ∧ alpha k ≤ (1 + 1 / 10 ^ 4) / m ∧ 0 < lFirst F X alpha k ∧ lFirst F X alpha k ≤ (1 + 1 / 10 ^ 4) / m := by
  have hu0 := u_pos (F := F)
  have ht0 := tiny_pos (F := F)
  have hN : (0 : ℝ) ≤ numWords X := Nat.cast_nonneg _
  have hm0 : (60 : ℝ) ≤ m := by exact_mod_cast hm
  have hKm : (m : ℝ) * (numWords X + 1) ≤ K := by exact_mod_cast hK
  have hK0 : (60 : ℝ) ≤ K := by nlinarith
  have hK2 : (K : ℝ) ≤ 2 ^ 31 := by exact_mod_cast hK'
  -- the prior
  have hinv : (1 : ℝ) / 2 ^ 31 ≤ 1 / K := one_div_le_one_div_of_le (by linarith) hK2
  have e1 := fl_err (F := F) (x := 1 / K) (by positivity)
  rw [abs_le] at e1
  have p1 : 0 < alpha k := by
    rw [ha k]
    norm_num at hinv e1 hu ht ⊢
    nlinarith
  have htK : F.tiny ≤ 1 / 10 ^ 6 * (1 / K) := by
    norm_num at hinv ht ⊢
    linarith
  have b1 : alpha k ≤ (1 + 2 / 10 ^ 6) * (1 / K) := by
    rw [ha k]
    have : F.u * (1 / K) ≤ 1 / 10 ^ 6 * (1 / K) := mul_le_mul_of_nonneg_right hu (by positivity)
    linarith [e1.2]
  -- the words
  have hN1 := (fl_nat hF (numWords X))
  have hK1 := (fl_nat hF K)
  have n1 : fl F (numWords X) ≤ (1 + 2 / 10 ^ 6) * numWords X := by
    have := hN1.2.2
    rw [pow_one, add_zero] at this
    have h2 : (1 - 1 / 10 ^ 6) * fl F (numWords X) ≤ (1 - F.u) * fl F (numWords X) :=
      mul_le_mul_of_nonneg_right (by linarith) hN1.1
    norm_num at this h2 ⊢
    linarith
  have k1 : (1 - 1 / 10 ^ 6) * K ≤ fl F K := by
    have := hK1.2.1
    rw [pow_one, add_zero] at this
    have h2 : (1 - 1 / 10 ^ 6) * (K : ℝ) ≤ (1 - F.u) * K := mul_le_mul_of_nonneg_right (by linarith) (by linarith)
    linarith
  have kpos : 0 < fl F K := by nlinarith
  have q0 : 0 ≤ fl F (numWords X) / fl F K := div_nonneg hN1.1 kpos.le
  have q1 : fl F (numWords X) / fl F K ≤ (1 + 4 / 10 ^ 6) * (numWords X * (1 / K)) := by
    rw [div_le_iff₀ kpos]
    have h3 : (1 + 4 / 10 ^ 6) * (numWords X * (1 / K)) * ((1 - 1 / 10 ^ 6) * K) ≤
        (1 + 4 / 10 ^ 6) * (numWords X * (1 / K)) * fl F K := mul_le_mul_of_nonneg_left k1 (by positivity)
    have h4 : (1 + 4 / 10 ^ 6) * ((numWords X : ℝ) * (1 / K)) * ((1 - 1 / 10 ^ 6) * K) =
        (1 + 4 / 10 ^ 6) * (1 - 1 / 10 ^ 6) * numWords X := by
      field_simp
    rw [h4] at h3
    norm_num at h3 n1 ⊢
    linarith
  have e2 := fl_err (F := F) q0
  rw [abs_le] at e2
  have b2 : fl F (fl F (numWords X) / fl F K) ≤ (1 + 6 / 10 ^ 6) * (numWords X * (1 / K)) + 1 / 10 ^ 6 * (1 / K) := by
    have h5 : F.u * (fl F (numWords X) / fl F K) ≤ 1 / 10 ^ 6 * ((1 + 4 / 10 ^ 6) * (numWords X * (1 / K))) :=
      mul_le_mul hu q1 q0 (by norm_num)
    have : (0 : ℝ) ≤ numWords X * (1 / K) := by positivity
    norm_num at h5 e2 q1 htK ⊢
    nlinarith
  have q2 := fl_nonneg (F := F) q0
  have s0 : 0 ≤ alpha k + fl F (fl F (numWords X) / fl F K) := by linarith
  have e3 := fl_err (F := F) s0
  rw [abs_le] at e3
  have t0 : (0 : ℝ) < 1 / K := by positivity
  have hS0 : (0 : ℝ) ≤ numWords X * (1 / K) := by positivity
  have target : (1 + 1 / 10 ^ 5) * ((numWords X : ℝ) * (1 / K) + 1 / K) ≤ (1 + 1 / 10 ^ 4) / (m : ℝ) := by
    rw [le_div_iff₀ (by linarith)]
    have h1 : ((numWords X : ℝ) * (1 / K) + 1 / K) * m ≤ 1 := by
      have : ((numWords X : ℝ) * (1 / K) + 1 / K) * m = (m * (numWords X + 1)) / K := by ring
      rw [this, div_le_one (by linarith)]
      exact hKm
    calc (1 + 1 / 10 ^ 5) * ((numWords X : ℝ) * (1 / K) + 1 / K) * m
        = (1 + 1 / 10 ^ 5) * (((numWords X : ℝ) * (1 / K) + 1 / K) * m) := by ring
      _ ≤ (1 + 1 / 10 ^ 5) * 1 := mul_le_mul_of_nonneg_left h1 (by norm_num)
      _ ≤ _ := by norm_num
  generalize hS : (numWords X : ℝ) * (1 / K) = S at *
  generalize ht' : (1 : ℝ) / K = t at *
  have sb : alpha k + fl F (fl F (numWords X) / fl F K) ≤ (1 + 6 / 10 ^ 6) * (S + t) := by
    linarith
  refine ⟨p1, ?_, ?_, ?_⟩
  · refine le_trans ?_ target
    linarith
  · unfold lFirst
    have h7 : fl F (alpha k) = alpha k := by rw [ha k]; exact fl_fl hF t0.le
    have h6 : fl F (alpha k) ≤ fl F (alpha k + fl F (fl F (numWords X) / fl F K)) := fl_mono hF p1.le (by linarith)
    rw [h7] at h6
    linarith
  · unfold lFirst
    have h8 : F.u * (alpha k + fl F (fl F (numWords X) / fl F K)) ≤ 1 / 10 ^ 6 * ((1 + 6 / 10 ^ 6) * (S + t)) :=
      mul_le_mul hu sb s0 (by norm_num)
    refine le_trans ?_ target
    have := e3.2
    linarith

theorem psi_lost {x B : ℝ} {m : ℕ} (hm : 60 ≤ m) (hx : 0 < x) (h : x ≤ (1 + 1 / 10 ^ 4) / m)
    (hB : B ≤ (m / (1 + 1 / 10 ^ 4) - 2) * (1023 / 1024) - 1 / 1024) : M.psi x ≤ -B := by
  have hm0 : (60 : ℝ) ≤ m := by exact_mod_cast hm
  apply psi_le hx
  · refine h.trans ?_
    rw [div_le_div_iff₀ (by linarith) (by norm_num)]
    norm_num
    linarith
  · have : (m : ℝ) / (1 + 1 / 10 ^ 4) ≤ 1 / x := by
      rw [div_le_div_iff₀ (by norm_num) hx]
      rw [le_div_iff₀ (by linarith)] at h
      linarith
    linarith

/-- C127 fails with `double`: with at least 715 topics for every word of the document and one more, and the prior
that the builder chooses, 1/K, all words are lost in the first pass: the result is the prior, whatever the model. -/
theorem C127_lost_double {M : Machine double} {X : Vec V ℕ} (hK : 715 * (numWords X + 1) ≤ K) (hK' : K ≤ 2 ^ 31)
    {alpha : Vec K ℝ} (ha : ∀ k, alpha k = fl double (1 / K)) (beta : Mat K V ℝ) (i : ℕ) :
    lPasses M X alpha beta (i + 1) = some alpha := by
  have hu : double.u ≤ 1 / 10 ^ 6 := by unfold Format.u double; norm_num
  have ht : double.tiny ≤ 1 / 10 ^ 30 := by
    unfold Format.tiny double
    have h1 : (2 : ℝ) ^ (-1074 : ℤ) ≤ 2 ^ (-110 : ℤ) := zpow_le_zpow_right₀ (by norm_num) (by norm_num)
    have h2 : (2 : ℝ) ^ (-110 : ℤ) ≤ 1 / 10 ^ 30 := by norm_num
    have h3 := two_zpow_pos (-1074)
    exact (half_le_self h3.le).trans (h1.trans h2)
  have hs := first_small double_ok hu ht (by norm_num) hK hK' ha
  refine passes_lost (B := 710) (fun x hx => lExp_zero_double hx) (fun k => ?_) (fun k => ?_) (fun k => ?_) i
  · rw [ha k]; exact fl_fl double_ok (by positivity)
  · exact psi_lost (m := 715) (by norm_num) (hs k).2.2.1 (hs k).2.2.2 (by norm_num)
  · exact psi_lost (m := 715) (by norm_num) (hs k).1 (hs k).2.1 (by norm_num)

/-- C127 fails with `float`: the same with 92 topics for every word of the document and one more. -/
theorem C127_lost_float {M : Machine float} {X : Vec V ℕ} (hK : 92 * (numWords X + 1) ≤ K) (hK' : K ≤ 2 ^ 31)
    {alpha : Vec K ℝ} (ha : ∀ k, alpha k = fl float (1 / K)) (beta : Mat K V ℝ) (i : ℕ) :
    lPasses M X alpha beta (i + 1) = some alpha := by
  have hu : float.u ≤ 1 / 10 ^ 6 := by unfold Format.u float; norm_num
  have ht : float.tiny ≤ 1 / 10 ^ 30 := by unfold Format.tiny float; norm_num
  have hs := first_small float_ok hu ht (by norm_num) hK hK' ha
  refine passes_lost (B := 89) (fun x hx => lExp_zero_float hx) (fun k => ?_) (fun k => ?_) (fun k => ?_) i
  · rw [ha k]; exact fl_fl float_ok (by positivity)
  · exact psi_lost (m := 92) (by norm_num) (hs k).2.2.1 (hs k).2.2.2 (by norm_num)
  · exact psi_lost (m := 92) (by norm_num) (hs k).1 (hs k).2.1 (by norm_num)

/-! ### The hypotheses are met -/

open Classical in
/-- A machine that adds from left to right and rounds no function value. -/
noncomputable def plainMachine (F : Format) : Machine F where
  sum v := sumLeft (fl F) (List.ofFn v)
  sum_spec v := summation_left _ _
  stdExp x := if 2 ^ F.high ≤ Real.exp x * (1 - 1 / 1024) then none else some (Real.exp x)
  stdExp_over x h := if_pos h
  stdExp_fin x h := by
    have := Real.exp_pos x
    rw [if_neg (by linarith)]
    exact fun h => by cases h
  stdExp_err x v h := by
    split_ifs at h
    cases h
    have := Real.exp_pos x
    rw [sub_self, abs_zero]
    positivity
  psi x := (FastExp.digamma x).getD 0
  psi_err x v _ h := by
    rw [h, Option.getD_some, sub_self, abs_zero]
    positivity

/-- `fast_exp` is finite for arguments below 32. -/
theorem lExp_some (hF : F.Ok) (hh : 64 < F.high) {x : ℝ} (hx : x < 32) : ∃ w, lExp M x = some w := by
  unfold lExp
  split_ifs with h0
  · split
    · exact ⟨_, rfl⟩
    · exact ⟨_, rfl⟩
  · push Not at h0
    obtain ⟨a0, a1, a2, a3⟩ := FastExp.halve_spec x h0
    have hcnt : (FastExp.halve x).2 ≤ 5 := by
      by_contra hcon
      have h3 := a3 (by omega)
      have h4 : (2 : ℝ) ^ 6 ≤ 2 ^ (FastExp.halve x).2 := pow_le_pow_right₀ (by norm_num) (by omega)
      nlinarith
    have hs := start_range hF h0
    obtain ⟨v, hv, _⟩ := lSquare_le hF (FastExp.halve x).2 1 _
      (lt_of_le_of_lt (Nat.pow_le_pow_right (by norm_num) (by omega : 1 + (FastExp.halve x).2 ≤ 6)) hh)
      hs.1 (hs.2.trans (by norm_num))
    refine ⟨v, ?_⟩
    unfold lExpPos
    rw [if_neg (by linarith)]
    exact hv

/-- A document of three words and two topics, with `float`. -/
theorem small_document : fl float (1 / 2) = 1 / 2 ∧ ∃ gamma, lPasses (plainMachine float) (![1, 2] : Vec 2 ℕ)
    (fun _ : Fin 2 => (1 / 2 : ℝ)) (fun k _ => if k = 0 then 1 / 2 else 1 / 4) 1 = some gamma := by
  have hp : ∀ g : ℝ, 0 < g → g ≤ 4 → (plainMachine float).psi g < 32 := by
    intro g h0 h4
    obtain ⟨v, hv⟩ := FastExp.C32_positive g h0
    obtain ⟨d, _, h2, _, h3⟩ := EStep.digamma_two_four
    have := FastExp.digamma_almost h0 h4 hv h2
    show (FastExp.digamma g).getD 0 < 32
    rw [hv, Option.getD_some]
    norm_num at this
    linarith
  have hhalf : fl float (1 / 2) = 1 / 2 := by
    have := fl_pow float_ok (j := -1) (by decide)
    norm_num at this ⊢
    exact this
  have hq : 0 ≤ fl float (fl float ((3 : ℕ) : ℝ) / fl float ((2 : ℕ) : ℝ)) ∧
      fl float (fl float ((3 : ℕ) : ℝ) / fl float ((2 : ℕ) : ℝ)) ≤ 2 := by
    have h3 := fl_le float_ok (x := ((3 : ℕ) : ℝ)) (j := 2) (by norm_num) (by decide) (by norm_num)
    have h2 := le_fl float_ok (x := ((2 : ℕ) : ℝ)) (j := 1) (by decide) (by norm_num)
    have h0 := fl_nonneg (F := float) (x := ((3 : ℕ) : ℝ)) (by norm_num)
    norm_num at h3 h2 h0 ⊢
    have hq0 : 0 ≤ fl float 3 / fl float 2 := div_nonneg h0 (by linarith)
    refine ⟨fl_nonneg hq0, ?_⟩
    have := fl_le float_ok (j := 1) hq0 (by decide) (by rw [zpow_one, div_le_iff₀ (by linarith)]; linarith)
    rwa [zpow_one] at this
  have hfirst : ∀ k, 0 < lFirst float (![1, 2] : Vec 2 ℕ) (fun _ : Fin 2 => (1 / 2 : ℝ)) k ∧
      lFirst float (![1, 2] : Vec 2 ℕ) (fun _ : Fin 2 => (1 / 2 : ℝ)) k ≤ 4 := by
    intro k
    have e : numWords (![1, 2] : Vec 2 ℕ) = 3 := by decide
    unfold lFirst
    rw [e]
    constructor
    · have := le_fl float_ok (x := 1 / 2 + fl float (fl float ((3 : ℕ) : ℝ) / fl float ((2 : ℕ) : ℝ))) (j := -1)
        (by decide) (by norm_num at hq ⊢; linarith)
      exact lt_of_lt_of_le (by norm_num) this
    · have := fl_le float_ok (x := 1 / 2 + fl float (fl float ((3 : ℕ) : ℝ) / fl float ((2 : ℕ) : ℝ))) (j := 2)
        (by linarith [hq.1]) (by decide) (by norm_num at hq ⊢; linarith)
      exact this.trans (by norm_num)
  obtain ⟨w, hw⟩ := mapOpt_total (f := fun g => lExp (plainMachine float) ((plainMachine float).psi g))
    (v := lFirst float (![1, 2] : Vec 2 ℕ) (fun _ : Fin 2 => (1 / 2 : ℝ))) fun k =>
      lExp_some float_ok (by decide) (hp _ (hfirst k).1 (hfirst k).2)
  refine ⟨hhalf, ?_⟩
  rw [lPasses, lPasses, Option.bind_some, lPhi, hw]
  exact ⟨_, rfl⟩

example : ∃ (X : Vec 2 ℕ) (alpha : Vec 2 ℝ) (beta : Mat 2 2 ℝ) (gamma : Vec 2 ℝ), numWords X = 3 ∧
    (∀ k, 1 / 29 ≤ alpha k) ∧ (∀ k, fl float (alpha k) = alpha k) ∧ (∀ k n, 0 ≤ beta k n) ∧
    (∀ n, X n ≠ 0 → ∃ k, 2 ^ (-85 : ℤ) ≤ beta k n) ∧ lPasses (plainMachine float) X alpha beta 1 = some gamma := by
  obtain ⟨hhalf, gamma, hg⟩ := small_document
  exact ⟨![1, 2], fun _ => 1 / 2, fun k _ => if k = 0 then 1 / 2 else 1 / 4, gamma, by decide, fun _ => by norm_num,
    fun _ => hhalf, fun k n => by dsimp only; split_ifs <;> norm_num, fun n _ => ⟨0, by norm_num⟩, hg⟩

/-- A document of one word and 1430 topics, with `double`, and one of four words and 500 topics, with `float`. -/
example : 715 * (numWords (![1, 0] : Vec 2 ℕ) + 1) ≤ 1430 ∧ 92 * (numWords (![3, 1] : Vec 2 ℕ) + 1) ≤ 500 := by decide

/-- The model of the first of them, and what is lost: the topics of the document add up to one and not to two. -/
example (beta : Mat 1430 2 ℝ) (M : Machine double) (i : ℕ) : ∃ gamma : Vec 1430 ℝ,
    lPasses M (![1, 0] : Vec 2 ℕ) (fun _ => fl double (1 / (1430 : ℕ))) beta (i + 1) = some gamma ∧ ∑ k, gamma k ≤ 3 / 2 := by
  refine ⟨_, C127_lost_double (by decide) (by norm_num) (fun _ => rfl) beta i, ?_⟩
  rw [sum_const, card_univ, Fintype.card_fin, nsmul_eq_mul]
  have h := fl_err_big (F := double) (x := 1 / (1430 : ℕ)) (j := -11) (by decide) (by norm_num)
  have hu : double.u ≤ 1 / 4 := u_le double_ok
  rw [abs_le] at h
  have h2 : double.u * (1 / (1430 : ℕ)) ≤ 1 / 4 * (1 / (1430 : ℕ)) := mul_le_mul_of_nonneg_right hu (by positivity)
  norm_num at h h2 ⊢
  linarith

end Verif.Limits
