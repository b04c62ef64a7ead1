import Verif.Lemmas.FastExp

/-! Properties C29 – C32 of `fast_exp` and `digamma`. -/
namespace Verif.FastExp

/-- `some` is returned with a positive value, whatever the (nonnegative) argument. -/
theorem fastExpPos_some (x : ℝ) (hx : 0 ≤ x) : ∃ v, fastExpPos x = some v ∧ 0 < v := by
  by_cases h : x ≤ 100
  · exact ⟨_, fastExpPos_small x hx h, pow_pos (T_pos _ _) _⟩
  · refine ⟨Real.exp x, ?_, Real.exp_pos x⟩
    unfold fastExpPos
    rw [if_pos (not_le.1 h)]

theorem fastExp_nonneg (x : ℝ) (hx : 0 ≤ x) : fastExp x = fastExpPos x := by
  unfold fastExp
  rw [if_neg (not_lt.2 hx)]

theorem fastExp_neg (x v : ℝ) (hx : 0 < x) (h : fastExpPos x = some v) (hv : 0 < v) :
    fastExp (-x) = some (1 / v) := by
  unfold fastExp
  rw [if_pos (by linarith), neg_neg, h]
  simp [hv.ne']

/-- **C29** (termination, index).  For every real argument the function returns: no index outside the
1024 entries of the table is read and nothing is divided by zero.  The result is positive. -/
theorem C29_total (x : ℝ) : ∃ v, fastExp x = some v ∧ 0 < v := by
  rcases lt_or_ge x 0 with h | h
  · obtain ⟨v, h1, h2⟩ := fastExpPos_some (-x) (by linarith)
    refine ⟨1 / v, ?_, by positivity⟩
    have := fastExp_neg (-x) v (by linarith) h1 h2
    rwa [neg_neg] at this
  · rw [fastExp_nonneg x h]
    exact fastExpPos_some x h

/-- Entries at or past 1024 are outside the table in the model, so that `C29_total` is about the
index. -/
theorem C29_table_size (i : ℕ) : (∃ v, lut i = some v) ↔ i < 1024 := by
  constructor
  · rintro ⟨v, h⟩
    by_contra hc
    rw [lut_none i (by omega)] at h
    exact absurd h (by simp)
  · intro h
    exact ⟨_, lut_eq i h⟩

/-- The number of halvings is at most seven for the arguments that reach the table. -/
theorem C29_halvings (x : ℝ) (h0 : 0 ≤ x) (h : x ≤ 100) : (halve x).2 ≤ 7 := by
  by_contra hc
  push Not at hc
  have h1 := two_pow_halve x h0
  have h2 : (2 : ℝ) ^ 8 ≤ 2 ^ (halve x).2 := pow_le_pow_right₀ (by norm_num) hc
  have h3 : max 1 (2 * x) ≤ 200 := max_le (by norm_num) (by linarith)
  norm_num at h2
  linarith

/-- **C30** (negation).  The value at `-x` is the reciprocal of the value at `x`. -/
theorem C30_reciprocal (x v w : ℝ) (h : fastExp x = some v) (hw : fastExp (-x) = some w) :
    v * w = 1 := by
  rcases lt_trichotomy x 0 with hx | hx | hx
  · obtain ⟨u, h1, h2⟩ := fastExpPos_some (-x) (by linarith)
    rw [fastExp_nonneg (-x) (by linarith), h1] at hw
    have := fastExp_neg (-x) u (by linarith) h1 h2
    rw [neg_neg, h] at this
    simp only [Option.some.injEq] at this hw
    rw [this, ← hw]
    field_simp
  · subst hx
    have h0 : fastExp 0 = some 1 := by
      rw [fastExp_nonneg 0 le_rfl, fastExpPos_small 0 le_rfl (by norm_num)]
      have e : halve 0 = (0, 0) := by rw [halve]; norm_num
      have : idx 0 = 0 := by simp [idx, e]
      simp [this, e, T_zero]
    rw [neg_zero] at hw
    rw [h0] at h hw
    simp only [Option.some.injEq] at h hw
    rw [← h, ← hw, one_mul]
  · obtain ⟨u, h1, h2⟩ := fastExpPos_some x hx.le
    rw [fastExp_nonneg x hx.le, h1] at h
    have := fastExp_neg x u hx h1 h2
    rw [hw] at this
    simp only [Option.some.injEq] at this h
    rw [this, ← h]
    field_simp

/-- **C30** (table).  Entry `i` is `exp (i / 1023)` with a relative error below `2.3e-13`, for each
of the 1024 entries. -/
theorem C30_table (i : ℕ) (h : i < 1024) :
    ∃ v, lut i = some v ∧ 0 < v ∧ |Real.log v - i / 1023| ≤ 23 / 10 ^ 14 :=
  ⟨_, lut_eq i h, T_pos i h, log_T' i h⟩

/-- **C30** (accuracy).  For `|x| ≤ 100` the logarithm of the result differs from `x` by at most
`max 1 (2|x|) / 1023`, plus the rounding of the table. -/
theorem C30_accuracy (x : ℝ) (hx : |x| ≤ 100) : ∃ v, fastExp x = some v ∧ 0 < v ∧
    |Real.log v - x| ≤ max 1 (2 * |x|) * (1 / 1023 + 23 / 10 ^ 14) := by
  rcases lt_or_ge x 0 with h | h
  · rw [abs_of_neg h] at hx ⊢
    have h1 := fastExpPos_small (-x) (by linarith) hx
    have hp : 0 < T (idx (-x)) (idx_lt (-x) (by linarith)) ^ 2 ^ (halve (-x)).2 := pow_pos (T_pos _ _) _
    have h2 := fastExp_neg (-x) _ (by linarith) h1 hp
    rw [neg_neg] at h2
    refine ⟨_, h2, by positivity, ?_⟩
    have h3 := log_fastExpPos (-x) (by linarith)
    rw [one_div, Real.log_inv, Real.log_pow, ← abs_neg]
    push_cast
    convert h3 using 2
    ring
  · rw [abs_of_nonneg h] at hx ⊢
    refine ⟨_, (fastExp_nonneg x h).trans (fastExpPos_small x h hx), pow_pos (T_pos _ _) _, ?_⟩
    rw [Real.log_pow]
    push_cast
    exact log_fastExpPos x h

/-- **C30** (outside the table).  Beyond 100 in absolute value the result is the exponential. -/
theorem C30_outside (x : ℝ) (hx : 100 < |x|) : fastExp x = some (Real.exp x) := by
  rcases lt_or_ge x 0 with h | h
  · rw [abs_of_neg h] at hx
    have h1 : fastExpPos (-x) = some (Real.exp (-x)) := by
      unfold fastExpPos; rw [if_pos hx]
    have h2 := fastExp_neg (-x) _ (by linarith) h1 (Real.exp_pos _)
    rw [neg_neg] at h2
    rw [h2, Real.exp_neg]
    simp
  · rw [abs_of_nonneg h] at hx
    rw [fastExp_nonneg x h]
    unfold fastExpPos; rw [if_pos hx]

/-- **C29** (finite).  For `|x| ≤ 709` the result and its reciprocal are below the largest double. -/
theorem C29_no_overflow (x : ℝ) (hx : |x| ≤ 709) : ∃ v, fastExp x = some v ∧
    1 / 2 ^ 1024 < v ∧ v < 2 ^ 1024 := by
  have key : ∀ v : ℝ, 0 < v → |Real.log v| < 709.5 → 1 / 2 ^ 1024 < v ∧ v < 2 ^ 1024 := by
    intro v hv hl
    rw [abs_lt] at hl
    have l2 := Real.log_two_gt_d9
    have e : Real.log (2 ^ 1024) = 1024 * Real.log 2 := by rw [Real.log_pow]; norm_num
    have hp : (0 : ℝ) < 2 ^ 1024 := by positivity
    constructor
    · rw [← Real.log_lt_log_iff (by positivity) hv, one_div, Real.log_inv, e]
      linarith [hl.1]
    · rw [← Real.log_lt_log_iff hv hp, e]
      linarith [hl.2]
  by_cases h : |x| ≤ 100
  · obtain ⟨v, h1, h2, h3⟩ := C30_accuracy x h
    refine ⟨v, h1, key v h2 ?_⟩
    have h4 : max 1 (2 * |x|) ≤ 200 := max_le (by norm_num) (by linarith)
    have h5 : max 1 (2 * |x|) * (1 / 1023 + 23 / 10 ^ 14) ≤ 200 * (1 / 1023 + 23 / 10 ^ 14) :=
      mul_le_mul_of_nonneg_right h4 (by norm_num)
    have h6 : |Real.log v| ≤ |Real.log v - x| + |x| := by
      have := abs_add_le (Real.log v - x) x
      simpa using this
    have h7 : (200 : ℝ) * (1 / 1023 + 23 / 10 ^ 14) ≤ 1 := by norm_num
    norm_num
    linarith
  · refine ⟨_, C30_outside x (not_le.1 h), key _ (Real.exp_pos x) ?_⟩
    rw [Real.log_exp]
    norm_num
    linarith

set_option maxRecDepth 4000 in
theorem lutNat_square : lutNat[1023]'(by rw [lutNat_length]; norm_num) * 10 ^ 18 ≤
    (lutNat[512]'(by rw [lutNat_length]; norm_num)) ^ 2 := by decide +kernel

/-- Monotone on `[0, 100]`. -/
theorem fastExpPos_mono (x y v w : ℝ) (h0 : 0 ≤ x) (hxy : x ≤ y) (hy : y ≤ 100)
    (hv : fastExpPos x = some v) (hw : fastExpPos y = some w) : v ≤ w := by
  rw [fastExpPos_small x h0 (hxy.trans hy), Option.some.injEq] at hv
  rw [fastExpPos_small y (h0.trans hxy) hy, Option.some.injEq] at hw
  subst hv hw
  obtain ⟨a0, a1, a2, a3⟩ := halve_spec x h0
  obtain ⟨b0, b1, b2, b3⟩ := halve_spec y (h0.trans hxy)
  have hi := idx_lt x h0
  have hj := idx_lt y (h0.trans hxy)
  rcases lt_trichotomy (halve x).2 (halve y).2 with h | h | h
  · have hb := b3 (by omega)
    have j512 : 512 ≤ idx y := by
      unfold idx
      rw [Nat.le_floor_iff (by positivity)]
      push_cast
      linarith
    have t1 : T (idx x) hi ≤ T 1023 (by norm_num) := T_mono (by omega) (by norm_num)
    have t2 : T 1023 (by norm_num) ≤ T 512 (by norm_num) ^ 2 := by
      unfold T
      have e1 : lutNat[1023]'(by rw [lutNat_length]; norm_num) * 10 ^ 18 ≤
          (lutNat[512]'(by rw [lutNat_length]; norm_num)) ^ 2 := lutNat_square
      generalize lutNat[1023]'(by rw [lutNat_length]; norm_num) = p at *
      generalize lutNat[512]'(by rw [lutNat_length]; norm_num) = q at *
      have e2 : (p : ℝ) * 10 ^ 18 ≤ (q : ℝ) ^ 2 := by exact_mod_cast e1
      rw [div_pow, div_le_div_iff₀ (by positivity) (by positivity)]
      nlinarith
    have t3 : T 512 (by norm_num) ≤ T (idx y) hj := T_mono j512 hj
    have t4 : 1 ≤ T (idx y) hj := by
      rw [← T_zero]; exact T_mono (by omega) hj
    have p512 := (T_pos 512 (by norm_num)).le
    calc T (idx x) hi ^ 2 ^ (halve x).2 ≤ (T 512 (by norm_num) ^ 2) ^ 2 ^ (halve x).2 :=
          pow_le_pow_left₀ (T_pos _ _).le (t1.trans t2) _
      _ ≤ (T (idx y) hj ^ 2) ^ 2 ^ (halve x).2 :=
          pow_le_pow_left₀ (sq_nonneg _) (pow_le_pow_left₀ p512 t3 _) _
      _ = T (idx y) hj ^ 2 ^ ((halve x).2 + 1) := by rw [← pow_mul, pow_succ, mul_comm]
      _ ≤ T (idx y) hj ^ 2 ^ (halve y).2 :=
          pow_le_pow_right₀ t4 (Nat.pow_le_pow_right (by norm_num) h)
  · have hp : (0 : ℝ) < 2 ^ (halve x).2 := by positivity
    rw [a2, b2, ← h] at hxy
    have hab : (halve x).1 ≤ (halve y).1 := le_of_mul_le_mul_right hxy hp
    rw [← h]
    refine pow_le_pow_left₀ (T_pos _ _).le (T_mono ?_ hj) _
    exact Nat.floor_mono (by linarith)
  · exfalso
    have ha := a3 (by omega)
    have h2 : (2 : ℝ) ^ ((halve y).2 + 1) ≤ 2 ^ (halve x).2 := pow_le_pow_right₀ (by norm_num) h
    rw [pow_succ] at h2
    have hp : (0 : ℝ) < 2 ^ (halve y).2 := by positivity
    nlinarith

/-- **C31**, where it holds: the function is monotone on `[-100, 100]`, and on the set of arguments
outside it.  It is missing that arguments inside and outside are ordered, which is false
(`C31_not_monotone`). -/
theorem C31_monotone_partial (x y v w : ℝ) (hxy : x ≤ y)
    (h : |x| ≤ 100 ∧ |y| ≤ 100 ∨ 100 < |x| ∧ 100 < |y|)
    (hv : fastExp x = some v) (hw : fastExp y = some w) : v ≤ w := by
  rcases h with ⟨h1, h2⟩ | ⟨h1, h2⟩
  · rw [abs_le] at h1 h2
    have one : fastExpPos 0 = some 1 := by
      rw [fastExpPos_small 0 le_rfl (by norm_num)]
      have e : halve 0 = (0, 0) := by rw [halve]; norm_num
      have : idx 0 = 0 := by simp [idx, e]
      simp [this, e, T_zero]
    rcases lt_or_ge x 0 with hx | hx
    · obtain ⟨u, hu, hu0⟩ := fastExpPos_some (-x) (by linarith)
      have e := fastExp_neg (-x) u (by linarith) hu hu0
      rw [neg_neg, hv, Option.some.injEq] at e
      have u1 : 1 ≤ u := fastExpPos_mono 0 (-x) 1 u le_rfl (by linarith) (by linarith [h1.1]) one hu
      rcases lt_or_ge y 0 with hy | hy
      · obtain ⟨u', hu', hu0'⟩ := fastExpPos_some (-y) (by linarith)
        have e' := fastExp_neg (-y) u' (by linarith) hu' hu0'
        rw [neg_neg, hw, Option.some.injEq] at e'
        rw [e, e']
        have : u' ≤ u := fastExpPos_mono (-y) (-x) u' u (by linarith) (by linarith) (by linarith [h1.1]) hu' hu
        exact one_div_le_one_div_of_le hu0' this
      · rw [fastExp_nonneg y hy] at hw
        have : 1 ≤ w := fastExpPos_mono 0 y 1 w le_rfl hy h2.2 one hw
        rw [e]
        refine le_trans ?_ this
        rw [div_le_one hu0]
        exact u1
    · rw [fastExp_nonneg x hx] at hv
      rw [fastExp_nonneg y (hx.trans hxy)] at hw
      exact fastExpPos_mono x y v w hx hxy h2.2 hv hw
  · rw [C30_outside x h1, Option.some.injEq] at hv
    rw [C30_outside y h2, Option.some.injEq] at hw
    rw [← hv, ← hw]
    exact Real.exp_le_exp.2 hxy

theorem halve_hundred : halve 100 = (100 / 128, 7) := by
  have e : ∀ x : ℝ, 1 ≤ x → halve x = ((halve (x / 2)).1, (halve (x / 2)).2 + 1) := by
    intro x h; rw [halve, if_pos h]
  have e0 : ∀ x : ℝ, x < 1 → halve x = (x, 0) := by
    intro x h; rw [halve, if_neg (not_le.2 h)]
  rw [e _ (by norm_num), e _ (by norm_num), e _ (by norm_num), e _ (by norm_num), e _ (by norm_num),
    e _ (by norm_num), e _ (by norm_num), e0 _ (by norm_num)]
  norm_num

/-- **C31** is false: `fast_exp(100)` exceeds `fast_exp(100.05)`. -/
theorem C31_not_monotone : ∃ v w, fastExp 100 = some v ∧ fastExp (100 + 1 / 20) = some w ∧ w < v := by
  refine ⟨_, _, (fastExp_nonneg 100 (by norm_num)).trans (fastExpPos_small 100 (by norm_num) le_rfl),
    C30_outside _ ?_, ?_⟩
  · rw [abs_of_nonneg] <;> norm_num
  · have hi : idx 100 = 800 := by
      unfold idx
      rw [halve_hundred]
      norm_num
    have hp : 0 < T (idx 100) (idx_lt 100 (by norm_num)) ^ 2 ^ (halve 100).2 := pow_pos (T_pos _ _) _
    rw [← Real.log_lt_log_iff (Real.exp_pos _) hp, Real.log_exp, Real.log_pow, halve_hundred]
    have := log_T' 800 (by norm_num)
    have h2 : Real.log (T (idx 100) (idx_lt 100 (by norm_num))) = Real.log (T 800 (by norm_num)) := by
      congr 2
    rw [h2]
    rw [abs_le] at this
    have := this.1
    push_cast at this ⊢
    norm_num at this ⊢
    linarith

/-! ### digamma -/

theorem digammaLoop_acc (x r : ℝ) : digammaLoop x r = (digammaLoop x 0).map fun p => (p.1, r + p.2) := by
  by_cases h : x < 7
  · by_cases h0 : x = 0
    · subst h0
      have e : ∀ r, digammaLoop 0 r = none := by
        intro r; rw [digammaLoop, if_pos (by norm_num), if_pos rfl]
      rw [e, e]; rfl
    · have e : ∀ r, digammaLoop x r = digammaLoop (x + 1) (r - 1 / x) := by
        intro r; rw [digammaLoop, if_pos h, if_neg h0]
      rw [e, e, digammaLoop_acc (x + 1) (r - 1 / x), digammaLoop_acc (x + 1) (0 - 1 / x),
        Option.map_map]
      congr 1
      funext p
      simp only [Function.comp, Prod.mk.injEq, true_and]
      ring
  · have e : ∀ r, digammaLoop x r = some (x, r) := by
      intro r; rw [digammaLoop, if_neg h]
    rw [e, e]; simp
termination_by ⌈7 - x⌉₊
decreasing_by
  all_goals
    have h1 : 0 < 7 - x := by linarith
    have h2 : 7 - (x + 1) = 7 - x - 1 := by ring
    rw [h2, Nat.ceil_sub_one]
    have := Nat.ceil_pos.2 h1
    omega

/-- **C32** (recurrence).  Below 7 the value is that of `x + 1` less `1 / x`, exactly as for the
digamma function itself, and the one is defined when the other is. -/
theorem C32_recurrence (x : ℝ) (hx : x < 7) (h0 : x ≠ 0) :
    digamma x = (digamma (x + 1)).map fun v => v - 1 / x := by
  unfold digamma
  rw [digammaLoop, if_pos hx, if_neg h0, digammaLoop_acc]
  cases digammaLoop (x + 1) 0 with
  | none => rfl
  | some p =>
    obtain ⟨y, r⟩ := p
    simp only [Option.map_some, Option.some.injEq]
    ring

/-- From 7 on the value is that of the asymptotic series in `1 / (x - 1/2)`. -/
theorem C32_large (x : ℝ) (hx : 7 ≤ x) : digamma x = some (Real.log (x - 1 / 2) +
    1 / 24 / (x - 1 / 2) ^ 2 - 7 / 960 / (x - 1 / 2) ^ 4 + 31 / 8064 / (x - 1 / 2) ^ 6 -
    127 / 30720 / (x - 1 / 2) ^ 8) := by
  unfold digamma
  rw [digammaLoop, if_neg (not_lt.2 hx)]
  have : x - 1 / 2 ≠ 0 := by intro h; linarith
  simp only [digammaSeries, zero_add, Option.some.injEq]
  field_simp

/-- **C32** (termination, division by zero).  The function returns exactly if the argument is not
zero and not a negative integer, in particular for every positive argument. -/
theorem C32_defined (x : ℝ) : (∃ v, digamma x = some v) ↔ ∀ n : ℕ, x ≠ -n := by
  by_cases h : x < 7
  · by_cases h0 : x = 0
    · subst h0
      have : digamma 0 = none := by
        unfold digamma; rw [digammaLoop, if_pos (by norm_num), if_pos rfl]
      rw [this]
      constructor
      · rintro ⟨v, hv⟩; exact absurd hv (by simp)
      · intro hn; exact absurd (by simp) (hn 0)
    · have ih := C32_defined (x + 1)
      rw [C32_recurrence x h h0]
      constructor
      · rintro ⟨v, hv⟩ n hn
        rw [Option.map_eq_some_iff] at hv
        obtain ⟨u, hu, _⟩ := hv
        cases n with
        | zero => simp at hn; exact h0 hn
        | succ n => exact ih.1 ⟨u, hu⟩ n (by rw [hn]; push_cast; ring)
      · intro hn
        obtain ⟨u, hu⟩ := ih.2 (fun n hc => hn (n + 1) (by push_cast; linarith))
        exact ⟨_, by rw [hu]; rfl⟩
  · rw [C32_large x (not_lt.1 h)]
    constructor
    · rintro _ n hn
      have : (0 : ℝ) ≤ n := Nat.cast_nonneg n
      linarith
    · intro _; exact ⟨_, rfl⟩
termination_by ⌈7 - x⌉₊
decreasing_by
  have h1 : 0 < 7 - x := by linarith
  have h2 : 7 - (x + 1) = 7 - x - 1 := by ring
  rw [h2, Nat.ceil_sub_one]
  have := Nat.ceil_pos.2 h1
  omega

theorem C32_positive (x : ℝ) (hx : 0 < x) : ∃ v, digamma x = some v :=
  (C32_defined x).2 fun n h => by
    have : (0 : ℝ) ≤ n := Nat.cast_nonneg n
    linarith

/-! ### The hypotheses are met -/

example : |(37.25 : ℝ)| ≤ 100 := by rw [abs_of_nonneg] <;> norm_num
example : |(-12.5 : ℝ)| ≤ 100 := by rw [abs_of_neg] <;> norm_num
example : 100 < |(-250 : ℝ)| := by rw [abs_of_neg] <;> norm_num
example : |(-250 : ℝ)| ≤ 709 := by rw [abs_of_neg] <;> norm_num
example : |(-12.5 : ℝ)| ≤ 100 ∧ |(37.25 : ℝ)| ≤ 100 ∨ 100 < |(-12.5 : ℝ)| ∧ 100 < |(37.25 : ℝ)| :=
  Or.inl ⟨by rw [abs_of_neg] <;> norm_num, by rw [abs_of_nonneg] <;> norm_num⟩
example : ∃ v, digamma (1 / 10) = some v := C32_positive _ (by norm_num)
example : digamma (1 / 10) = (digamma (1 / 10 + 1)).map fun v => v - 1 / (1 / 10) :=
  C32_recurrence _ (by norm_num) (by norm_num)
example : ¬ ∃ v, digamma (-3) = some v := fun h => (C32_defined _).1 h 3 (by norm_num)

end Verif.FastExp
