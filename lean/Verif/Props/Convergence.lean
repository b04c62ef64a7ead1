import Verif.Props.SupervisedM

/-! Property C111: how far from the optimum the training of `eta` ends. -/
namespace Verif.Optim

open MathUtils EStep Finset

variable {r c K C : ℕ}

/-! ### Gradient descent with the Armijo search on a smooth convex function -/

/-- The squared distance. -/
def sqDist (x y : Mat r c ℝ) : ℝ := ∑ i, ∑ j, (x i j - y i j) ^ 2

/-- The squared norm. -/
def sqNorm (g : Mat r c ℝ) : ℝ := ∑ i, ∑ j, g i j ^ 2

theorem sqDist_nonneg (x y : Mat r c ℝ) : 0 ≤ sqDist x y := by unfold sqDist; positivity

theorem sqNorm_nonneg (g : Mat r c ℝ) : 0 ≤ sqNorm g := by unfold sqNorm; positivity

/-- A convex function with gradient `g`, between two parabolas: `m`-strongly convex and `M`-smooth. -/
structure Shape (f : Mat r c ℝ → ℝ) (g : Mat r c ℝ → Mat r c ℝ) (m M : ℝ) : Prop where
  lower : ∀ x y, f x + (∑ i, ∑ j, g x i j * (y i j - x i j)) + m / 2 * sqDist y x ≤ f y
  upper : ∀ x y, f y ≤ f x + (∑ i, ∑ j, g x i j * (y i j - x i j)) + M / 2 * sqDist y x

/-- The shortest step that the search can make. -/
noncomputable def shortest (b tau M : ℝ) : ℝ := min 1 (tau * (2 * (1 - b) / M))

theorem shortest_pos {b tau M : ℝ} (hb1 : b < 1) (ht : 0 < tau) (hM : 0 < M) : 0 < shortest b tau M :=
  lt_min one_pos (mul_pos ht (div_pos (by linarith) hM))

/-- What is known of a step: it is made along the gradient, its length is at least `s` and at most one, and it decreases
the function as the Armijo condition asks for. -/
def GoodStep (f : Mat r c ℝ → ℝ) (g : Mat r c ℝ → Mat r c ℝ) (b s : ℝ) (x x' : Mat r c ℝ) : Prop :=
  ∃ a, s ≤ a ∧ a ≤ 1 ∧ (∀ i j, x' i j = x i j - a * g x i j) ∧ f x' ≤ f x - a * b * sqNorm (g x)

theorem goodStep_of_search {f : Mat r c ℝ → ℝ} {g : Mat r c ℝ → Mat r c ℝ} {m M b tau : ℝ} (hf : Shape f g m M)
    (hM : 0 < M) (hb : 0 < b) (hb1 : b < 1) (ht : 0 < tau) (ht1 : tau < 1) {x x' : Mat r c ℝ} {v : ℝ}
    (h : ArmijoSearch b tau (fun y => some (f y)) x (g x) (g x) x' v) :
    f x' = v ∧ GoodStep f g b (shortest b tau M) x x' := by
  have hs1 : shortest b tau M ≤ 1 := min_le_left _ _
  rcases (sqNorm_nonneg (g x)).eq_or_lt with h0 | hpos
  · have hg : ∀ i j, g x i j = 0 := by
      intro i j
      have h1 := (Finset.sum_eq_zero_iff_of_nonneg fun i _ => Finset.sum_nonneg fun j _ => sq_nonneg (g x i j)).1 h0.symm i
        (mem_univ i)
      have h2 := (Finset.sum_eq_zero_iff_of_nonneg fun j _ => sq_nonneg (g x i j)).1 h1 j (mem_univ j)
      exact pow_eq_zero_iff (by norm_num) |>.1 h2
    have h1 := C77_armijo_partial ht ht1 hb (.inl rfl) h
    obtain ⟨v0, a, h2, _, hl, rfl⟩ := h
    have hmove : move x a (g x) = x := by
      funext i j
      simp [move, hg]
    refine ⟨Option.some.inj h1, 1, hs1, le_rfl, ?_, ?_⟩
    · intro i j
      rw [hmove, hg]
      ring
    · rw [hmove, ← h0]
      simp
  · have e : ∑ i, ∑ j, g x i j * g x i j = sqNorm (g x) := by simp [sqNorm, sq]
    obtain ⟨n, h1, h2, ⟨v0, v1, h3, h4, h5⟩, h6⟩ := C54_largest_step ht ht1 (by rw [e]; positivity) h
    have hx' : x' = fun i j => x i j - tau ^ n * g x i j := by
      funext i j
      exact h1 i j
    simp only [Option.some.injEq] at h2 h3 h4
    refine ⟨h2, tau ^ n, ?_, pow_le_one₀ ht.le ht1.le, h1, ?_⟩
    · cases n with
      | zero => simpa using hs1
      | succ n =>
        refine (min_le_right _ _).trans ?_
        rw [pow_succ']
        refine mul_le_mul_of_nonneg_left ?_ ht.le
        by_contra hlt
        push Not at hlt
        have hacc : Acceptable (fun y => some (f y)) x (g x) (g x) b (tau ^ n) := by
          refine ⟨f x, _, rfl, rfl, ?_⟩
          have hu := hf.upper x fun i j => x i j - tau ^ n * g x i j
          have e1 : ∑ i, ∑ j, g x i j * (x i j - tau ^ n * g x i j - x i j) = - (tau ^ n * sqNorm (g x)) := by
            simp only [sqNorm, Finset.mul_sum, ← Finset.sum_neg_distrib]
            exact Finset.sum_congr rfl fun i _ => Finset.sum_congr rfl fun j _ => by ring
          have e2 : sqDist (fun i j => x i j - tau ^ n * g x i j) x = (tau ^ n) ^ 2 * sqNorm (g x) := by
            simp only [sqDist, sqNorm, Finset.mul_sum]
            exact Finset.sum_congr rfl fun i _ => Finset.sum_congr rfl fun j _ => by ring
          rw [e1, e2] at hu
          rw [e]
          have hp : 0 < tau ^ n := pow_pos ht n
          have h7 : M * tau ^ n < 2 * (1 - b) := by
            rw [lt_div_iff₀ hM] at hlt
            linarith
          have h8 : 0 ≤ tau ^ n * sqNorm (g x) := by positivity
          nlinarith
        have h9 := h6 n hacc
        rw [pow_succ'] at h9
        have hp : 0 < tau ^ n := pow_pos ht n
        nlinarith
    · rw [e] at h5
      rw [hx', h4, h3]
      exact h5

theorem GoodStep.le {f : Mat r c ℝ → ℝ} {g : Mat r c ℝ → Mat r c ℝ} {b s : ℝ} {x x' : Mat r c ℝ} (hb : 0 < b) (hs : 0 < s)
    (h : GoodStep f g b s x x') : f x' ≤ f x := by
  obtain ⟨a, h1, _, _, h4⟩ := h
  have : 0 ≤ a * b * sqNorm (g x) := mul_nonneg (mul_pos (hs.trans_le h1) hb).le (sqNorm_nonneg _)
  linarith

/-- A step brings the potential `‖x - y‖² + f x / b` down by the distance of `f x` from `f y`. -/
theorem GoodStep.potential {f : Mat r c ℝ → ℝ} {g : Mat r c ℝ → Mat r c ℝ} {m M b s : ℝ} (hf : Shape f g m M)
    (hm : 0 ≤ m) (hb : 0 < b) (hs : 0 < s) {x x' : Mat r c ℝ} (h : GoodStep f g b s x x') (y : Mat r c ℝ)
    (hy : f y ≤ f x) : sqDist x' y + f x' / b + 2 * s * (f x - f y) ≤ sqDist x y + f x / b := by
  obtain ⟨a, h1, h2, h3, h4⟩ := h
  have ha : 0 < a := hs.trans_le h1
  have e : sqDist x' y = sqDist x y + 2 * a * (∑ i, ∑ j, g x i j * (y i j - x i j)) + a ^ 2 * sqNorm (g x) := by
    simp only [sqDist, sqNorm, Finset.mul_sum, ← Finset.sum_add_distrib]
    refine Finset.sum_congr rfl fun i _ => Finset.sum_congr rfl fun j _ => ?_
    rw [h3]
    ring
  have hl := hf.lower x y
  have hd : 0 ≤ m / 2 * sqDist y x := mul_nonneg (by linarith) (sqDist_nonneg _ _)
  have hn := sqNorm_nonneg (g x)
  have h5 : a * sqNorm (g x) ≤ (f x - f x') / b := by
    rw [le_div_iff₀ hb]
    linarith
  have h6 : a ^ 2 * sqNorm (g x) ≤ a * sqNorm (g x) := by nlinarith [mul_nonneg ha.le hn]
  have h7 : 2 * a * (∑ i, ∑ j, g x i j * (y i j - x i j)) ≤ 2 * a * (f y - f x) :=
    mul_le_mul_of_nonneg_left (by linarith) (by linarith)
  have h8 : s * (f x - f y) ≤ a * (f x - f y) := mul_le_mul_of_nonneg_right h1 (by linarith)
  rw [sub_div] at h5
  rw [e]
  linarith

/-- After `n` steps the function is close to its value at any `y`. -/
theorem rate {f : Mat r c ℝ → ℝ} {g : Mat r c ℝ → Mat r c ℝ} {m M b s : ℝ} (hf : Shape f g m M) (hm : 0 ≤ m)
    (hb : 0 < b) (hs : 0 < s) {path : ℕ → Mat r c ℝ} {n : ℕ} (h : ∀ k < n, GoodStep f g b s (path k) (path (k + 1)))
    (y : Mat r c ℝ) (h0 : 0 ≤ f (path n)) :
    n * (f (path n) - f y) ≤ (sqDist (path 0) y + f (path 0) / b) / (2 * s) := by
  have hnn : 0 ≤ sqDist (path 0) y + f (path 0) / b := by
    have : f (path n) ≤ f (path 0) := by
      have key : ∀ k ≤ n, f (path k) ≤ f (path 0) := by
        intro k
        induction k with
        | zero => simp
        | succ k ih => exact fun hk => ((h k (by omega)).le hb hs).trans (ih (by omega))
      exact key n le_rfl
    have := div_nonneg (h0.trans this) hb.le
    have := sqDist_nonneg (path 0) y
    linarith
  rcases lt_or_ge (f (path n)) (f y) with hlt | hge
  · have h1 : (n : ℝ) * (f (path n) - f y) ≤ 0 := mul_nonpos_of_nonneg_of_nonpos (by positivity) (by linarith)
    exact h1.trans (by positivity)
  · have hmono : ∀ k ≤ n, f (path n) ≤ f (path (n - k)) := by
      intro k
      induction k with
      | zero => simp
      | succ k ih =>
        intro hk
        refine (ih (by omega)).trans ?_
        have := (h (n - (k + 1)) (by omega)).le hb hs
        rwa [show n - (k + 1) + 1 = n - k by omega] at this
    have key : ∀ k ≤ n, sqDist (path k) y + f (path k) / b + 2 * s * (k * (f (path n) - f y)) ≤
        sqDist (path 0) y + f (path 0) / b := by
      intro k
      induction k with
      | zero => simp
      | succ k ih =>
        intro hk
        have h1 := ih (by omega)
        have h2 : f (path n) ≤ f (path k) := by
          have := hmono (n - k) (by omega)
          rwa [show n - (n - k) = k by omega] at this
        have h3 := (h k (by omega)).potential hf hm hb hs y (hge.trans h2)
        have h4 : s * (f (path n) - f y) ≤ s * (f (path k) - f y) := mul_le_mul_of_nonneg_left (by linarith) hs.le
        push_cast
        linarith
    have h1 := key n le_rfl
    have h2 := sqDist_nonneg (path n) y
    have h3 := div_nonneg h0 hb.le
    rw [le_div_iff₀ (by linarith)]
    linarith

/-- Where a step decreases a strongly convex function by little, the function is close to its minimum. -/
theorem GoodStep.gap_strong {f : Mat r c ℝ → ℝ} {g : Mat r c ℝ → Mat r c ℝ} {m M b s : ℝ} (hf : Shape f g m M)
    (hm : 0 < m) (hb : 0 < b) (hs : 0 < s) {x x' : Mat r c ℝ} (h : GoodStep f g b s x x') {d : ℝ} (hd : f x - f x' ≤ d)
    (y : Mat r c ℝ) : f x' - f y ≤ d / (2 * (s * b * m)) := by
  have hle := h.le hb hs
  obtain ⟨a, h1, _, _, h4⟩ := h
  have hn := sqNorm_nonneg (g x)
  have h5 : s * b * sqNorm (g x) ≤ d := by
    have : s * b * sqNorm (g x) ≤ a * b * sqNorm (g x) := by gcongr
    linarith
  have h6 : f x - f y ≤ sqNorm (g x) / (2 * m) := by
    have hl := hf.lower x y
    have : - (sqNorm (g x) / (2 * m)) ≤ (∑ i, ∑ j, g x i j * (y i j - x i j)) + m / 2 * sqDist y x := by
      simp only [sqNorm, sqDist, Finset.mul_sum, Finset.sum_div, ← Finset.sum_neg_distrib, ← Finset.sum_add_distrib]
      refine Finset.sum_le_sum fun i _ => Finset.sum_le_sum fun j _ => ?_
      have e : g x i j * (y i j - x i j) + m / 2 * (y i j - x i j) ^ 2 =
          (g x i j + m * (y i j - x i j)) ^ 2 / (2 * m) - g x i j ^ 2 / (2 * m) := by
        field_simp
        ring
      rw [e]
      have : 0 ≤ (g x i j + m * (y i j - x i j)) ^ 2 / (2 * m) := by positivity
      linarith
    linarith
  have h7 : sqNorm (g x) / (2 * m) ≤ d / (2 * (s * b * m)) := by
    rw [div_le_div_iff₀ (by positivity) (by positivity)]
    nlinarith
  linarith

/-- The same without strong convexity, for a `y` whose distance from `x` is known. -/
theorem GoodStep.gap_convex {f : Mat r c ℝ → ℝ} {g : Mat r c ℝ → Mat r c ℝ} {m M b s : ℝ} (hf : Shape f g m M)
    (hm : 0 ≤ m) (hb : 0 < b) (hs : 0 < s) {x x' : Mat r c ℝ} (h : GoodStep f g b s x x') {d D : ℝ}
    (hd : f x - f x' ≤ d) {y : Mat r c ℝ} (hD : sqDist x y ≤ D) (hy : f y ≤ f x') :
    (f x' - f y) ^ 2 ≤ d * D / (s * b) := by
  have hle := h.le hb hs
  obtain ⟨a, h1, _, _, h4⟩ := h
  have hn := sqNorm_nonneg (g x)
  have h5 : s * b * sqNorm (g x) ≤ d := by
    have : s * b * sqNorm (g x) ≤ a * b * sqNorm (g x) := by gcongr
    linarith
  have hsym : sqDist y x = sqDist x y := by
    simp only [sqDist]
    exact Finset.sum_congr rfl fun i _ => Finset.sum_congr rfl fun j _ => by ring
  have h6 : f x - f y ≤ ∑ i, ∑ j, g x i j * (x i j - y i j) := by
    have hl := hf.lower x y
    have h0 : 0 ≤ m / 2 * sqDist y x := mul_nonneg (by linarith) (sqDist_nonneg _ _)
    have e : ∑ i, ∑ j, g x i j * (x i j - y i j) = - ∑ i, ∑ j, g x i j * (y i j - x i j) := by
      simp only [← Finset.sum_neg_distrib]
      exact Finset.sum_congr rfl fun i _ => Finset.sum_congr rfl fun j _ => by ring
    rw [e]
    linarith
  have h7 : (∑ i, ∑ j, g x i j * (x i j - y i j)) ^ 2 ≤ sqNorm (g x) * sqDist x y := by
    have := Finset.sum_mul_sq_le_sq_mul_sq (univ : Finset (Fin r × Fin c)) (fun p => g x p.1 p.2)
      (fun p => x p.1 p.2 - y p.1 p.2)
    simpa only [sqNorm, sqDist, Fintype.sum_prod_type] using this
  have h8 : (f x' - f y) ^ 2 ≤ (∑ i, ∑ j, g x i j * (x i j - y i j)) ^ 2 := by
    apply pow_le_pow_left₀ <;> linarith
  rw [le_div_iff₀ (by positivity)]
  have hd0 := sqDist_nonneg x y
  calc (f x' - f y) ^ 2 * (s * b) ≤ sqNorm (g x) * sqDist x y * (s * b) := by
        apply mul_le_mul_of_nonneg_right (h8.trans h7) (by positivity)
    _ = (s * b * sqNorm (g x)) * sqDist x y := by ring
    _ ≤ d * D := mul_le_mul h5 hD hd0 (le_trans (by positivity) h5)

/-- The steps do not lead far away from any `y` that is at least as good. -/
theorem near {f : Mat r c ℝ → ℝ} {g : Mat r c ℝ → Mat r c ℝ} {m M b s : ℝ} (hf : Shape f g m M) (hm : 0 ≤ m)
    (hb : 0 < b) (hs : 0 < s) {path : ℕ → Mat r c ℝ} {n : ℕ} (h : ∀ k < n, GoodStep f g b s (path k) (path (k + 1)))
    {y : Mat r c ℝ} (hy : f y ≤ f (path n)) (h0 : 0 ≤ f (path n)) :
    sqDist (path n) y ≤ sqDist (path 0) y + f (path 0) / b := by
  have hmono : ∀ k ≤ n, f (path n) ≤ f (path (n - k)) := by
    intro k
    induction k with
    | zero => simp
    | succ k ih =>
      intro hk
      refine (ih (by omega)).trans ?_
      have := (h (n - (k + 1)) (by omega)).le hb hs
      rwa [show n - (k + 1) + 1 = n - k by omega] at this
  have key : ∀ k ≤ n, sqDist (path k) y + f (path k) / b ≤ sqDist (path 0) y + f (path 0) / b := by
    intro k
    induction k with
    | zero => simp
    | succ k ih =>
      intro hk
      have h1 := ih (by omega)
      have h2 : f (path n) ≤ f (path k) := by
        have := hmono (n - k) (by omega)
        rwa [show n - (n - k) = k by omega] at this
      have h3 := (h k (by omega)).potential hf hm hb hs y (hy.trans h2)
      have h4 : 0 ≤ s * (f (path k) - f y) := mul_nonneg hs.le (by linarith)
      linarith
  have h1 := key n le_rfl
  have h3 := div_nonneg h0 hb.le
  linarith

/-! ### The logistic regression is smooth -/

/-- Log-sum-exp is below a parabola at every point. -/
theorem lse_smooth (s t : Vec C ℝ) (y : Fin C) :
    Real.log (∑ c, Real.exp (s c)) ≤ Real.log (∑ c, Real.exp (t c)) +
      (∑ c, (∑ c, Real.exp (t c))⁻¹ * Real.exp (t c) * (s c - t c)) + ∑ c, (s c - t c) ^ 2 := by
  have hS := sum_exp_pos s y
  have hT := sum_exp_pos t y
  set S := ∑ c, Real.exp (s c) with hSd
  set T := ∑ c, Real.exp (t c) with hTd
  -- the square roots of the two distributions
  let a : Fin C → ℝ := fun c => Real.exp ((t c - Real.log T) / 2)
  let b : Fin C → ℝ := fun c => Real.exp ((s c - Real.log S) / 2)
  have ha : ∀ c, a c ^ 2 = T⁻¹ * Real.exp (t c) := by
    intro c
    simp only [a, ← Real.exp_nat_mul]
    rw [show ((2 : ℕ) : ℝ) * ((t c - Real.log T) / 2) = t c - Real.log T by push_cast; ring, Real.exp_sub,
      Real.exp_log hT]
    field_simp
  have hb : ∀ c, b c ^ 2 = S⁻¹ * Real.exp (s c) := by
    intro c
    simp only [b, ← Real.exp_nat_mul]
    rw [show ((2 : ℕ) : ℝ) * ((s c - Real.log S) / 2) = s c - Real.log S by push_cast; ring, Real.exp_sub,
      Real.exp_log hS]
    field_simp
  have ha1 : ∑ c, a c ^ 2 = 1 := by
    simp only [ha]
    rw [← Finset.mul_sum, inv_mul_cancel₀ hT.ne']
  have hb1 : ∑ c, b c ^ 2 = 1 := by
    simp only [hb]
    rw [← Finset.mul_sum, inv_mul_cancel₀ hS.ne']
  have ha0 : ∀ c, 0 < a c := fun c => Real.exp_pos _
  have hb0 : ∀ c, 0 < b c := fun c => Real.exp_pos _
  have hle1 : ∀ {p : Fin C → ℝ}, ∑ c, p c ^ 2 = 1 → ∀ c, p c ^ 2 ≤ 1 := by
    intro p hp c
    rw [← hp]
    exact Finset.single_le_sum (f := fun c => p c ^ 2) (fun c _ => sq_nonneg _) (mem_univ c)
  -- every class bounds the difference of the normalisers
  have hcls : ∀ c, b c ^ 2 * (Real.log S - Real.log T) ≤ b c ^ 2 * (s c - t c) + 2 * (a c * b c - b c ^ 2) := by
    intro c
    have h1 := Real.add_one_le_exp ((t c - Real.log T) / 2 - (s c - Real.log S) / 2)
    have h2 : b c * Real.exp ((t c - Real.log T) / 2 - (s c - Real.log S) / 2) = a c := by
      simp only [a, b, ← Real.exp_add]
      congr 1
      ring
    have h3 := mul_le_mul_of_nonneg_left h1 (mul_pos (hb0 c) (hb0 c)).le
    rw [mul_assoc (b c) (b c) (Real.exp _), h2] at h3
    nlinarith
  have hcls' : ∀ c, b c ^ 2 * (s c - t c) + 2 * (a c * b c - b c ^ 2) ≤
      T⁻¹ * Real.exp (t c) * (s c - t c) + (s c - t c) ^ 2 + (a c ^ 2 - b c ^ 2) := by
    intro c
    rw [← ha]
    have h1 := hle1 ha1 c
    have h2 := hle1 hb1 c
    have h3 : (b c + a c) ^ 2 ≤ 4 := by nlinarith [sq_nonneg (b c - a c)]
    have h4 : (b c + a c) ^ 2 * (s c - t c) ^ 2 ≤ 4 * (s c - t c) ^ 2 :=
      mul_le_mul_of_nonneg_right h3 (sq_nonneg _)
    nlinarith [sq_nonneg ((b c + a c) * (s c - t c) - 2 * (b c - a c))]
  have hsum := Finset.sum_le_sum fun c (_ : c ∈ univ) => (hcls c).trans (hcls' c)
  rw [← Finset.sum_mul, hb1, one_mul, Finset.sum_add_distrib, Finset.sum_add_distrib, Finset.sum_sub_distrib, ha1, hb1,
    sub_self, add_zero] at hsum
  linarith

/-- How much the gradient of the objective can change: the penalty, and twice the weight of every document times the
square of its topics. -/
noncomputable def curvature (data : List (Vec K ℝ × Fin C)) (w : Fin C → ℝ) (L : ℝ) : ℝ :=
  L + 2 * (data.map fun d => w d.2 * ∑ k, d.1 k ^ 2).sum

theorem logistic_upper {w : Fin C → ℝ} {L : ℝ} (data : List (Vec K ℝ × Fin C)) (hw : ∀ d ∈ data, 0 ≤ w d.2)
    {eta g : Mat K C ℝ} (hg : IsGradient (logisticObjective data w L) eta g) (eta' : Mat K C ℝ) :
    logisticObjective data w L eta' ≤ logisticObjective data w L eta + (∑ k, ∑ c, g k c * (eta' k c - eta k c)) +
      curvature data w L / 2 * sqDist eta' eta := by
  rw [hg.apply_eq (isGradient_logistic data w L eta) fun k c => eta' k c - eta k c]
  have hobj : ∀ eta, logisticObjective data w L eta =
      - (data.map (logisticTerm w eta)).sum + L / 2 * ∑ k, ∑ c, eta k c ^ 2 := fun _ => rfl
  rw [hobj, hobj]
  -- the penalty
  have hpen : L / 2 * ∑ k, ∑ c, eta' k c ^ 2 = L / 2 * (∑ k, ∑ c, eta k c ^ 2) +
      (∑ k, ∑ c, eta k c * L * (eta' k c - eta k c)) +
      L / 2 * sqDist eta' eta := by
    simp only [sqDist, Finset.mul_sum, ← Finset.sum_add_distrib]
    refine Finset.sum_congr rfl fun k _ => Finset.sum_congr rfl fun c _ => ?_
    ring
  -- the documents
  have hdoc : ∀ d ∈ data, logisticTerm w eta d +
      (∑ k, ∑ c, (w d.2 * ((if c = d.2 then d.1 k else 0) -
        (∑ c, Real.exp (∑ k, eta k c * d.1 k))⁻¹ *
          (Real.exp (∑ k, eta k c * d.1 k) * d.1 k))) * (eta' k c - eta k c)) -
      w d.2 * (∑ k, d.1 k ^ 2) * sqDist eta' eta ≤ logisticTerm w eta' d := by
    intro d hd
    have h := lse_smooth (fun c => ∑ k, eta' k c * d.1 k) (fun c => ∑ k, eta k c * d.1 k) d.2
    have hcs : ∑ c, ((∑ k, eta' k c * d.1 k) - ∑ k, eta k c * d.1 k) ^ 2 ≤ (∑ k, d.1 k ^ 2) * sqDist eta' eta := by
      rw [sqDist, Finset.sum_comm, Finset.mul_sum]
      refine Finset.sum_le_sum fun c _ => ?_
      rw [← Finset.sum_sub_distrib]
      have e : ∑ k, (eta' k c * d.1 k - eta k c * d.1 k) = ∑ k, d.1 k * (eta' k c - eta k c) :=
        Finset.sum_congr rfl fun k _ => by ring
      rw [e]
      exact Finset.sum_mul_sq_le_sq_mul_sq univ (fun k => d.1 k) (fun k => eta' k c - eta k c)
    have hw' := hw d hd
    have e1 : ∑ k, ∑ c, (w d.2 * ((if c = d.2 then d.1 k else 0) -
        (∑ c, Real.exp (∑ k, eta k c * d.1 k))⁻¹ *
          (Real.exp (∑ k, eta k c * d.1 k) * d.1 k))) * (eta' k c - eta k c) =
        w d.2 * (((∑ k, eta' k d.2 * d.1 k) - ∑ k, eta k d.2 * d.1 k) -
          ∑ c, (∑ c, Real.exp (∑ k, eta k c * d.1 k))⁻¹ * Real.exp (∑ k, eta k c * d.1 k) *
            ((∑ k, eta' k c * d.1 k) - ∑ k, eta k c * d.1 k)) := by
      rw [mul_sub, mul_sub]
      have a1 : ∀ k c, (w d.2 * ((if c = d.2 then d.1 k else 0) -
          (∑ c, Real.exp (∑ k, eta k c * d.1 k))⁻¹ *
            (Real.exp (∑ k, eta k c * d.1 k) * d.1 k))) * (eta' k c - eta k c) =
          (if c = d.2 then w d.2 * (eta' k c * d.1 k) - w d.2 * (eta k c * d.1 k) else 0) -
          w d.2 * ((∑ c, Real.exp (∑ k, eta k c * d.1 k))⁻¹ * Real.exp (∑ k, eta k c * d.1 k) *
            (eta' k c * d.1 k - eta k c * d.1 k)) := by
        intro k c
        split <;> ring
      simp only [a1, Finset.sum_sub_distrib]
      congr 1
      · simp [Finset.mul_sum]
      · rw [Finset.sum_comm]
        simp only [Finset.mul_sum, ← Finset.sum_sub_distrib, mul_sub]
    rw [e1]
    simp only [logisticTerm]
    have h1 := mul_le_mul_of_nonneg_left h hw'
    have h2 := mul_le_mul_of_nonneg_left hcs hw'
    linarith
  have hsum : (data.map (logisticTerm w eta)).sum +
      (∑ k, ∑ c, (data.map fun d => w d.2 * ((if c = d.2 then d.1 k else 0) -
        (∑ c, Real.exp (∑ k, eta k c * d.1 k))⁻¹ *
          (Real.exp (∑ k, eta k c * d.1 k) * d.1 k))).sum * (eta' k c - eta k c)) -
      (data.map fun d => w d.2 * ∑ k, d.1 k ^ 2).sum * sqDist eta' eta ≤ (data.map (logisticTerm w eta')).sum := by
    clear hobj hpen hg hw
    induction data with
    | nil => simp
    | cons d ds ih =>
      have h1 := hdoc d (by simp)
      have h2 := ih fun d hd => hdoc d (by simp [hd])
      simp only [List.map_cons, List.sum_cons, add_mul, Finset.sum_add_distrib]
      linarith
  have hneg : ∀ k c, (data.map fun d => - (w d.2 * ((if c = d.2 then d.1 k else 0) -
        (∑ c, Real.exp (∑ k, eta k c * d.1 k))⁻¹ *
          (Real.exp (∑ k, eta k c * d.1 k) * d.1 k)))).sum =
      - (data.map fun d => w d.2 * ((if c = d.2 then d.1 k else 0) -
        (∑ c, Real.exp (∑ k, eta k c * d.1 k))⁻¹ *
          (Real.exp (∑ k, eta k c * d.1 k) * d.1 k))).sum := by
    intro k c
    generalize data = l
    induction l with
    | nil => simp
    | cons a l ih => simp only [List.map_cons, List.sum_cons, ih]; ring
  simp only [hneg, add_mul, Finset.sum_add_distrib, neg_mul, Finset.sum_neg_distrib]
  rw [hpen, curvature]
  linarith

/-! ### C111 -/

/-- **C111** for the gradient descent of the supervised M steps, for the objective of the logistic regression with any
data, weights and penalty that are not negative.  After `n` iterations the objective at the new `eta` exceeds that at
any other `eta` by at most the bound of the first line, which tends to zero as `n` grows.  If the descent stops before
the limit of iterations, the excess is bounded by the tolerance. -/
theorem C111_m_step {pr : Problem K C} {data : List (Vec K ℝ × Fin C)} {w : Fin C → ℝ} {L M tol : ℝ} {limit : ℕ}
    (hv : ∀ eta, pr.value eta = some (logisticObjective data w L eta))
    (hg : ∀ eta, ∃ g, pr.gradient eta = some g ∧ IsGradient (logisticObjective data w L) eta g)
    (hw : ∀ d ∈ data, 0 ≤ w d.2) (hL : 0 ≤ L) (hM : curvature data w L ≤ M) (hM0 : 0 < M)
    {x x' : Mat K C ℝ} {last : Option ℝ} {events : List ℝ}
    (h : Minimize (ArmijoSearch (1 / 1000) (1 / 2)) pr (mStepProgress limit tol) x (none, []) x' (last, events)) :
    ∃ n, events.length = n + 1 ∧ n ≤ limit ∧
      (∀ y, n * (logisticObjective data w L x' - logisticObjective data w L y) ≤
        ((∑ k, ∑ c, (x k c - y k c) ^ 2) + 1000 * logisticObjective data w L x) * max 1 (1000 / 999 * M) / 2) ∧
      (n < limit → ∀ y,
        (0 < L → logisticObjective data w L x' - logisticObjective data w L y ≤
          500 * max tol 0 * logisticObjective data w L x' * max 1 (1000 / 999 * M) / L) ∧
        (logisticObjective data w L y ≤ logisticObjective data w L x' →
          (logisticObjective data w L x' - logisticObjective data w L y) ^ 2 ≤
          1000 * max tol 0 * logisticObjective data w L x' * max 1 (1000 / 999 * M) *
            ((∑ k, ∑ c, (x k c - y k c) ^ 2) + 1000 * logisticObjective data w L x))) := by
  set f := logisticObjective data w L with hfd
  choose g hg1 hg2 using hg
  have hf0 : ∀ eta, 0 ≤ f eta := C57_nonneg data hw hL
  have hf : Shape f g L M := by
    refine ⟨fun x y => C79_convex data hw (hg2 x) y, fun x y => ?_⟩
    refine (logistic_upper data hw (hg2 x) y).trans ?_
    have := mul_le_mul_of_nonneg_right hM (sqDist_nonneg y x)
    linarith
  have hpv : pr.value = fun y => some (f y) := funext hv
  obtain ⟨v, hxv, hl⟩ := h
  rw [hv] at hxv
  obtain rfl := Option.some.inj hxv
  set s := shortest (1 / 1000) (1 / 2) M with hsd
  have hs : 0 < s := shortest_pos (by norm_num) (by norm_num) hM0
  have hsM : 1 / s = max 1 (1000 / 999 * M) := by
    have e : (1 / 2 : ℝ) * (2 * (1 - 1 / 1000) / M) = (1000 / 999 * M)⁻¹ := by
      field_simp
      norm_num
    rw [hsd, shortest, e]
    rcases le_total 1 (1000 / 999 * M) with h1 | h1
    · rw [max_eq_right h1, min_eq_right (inv_le_one_of_one_le₀ h1)]
      simp
    · rw [max_eq_left h1, min_eq_left]
      · simp
      · exact (one_le_inv₀ (by positivity)).2 h1
  obtain ⟨path, val, n, hn, p0, w0, pn, hval, hstep, hev, h1, h2, h3, h4⟩ := descent_loop_steps
    (Q := fun x x' _ _ => GoodStep f g (1 / 1000) s x x') (by
      intro x g' x' v v' h1 h2 h3
      rw [hg1] at h2
      obtain rfl := Option.some.inj h2
      rw [hpv] at h3
      obtain ⟨h4, h5⟩ := goodStep_of_search hf hM0 (by norm_num) (by norm_num) (by norm_num) (by norm_num) h3
      exact ⟨by rw [hv, h4], h5⟩) (hv x) (Nat.zero_le _) hl
  have hval' : ∀ k ≤ n, val k = f (path k) := by
    intro k hk
    have := hval k hk
    rw [hv] at this
    exact (Option.some.inj this).symm
  refine ⟨n, by simpa using congrArg List.length hev, by omega, ?_, ?_⟩
  · intro y
    have hr := rate hf hL (by norm_num) hs hstep y (hf0 _)
    rw [pn, p0] at hr
    refine hr.trans (le_of_eq ?_)
    rw [← hsM, sqDist]
    field_simp
  · intro hlt y
    have hn0 : n ≠ 0 := by
      intro hn0
      have := h2 hn0 (by omega)
      simp [improves] at this
      exact absurd (hf0 x) (not_le.2 this)
    obtain ⟨k, rfl⟩ := Nat.exists_eq_succ_of_ne_zero hn0
    have hstop := h4 k rfl (by omega)
    rw [hval' k (by omega), hval' (k + 1) le_rfl, pn] at hstop
    have hgs := hstep k (by omega)
    rw [Nat.succ_eq_add_one] at pn
    rw [pn] at hgs
    have hd : f (path k) - f x' ≤ max tol 0 * f x' := by
      rw [improves] at hstop
      by_cases h0 : f x' = 0
      · rw [if_pos h0, decide_eq_false_iff_not, not_lt] at hstop
        rw [h0]
        linarith
      · rw [if_neg h0, decide_eq_false_iff_not, not_lt] at hstop
        have hp : 0 < f x' := lt_of_le_of_ne (hf0 x') (Ne.symm h0)
        rw [div_le_iff₀ hp] at hstop
        exact hstop.trans (mul_le_mul_of_nonneg_right (le_max_left _ _) hp.le)
    refine ⟨?_, ?_⟩
    · intro hLp
      have := hgs.gap_strong hf hLp (by norm_num) hs hd y
      refine this.trans (le_of_eq ?_)
      rw [← hsM]
      field_simp
      ring
    · intro hy
      have hxk : f y ≤ f (path k) := hy.trans (hgs.le (by norm_num) hs)
      have hD := near hf hL (by norm_num) hs (fun j (hj : j < k) => hstep j (by omega)) hxk (hf0 _)
      have := hgs.gap_convex hf hL (by norm_num) hs hd hD hy
      refine this.trans (le_of_eq ?_)
      rw [← hsM, p0, sqDist]
      field_simp

/-- The hypotheses can be met: the two documents of `logisticDemo`, with the default limit of iterations and tolerance
of the command line. -/
example (x : Mat 2 2 ℝ) : ∃ (x' : Mat 2 2 ℝ) (last : Option ℝ) (events : List ℝ),
    Minimize (ArmijoSearch (1 / 1000) (1 / 2)) (logistic 2 (logisticDemo.map Prod.fst)
      (logisticDemo.map fun d => (d.2 : ℤ)) [some 1, some 3] (1 / 20)) (mStepProgress 10 (1 / 100)) x (none, []) x'
      (last, events) ∧
    curvature logisticDemo ![1, 3] (1 / 20) ≤ 6 ∧ (∀ d ∈ logisticDemo, 0 ≤ (![1, 3] : Fin 2 → ℝ) d.2) ∧
    (∀ eta, (logistic 2 (logisticDemo.map Prod.fst) (logisticDemo.map fun d => (d.2 : ℤ)) [some 1, some 3]
      (1 / 20)).value eta = some (logisticObjective logisticDemo ![1, 3] (1 / 20) eta)) := by
  obtain ⟨x', ⟨last, events⟩, h⟩ := C56_terminates (b := 1 / 1000) (tau := 1 / 2) (limit := 10) (tol := 1 / 100)
    (C57_value (L := 1 / 20) logisticDemo_weighs) (C57_gradient logisticDemo_weighs) (by norm_num) (by norm_num)
    (by norm_num) x
  refine ⟨x', last, events, h, ?_, ?_, C57_value logisticDemo_weighs⟩
  · norm_num [curvature, logisticDemo, Fin.sum_univ_two]
  · simp [logisticDemo]

end Verif.Optim

namespace Verif.MStep

open MathUtils EStep Optim Finset

variable {K V C : ℕ}

/-- The balanced class weights of all documents add up to at most the number of documents. -/
theorem sum_weights_le {data : List (Vec K ℝ × Fin C)} {w : Fin C → ℝ} {n : ℕ} (hlt : ∀ d ∈ data, (d.2 : ℕ) < n)
    (hw : ∀ d ∈ data, w d.2 = (data.length : ℝ) / (n * (data.map Prod.snd).count d.2)) :
    (data.map fun d => w d.2).sum ≤ data.length := by
  rcases data.eq_nil_or_concat with rfl | ⟨_, d0, hd0⟩
  · simp
  have hn : 0 < n := (Nat.zero_le _).trans_lt (hlt d0 (by simp [hd0]))
  set l := data.map Prod.snd with hl
  have e1 : (data.map fun d => w d.2) = l.map w := by simp [hl, Function.comp_def]
  rw [e1, Finset.sum_list_map_count]
  have e2 : ∀ c ∈ l.toFinset, l.count c • w c = (data.length : ℝ) / n := by
    intro c hc
    rw [List.mem_toFinset] at hc
    have h1 : 0 < l.count c := List.count_pos_iff.2 hc
    obtain ⟨d, hd, rfl⟩ := List.mem_map.1 hc
    rw [hw d hd, nsmul_eq_mul]
    have h2 : (0 : ℝ) < l.count d.2 := by exact_mod_cast h1
    have h3 : (0 : ℝ) < n := by exact_mod_cast hn
    field_simp
  rw [Finset.sum_congr rfl e2, Finset.sum_const, nsmul_eq_mul]
  have hcard : l.toFinset.card ≤ n := by
    have := Finset.card_le_card_of_injOn (s := l.toFinset) (t := Finset.range n) (fun c => (c : ℕ)) (by
      intro c hc
      rw [Finset.mem_coe, List.mem_toFinset] at hc
      obtain ⟨d, hd, rfl⟩ := List.mem_map.1 hc
      exact Finset.mem_coe.2 (Finset.mem_range.2 (hlt d hd))) (by
      intro a _ b _ h
      exact Fin.ext h)
    simpa using this
  have h3 : (0 : ℝ) < n := by exact_mod_cast hn
  have h4 : (l.toFinset.card : ℝ) ≤ n := by exact_mod_cast hcard
  rw [mul_div_assoc', div_le_iff₀ h3]
  have : (0 : ℝ) ≤ data.length := by positivity
  nlinarith

/-- **C111** for an epoch of `FastSupervisedMStep`.  After any history, for documents whose labels are columns of `eta`
and whose expected topic shares are distributions (`topicShare_counts`), the new `eta` is compared with any other one by
the documented objective with the balanced class weights.  If all iterations were made, its excess is at most a bound
that is inversely proportional to their number.  If fewer were made, its excess is at most proportional to the
tolerance. -/
theorem C111_fast {cfg : SupCfg} {h : List (Call (DocArg K V) (Mat K C ℝ))} {s s' : FastState K V}
    (hs : fastHistory cfg h = some s) (hne : since h ≠ []) {eta : Mat K C ℝ} {out : MOut K V C}
    (ho : fastM cfg eta s = some (out, s')) (hL : 0 < cfg.penalty) {data : List (Vec K ℝ × Fin C)}
    (hx : data.map Prod.fst = (since h).map fun d => topicShare d.1 d.2.2.gamma)
    (hy : (data.map fun d => (d.2 : ℤ)) = (since h).map fun d => d.2.1.cls)
    (hdist : ∀ d ∈ data, (∀ k, 0 ≤ d.1 k) ∧ ∑ k, d.1 k = 1) :
    ∃ (w : Fin C → ℝ) (n : ℕ), ((∃ d ∈ data, (d.2 : ℕ) + 1 = n) ∧ (∀ d ∈ data, (d.2 : ℕ) < n)) ∧
      (∀ d ∈ data, w d.2 = (data.length : ℝ) / (n * (data.map Prod.snd).count d.2)) ∧
      0 < out.events.length ∧ out.events.length ≤ cfg.iterations + 1 ∧
      ∀ best : Mat K C ℝ,
        (0 < cfg.iterations → out.events.length = cfg.iterations + 1 →
          logisticObjective data w cfg.penalty out.eta - logisticObjective data w cfg.penalty best ≤
            ((∑ k, ∑ c, (eta k c - best k c) ^ 2) + 1000 * logisticObjective data w cfg.penalty eta) *
              max 1 (1000 / 999 * (cfg.penalty + 2 * data.length)) / (2 * cfg.iterations)) ∧
        (out.events.length < cfg.iterations + 1 →
          logisticObjective data w cfg.penalty out.eta - logisticObjective data w cfg.penalty best ≤
            500 * max cfg.tolerance 0 * logisticObjective data w cfg.penalty out.eta *
              max 1 (1000 / 999 * (cfg.penalty + 2 * data.length)) / cfg.penalty) := by
  have hdne : data ≠ [] := by
    rintro rfl
    exact hne (List.map_eq_nil_iff.1 hx.symm)
  obtain ⟨pr, w, n, h1, h2, h3, h4, h5, h6, h7⟩ := C59_absent_unused hdne cfg.penalty
  obtain ⟨pr', events, hpr, ⟨last, hd⟩, hev, _⟩ := (C50_fast hs hne eta out).1 ⟨s', ho⟩
  rw [hx, hy] at h1
  rw [h1] at hpr
  obtain rfl := Option.some.inj hpr
  have hcurv : curvature data w cfg.penalty ≤ cfg.penalty + 2 * data.length := by
    have h8 : (data.map fun d => w d.2 * ∑ k, d.1 k ^ 2).sum ≤ (data.map fun d => w d.2).sum := by
      refine List.sum_le_sum fun d hd => ?_
      have h9 : ∑ k, d.1 k ^ 2 ≤ 1 := by
        obtain ⟨h10, h11⟩ := hdist d hd
        rw [← h11]
        refine Finset.sum_le_sum fun k _ => ?_
        have h12 : d.1 k ≤ 1 := by
          rw [← h11]
          exact Finset.single_le_sum (f := fun k => d.1 k) (fun k _ => h10 k) (mem_univ k)
        nlinarith [h10 k]
      have := (h5 d hd).le
      nlinarith
    have := sum_weights_le h3 h4
    rw [curvature]
    linarith
  have hpos : 0 < cfg.penalty + 2 * (data.length : ℝ) := by positivity
  obtain ⟨m, hm, hml, hrate, hstop⟩ := C111_m_step h6 h7 (fun d hd => (h5 d hd).le) hL.le hcurv hpos hd
  have hlen : out.events.length = m + 1 := by rw [hev, List.length_map, hm]
  refine ⟨w, n, ⟨h2, h3⟩, h4, by omega, by omega, fun best => ⟨?_, ?_⟩⟩
  · intro hit he
    have hme : m = cfg.iterations := by omega
    have hr := hrate best
    rw [hme] at hr
    have hit' : (0 : ℝ) < cfg.iterations := by exact_mod_cast hit
    rw [le_div_iff₀ (by positivity)]
    linarith
  · intro he
    exact ((hstop (by omega)) best).1 hL

/-- The hypotheses can be met: an epoch of two documents of different classes with three and four words. -/
example (eta : Mat 2 2 ℝ) (cfg : SupCfg) (a b : DocArg 2 2) (ha : a.2.1.cls = 1) (hb : b.2.1.cls = 0)
    (ga : ∀ k, a.2.2.gamma k = a.1 k + ![1, 2] k) (gb : ∀ k, b.2.2.gamma k = b.1 k + ![4, 0] k) :
    ∃ (s s' : FastState 2 2) (data : List (Vec 2 ℝ × Fin 2)) (out : MOut 2 2 2),
      fastHistory cfg [.doc (B := Mat 2 2 ℝ) a, .doc b] = some s ∧ fastM cfg eta s = some (out, s') ∧
      data.map Prod.fst = ([a, b].map fun d => topicShare d.1 d.2.2.gamma) ∧
      (data.map fun d => (d.2 : ℤ)) = [a, b].map (fun d => d.2.1.cls) ∧
      ∀ d ∈ data, (∀ k, 0 ≤ d.1 k) ∧ ∑ k, d.1 k = 1 := by
  obtain ⟨s, hs⟩ := fastHistory_docs (C := 2) cfg [a, b]
  have e : since ([a, b].map (Call.doc (B := Mat 2 2 ℝ))) = [a, b] := by simp [since]
  have hx : ([(topicShare a.1 a.2.2.gamma, 1), (topicShare b.1 b.2.2.gamma, 0)] :
      List (Vec 2 ℝ × Fin 2)).map Prod.fst = [a, b].map fun d => topicShare d.1 d.2.2.gamma := rfl
  have hy : (([(topicShare a.1 a.2.2.gamma, 1), (topicShare b.1 b.2.2.gamma, 0)] :
      List (Vec 2 ℝ × Fin 2)).map fun d => (d.2 : ℤ)) = [a, b].map (fun d => d.2.1.cls) := by simp [ha, hb]
  obtain ⟨out, s', _, _, _, hM, _⟩ := C50_fast_trains hs (by rw [e]; simp) eta (by rw [e]; exact hx)
    (by rw [e]; exact hy)
  refine ⟨s, s', _, out, hs, hM, hx, hy, ?_⟩
  intro d hd
  simp only [List.mem_cons, List.not_mem_nil, or_false] at hd
  rcases hd with rfl | rfl
  · exact (topicShare_counts ga (by intro k; fin_cases k <;> simp) (by norm_num)).2
  · exact (topicShare_counts gb (by intro k; fin_cases k <;> simp) (by norm_num)).2

end Verif.MStep
