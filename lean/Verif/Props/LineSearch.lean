import Verif.Spec.Optim
import Mathlib.Analysis.Calculus.Deriv.Comp
import Mathlib.Analysis.Calculus.Deriv.Mul
import Mathlib.Analysis.Calculus.Deriv.Pow
import Mathlib.Analysis.Calculus.Deriv.Add
import Mathlib.Analysis.SpecificLimits.Basic

/-! Properties C54, C55, C77 (see /verif/properties.jsonl). -/
namespace Verif.Optim

open MathUtils Finset

variable {r c K C : ℕ}

/-! ### C54 -/

theorem ArmijoLoop.spec {f : Mat r c ℝ → Option ℝ} {x p : Mat r c ℝ} {v0 dec tau a v a' v' : ℝ}
    (h : ArmijoLoop f x p v0 dec tau a v a' v') :
    (a' = a ∧ v' = v ∧ v ≤ v0 - a * dec) ∨
    (v0 - a * dec < v ∧ ∃ n, a' = a * tau ^ (n + 1) ∧ f (move x a' p) = some v' ∧ v' ≤ v0 - a' * dec ∧
      ∀ m < n, ∃ u, f (move x (a * tau ^ (m + 1)) p) = some u ∧ v0 - a * tau ^ (m + 1) * dec < u) := by
  induction h with
  | exit h => exact .inl ⟨rfl, rfl, not_lt.1 h⟩
  | @again a v v1 a'' v'' h1 h2 _ ih =>
    refine .inr ⟨h1, ?_⟩
    rcases ih with ⟨rfl, rfl, h3⟩ | ⟨h3, n, rfl, h4, h5, h6⟩
    · exact ⟨0, by simp, h2, h3, by simp⟩
    · refine ⟨n + 1, by ring, h4, h5, ?_⟩
      intro m hm
      cases m with
      | zero => exact ⟨v1, by simpa using h2, by simpa using h3⟩
      | succ m =>
        obtain ⟨u, hu1, hu2⟩ := h6 m (by omega)
        refine ⟨u, ?_, ?_⟩
        · rw [← hu1]; congr 2; ring
        · convert hu2 using 2; ring

/-- **C54**.  If the directional decrease is positive and the search returns, then the step taken is
`tau ^ n`, it satisfies the Armijo condition, no larger one of `1, tau, tau ^ 2, ...` does, the position
is moved by exactly this step and the value returned is the one there. -/
theorem C54_largest_step {f : Mat r c ℝ → Option ℝ} {b tau v : ℝ} {x g p x' : Mat r c ℝ}
    (ht : 0 < tau) (ht1 : tau < 1) (hd : 0 < b * ∑ i, ∑ j, g i j * p i j)
    (h : ArmijoSearch b tau f x g p x' v) :
    ∃ n : ℕ, (∀ i j, x' i j = x i j - tau ^ n * p i j) ∧ f x' = some v ∧
      Acceptable f x g p b (tau ^ n) ∧
      ∀ m : ℕ, Acceptable f x g p b (tau ^ m) → tau ^ m ≤ tau ^ n := by
  obtain ⟨v0, a, hv0, _, hl, rfl⟩ := h
  have hd' : 0 < b * dot g p := hd
  rcases hl.spec with ⟨_, _, h3⟩ | ⟨_, n, rfl, h4, h5, h6⟩
  · have : 0 < 1 / tau * (b * dot g p) := by positivity
    linarith
  · have hs : ∀ m : ℕ, 1 / tau * tau ^ (m + 1) = tau ^ m := fun m => by field_simp; ring
    rw [hs] at h4 h5 ⊢
    refine ⟨n, fun _ _ => rfl, h4, ⟨v0, v, hv0, h4, ?_⟩, ?_⟩
    · rw [mul_assoc]; exact h5
    · intro m hm
      rcases lt_or_ge m n with hlt | hge
      · exfalso
        obtain ⟨u, hu1, hu2⟩ := h6 m hlt
        rw [hs] at hu1 hu2
        obtain ⟨w0, w, hw0, hw, hw1⟩ := hm
        have e0 : w0 = v0 := Option.some.inj (hw0.symm.trans hv0)
        have e1 : w = u := Option.some.inj (hw.symm.trans hu1)
        subst e0 e1
        rw [mul_assoc] at hw1
        exact absurd hu2 (not_lt.2 hw1)
      · exact pow_le_pow_of_le_one ht.le ht1.le hge

/-- Going through the loop when step `tau ^ n` is acceptable and the value is known before it. -/
theorem ArmijoLoop.exists {f : Mat r c ℝ → ℝ} {x p : Mat r c ℝ} {v0 dec tau : ℝ} (n : ℕ) :
    ∀ a v : ℝ, f (move x (a * tau ^ (n + 1)) p) ≤ v0 - a * tau ^ (n + 1) * dec →
      ∃ a' v', ArmijoLoop (fun y => some (f y)) x p v0 dec tau a v a' v' := by
  induction n with
  | zero =>
    intro a v h
    by_cases hv : v > v0 - a * dec
    · exact ⟨_, _, .again hv rfl (.exit (not_lt.2 (by simpa using h)))⟩
    · exact ⟨_, _, .exit hv⟩
  | succ n ih =>
    intro a v h
    by_cases hv : v > v0 - a * dec
    · obtain ⟨a', v', h'⟩ := ih (a * tau) (f (move x (a * tau) p)) (by
        have e : a * tau * tau ^ (n + 1) = a * tau ^ (n + 1 + 1) := by ring
        rw [e]; exact h)
      exact ⟨a', v', .again hv rfl h'⟩
    · exact ⟨_, _, .exit hv⟩

/-- The search returns as soon as one of the steps satisfies the Armijo condition. -/
theorem C54_returns {f : Mat r c ℝ → ℝ} {b tau : ℝ} {x g p : Mat r c ℝ} (ht : 0 < tau)
    (h : ∃ n : ℕ, Acceptable (fun y => some (f y)) x g p b (tau ^ n)) :
    ∃ x' v, ArmijoSearch b tau (fun y => some (f y)) x g p x' v := by
  obtain ⟨n, v0, v, h0, h1, h2⟩ := h
  simp only [Option.some.injEq] at h0 h1
  subst h0 h1
  have hs : 1 / tau * tau ^ (n + 1) = tau ^ n := by field_simp; ring
  obtain ⟨a, v, hl⟩ := ArmijoLoop.exists (f := f) (x := x) (p := p) (v0 := f x) (dec := b * dot g p)
    (tau := tau) n (1 / tau) (f x) (by rw [hs, ← mul_assoc]; exact h2)
  exact ⟨_, _, f x, a, rfl, ht.ne', hl, rfl⟩

/-- The search is deterministic. -/
theorem ArmijoLoop.unique {f : Mat r c ℝ → Option ℝ} {x p : Mat r c ℝ} {v0 dec tau a v a1 v1 a2 v2 : ℝ}
    (h1 : ArmijoLoop f x p v0 dec tau a v a1 v1) (h2 : ArmijoLoop f x p v0 dec tau a v a2 v2) :
    a1 = a2 ∧ v1 = v2 := by
  induction h1 with
  | exit h =>
    cases h2 with
    | exit _ => exact ⟨rfl, rfl⟩
    | again h' => exact absurd h' h
  | again h hv _ ih =>
    cases h2 with
    | exit h' => exact absurd h h'
    | again _ hv' h3 =>
      have := Option.some.inj (hv.symm.trans hv')
      subst this
      exact ih h3

theorem ArmijoSearch.unique {f : Mat r c ℝ → Option ℝ} {b tau v1 v2 : ℝ} {x g p x1 x2 : Mat r c ℝ}
    (h1 : ArmijoSearch b tau f x g p x1 v1) (h2 : ArmijoSearch b tau f x g p x2 v2) :
    x1 = x2 ∧ v1 = v2 := by
  obtain ⟨u1, a1, hu1, _, hl1, rfl⟩ := h1
  obtain ⟨u2, a2, hu2, _, hl2, rfl⟩ := h2
  have := Option.some.inj (hu1.symm.trans hu2)
  subst this
  obtain ⟨rfl, rfl⟩ := hl1.unique hl2
  exact ⟨rfl, rfl⟩

/-! ### C55 -/

theorem hasDerivAt_line {f : Mat r c ℝ → ℝ} {x g p : Mat r c ℝ} (hf : IsGradient f x g) :
    HasDerivAt (fun a : ℝ => f (move x a p)) (- dot g p) 0 := by
  obtain ⟨f', hf', he⟩ := hf
  have hm : HasDerivAt (fun a : ℝ => move x a p) (fun i j => - p i j) 0 := by
    rw [hasDerivAt_pi]; intro i
    rw [hasDerivAt_pi]; intro j
    have h := ((hasDerivAt_id (0 : ℝ)).mul_const (p i j)).const_sub (x i j)
    simpa [move] using h
  have hx : move x 0 p = x := by funext i j; simp [move]
  have h := HasFDerivAt.comp_hasDerivAt (x := (0 : ℝ)) (f := fun a : ℝ => move x a p) (l := f)
    (l' := f') (by rw [hx]; exact hf') hm
  have e : f' (fun i j => - p i j) = - dot g p := by
    rw [he]; simp [dot, Finset.sum_neg_distrib]
  rw [e] at h
  exact h

/-- **C55**.  For a function that is differentiable at `x` with gradient `g`, a direction of descent (in
particular `g` itself), `b < 1` and `0 < tau < 1`, the search terminates. -/
theorem C55_terminates {f : Mat r c ℝ → ℝ} {b tau : ℝ} {x g p : Mat r c ℝ} (hf : IsGradient f x g)
    (hb1 : b < 1) (ht : 0 < tau) (ht1 : tau < 1) (hp : p = g ∨ 0 < ∑ i, ∑ j, g i j * p i j) :
    ∃ x' v, ArmijoSearch b tau (fun y => some (f y)) x g p x' v := by
  have hnn : 0 ≤ dot g p := by
    rcases hp with rfl | h
    · exact Finset.sum_nonneg fun i _ => Finset.sum_nonneg fun j _ => mul_self_nonneg _
    · exact h.le
  rcases hnn.eq_or_lt with h0 | hpos
  · refine ⟨_, f x, f x, 1 / tau, rfl, ht.ne', .exit ?_, rfl⟩
    rw [← h0]; simp
  · have hd := hasDerivAt_line (p := p) hf
    have hlt : - dot g p < - b * dot g p := by nlinarith
    -- near 0 the function is below the line
    have hsl := hd.tendsto_slope_zero
    have hev : ∀ᶠ a in nhdsWithin (0 : ℝ) (Set.Ioi 0), f (move x a p) ≤ f x - a * (b * dot g p) := by
      have h1 : ∀ᶠ a in nhdsWithin (0 : ℝ) {0}ᶜ,
          a⁻¹ • (f (move x (0 + a) p) - f (move x 0 p)) < - b * dot g p :=
        hsl.eventually (gt_mem_nhds hlt)
      have h2 : nhdsWithin (0 : ℝ) (Set.Ioi 0) ≤ nhdsWithin (0 : ℝ) {0}ᶜ :=
        nhdsWithin_mono _ fun a ha => (ne_of_gt ha : a ≠ 0)
      filter_upwards [h2 h1, self_mem_nhdsWithin] with a ha ha0
      have ha0 : (0 : ℝ) < a := ha0
      have hx : move x 0 p = x := by funext i j; simp [move]
      rw [zero_add, hx, smul_eq_mul, inv_mul_lt_iff₀ ha0] at ha
      nlinarith
    have htend : Filter.Tendsto (fun n : ℕ => tau ^ n) Filter.atTop (nhdsWithin 0 (Set.Ioi 0)) := by
      rw [tendsto_nhdsWithin_iff]
      exact ⟨tendsto_pow_atTop_nhds_zero_of_lt_one ht.le ht1,
        Filter.Eventually.of_forall fun n => pow_pos ht n⟩
    obtain ⟨n, hn⟩ := (htend.eventually hev).exists
    refine C54_returns ht ⟨n, f x, f (move x (tau ^ n) p), rfl, rfl, ?_⟩
    rw [mul_assoc]
    exact hn

/-! A concrete case: the square of the only entry, at 1. -/

/-- `x ↦ x²`. -/
def square : Mat 1 1 ℝ → ℝ := fun x => x 0 0 ^ 2

theorem square_gradient (x : Mat 1 1 ℝ) : IsGradient square x (fun _ _ => 2 * x 0 0) := by
  have h0 : HasFDerivAt (fun x : Mat 1 1 ℝ => x 0 0)
      ((ContinuousLinearMap.proj (R := ℝ) (φ := fun _ : Fin 1 => ℝ) 0).comp
        (ContinuousLinearMap.proj (R := ℝ) (φ := fun _ : Fin 1 => Fin 1 → ℝ) 0)) x :=
    ContinuousLinearMap.hasFDerivAt
      ((ContinuousLinearMap.proj (R := ℝ) (φ := fun _ : Fin 1 => ℝ) 0).comp
        (ContinuousLinearMap.proj (R := ℝ) (φ := fun _ : Fin 1 => Fin 1 → ℝ) 0))
  refine ⟨_, h0.pow 2, ?_⟩
  intro h
  simp

/-- The hypotheses of C54 and C55 can be met: the search from 1 accepts the third step. -/
example : ∃ (x' : Mat 1 1 ℝ) (v : ℝ), (0 : ℝ) < 1 / 1000 * ∑ i : Fin 1, ∑ j : Fin 1,
      (fun _ _ => 2 : Mat 1 1 ℝ) i j * (fun _ _ => 2 : Mat 1 1 ℝ) i j ∧
    ArmijoSearch (1 / 1000) (1 / 2) (fun y => some (square y)) (fun _ _ => 1) (fun _ _ => 2)
      (fun _ _ => 2) x' v ∧ v = 0 := by
  refine ⟨fun _ _ => 0, 0, by norm_num, ⟨1, 1 / 2, by simp [square], by norm_num, ?_, ?_⟩, rfl⟩
  · refine .again (v' := 1) (by norm_num [dot]) (by norm_num [square, move]) ?_
    refine .again (v' := 0) (by norm_num [dot]) (by norm_num [square, move]) ?_
    have : (1 : ℝ) / (1 / 2) * (1 / 2) * (1 / 2) = 1 / 2 := by norm_num
    rw [this]
    exact .exit (by norm_num [dot])
  · funext i j; norm_num [move]

/-! ### C77: what a line search returns -/

/-- **C77** for the constant line search: the value returned is that of the final position. -/
theorem C77_constant {f : Mat r c ℝ → Option ℝ} {alpha v : ℝ} {x g p x' : Mat r c ℝ}
    (h : ConstantSearch alpha f x g p x' v) :
    f x' = some v ∧ ∀ i j, x' i j = x i j - alpha * p i j := by
  obtain ⟨rfl, h⟩ := h
  exact ⟨h, fun _ _ => rfl⟩

/-- **C77**, partial: the Armijo search returns the value of the final position when the decrease is
positive, and also when it searches along the gradient.  Missing: other directions, see
`C77_armijo_not_descent`. -/
theorem C77_armijo_partial {f : Mat r c ℝ → Option ℝ} {b tau v : ℝ} {x g p x' : Mat r c ℝ}
    (ht : 0 < tau) (ht1 : tau < 1) (hb : 0 < b) (hp : p = g ∨ 0 < ∑ i, ∑ j, g i j * p i j)
    (h : ArmijoSearch b tau f x g p x' v) : f x' = some v := by
  have hnn : 0 < dot g p ∨ p = fun _ _ => 0 := by
    rcases hp with rfl | h
    · rcases eq_or_ne p (fun _ _ => 0) with h | h
      · exact .inr h
      · left
        obtain ⟨i, hi⟩ := Function.ne_iff.1 h
        obtain ⟨j, hj⟩ := Function.ne_iff.1 hi
        refine Finset.sum_pos' (fun i _ => Finset.sum_nonneg fun j _ => mul_self_nonneg _)
          ⟨i, mem_univ i, ?_⟩
        exact Finset.sum_pos' (fun j _ => mul_self_nonneg _) ⟨j, mem_univ j, mul_self_pos.2 hj⟩
    · exact .inl h
  rcases hnn with hpos | rfl
  · obtain ⟨n, _, h2, _⟩ := C54_largest_step ht ht1 (mul_pos hb hpos) h
    exact h2
  · obtain ⟨v0, a, hv0, _, hl, rfl⟩ := h
    have hm : ∀ a, move x a (fun _ _ => 0) = x := fun a => by funext i j; simp [move]
    rw [hm]
    rcases hl.spec with ⟨_, rfl, _⟩ | ⟨_, n, rfl, h4, _⟩
    · exact hv0
    · rwa [hm] at h4

/-- **C77 is false** for the Armijo search along a direction that is not one of descent: the position
is moved by `1 / tau` times the direction, and the value returned is the one before.  Here the function
has value 4 where the search ends although 1 was returned. -/
theorem C77_armijo_not_descent : ∃ x' v, IsGradient square (fun _ _ => 1) (fun _ _ => 2) ∧
    ArmijoSearch (1 / 1000) (1 / 2) (fun y => some (square y)) (fun _ _ => 1) (fun _ _ => 2)
      (fun _ _ => -1 / 2) x' v ∧ v = 1 ∧ square x' = 4 := by
  refine ⟨fun _ _ => 2, 1, ?_, ⟨1, 1 / (1 / 2), by simp [square], by norm_num, .exit ?_, ?_⟩, rfl,
    by norm_num [square]⟩
  · have := square_gradient (fun _ _ => 1)
    simpa using this
  · norm_num [dot]
  · funext i j; norm_num [move]

end Verif.Optim
