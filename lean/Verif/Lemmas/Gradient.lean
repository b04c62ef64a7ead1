import Verif.Spec.Optim
import Mathlib.Analysis.Calculus.Deriv.Comp
import Mathlib.Analysis.Calculus.FDeriv.Add
import Mathlib.Analysis.Calculus.FDeriv.Mul
import Mathlib.Analysis.SpecialFunctions.ExpDeriv
import Mathlib.Analysis.SpecialFunctions.Log.Deriv

/-! Rules for computing gradients of functions of a matrix. -/
namespace Verif.Optim

open MathUtils Finset

variable {r c : ℕ}

/-- The linear function with the given coefficients. -/
noncomputable def linear (g : Mat r c ℝ) : (Mat r c ℝ) →L[ℝ] ℝ :=
  ∑ i, ∑ j, g i j • (ContinuousLinearMap.proj (R := ℝ) (φ := fun _ : Fin c => ℝ) j).comp
    (ContinuousLinearMap.proj (R := ℝ) (φ := fun _ : Fin r => Fin c → ℝ) i)

theorem linear_apply (g h : Mat r c ℝ) : linear g h = ∑ i, ∑ j, g i j * h i j := by
  simp [linear]

theorem isGradient_iff {f : Mat r c ℝ → ℝ} {x g : Mat r c ℝ} :
    IsGradient f x g ↔ HasFDerivAt f (linear g) x := by
  constructor
  · rintro ⟨f', h1, h2⟩
    have : f' = linear g := by ext h; rw [h2, linear_apply]
    rwa [this] at h1
  · exact fun h => ⟨_, h, fun y => linear_apply g y⟩

namespace IsGradient

variable {f f1 f2 : Mat r c ℝ → ℝ} {x g g1 g2 : Mat r c ℝ}

theorem congr_grad (h : IsGradient f x g1) (he : ∀ i j, g1 i j = g2 i j) : IsGradient f x g2 := by
  have : g1 = g2 := by funext i j; exact he i j
  rwa [← this]

theorem const (a : ℝ) : IsGradient (fun _ => a) x (fun _ _ => 0) := by
  refine ⟨0, hasFDerivAt_const a x, ?_⟩
  intro h; simp

theorem add (h1 : IsGradient f1 x g1) (h2 : IsGradient f2 x g2) :
    IsGradient (fun y => f1 y + f2 y) x (fun i j => g1 i j + g2 i j) := by
  obtain ⟨a, ha, ea⟩ := h1
  obtain ⟨b, hb, eb⟩ := h2
  refine ⟨a + b, ha.add hb, ?_⟩
  intro h
  simp [ea, eb, add_mul, Finset.sum_add_distrib]

theorem neg (h : IsGradient f x g) : IsGradient (fun y => - f y) x (fun i j => - g i j) := by
  obtain ⟨a, ha, ea⟩ := h
  refine ⟨-a, ha.neg, ?_⟩
  intro h
  simp [ea, Finset.sum_neg_distrib]

theorem sub (h1 : IsGradient f1 x g1) (h2 : IsGradient f2 x g2) :
    IsGradient (fun y => f1 y - f2 y) x (fun i j => g1 i j - g2 i j) := by
  simpa only [sub_eq_add_neg] using h1.add h2.neg

theorem const_mul (a : ℝ) (h : IsGradient f x g) :
    IsGradient (fun y => a * f y) x (fun i j => a * g i j) := by
  obtain ⟨b, hb, eb⟩ := h
  refine ⟨a • b, hb.const_mul a, ?_⟩
  intro h
  simp [eb, Finset.mul_sum, mul_assoc]

theorem mul (h1 : IsGradient f1 x g1) (h2 : IsGradient f2 x g2) :
    IsGradient (fun y => f1 y * f2 y) x (fun i j => f1 x * g2 i j + f2 x * g1 i j) := by
  obtain ⟨a, ha, ea⟩ := h1
  obtain ⟨b, hb, eb⟩ := h2
  refine ⟨f1 x • b + f2 x • a, ha.mul hb, ?_⟩
  intro h
  simp [ea, eb, Finset.mul_sum, add_mul, mul_assoc, Finset.sum_add_distrib]

/-- The chain rule. -/
theorem comp {φ : ℝ → ℝ} {φ' : ℝ} (hφ : HasDerivAt φ φ' (f x)) (h : IsGradient f x g) :
    IsGradient (fun y => φ (f y)) x (fun i j => φ' * g i j) := by
  obtain ⟨a, ha, ea⟩ := h
  refine ⟨φ' • a, hφ.comp_hasFDerivAt x ha, ?_⟩
  intro h
  simp [ea, Finset.mul_sum, mul_assoc]

theorem exp (h : IsGradient f x g) :
    IsGradient (fun y => Real.exp (f y)) x (fun i j => Real.exp (f x) * g i j) :=
  comp (Real.hasDerivAt_exp _) h

theorem log (hx : f x ≠ 0) (h : IsGradient f x g) :
    IsGradient (fun y => Real.log (f y)) x (fun i j => (f x)⁻¹ * g i j) :=
  comp (Real.hasDerivAt_log hx) h

theorem sum {ι : Type} {s : Finset ι} {F : ι → Mat r c ℝ → ℝ} {G : ι → Mat r c ℝ}
    (h : ∀ a ∈ s, IsGradient (F a) x (G a)) :
    IsGradient (fun y => ∑ a ∈ s, F a y) x (fun i j => ∑ a ∈ s, G a i j) := by
  classical
  induction s using Finset.induction_on with
  | empty => simpa using const 0
  | insert a s ha ih =>
    simp only [Finset.sum_insert ha]
    exact (h a (mem_insert_self a s)).add (ih fun b hb => h b (mem_insert_of_mem hb))

theorem list_sum {ι : Type} {l : List ι} {F : ι → Mat r c ℝ → ℝ} {G : ι → Mat r c ℝ}
    (h : ∀ a ∈ l, IsGradient (F a) x (G a)) :
    IsGradient (fun y => (l.map fun a => F a y).sum) x (fun i j => (l.map fun a => G a i j).sum) := by
  induction l with
  | nil => simpa using const 0
  | cons a l ih =>
    simp only [List.map_cons, List.sum_cons]
    exact (h a (by simp)).add (ih fun b hb => h b (by simp [hb]))

/-- A single entry. -/
theorem entry (i : Fin r) (j : Fin c) :
    IsGradient (fun y => y i j) x (fun i' j' => if i' = i ∧ j' = j then 1 else 0) := by
  refine ⟨(ContinuousLinearMap.proj (R := ℝ) (φ := fun _ : Fin c => ℝ) j).comp
    (ContinuousLinearMap.proj (R := ℝ) (φ := fun _ : Fin r => Fin c → ℝ) i),
    ContinuousLinearMap.hasFDerivAt ((ContinuousLinearMap.proj (R := ℝ) (φ := fun _ : Fin c => ℝ) j).comp
    (ContinuousLinearMap.proj (R := ℝ) (φ := fun _ : Fin r => Fin c → ℝ) i)), ?_⟩
  intro h
  simp only [ContinuousLinearMap.comp_apply, ContinuousLinearMap.proj_apply, ite_mul, one_mul, zero_mul]
  rw [Finset.sum_eq_single i, Finset.sum_eq_single j]
  · simp
  · intro b _ hb; simp [hb]
  · simp
  · intro b _ hb; simp [hb]
  · simp

/-- The score of a class. -/
theorem score (v : Vec r ℝ) (j : Fin c) :
    IsGradient (fun y => ∑ k, y k j * v k) x (fun i' j' => if j' = j then v i' else 0) := by
  refine (sum (s := univ) (F := fun k y => y k j * v k)
    (G := fun k i' j' => v k * if i' = k ∧ j' = j then 1 else 0) ?_).congr_grad ?_
  · intro k _
    have := (entry (x := x) k j).const_mul (v k)
    simpa only [mul_comm] using this
  · intro i' j'
    rw [Finset.sum_eq_single i']
    · by_cases hj : j' = j <;> simp [hj]
    · intro b _ hb; simp [hb.symm]
    · simp

/-- The sum of the squares of the entries. -/
theorem sumSq : IsGradient (fun y : Mat r c ℝ => ∑ i, ∑ j, y i j ^ 2) x (fun i j => 2 * x i j) := by
  refine (sum (s := univ) (F := fun i y => ∑ j, y i j ^ 2)
    (G := fun i i' j' => ∑ j, 2 * x i j * if i' = i ∧ j' = j then 1 else 0) ?_).congr_grad ?_
  · intro i _
    refine (sum (s := univ) (F := fun j y => y i j ^ 2)
      (G := fun j i' j' => 2 * x i j * if i' = i ∧ j' = j then 1 else 0) ?_)
    intro j _
    refine (comp (φ := fun t => t ^ 2) (hasDerivAt_pow 2 (x i j)) (entry (x := x) i j)).congr_grad ?_
    intro i' j'; simp
  · intro i' j'
    rw [Finset.sum_eq_single i', Finset.sum_eq_single j']
    · simp
    · intro b _ hb; simp [hb.symm]
    · simp
    · intro b _ hb; simp [hb.symm]
    · simp

end IsGradient

end Verif.Optim
