import Verif.Model.Optim
import Mathlib.Analysis.Calculus.FDeriv.Basic

/-! What the optimisers and the objectives are meant to compute. -/
namespace Verif.Optim

open MathUtils Finset

variable {r c K C : ℕ}

/-- `g` is the matrix of partial derivatives of `f` at `x`, where `f` is differentiable. -/
def IsGradient (f : Mat r c ℝ → ℝ) (x g : Mat r c ℝ) : Prop :=
  ∃ f' : (Mat r c ℝ) →L[ℝ] ℝ, HasFDerivAt f f' x ∧ ∀ h, f' h = ∑ i, ∑ j, g i j * h i j

/-- The Armijo condition for the step `a`: `f (x - a p) ≤ f x - a b ⟨g, p⟩`. -/
def Acceptable (f : Mat r c ℝ → Option ℝ) (x g p : Mat r c ℝ) (b a : ℝ) : Prop :=
  ∃ v0 v, f x = some v0 ∧ f (fun i j => x i j - a * p i j) = some v ∧
    v ≤ v0 - a * b * ∑ i, ∑ j, g i j * p i j

/-- The documented objective of multinomial logistic regression
(MultinomialLogisticRegression.hpp:49-57): class weights `w`, penalty `L`. -/
noncomputable def logisticObjective (data : List (Vec K ℝ × Fin C)) (w : Fin C → ℝ) (L : ℝ)
    (eta : Mat K C ℝ) : ℝ :=
  - (data.map fun d => w d.2 * ((∑ k, eta k d.2 * d.1 k) -
      Real.log (∑ c, Real.exp (∑ k, eta k c * d.1 k)))).sum + L / 2 * ∑ k, ∑ c, eta k c ^ 2

/-- The documented objective of the second order approximation
(SecondOrderLogisticRegressionApproximation.hpp). -/
noncomputable def secondObjective (data : List (Vec K ℝ × Mat K K ℝ × Fin C)) (w : Fin C → ℝ) (L : ℝ)
    (eta : Mat K C ℝ) : ℝ :=
  - (data.map fun d => w d.2.2 * ((∑ k, eta k d.2.2 * d.1 k) -
      Real.log (∑ c, Real.exp (∑ k, eta k c * d.1 k) *
        (1 + 1 / 2 * ∑ k, ∑ l, eta k c * d.2.1 k l * eta l c)))).sum + L / 2 * ∑ k, ∑ c, eta k c ^ 2

/-- `u^T V u ≥ 0` for every `u`. -/
def PSD (V : Mat K K ℝ) : Prop := ∀ u : Vec K ℝ, 0 ≤ ∑ k, ∑ l, u k * V k l * u l

/-- The class weights given by a vector are finite and as stated for the classes that occur. -/
def Weighs (Cy : List (Option ℝ)) (w : Fin C → ℝ) (ys : List (Fin C)) : Prop :=
  ∀ c ∈ ys, Cy[(c : ℕ)]? = some (some (w c))

end Verif.Optim
