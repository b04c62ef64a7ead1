import Verif.Model.MStep

/-
Classification: `LDA::decision_function`, `LDA::predict` and `LDA::transform_predict`
(src/ldaplusplus/LDA.cpp:179-229).

The variational parameters `gamma` given to `decision_function` are finite; the divisions are those of IEEE
arithmetic, so the scores may be infinite or NaN.
-/
namespace Verif.Decision

open MathUtils MStep

variable {K C D : ℕ}

/-- A column of `expected_z_bar` (LDA.cpp:195-196): `gamma - alpha` over its sum. -/
noncomputable def expectedZ (alpha x : Vec K ℝ) : Vec K (Ieee ℝ) :=
  fun k => quot (x k - alpha k) (∑ j, (x j - alpha j))

/-- Column times column (LDA.cpp:199); Eigen may add the terms in a different order. -/
noncomputable def score (e : Vec K ℝ) (z : Vec K (Ieee ℝ)) : Ieee ℝ :=
  (List.finRange K).foldl (fun a k => a + Ieee.fin (e k) * z k) 0

/-- `decision_function` of the matrix of variational parameters (LDA.cpp:186-200). -/
noncomputable def decisionFunction (alpha : Vec K ℝ) (eta : Mat K C ℝ) (X : Mat K D ℝ) : Mat C D (Ieee ℝ) :=
  fun c d => score (fun k => eta k c) (expectedZ alpha fun k => X k d)

/-- `a > b`: false if one of them is NaN (the comparison in Eigen's `maxCoeff`, used at LDA.cpp:214). -/
noncomputable def gt : Ieee ℝ → Ieee ℝ → Bool
  | .nan, _ => false
  | _, .nan => false
  | .fin a, .fin b => decide (b < a)
  | .pinf, .pinf => false
  | .pinf, _ => true
  | _, .pinf => false
  | .ninf, _ => false
  | .fin _, .ninf => true

/-- `maxCoeff(&index)` (Eigen's max_coeff_visitor, used in LDA.cpp:214): starts at the first coefficient and
moves to a later one if that is greater.  Without coefficients it is undefined. -/
noncomputable def maxIndex : {C : ℕ} → Vec C (Ieee ℝ) → Option (Fin C)
  | 0, _ => none
  | _ + 1, v => some ((List.finRange _).foldl (fun best c => if gt (v c) (v best) then c else best) 0)

/-- `predict` of the matrix of scores (LDA.cpp:209-218). -/
noncomputable def predict (scores : Mat C D (Ieee ℝ)) : Option (List (Fin C)) :=
  (List.finRange D).mapM fun d => maxIndex fun c => scores c d

/-- `transform_predict`, given the result of `transform` (LDA.cpp:221-229). -/
noncomputable def transformPredict (alpha : Vec K ℝ) (eta : Mat K C ℝ) (gammas : Mat K D ℝ) :
    Option (Mat K D ℝ × List (Fin C)) :=
  (predict (decisionFunction alpha eta gammas)).map fun p => (gammas, p)

end Verif.Decision
