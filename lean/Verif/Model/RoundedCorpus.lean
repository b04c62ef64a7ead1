import Verif.Model.Rounded
import Verif.Model.Corpus

/-
The class priors of `EigenClassificationCorpus` in floating point (src/ldaplusplus/Document.cpp:93-107): the vector
`priors_` is one of `float`, whichever the type `Scalar` of the library is (Document.hpp:246).
-/
namespace Verif.Rounded

/-- `priors_[y_[i]] ++` (Document.cpp:104). -/
noncomputable def rIncr (fl : ℝ → ℝ) (v : List ℝ) (i : ℤ) : Option (List ℝ) :=
  if i < 0 then none
  else
    match v[i.toNat]? with
    | none => none
    | some a => some (v.set i.toNat (fl (a + 1)))

/-- The counting loop (Document.cpp:103-105). -/
noncomputable def rCount (fl : ℝ → ℝ) (v : List ℝ) : List ℤ → Option (List ℝ)
  | [] => some v
  | l :: ls =>
    match rIncr fl v l with
    | none => none
    | some v' => rCount fl v' ls

/-- `a / s` as an operator on arrays: older versions of Eigen multiply by the reciprocal (`/=` in Document.cpp:106). -/
def Quotient (fl : ℝ → ℝ) (a s q : ℝ) : Prop := q = fl (a / s) ∨ q = fl (a * fl (1 / s))

/-- A value that the constructor may compute for `priors_` (Document.cpp:100-106); the order of the sum is not
specified. -/
def RPriors (fl : ℝ → ℝ) (y : List ℤ) (out : List ℝ) : Prop :=
  ∃ (m : ℤ) (v : List ℝ) (s : ℝ), Corpus.maxCoeff y = some m ∧ 0 ≤ m + 1 ∧
    rCount fl (List.replicate (m + 1).toNat 0) y = some v ∧ Summation fl v s ∧ s ≠ 0 ∧
    List.Forall₂ (fun a q => Quotient fl a s q) v out

end Verif.Rounded
