import Verif.Model.Apps
import Verif.Model.EStep

/-
The number of words of a document as the library computes it: `int num_words = X.sum()`, a sum of `int`s of which
neither the order nor the grouping is specified.  Everywhere else the model has the counts as natural numbers and
their sum without limit; here they are what they are in the code, `int`s of either sign.

An addition of two `int`s that leaves the range of `int` is undefined behaviour (`none`).  Eigen may instead add
several `int`s at a time with an instruction of the processor (a packet), and then the result wraps.
-/
namespace Verif.Counts

open MathUtils EStep Apps

variable {K V : ℕ}

/-- A value of type `int` (UnsupervisedEStep.cpp:31-32). -/
def IsInt (x : ℤ) : Prop := intMin ≤ x ∧ x ≤ intMax

instance (x : ℤ) : Decidable (IsInt x) := by unfold IsInt; infer_instance

/-- What an addition of 32 bit integers keeps of a value (`_mm_add_epi32` and the like, by which Eigen evaluates
the sum in UnsupervisedEStep.cpp:32). -/
def wrap (x : ℤ) : ℤ := x.bmod 4294967296

/-- How one addition is done: in C++, or in one lane of a packet (UnsupervisedEStep.cpp:32). -/
inductive Way where
  | plain
  | packet

/-- One addition of `X.sum()` (UnsupervisedEStep.cpp:32). -/
def add (w : Way) (a b : ℤ) : Option ℤ :=
  if IsInt (a + b) then some (a + b)
  else match w with
    | .plain => none
    | .packet => some (wrap (a + b))

/-- What `X.sum()` may give for the counts `l`, if the additions are done in one of the ways `W`: the order and the
grouping of the additions are not specified (UnsupervisedEStep.cpp:32, SupervisedEStep.cpp:31,
FastSupervisedEStep.cpp:36, MultinomialSupervisedEStep.cpp:33, CorrespondenceSupervisedEStep.cpp:31,
SupervisedMStep.cpp:27). -/
inductive Total (W : Set Way) : List ℤ → Option ℤ → Prop
  | nil : Total W [] (some 0)
  | one (x : ℤ) : Total W [x] (some x)
  | add {l l' l'' : List ℤ} {a b : Option ℤ} (w : Way) : w ∈ W → l ≠ [] → l' ≠ [] → Total W l a → Total W l' b →
      l''.Perm (l ++ l') →
      Total W l'' (a.bind fun a => b.bind fun b => Counts.add w a b)

/-- `alpha.array() + static_cast<Scalar>(num_words)/num_topics` (UnsupervisedEStep.cpp:42 and the same line in the
other E steps), over the real numbers. -/
noncomputable def firstGamma (alpha : Vec K ℝ) (num : ℤ) : Vec K ℝ := fun k => alpha k + (num : ℝ) / K

/-- `X.cast<Scalar>() / num_words` (FastSupervisedEStep.cpp:38 and SupervisedEStep.cpp:33), over the real numbers.
-/
noncomputable def shares (X : Vec V ℤ) (num : ℤ) : Vec V ℝ := fun n => (X n : ℝ) / num

end Verif.Counts
