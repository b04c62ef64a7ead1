import Verif.Model.EStep

/-! Model of `SemiSupervisedEStep` as a function of the document and the model parameters. -/
namespace Verif.EStep

open MathUtils

variable {K V C : ℕ}

/-- The documents that `SemiSupervisedEStep` gives to its two steps, with the steps that the builder uses by default: LDA
without a class, fast supervised LDA with one (SemiSupervisedEStep.cpp:29-39, LDABuilder.cpp:95-110).  The events are
modelled in `Model/Semi.lean`. -/
noncomputable def semiResult (P : Prims) (cfg ucfg : Cfg) (t : FastState) (X : Vec V ℕ) (y : ℤ)
    (m : Model K V C) : Option (VP K V) :=
  if y < 0 then unsupervisedRun P ucfg X m else fastRun P cfg t.weight X y m

end Verif.EStep
