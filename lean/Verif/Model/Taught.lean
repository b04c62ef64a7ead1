import Verif.Model.Lasting

/-
Training with classes: the multinomial and the correspondence steps with the numbers of the machine, epoch after epoch.
-/
namespace Verif.Overflow

open MathUtils EStep Limits Classical

variable {K V C : ℕ} {F : Format}

/-- `SupervisedModelParameters` (Parameters.hpp:46-59) without `alpha`, which is not trained. -/
structure NumParams (K V C : ℕ) where
  beta : Mat K V Num
  eta : Mat K C Num

/-- `b_`, `h_` and `log_py_` of the M steps (MultinomialSupervisedMStep.hpp:40-44, CorrespondenceSupervisedMStep.hpp:69-73). -/
structure NumStats (K V C : ℕ) where
  b : Mat K V Num
  h : Mat K C Num
  log : Num

/-- The end of `doc_m_step` (MultinomialSupervisedMStep.cpp:60-69, CorrespondenceSupervisedMStep.cpp:68-77) with
`phi_scaled_` given. -/
noncomputable def lAdd (L : LogDevice F) (eta : Mat K C Num) (y : Fin C) (scaled : Mat K V Num) (s : NumStats K V C) : NumStats K V C where
  b k n := nAdd F (s.b k n) (scaled k n)
  h k c := if c = y then nAdd F (s.h k c) (L.nsum (scaled k)) else s.h k c
  log := nAdd F s.log (L.nsum fun k => nMul F (L.nsum (scaled k)) (nLog L (eta k y)))

/-- `m_step` (MultinomialSupervisedMStep.cpp:9-29, CorrespondenceSupervisedMStep.cpp:9-29): the parameters.  Rows whose sum
is zero are left as they are (`normalize_rows`, utils.hpp:503-512). -/
noncomputable def lTopics (L : LogDevice F) (mu : ℝ) (s : NumStats K V C) : NumParams K V C where
  beta k := nNormalize L.toDevice (s.b k)
  eta k := nNormalize L.toDevice fun c => nSub F (nAdd F (s.h k c) (.fin mu)) (.fin 1)

/-- The results of the documents, in the order in which they arrive (LDA.cpp:104-120).  `step` is the E step with the
beginning of `doc_m_step`: `phi_scaled_`. -/
noncomputable def lGather (L : LogDevice F) (eta : Mat K C Num) (step : Vec V ℕ × Fin C → Option (Mat K V Num)) :
    List (Vec V ℕ × Fin C) → NumStats K V C → Option (NumStats K V C)
  | [], s => some s
  | d :: docs, s => (step d).bind fun scaled => lGather L eta step docs (lAdd L eta d.2 scaled s)

/-- An epoch (`LDA::partial_fit`, LDA.cpp:90-135): the parameters and what is reported.  Without documents the matrices of
the statistics are empty in the first epoch, which is not modelled. -/
noncomputable def lEpoch (L : LogDevice F) (mu : ℝ) (step : NumParams K V C → Vec V ℕ × Fin C → Option (Mat K V Num))
    (docs : List (Vec V ℕ × Fin C)) (p : NumParams K V C) : Option (NumParams K V C × Num) :=
  if docs = [] then none
  else (lGather L p.eta (step p) docs ⟨fun _ _ => .fin 0, fun _ _ => .fin 0, .fin 0⟩).map fun s => (lTopics L mu s, s.log)

/-- The epochs of `LDA::fit` (LDA.cpp:64-71), each with the order in which the results arrive: the parameters and the
reports. -/
noncomputable def lTrain (L : LogDevice F) (mu : ℝ) (step : NumParams K V C → Vec V ℕ × Fin C → Option (Mat K V Num)) :
    List (List (Vec V ℕ × Fin C)) → NumParams K V C → Option (NumParams K V C × List Num)
  | [], p => some (p, [])
  | docs :: rest, p => (lEpoch L mu step docs p).bind fun r => (lTrain L mu step rest r.1).map fun t => (t.1, r.2 :: t.2)

/-- The multinomial step: `phi_scaled_` (MultinomialSupervisedMStep.cpp:59). -/
noncomputable def mScaled (L : LogDevice F) (alpha : Vec K ℝ) (w tol : ℝ) (iterations : ℕ) (p : NumParams K V C) (d : Vec V ℕ × Fin C) :
    Option (Mat K V Num) :=
  (mRun L d.1 d.2 alpha p.beta p.eta w tol iterations).map fun s => nWeighted F d.1 s.2

/-- The correspondence step: `phi_scaled_` (CorrespondenceSupervisedMStep.cpp:61-67). -/
noncomputable def cScaled (L : LogDevice F) (alpha : Vec K ℝ) (tol : ℝ) (iterations : ℕ) (p : NumParams K V C) (d : Vec V ℕ × Fin C) :
    Option (Mat K V Num) :=
  (cRun L d.1 d.2 alpha p.beta p.eta tol iterations).map fun s => fun k n => nMul F (s.phi k n) (nMul F (toNum F (d.1 n)) (s.tau n))

end Verif.Overflow
