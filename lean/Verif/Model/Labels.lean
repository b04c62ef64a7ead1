import Verif.Model.Sweep

/-
The multinomial and the correspondence expectation steps with the numbers of the machine, including infinities and NaN.
Both take logarithms of the class weights `eta`, which are minus infinity for a weight of zero and NaN for a negative one.
Their counterparts over the real numbers are in Verif/Model/EStep.lean.

`none` is undefined behaviour.  Simplification: zeros have no sign.
-/
namespace Verif.Overflow

open MathUtils EStep Rounded Limits Classical

variable {K V C : ℕ} {F : Format}

/-- A machine with `std::log` (`.log()` in e_step_utils.cpp:360, 382 and 398), of which only a crude accuracy is assumed. -/
structure LogDevice (F : Format) extends Device F where
  log : ℝ → ℝ
  log_err : ∀ x, 0 < x → |log x - Real.log x| ≤ (1 + |Real.log x|) / 1024

variable (L : LogDevice F)

/-- The logarithm of a number of the machine (e_step_utils.cpp:360, 382 and 398). -/
noncomputable def nLog : Num → Num
  | .fin x => if 0 < x then .fin (L.log x) else if x = 0 then .ninf else .nan
  | .pinf => .pinf
  | _ => .nan

/-- `eta_weight*eta.col(y).array().log() + t1 - t2` (e_step_utils.cpp:356-360). -/
noncomputable def mExponents (w : ℝ) (ecol : Vec K Num) (gamma : Vec K Num) : Vec K Num := fun k =>
  nSub F (nAdd F (nMul F (.fin w) (nLog L (ecol k))) (L.npsi (gamma k))) (nAdd F (L.npsi (L.nsum gamma)) (.fin 1))

/-- `compute_supervised_multinomial_phi` (e_step_utils.cpp:343-364). -/
noncomputable def mPhi (y : Fin C) (beta : Mat K V Num) (eta : Mat K C Num) (w : ℝ) (gamma : Vec K Num) : Option (Mat K V Num) :=
  (mapNum (nExp L.toDevice) (mExponents L w (fun k => eta k y) gamma)).map fun e k n =>
    nNormalize L.toDevice (fun k => nMul F (beta k n) (e k)) k

/-- The loop of `MultinomialSupervisedEStep::doc_e_step` (MultinomialSupervisedEStep.cpp:56-75): the result after at most
`i` more passes.  `tol` is what `converged` is given. -/
noncomputable def mLoop (X : Vec V ℕ) (y : Fin C) (alpha : Vec K ℝ) (beta : Mat K V Num) (eta : Mat K C Num) (w tol : ℝ) :
    ℕ → Vec K Num → Vec K Num × Mat K V Num → Option (Vec K Num × Mat K V Num)
  | 0, _, s => some s
  | i + 1, old, s =>
    if nConverged L.toDevice old s.1 tol then some s
    else (mPhi L y beta eta w s.1).bind fun phi => mLoop X y alpha beta eta w tol i s.1 (nGamma F X alpha phi, phi)

/-- `MultinomialSupervisedEStep::doc_e_step` (MultinomialSupervisedEStep.cpp:25-75) without the report. -/
noncomputable def mRun (X : Vec V ℕ) (y : Fin C) (alpha : Vec K ℝ) (beta : Mat K V Num) (eta : Mat K C Num) (w tol : ℝ)
    (iterations : ℕ) : Option (Vec K Num × Mat K V Num) :=
  mLoop L X y alpha beta eta w tol iterations (fun _ => .fin 0) (nFirst F X alpha)

/-- `unaryExpr` of a matrix (e_step_utils.cpp:382). -/
noncomputable def mapMat (f : Num → Option Num) (m : Mat K V Num) : Option (Mat K V Num) :=
  if h : ∀ k n, (f (m k n)).isSome then some fun k n => (f (m k n)).get (h k n) else none

/-- `compute_supervised_correspondence_phi` (e_step_utils.cpp:366-385). -/
noncomputable def cPhi (y : Fin C) (beta : Mat K V Num) (eta : Mat K C Num) (gamma : Vec K Num) (tau : Vec V Num) :
    Option (Mat K V Num) :=
  (mapNum (nExp L.toDevice) fun k => L.npsi (gamma k)).bind fun e =>
  (mapMat (nExp L.toDevice) fun k n => nMul F (nLog L (eta k y)) (tau n)).map fun t k n =>
    nNormalize L.toDevice (fun k => nMul F (nMul F (beta k n) (e k)) (t k n)) k

/-- `compute_supervised_correspondence_tau` (e_step_utils.cpp:387-402). -/
noncomputable def cTau (y : Fin C) (eta : Mat K C Num) (phi : Mat K V Num) : Option (Vec V Num) :=
  (mapNum (nExp L.toDevice) fun n => L.nsum fun k => nMul F (phi k n) (nLog L (eta k y))).map fun e =>
    nNormalize L.toDevice e

/-- What the correspondence step computes: `gamma`, `phi` and `tau` (CorrespondenceSupervisedEStep.cpp:47-49). -/
structure NumTriple (K V : ℕ) where
  gamma : Vec K Num
  phi : Mat K V Num
  tau : Vec V Num

/-- The loop of `CorrespondenceSupervisedEStep::doc_e_step` (CorrespondenceSupervisedEStep.cpp:54-83). -/
noncomputable def cLoop (X : Vec V ℕ) (y : Fin C) (alpha : Vec K ℝ) (beta : Mat K V Num) (eta : Mat K C Num) (tol : ℝ) :
    ℕ → Vec K Num → NumTriple K V → Option (NumTriple K V)
  | 0, _, s => some s
  | i + 1, old, s =>
    if nConverged L.toDevice old s.gamma tol then some s
    else (cPhi L y beta eta s.gamma s.tau).bind fun phi => (cTau L y eta phi).bind fun tau =>
      cLoop X y alpha beta eta tol i s.gamma ⟨nGamma F X alpha phi, phi, tau⟩

/-- `CorrespondenceSupervisedEStep::doc_e_step` (CorrespondenceSupervisedEStep.cpp:25-83) without the report. -/
noncomputable def cRun (X : Vec V ℕ) (y : Fin C) (alpha : Vec K ℝ) (beta : Mat K V Num) (eta : Mat K C Num) (tol : ℝ)
    (iterations : ℕ) : Option (NumTriple K V) :=
  cLoop L X y alpha beta eta tol iterations (fun _ => .fin 0)
    ⟨(nFirst F X alpha).1, (nFirst F X alpha).2, fun _ => toNum F (fl double (1 / V))⟩

end Verif.Overflow
