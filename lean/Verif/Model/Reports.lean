import Verif.Model.Labels
import Mathlib.Analysis.SpecialFunctions.Gamma.Basic

/-
The unsupervised expectation step, and the likelihoods that the unsupervised, the multinomial and the correspondence
expectation steps report, with the numbers of the machine.

Simplified: where the code mixes `Scalar` with `double` constants (`mu - 1.0`, `std::log(X.sum())`) all operations are
those of `Scalar`.
-/
namespace Verif.Overflow

open MathUtils EStep Limits Classical

variable {K V C : ℕ} {F : Format}

/-- `compute_unsupervised_phi` (e_step_utils.cpp:291-304). -/
noncomputable def uPhi (D : Device F) (beta : Mat K V Num) (gamma : Vec K Num) : Option (Mat K V Num) :=
  (mapNum (nExp D) fun k => D.npsi (gamma k)).map fun e k n => nNormalize D (fun k => nMul F (beta k n) (e k)) k

/-- The loop of `UnsupervisedEStep::doc_e_step` (UnsupervisedEStep.cpp:46-71). -/
noncomputable def uLoop (D : Device F) (X : Vec V ℕ) (alpha : Vec K ℝ) (beta : Mat K V Num) (tol : ℝ) :
    ℕ → Vec K Num → Vec K Num × Mat K V Num → Option (Vec K Num × Mat K V Num)
  | 0, _, s => some s
  | i + 1, old, s =>
    if nConverged D old s.1 tol then some s
    else (uPhi D beta s.1).bind fun phi => uLoop D X alpha beta tol i s.1 (nGamma F X alpha phi, phi)

/-- `UnsupervisedEStep::doc_e_step` (UnsupervisedEStep.cpp:25-71) without the report. -/
noncomputable def uRun (D : Device F) (X : Vec V ℕ) (alpha : Vec K ℝ) (beta : Mat K V Num) (tol : ℝ) (iterations : ℕ) :
    Option (Vec K Num × Mat K V Num) :=
  uLoop D X alpha beta tol iterations (fun _ => .fin 0) (nFirst F X alpha)

/-- A machine with `std::lgamma` (`CwiseLgamma` in e_step_utils.cpp:18), of which only a crude accuracy is assumed. -/
structure GammaDevice (F : Format) extends LogDevice F where
  lgamma : ℝ → ℝ
  lgamma_err : ∀ x, 0 < x → |lgamma x - Real.log (Real.Gamma x)| ≤ (1 + |Real.log (Real.Gamma x)|) / 1024

variable (G : GammaDevice F)

/-- `std::lgamma` of a number of the machine (e_step_utils.cpp:30, 41, 125 and 164): infinite at the poles and if the
result is too large. -/
noncomputable def nLgamma : Num → Num
  | .fin x => if ∃ n : ℕ, x = -n then .pinf else toNum F (G.lgamma x)
  | .nan => .nan
  | _ => .pinf

/-- `(x + 1e-44).log()` (e_step_utils.cpp:37, 42 and 152). -/
noncomputable def nGuardLog (x : Num) : Num := nLog G.toLogDevice (nAdd F x (toNum F (1 / 10 ^ 44)))

/-- `.sum()` of a matrix (e_step_utils.cpp:37, 42, 120 and 163). -/
noncomputable def nTotal {r c : ℕ} (v : Mat r c Num) : Num :=
  G.nsum fun i : Fin (r * c) => v (finProdFinEquiv.symm i).1 (finProdFinEquiv.symm i).2

/-- `phi.array().rowwise() * (X.array() != 0)` (e_step_utils.cpp:23). -/
noncomputable def nPresent (F : Format) (X : Vec V ℕ) (phi : Mat K V Num) : Mat K V Num := fun k n =>
  nMul F (phi k n) (.fin (if X n ≠ 0 then 1 else 0))

/-- `phi.array().rowwise() * X` (e_step_utils.cpp:36 and 119). -/
noncomputable def nWeighted (F : Format) (X : Vec V ℕ) (phi : Mat K V Num) : Mat K V Num := fun k n =>
  nMul F (phi k n) (toNum F (X n))

/-- `t1` (e_step_utils.cpp:26). -/
noncomputable def nExpected (gamma : Vec K Num) : Vec K Num := fun k => nSub F (G.npsi (gamma k)) (G.npsi (G.nsum gamma))

/-- `compute_unsupervised_likelihood` (e_step_utils.cpp:9-45). -/
noncomputable def uReport (X : Vec V ℕ) (alpha : Vec K ℝ) (beta : Mat K V ℝ) (phi : Mat K V Num) (gamma : Vec K Num) : Num :=
  let t1 := nExpected G gamma
  let phi2 := nPresent F X phi
  let l := nAdd F (.fin 0) (G.nsum fun k => nMul F (nSub F (.fin (alpha k)) (.fin 1)) (t1 k))
  let l := nAdd F l (nSub F (nLgamma G (G.nsum fun k => .fin (alpha k))) (G.nsum fun k => nLgamma G (.fin (alpha k))))
  let l := nAdd F l (G.nsum fun n => G.nsum fun k => nMul F (phi2 k n) (t1 k))
  let l := nAdd F l (nTotal G fun k n => nMul F (nWeighted F X phi k n) (nGuardLog G (.fin (beta k n))))
  let l := nAdd F l (nNeg (G.nsum fun k => nMul F (nSub F (gamma k) (.fin 1)) (t1 k)))
  let l := nAdd F l (nAdd F (nNeg (nLgamma G (G.nsum gamma))) (G.nsum fun k => nLgamma G (gamma k)))
  nAdd F l (nNeg (nTotal G fun k n => nMul F (phi2 k n) (nGuardLog G (phi2 k n))))

/-- `E_q[log p(eta | mu)]` (e_step_utils.cpp:123-125 and 161-164): what is added to the likelihood `l`. -/
noncomputable def nPriorTerms (eta : Mat K C ℝ) (mu portion : ℝ) (l : Num) : Num :=
  nAdd F (nAdd F l (nMul F (nMul F (.fin portion) (nSub F (.fin mu) (.fin 1))) (nTotal G fun k c => nLog G.toLogDevice (.fin (eta k c)))))
    (nMul F (.fin portion) (nSub F (nLgamma G (nMul F (toNum F C) (.fin mu))) (nMul F (toNum F C) (nLgamma G (.fin mu)))))

/-- `compute_supervised_multinomial_likelihood` (e_step_utils.cpp:96-128). -/
noncomputable def mReport (X : Vec V ℕ) (y : Fin C) (alpha : Vec K ℝ) (beta : Mat K V ℝ) (eta : Mat K C ℝ) (prior mu portion : ℝ)
    (phi : Mat K V Num) (gamma : Vec K Num) : Num :=
  let l := uReport G X alpha beta phi gamma
  let l := nAdd F l (nTotal G fun k n => nMul F (nWeighted F X phi k n) (nLog G.toLogDevice (.fin (eta k y))))
  let l := nSub F l (nMul F (toNum F ((numWords X : ℤ) - 1 : ℤ)) (nLog G.toLogDevice (.fin prior)))
  nPriorTerms G eta mu portion l

/-- `compute_supervised_correspondence_likelihood` (e_step_utils.cpp:130-167). -/
noncomputable def cReport (X : Vec V ℕ) (y : Fin C) (alpha : Vec K ℝ) (beta : Mat K V ℝ) (eta : Mat K C ℝ) (mu portion : ℝ)
    (s : NumTriple K V) : Num :=
  let l := uReport G X alpha beta s.phi s.gamma
  let l := nAdd F l (nNeg (G.nsum fun n => nMul F (nMul F (s.tau n) (toNum F (X n))) (nGuardLog G (s.tau n))))
  let l := nAdd F l (nTotal G fun k n => nMul F (nMul F (s.phi k n) (nMul F (toNum F (X n)) (s.tau n))) (nLog G.toLogDevice (.fin (eta k y))))
  let l := nAdd F l (nNeg (nLog G.toLogDevice (toNum F (numWords X))))
  nPriorTerms G eta mu portion l

end Verif.Overflow
