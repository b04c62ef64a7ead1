import Verif.Model.Overflow

/-
The supervised expectation step (`compute_supervised_phi_gamma`) with the numbers of the machine, including infinities
and NaN.  Its counterpart over the real numbers is in Verif/Model/EStep.lean.

`none` is undefined behaviour.  Simplification: zeros have no sign.
-/
namespace Verif.Overflow

open MathUtils EStep Rounded Limits Classical

variable {K V C : ℕ} {F : Format} (D : Device F)

/-- The conversion of a `double` to `Scalar` (e_step_utils.cpp:255). -/
noncomputable def convert (F : Format) : Num → Num
  | .fin x => toNum F x
  | x => x

/-- `exp_eta_scaled = (eta * X_ratio[n]).unaryExpr(cwise_fast_exp)` (e_step_utils.cpp:233 and 243). -/
noncomputable def nExpEta (X : Vec V ℕ) (eta : Mat K C ℝ) (n : Fin V) : Option (Mat K C Num) :=
  let e : Mat K C (Option Num) := fun k c => nExp D (nMul F (.fin (eta k c)) (nRatio F X n))
  if h : ∀ k c, (e k c).isSome then some fun k c => (e k c).get (h k c) else none

/-- `exp_eta_scaled.transpose() * phi.col(n)` (e_step_utils.cpp:235, 247 and 268). -/
noncomputable def nFactor (e : Mat K C Num) (col : Vec K Num) : Vec C Num := fun c => D.nsum fun k => nMul F (e k c) (col k)

/-- The products over all words of the vocabulary (e_step_utils.cpp:232-236). -/
noncomputable def nProducts (X : Vec V ℕ) (eta : Mat K C ℝ) (phi : Mat K V Num) : List (Fin V) → Vec C Num → Option (Vec C Num)
  | [], p => some p
  | n :: ns, p => (nExpEta D X eta n).bind fun e =>
      nProducts X eta phi ns fun c => nMul F (p c) (nFactor D e (fun k => phi k n) c)

/-- One fixed point iteration on the column of a word (e_step_utils.cpp:254-265).  `1.` is a `double`, so that `t` is
computed in `double`. -/
noncomputable def nFixedPoint (x : ℕ) (xr : Num) (bcol ey : Vec K ℝ) (psi h col : Vec K Num) : Option (Vec K Num) :=
  let t := convert F (nDiv double (nDiv double (.fin 1) (D.nsum fun k => nMul F (h k) (col k))) (toNum double x))
  (mapNum (nExp D) fun k => nSub F (nAdd F (psi k) (nMul F xr (.fin (ey k)))) (nMul F (h k) t)).map fun e =>
    let new : Vec K Num := fun k => nMul F (.fin (bcol k)) (e k)
    fun k => nDiv F (new k) (D.nsum new)

/-- The fixed point loop (e_step_utils.cpp:254-265). -/
noncomputable def nFixedPoints (x : ℕ) (xr : Num) (bcol ey : Vec K ℝ) (psi h : Vec K Num) : ℕ → Vec K Num → Option (Vec K Num)
  | 0, col => some col
  | i + 1, col => (nFixedPoint D x xr bcol ey psi h col).bind (nFixedPoints x xr bcol ey psi h i)

/-- What the loop over the words changes (e_step_utils.cpp:226-237); `h` is not kept, since it is computed anew for
every word. -/
structure NumSweep (K V C : ℕ) where
  phi : Mat K V Num
  gamma : Vec K Num
  psi : Vec K Num
  products : Vec C Num

/-- The body of the loop over the words (e_step_utils.cpp:239-273). -/
noncomputable def nSweepWord (X : Vec V ℕ) (y : Fin C) (beta : Mat K V ℝ) (eta : Mat K C ℝ) (fp : ℕ) (s : NumSweep K V C)
    (n : Fin V) : Option (NumSweep K V C) :=
  if X n = 0 then some s
  else
    (nExpEta D X eta n).bind fun e =>
    let p : Vec C Num := fun c => nDiv F (s.products c) (nFactor D e (fun k => s.phi k n) c)
    let h : Vec K Num := fun k => D.nsum fun c => nMul F (e k c) (p c)
    (nFixedPoints D (X n) (nRatio F X n) (fun k => beta k n) (fun k => eta k y) s.psi h fp fun k => s.phi k n).map fun col =>
    let gamma : Vec K Num := fun k => nAdd F (s.gamma k) (nMul F (toNum F (X n)) (nSub F (col k) (s.phi k n)))
    { phi := fun k => Function.update (s.phi k) n (col k), gamma := gamma, psi := fun k => D.npsi (gamma k),
      products := fun c => nMul F (p c) (nFactor D e col c) }

/-- The loop over the words (e_step_utils.cpp:239-273). -/
noncomputable def nSweepWords (X : Vec V ℕ) (y : Fin C) (beta : Mat K V ℝ) (eta : Mat K C ℝ) (fp : ℕ) :
    List (Fin V) → NumSweep K V C → Option (NumSweep K V C)
  | [], s => some s
  | n :: ns, s => (nSweepWord D X y beta eta fp s n).bind (nSweepWords X y beta eta fp ns)

/-- `compute_supervised_phi_gamma` (e_step_utils.cpp:211-274): `gamma` and `phi` are read and replaced. -/
noncomputable def nPhiGamma (X : Vec V ℕ) (y : Fin C) (beta : Mat K V ℝ) (eta : Mat K C ℝ) (fp : ℕ)
    (s : Vec K Num × Mat K V Num) : Option (Vec K Num × Mat K V Num) :=
  (nProducts D X eta s.2 (List.finRange V) fun _ => .fin 1).bind fun p =>
  (nSweepWords D X y beta eta fp (List.finRange V) ⟨s.2, s.1, fun k => D.npsi (s.1 k), p⟩).map fun r => (r.gamma, r.phi)

/-- The absolute value (AbstractEStep.cpp:18). -/
noncomputable def nAbs : Num → Num
  | .fin x => .fin |x|
  | .ninf => .pinf
  | z => z

/-- `AbstractEStep::converged` (AbstractEStep.cpp:12-21): a comparison with NaN is false.  Only whether the loop may be
left with NaN in `gamma` matters here; Verif/Model/EStep.lean has the test on real numbers. -/
noncomputable def nConverged (old new : Vec K Num) (tol : ℝ) : Bool :=
  match nDiv F (D.nsum fun k => nAbs (nSub F (old k) (new k))) (toNum F K) with
  | .fin x => decide (x < tol)
  | .ninf => true
  | _ => false

/-- The loop of `SupervisedEStep::doc_e_step` (SupervisedEStep.cpp:46-73): the result after at most `i` more passes. -/
noncomputable def nSupervisedLoop (X : Vec V ℕ) (y : Fin C) (beta : Mat K V ℝ) (eta : Mat K C ℝ) (fp : ℕ) (tol : ℝ) :
    ℕ → Vec K Num → Vec K Num × Mat K V Num → Option (Vec K Num × Mat K V Num)
  | 0, _, s => some s
  | i + 1, old, s =>
    if nConverged D old s.1 tol then some s
    else (nPhiGamma D X y beta eta fp s).bind (nSupervisedLoop X y beta eta fp tol i s.1)

/-- `SupervisedEStep::doc_e_step` (SupervisedEStep.cpp:24-73) without the report. -/
noncomputable def nSupervisedRun (X : Vec V ℕ) (y : Fin C) (alpha : Vec K ℝ) (beta : Mat K V ℝ) (eta : Mat K C ℝ) (fp : ℕ)
    (tol : ℝ) (iterations : ℕ) : Option (Vec K Num × Mat K V Num) :=
  nSupervisedLoop D X y beta eta fp tol iterations (fun _ => .fin 0) (nFirst F X alpha)

end Verif.Overflow
