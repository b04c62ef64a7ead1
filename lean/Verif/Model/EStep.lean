import Verif.Model.MathUtils
import Verif.Model.FastExp
import Mathlib.Analysis.SpecialFunctions.Gamma.Basic

/-
Model of the expectation steps: src/ldaplusplus/e_step_utils.cpp and src/ldaplusplus/em/*EStep.cpp.

Arithmetic is over the real numbers.  Matrices and vectors are functions (`Verif.MathUtils`).  The
exponential and the digamma function are parameters (`Prims`), so that the results hold for
`fast_exp` and `digamma` as they are (`fastPrims`, in Verif/Lemmas/EStep.lean) and for exact ones.

`none` as the result of a computation stands for undefined behaviour (a column out of range, an
uninitialised vector) or for an arithmetic operation without a real result (division by zero,
logarithm of a number that is not positive).  Word counts are natural numbers: `VectorXi` could hold
negative ones, which no document has.
-/
namespace Verif.EStep

open MathUtils Finset

/-- The functions used componentwise, `fast_exp` and `digamma` (include/ldaplusplus/utils.hpp:360-404).
`digamma` divides by zero for some arguments. -/
structure Prims where
  exp : ℝ → ℝ
  psi : ℝ → Option ℝ
  exp_pos : ∀ x, 0 < exp x
  exp_zero : exp 0 = 1
  psi_some : ∀ x, 0 < x → ∃ v, psi x = some v

variable {K V C : ℕ}

open Classical in
/-- `v.unaryExpr(f)` for a function that may fail (e.g. e_step_utils.cpp:26). -/
noncomputable def mapOpt {n : ℕ} (f : ℝ → Option ℝ) (v : Vec n ℝ) : Option (Vec n ℝ) :=
  if h : ∀ i, (f (v i)).isSome then some fun i => (f (v i)).get (h i) else none

open Classical in
/-- `std::log`, or Eigen's `log()`, of a number (e_step_utils.cpp:91, 120, 360, 382). -/
noncomputable def logc (x : ℝ) : Option ℝ := if 0 < x then some (Real.log x) else none

/-- `m.col(y)`: reading outside the matrix is undefined (e_step_utils.cpp:90, 257, 336, 360, 382). -/
def colAt {r c : ℕ} (m : Mat r c ℝ) (y : ℤ) : Option (Vec r ℝ) :=
  if h : 0 ≤ y ∧ y < c then some fun k => m k ⟨y.toNat, by omega⟩ else none

/-- `m.maxCoeff()`: undefined for an empty matrix (e_step_utils.cpp:331). -/
noncomputable def maxCoeff {r c : ℕ} (m : Mat r c ℝ) : Option ℝ :=
  if h : (univ : Finset (Fin r × Fin c)).Nonempty then some (univ.sup' h fun p => m p.1 p.2) else none

/-- `X.sum()` (e.g. UnsupervisedEStep.cpp:32). -/
def numWords (X : Vec V ℕ) : ℕ := ∑ n, X n

/-- `X.cast<Scalar>() / num_words` (e.g. FastSupervisedEStep.cpp:38).  For a document without words
the code has NaN in all places, and so nothing may be concluded from the value here. -/
noncomputable def ratio (X : Vec V ℕ) : Vec V ℝ := fun n => (X n : ℝ) / numWords X

/-! ### e_step_utils -/

/-- `compute_gamma` (e_step_utils.cpp:276-289). -/
noncomputable def computeGamma (X : Vec V ℕ) (alpha : Vec K ℝ) (phi : Mat K V ℝ) : Vec K ℝ :=
  sumColsScaled phi (fun n => (X n : ℝ)) alpha

/-- `compute_unsupervised_phi` (e_step_utils.cpp:291-304). -/
noncomputable def unsupervisedPhi (P : Prims) (beta : Mat K V ℝ) (gamma : Vec K ℝ) :
    Option (Mat K V ℝ) :=
  (mapOpt P.psi gamma).map fun psi => normalizeCols fun k n => beta k n * P.exp (psi k)

/-- `softmax_eta_z` (e_step_utils.cpp:325-329). -/
noncomputable def softmaxEtaZ (P : Prims) (Xr : Vec V ℝ) (eta : Mat K C ℝ) (phi : Mat K V ℝ) :
    Option (Vec C ℝ) :=
  let z := sumColsScaled phi Xr (fun _ => 0)
  let s : Vec C ℝ := fun c => P.exp (∑ k, eta k c * z k)
  if (∑ c, s c) = 0 then none else some fun c => s c / ∑ c, s c

/-- `eta_scaled` (e_step_utils.cpp:331-334). -/
noncomputable def etaScaled (eta : Mat K C ℝ) : Option (Mat K C ℝ) :=
  (maxCoeff eta).map fun m => if 0 < m then fun k c => eta k c / m else eta

/-- `compute_supervised_approximate_phi` (e_step_utils.cpp:306-341); `phi` is read and replaced. -/
noncomputable def approximatePhi (P : Prims) (Xr : Vec V ℝ) (nw : ℕ) (y : ℤ) (beta : Mat K V ℝ)
    (eta : Mat K C ℝ) (gamma : Vec K ℝ) (w : ℝ) (phi : Mat K V ℝ) : Option (Mat K V ℝ) :=
  if nw = 0 then some phi
  else
    (mapOpt P.psi gamma).bind fun psi =>
    (softmaxEtaZ P Xr eta phi).bind fun sm =>
    (etaScaled eta).bind fun es =>
    (colAt es y).bind fun ey =>
    some (normalizeCols fun k n =>
      beta k n * P.exp (psi k + w * (ey k - ∑ c, es k c * sm c)))

/-- `compute_supervised_multinomial_phi` (e_step_utils.cpp:343-364). -/
noncomputable def multinomialPhi (P : Prims) (y : ℤ) (beta : Mat K V ℝ) (eta : Mat K C ℝ)
    (gamma : Vec K ℝ) (etaWeight : ℝ) : Option (Mat K V ℝ) :=
  (mapOpt P.psi gamma).bind fun t1 =>
  (P.psi (∑ k, gamma k)).bind fun d =>
  (colAt eta y).bind fun ey =>
  (mapOpt logc ey).bind fun le =>
  some (normalizeCols fun k n => beta k n * P.exp (etaWeight * le k + t1 k - (d + 1)))

/-- `compute_supervised_correspondence_phi` (e_step_utils.cpp:366-385). -/
noncomputable def correspondencePhi (P : Prims) (y : ℤ) (beta : Mat K V ℝ) (eta : Mat K C ℝ)
    (gamma : Vec K ℝ) (tau : Vec V ℝ) : Option (Mat K V ℝ) :=
  (mapOpt P.psi gamma).bind fun t1 =>
  (colAt eta y).bind fun ey =>
  (mapOpt logc ey).bind fun le =>
  some (normalizeCols fun k n => beta k n * P.exp (t1 k) * P.exp (le k * tau n))

/-- `compute_supervised_correspondence_tau` (e_step_utils.cpp:387-402); `tau` is normalised as a
matrix with one column. -/
noncomputable def correspondenceTau (P : Prims) (y : ℤ) (eta : Mat K C ℝ) (phi : Mat K V ℝ) :
    Option (Vec V ℝ) :=
  (colAt eta y).bind fun ey =>
  (mapOpt logc ey).bind fun le =>
  some fun n => normalizeCols (fun n (_ : Fin 1) => P.exp (∑ k, phi k n * le k)) n 0

/-- `(exp_eta_scaled.transpose() * phi.col(n))[c]` with
`exp_eta_scaled = (eta * X_ratio[n]).unaryExpr(cwise_fast_exp)` (e.g. e_step_utils.cpp:233-235). -/
noncomputable def factor (P : Prims) (Xr : Vec V ℝ) (eta : Mat K C ℝ) (phi : Mat K V ℝ) (n : Fin V)
    (c : Fin C) : ℝ :=
  ∑ k, P.exp (eta k c * Xr n) * phi k n

open Classical in
/-- `products.array() /= ...` (e_step_utils.cpp:203 and 247). -/
noncomputable def divide (products f : Vec C ℝ) : Option (Vec C ℝ) :=
  if ∀ c, f c ≠ 0 then some fun c => products c / f c else none

/-- `exp_eta_scaled * products` (e_step_utils.cpp:206 and 250). -/
noncomputable def hOf (P : Prims) (Xr : Vec V ℝ) (eta : Mat K C ℝ) (products : Vec C ℝ) (n : Fin V) :
    Vec K ℝ :=
  fun k => ∑ c, P.exp (eta k c * Xr n) * products c

/-- `compute_h` (e_step_utils.cpp:169-209).  `h` is left as it is if there is no word; `none` is an
uninitialised vector.  `none` as the whole result is a division by zero. -/
noncomputable def computeH (P : Prims) (X : Vec V ℕ) (Xr : Vec V ℝ) (eta : Mat K C ℝ)
    (phi : Mat K V ℝ) (h : Option (Vec K ℝ)) : Option (Option (Vec K ℝ)) :=
  let products : Vec C ℝ := (List.finRange V).foldl
    (fun p n => if X n = 0 then p else fun c => p c * factor P Xr eta phi n c) (fun _ => 1)
  match (List.finRange V).reverse.find? (fun n => X n ≠ 0) with
  | none => some h
  | some n => (divide products (factor P Xr eta phi n)).map fun p => some (hOf P Xr eta p n)

/-- One fixed point iteration (e_step_utils.cpp:255-264), on the column of the word. -/
noncomputable def fixedPoint (P : Prims) (x : ℕ) (xr : ℝ) (bcol ey psi h col : Vec K ℝ) :
    Option (Vec K ℝ) :=
  if (∑ k, h k * col k) = 0 then none
  else
    let t := 1 / (∑ k, h k * col k) / x
    let new : Vec K ℝ := fun k => bcol k * P.exp (psi k + xr * ey k - h k * t)
    if (∑ k, new k) = 0 then none else some fun k => new k / ∑ k, new k

/-- The fixed point loop (e_step_utils.cpp:254-265). -/
noncomputable def fixedPoints (P : Prims) (x : ℕ) (xr : ℝ) (bcol ey psi h : Vec K ℝ) :
    ℕ → Vec K ℝ → Option (Vec K ℝ)
  | 0, col => some col
  | i + 1, col => (fixedPoint P x xr bcol ey psi h col).bind (fixedPoints P x xr bcol ey psi h i)

/-- What the loop over the words in `compute_supervised_phi_gamma` changes (e_step_utils.cpp:211-237). -/
structure Sweep (K V C : ℕ) where
  phi : Mat K V ℝ
  gamma : Vec K ℝ
  psi : Vec K ℝ
  products : Vec C ℝ
  h : Option (Vec K ℝ)

/-- `phi.col(n) = v` (e_step_utils.cpp:257-264). -/
def setCol (phi : Mat K V ℝ) (n : Fin V) (v : Vec K ℝ) : Mat K V ℝ :=
  fun k => Function.update (phi k) n (v k)

/-- The body of the loop over the words (e_step_utils.cpp:239-273). -/
noncomputable def sweepWord (P : Prims) (X : Vec V ℕ) (Xr : Vec V ℝ) (beta : Mat K V ℝ)
    (eta : Mat K C ℝ) (ey : Vec K ℝ) (fp : ℕ) (s : Sweep K V C) (n : Fin V) : Option (Sweep K V C) :=
  if X n = 0 then some s
  else
    (divide s.products (factor P Xr eta s.phi n)).bind fun p =>
    let h := hOf P Xr eta p n
    (fixedPoints P (X n) (Xr n) (fun k => beta k n) ey s.psi h fp (fun k => s.phi k n)).bind fun col =>
    let phi := setCol s.phi n col
    let gamma : Vec K ℝ := fun k => s.gamma k + X n * (col k - s.phi k n)
    (mapOpt P.psi gamma).bind fun psi =>
    some { phi := phi, gamma := gamma, psi := psi,
           products := fun c => p c * factor P Xr eta phi n c, h := some h }

/-- The loop over the words (e_step_utils.cpp:239-273). -/
noncomputable def sweepWords (P : Prims) (X : Vec V ℕ) (Xr : Vec V ℝ) (beta : Mat K V ℝ)
    (eta : Mat K C ℝ) (ey : Vec K ℝ) (fp : ℕ) : List (Fin V) → Sweep K V C → Option (Sweep K V C)
  | [], s => some s
  | n :: ns, s => (sweepWord P X Xr beta eta ey fp s n).bind (sweepWords P X Xr beta eta ey fp ns)

/-- The variational parameters of a document
(include/ldaplusplus/Parameters.hpp, `VariationalParameters`). -/
structure VP (K V : ℕ) where
  phi : Mat K V ℝ
  gamma : Vec K ℝ

/-- `compute_supervised_phi_gamma` (e_step_utils.cpp:211-274): the new `phi` and `gamma`, and `h`.
The column of `eta` is taken only when a word is processed; it is taken at the beginning here, so that
a class out of range is undefined even for a document without words. -/
noncomputable def supervisedPhiGamma (P : Prims) (X : Vec V ℕ) (Xr : Vec V ℝ) (y : ℤ)
    (beta : Mat K V ℝ) (eta : Mat K C ℝ) (fp : ℕ) (s : VP K V × Option (Vec K ℝ)) :
    Option (VP K V × Option (Vec K ℝ)) :=
  (mapOpt P.psi s.1.gamma).bind fun psi =>
  (colAt eta y).bind fun ey =>
  let products : Vec C ℝ := (List.finRange V).foldl
    (fun p n c => p c * factor P Xr eta s.1.phi n c) (fun _ => 1)
  (sweepWords P X Xr beta eta ey fp (List.finRange V)
    { phi := s.1.phi, gamma := s.1.gamma, psi := psi, products := products, h := s.2 }).map fun r =>
    (⟨r.phi, r.gamma⟩, r.h)

/-! ### Likelihoods -/

/-- The likelihood carried by an `ExpectationProgressEvent`; `nan` is anything but a real number
(ProgressEvents.hpp:17-31). -/
inductive Report where
  | nan
  | value (x : ℝ)

/-- `std::lgamma` (e_step_utils.cpp:30). -/
noncomputable def lgamma (x : ℝ) : ℝ := Real.log (Real.Gamma x)

/-- The constant added inside the logarithms, `1e-44` (e_step_utils.cpp:37, 42, 152). -/
noncomputable def tiny : ℝ := 1 / 10 ^ 44

/-- `compute_unsupervised_likelihood` (e_step_utils.cpp:9-45).  `none` if `digamma` fails. -/
noncomputable def unsupervisedLikelihood (P : Prims) (X : Vec V ℕ) (alpha : Vec K ℝ)
    (beta phi : Mat K V ℝ) (gamma : Vec K ℝ) : Option ℝ :=
  let phi2 : Mat K V ℝ := fun k n => phi k n * (if X n ≠ 0 then 1 else 0)
  (mapOpt P.psi gamma).bind fun pg =>
  (P.psi (∑ k, gamma k)).bind fun ps =>
  let t1 : Vec K ℝ := fun k => pg k - ps
  some (
    (∑ k, (alpha k - 1) * t1 k)
    + (lgamma (∑ k, alpha k) - ∑ k, lgamma (alpha k))
    + (∑ n, ∑ k, phi2 k n * t1 k)
    + (∑ n, ∑ k, phi k n * X n * Real.log (beta k n + tiny))
    + -(∑ k, (gamma k - 1) * t1 k)
    + (-lgamma (∑ k, gamma k) + ∑ k, lgamma (gamma k))
    + -(∑ n, ∑ k, phi2 k n * Real.log (phi2 k n + tiny)))

/-- A number, or none (NaN for the event of e.g. UnsupervisedEStep.cpp:80-88). -/
def Report.ofOption : Option ℝ → Report
  | none => .nan
  | some x => .value x

/-- `compute_supervised_likelihood` with `h` (e_step_utils.cpp:65-94).  `none` is undefined behaviour:
a class out of range, the column `-1` of `phi` if there are no words, an uninitialised `h`. -/
noncomputable def supervisedLikelihood (P : Prims) (X : Vec V ℕ) (y : ℤ) (alpha : Vec K ℝ)
    (beta : Mat K V ℝ) (eta : Mat K C ℝ) (phi : Mat K V ℝ) (gamma : Vec K ℝ) (h : Option (Vec K ℝ)) :
    Option Report :=
  (colAt eta y).bind fun ey =>
  ((List.finRange V).reverse.find? (fun n => 0 < X n)).bind fun n =>
  h.bind fun h =>
  some (.ofOption (
    (unsupervisedLikelihood P X alpha beta phi gamma).bind fun l =>
    (logc (∑ k, h k * phi k n)).bind fun lh =>
    some (l + (∑ n, (∑ k, ey k * phi k n) * X n) / numWords X + -lh)))

/-- `compute_supervised_likelihood` without `h` (e_step_utils.cpp:48-64).  If `h` is not a number then
neither is the result. -/
noncomputable def supervisedLikelihood' (P : Prims) (X : Vec V ℕ) (y : ℤ) (alpha : Vec K ℝ)
    (beta : Mat K V ℝ) (eta : Mat K C ℝ) (phi : Mat K V ℝ) (gamma : Vec K ℝ) : Option Report :=
  match computeH P X (ratio X) eta phi none with
  | none => (colAt eta y).map fun _ => .nan
  | some h => supervisedLikelihood P X y alpha beta eta phi gamma h

open Classical in
/-- `eta.array().log().sum()` (e_step_utils.cpp:124 and 163). -/
noncomputable def sumLogs (eta : Mat K C ℝ) : Option ℝ :=
  if ∀ k c, 0 < eta k c then some (∑ k, ∑ c, Real.log (eta k c)) else none

/-- `compute_supervised_multinomial_likelihood` (e_step_utils.cpp:96-128).  `none` is a class out of
range. -/
noncomputable def multinomialLikelihood (P : Prims) (X : Vec V ℕ) (y : ℤ) (alpha : Vec K ℝ)
    (beta : Mat K V ℝ) (eta : Mat K C ℝ) (phi : Mat K V ℝ) (gamma : Vec K ℝ) (prior mu portion : ℝ) :
    Option Report :=
  (colAt eta y).bind fun ey =>
  some (.ofOption (
    (unsupervisedLikelihood P X alpha beta phi gamma).bind fun l =>
    (mapOpt logc ey).bind fun le =>
    (logc prior).bind fun lp =>
    (sumLogs eta).bind fun sl =>
    some (l + (∑ n, ∑ k, phi k n * X n * le k) - ((numWords X : ℝ) - 1) * lp
      + portion * (mu - 1) * sl
      + portion * (lgamma (C * mu) - C * lgamma mu))))

/-- `compute_supervised_correspondence_likelihood` (e_step_utils.cpp:130-167). -/
noncomputable def correspondenceLikelihood (P : Prims) (X : Vec V ℕ) (y : ℤ) (alpha : Vec K ℝ)
    (beta : Mat K V ℝ) (eta : Mat K C ℝ) (phi : Mat K V ℝ) (gamma : Vec K ℝ) (tau : Vec V ℝ)
    (mu portion : ℝ) : Option Report :=
  (colAt eta y).bind fun ey =>
  some (.ofOption (
    (unsupervisedLikelihood P X alpha beta phi gamma).bind fun l =>
    (mapOpt logc ey).bind fun le =>
    (logc (numWords X)).bind fun ln =>
    (sumLogs eta).bind fun sl =>
    some (l + -(∑ n, tau n * X n * Real.log (tau n + tiny))
      + (∑ n, ∑ k, phi k n * (X n * tau n) * le k) + -ln
      + portion * (mu - 1) * sl
      + portion * (lgamma (C * mu) - C * lgamma mu))))

/-! ### The steps -/

open Classical in
/-- `AbstractEStep::converged` (AbstractEStep.cpp:12-21).  Without topics the mean is NaN and the
comparison false. -/
noncomputable def converged (old new : Vec K ℝ) (tol : ℝ) : Bool :=
  decide (K ≠ 0 ∧ (∑ k, |old k - new k|) / K < tol)

/-- The loop common to the five steps (e.g. UnsupervisedEStep.cpp:47-73): `step` is its body after
`gamma_old = gamma`. -/
noncomputable def loop {S : Type} (step : S → Option S) (gam : S → Vec K ℝ) (tol : ℝ) :
    ℕ → Vec K ℝ → S → Option S
  | 0, _, s => some s
  | i + 1, old, s =>
    if converged old (gam s) tol then some s else (step s).bind (loop step gam tol i (gam s))

/-- The initial variational parameters (e.g. UnsupervisedEStep.cpp:41-42). -/
noncomputable def initial (X : Vec V ℕ) (alpha : Vec K ℝ) : VP K V where
  phi := fun _ _ => 1 / K
  gamma := fun k => alpha k + numWords X / K

/-- The parameters of the topic model (include/ldaplusplus/Parameters.hpp).  The unsupervised model
has no `eta`, which is a matrix without columns here. -/
structure Model (K V C : ℕ) where
  alpha : Vec K ℝ
  beta : Mat K V ℝ
  eta : Mat K C ℝ

/-- The constructor arguments shared by the steps (e.g. UnsupervisedEStep.cpp:12-23). -/
structure Cfg where
  iterations : ℕ
  tolerance : ℝ
  computeLikelihood : ℝ

open Classical in
/-- `std::bernoulli_distribution emit_likelihood(p)` applied to a uniform draw from `[0, 1)` (e.g.
UnsupervisedEStep.cpp:77-78). -/
noncomputable def bernoulli (p draw : ℝ) : Bool := decide (draw < p)

/-- Emitting the event (e.g. UnsupervisedEStep.cpp:75-88): the likelihood is computed only if the draw
says so. -/
noncomputable def report (p draw : ℝ) (lik : Option Report) : Option Report :=
  if bernoulli p draw then lik else some .nan

/-- The body of the loop of the unsupervised step (UnsupervisedEStep.cpp:65-72). -/
noncomputable def unsupervisedStep (P : Prims) (X : Vec V ℕ) (m : Model K V C) (s : VP K V) :
    Option (VP K V) :=
  (unsupervisedPhi P m.beta s.gamma).map fun phi => ⟨phi, computeGamma X m.alpha phi⟩

/-- The loop of `UnsupervisedEStep::doc_e_step` (UnsupervisedEStep.cpp:30-73). -/
noncomputable def unsupervisedRun (P : Prims) (cfg : Cfg) (X : Vec V ℕ) (m : Model K V C) :
    Option (VP K V) :=
  loop (unsupervisedStep P X m) VP.gamma cfg.tolerance cfg.iterations (fun _ => 0)
    (initial X m.alpha)

/-- `UnsupervisedEStep::doc_e_step` (UnsupervisedEStep.cpp:25-91). -/
noncomputable def unsupervised (P : Prims) (cfg : Cfg) (draw : ℝ) (X : Vec V ℕ) (m : Model K V C) :
    Option (VP K V × Report) :=
  (unsupervisedRun P cfg X m).bind fun s =>
  (report cfg.computeLikelihood draw
    (some (.ofOption (unsupervisedLikelihood P X m.alpha m.beta s.phi s.gamma)))).map fun r => (s, r)

/-- The body of the loop of the fast supervised step (FastSupervisedEStep.cpp:64-76). -/
noncomputable def fastStep (P : Prims) (w : ℝ) (X : Vec V ℕ) (y : ℤ) (m : Model K V C) (s : VP K V) :
    Option (VP K V) :=
  (approximatePhi P (ratio X) (numWords X) y m.beta m.eta s.gamma w s.phi).map fun phi =>
    ⟨phi, computeGamma X m.alpha phi⟩

/-- The loop of `FastSupervisedEStep::doc_e_step` (FastSupervisedEStep.cpp:34-77); `w` is
`get_weight()`. -/
noncomputable def fastRun (P : Prims) (cfg : Cfg) (w : ℝ) (X : Vec V ℕ) (y : ℤ) (m : Model K V C) :
    Option (VP K V) :=
  loop (fastStep P w X y m) VP.gamma cfg.tolerance cfg.iterations (fun _ => 0) (initial X m.alpha)

/-- `FastSupervisedEStep::doc_e_step` (FastSupervisedEStep.cpp:29-98). -/
noncomputable def fast (P : Prims) (cfg : Cfg) (w draw : ℝ) (X : Vec V ℕ) (y : ℤ) (m : Model K V C) :
    Option (VP K V × Report) :=
  (fastRun P cfg w X y m).bind fun s =>
  (report cfg.computeLikelihood draw
    (supervisedLikelihood' P X y m.alpha m.beta m.eta s.phi s.gamma)).map fun r => (s, r)

/-- The loop of `SupervisedEStep::doc_e_step` (SupervisedEStep.cpp:29-73), with the vector `h`. -/
noncomputable def supervisedRun (P : Prims) (cfg : Cfg) (fp : ℕ) (X : Vec V ℕ) (y : ℤ)
    (m : Model K V C) : Option (VP K V × Option (Vec K ℝ)) :=
  loop (supervisedPhiGamma P X (ratio X) y m.beta m.eta fp) (fun s => s.1.gamma) cfg.tolerance
    cfg.iterations (fun _ => 0) (initial X m.alpha, none)

/-- `SupervisedEStep::doc_e_step` (SupervisedEStep.cpp:24-91). -/
noncomputable def supervised (P : Prims) (cfg : Cfg) (fp : ℕ) (draw : ℝ) (X : Vec V ℕ) (y : ℤ)
    (m : Model K V C) : Option (VP K V × Report) :=
  (supervisedRun P cfg fp X y m).bind fun s =>
  (report cfg.computeLikelihood draw
    (supervisedLikelihood P X y m.alpha m.beta m.eta s.1.phi s.1.gamma s.2)).map fun r => (s.1, r)

/-- The body of the loop of the multinomial step (MultinomialSupervisedEStep.cpp:63-74). -/
noncomputable def multinomialStep (P : Prims) (etaWeight : ℝ) (X : Vec V ℕ) (y : ℤ) (m : Model K V C)
    (s : VP K V) : Option (VP K V) :=
  (multinomialPhi P y m.beta m.eta s.gamma etaWeight).map fun phi => ⟨phi, computeGamma X m.alpha phi⟩

/-- The loop of `MultinomialSupervisedEStep::doc_e_step` (MultinomialSupervisedEStep.cpp:31-75).  The
convergence test is given `compute_likelihood_` in the place of the tolerance (line 58). -/
noncomputable def multinomialRun (P : Prims) (cfg : Cfg) (etaWeight : ℝ) (X : Vec V ℕ) (y : ℤ)
    (m : Model K V C) : Option (VP K V) :=
  loop (multinomialStep P etaWeight X y m) VP.gamma cfg.computeLikelihood cfg.iterations (fun _ => 0)
    (initial X m.alpha)

/-- `MultinomialSupervisedEStep::doc_e_step` (MultinomialSupervisedEStep.cpp:26-102).  The prior of
the class and the size of the corpus are arguments. -/
noncomputable def multinomial (P : Prims) (cfg : Cfg) (etaWeight mu prior : ℝ) (corpusSize : ℕ)
    (draw : ℝ) (X : Vec V ℕ) (y : ℤ) (m : Model K V C) : Option (VP K V × Report) :=
  (multinomialRun P cfg etaWeight X y m).bind fun s =>
  (report cfg.computeLikelihood draw
    (multinomialLikelihood P X y m.alpha m.beta m.eta s.phi s.gamma prior mu (1 / corpusSize))).map
    fun r => (s, r)

/-- The body of the loop of the correspondence step (CorrespondenceSupervisedEStep.cpp:61-82). -/
noncomputable def correspondenceStep (P : Prims) (X : Vec V ℕ) (y : ℤ) (m : Model K V C)
    (s : VP K V × Vec V ℝ) : Option (VP K V × Vec V ℝ) :=
  (correspondencePhi P y m.beta m.eta s.1.gamma s.2).bind fun phi =>
  (correspondenceTau P y m.eta phi).map fun tau => (⟨phi, computeGamma X m.alpha phi⟩, tau)

/-- The loop of `CorrespondenceSupervisedEStep::doc_e_step`
(CorrespondenceSupervisedEStep.cpp:29-83). -/
noncomputable def correspondenceRun (P : Prims) (cfg : Cfg) (X : Vec V ℕ) (y : ℤ) (m : Model K V C) :
    Option (VP K V × Vec V ℝ) :=
  loop (correspondenceStep P X y m) (fun s => s.1.gamma) cfg.tolerance cfg.iterations (fun _ => 0)
    (initial X m.alpha, fun _ => 1 / V)

/-- `CorrespondenceSupervisedEStep::doc_e_step` (CorrespondenceSupervisedEStep.cpp:24-114). -/
noncomputable def correspondence (P : Prims) (cfg : Cfg) (mu : ℝ) (corpusSize : ℕ) (draw : ℝ)
    (X : Vec V ℕ) (y : ℤ) (m : Model K V C) : Option ((VP K V × Vec V ℝ) × Report) :=
  (correspondenceRun P cfg X y m).bind fun s =>
  (report cfg.computeLikelihood draw
    (correspondenceLikelihood P X y m.alpha m.beta m.eta s.1.phi s.1.gamma s.2 mu
      (1 / corpusSize))).map fun r => (s, r)

/-! ### The weight of the fast supervised step -/

/-- `FastSupervisedEStep::CWeightType` (FastSupervisedEStep.hpp:29-41). -/
inductive WeightType where
  | constant
  | exponentialDecay

/-- The members of `FastSupervisedEStep` that concern the weight (FastSupervisedEStep.cpp:20-26). -/
structure FastState where
  C : ℝ
  weightType : WeightType
  epochs : ℕ

/-- The constructor (FastSupervisedEStep.cpp:12-27). -/
def FastState.new (C : ℝ) (t : WeightType) : FastState := ⟨C, t, 0⟩

/-- `FastSupervisedEStep::e_step` (FastSupervisedEStep.cpp:101-104). -/
def FastState.eStep (s : FastState) : FastState := { s with epochs := s.epochs + 1 }

/-- `FastSupervisedEStep::get_weight` (FastSupervisedEStep.cpp:107-116). -/
noncomputable def FastState.weight (s : FastState) : ℝ :=
  match s.weightType with
  | .exponentialDecay => s.C ^ s.epochs
  | .constant => s.C

/-- A call of a method of a fast supervised step (EStepInterface.hpp:24-60). -/
inductive FastCall (K V C : ℕ) where
  | doc (draw : ℝ) (X : Vec V ℕ) (y : ℤ) (m : Model K V C)
  | eStep

/-- A call changes the state and, for a document, returns a result (FastSupervisedEStep.cpp:29-104). -/
noncomputable def FastState.call (P : Prims) (cfg : Cfg) (s : FastState) :
    FastCall K V C → FastState × Option (Option (VP K V × Report))
  | .doc draw X y m => (s, some (fast P cfg s.weight draw X y m))
  | .eStep => (s.eStep, none)

/-- A sequence of calls (FastSupervisedEStep.cpp:29-104). -/
noncomputable def FastState.calls (P : Prims) (cfg : Cfg) :
    FastState → List (FastCall K V C) → FastState × List (Option (VP K V × Report))
  | s, [] => (s, [])
  | s, c :: cs =>
    let r := s.call P cfg c
    let rs := FastState.calls P cfg r.1 cs
    (rs.1, r.2.toList ++ rs.2)

end Verif.EStep
