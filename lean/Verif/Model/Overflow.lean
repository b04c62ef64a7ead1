import Verif.Model.Limits

/-
The fast supervised expectation step with the numbers of the machine, including infinities and NaN.  The step takes
exponentials of numbers that depend on the class weights `eta`, so that they may be of any size, and `fast_exp`
converts its argument to an index, which is undefined for NaN.

`none` is undefined behaviour.  Simplification: zeros have no sign.
-/
namespace Verif.Overflow

open MathUtils EStep Rounded Limits Classical

variable {K V C : ℕ}

/-- A number of the machine (the type `Scalar` of FastSupervisedEStep.hpp:18). -/
abbrev Num := Ieee ℝ

/-- The result of an operation on finite numbers: rounded, and infinite if it is too large (e.g. the sum in
e_step_utils.cpp:337). -/
noncomputable def toNum (F : Format) (x : ℝ) : Num :=
  if 2 ^ F.high ≤ fl F x then .pinf else if fl F x ≤ -2 ^ F.high then .ninf else .fin (fl F x)

/-- Addition (e.g. e_step_utils.cpp:337). -/
noncomputable def nAdd (F : Format) : Num → Num → Num
  | .fin a, .fin b => toNum F (a + b)
  | a, b => Ieee.add a b

/-- The negative of a number (part of the subtraction in e_step_utils.cpp:337). -/
noncomputable def nNeg : Num → Num
  | .fin a => .fin (-a)
  | .pinf => .ninf
  | .ninf => .pinf
  | .nan => .nan

/-- Subtraction (e_step_utils.cpp:337). -/
noncomputable def nSub (F : Format) (a b : Num) : Num := nAdd F a (nNeg b)

/-- Multiplication (e.g. e_step_utils.cpp:336). -/
noncomputable def nMul (F : Format) : Num → Num → Num
  | .fin a, .fin b => toNum F (a * b)
  | a, b => Ieee.mul a b

/-- Division (e_step_utils.cpp:329, 334 and utils.hpp:525). -/
noncomputable def nDiv (F : Format) : Num → Num → Num
  | .fin a, .fin b => if b = 0 then (if a = 0 then .nan else if 0 < a then .pinf else .ninf) else toNum F (a / b)
  | .nan, _ => .nan
  | _, .nan => .nan
  | .fin _, .pinf => .fin 0
  | .fin _, .ninf => .fin 0
  | .pinf, .fin b => if b < 0 then .ninf else .pinf
  | .ninf, .fin b => if b < 0 then .pinf else .ninf
  | _, _ => .nan

/-- A value that Eigen may compute for the sum of the elements of a list, with infinities and NaN: any order and
grouping of the additions (`.sum()` in e_step_utils.cpp:329 and utils.hpp:523, the products of matrices in
e_step_utils.cpp:328 and 337). -/
inductive NumSum (F : Format) : List Num → Num → Prop
  | nil : NumSum F [] (.fin 0)
  | one (x : Num) : NumSum F [x] x
  | add {l l' l'' : List Num} {a b : Num} : l ≠ [] → l' ≠ [] → NumSum F l a → NumSum F l' b → l''.Perm (l ++ l') →
      NumSum F l'' (nAdd F a b)

/-- What the step takes from elsewhere: in addition to `Limits.Machine` the sums of numbers that may be infinite or
NaN, and `digamma` of such numbers (utils.hpp:390-404).  `std::exp` returns numbers of the format (utils.hpp:366). -/
structure Device (F : Format) extends Machine F where
  nsum : ∀ {n : ℕ}, Vec n Num → Num
  nsum_spec : ∀ {n : ℕ} (v : Vec n Num), NumSum F (List.ofFn v) (nsum v)
  stdExp_rep : ∀ x v, 100 < x → stdExp x = some v → fl F v = v
  npsi : Num → Num
  npsi_fin : ∀ x : ℝ, 2 ^ (-20 : ℤ) ≤ x → x < 2 ^ F.high → npsi (.fin x) = .fin (psi x)
  npsi_nan : npsi .nan = .nan

variable {F : Format} (D : Device F)

/-- `fast_exp` (utils.hpp:360-381).  NaN passes the comparisons of lines 362, 365 and 369, and its conversion to `int`
in line 374 is undefined. -/
noncomputable def nExp : Num → Option Num
  | .nan => none
  | .pinf => some .pinf
  | .ninf => some (.fin 0)
  | .fin x => some (match lExp D.toMachine x with | none => .pinf | some v => .fin v)

/-- `unaryExpr` (e_step_utils.cpp:328 and 338): undefined if one of the elements is. -/
noncomputable def mapNum {n : ℕ} (f : Num → Option Num) (v : Vec n Num) : Option (Vec n Num) :=
  if h : ∀ i, (f (v i)).isSome then some fun i => (f (v i)).get (h i) else none

/-- `sum_cols_scaled` (utils.hpp:571-584) for row `k`: numbers with weight zero are left out. -/
noncomputable def nScaled (F : Format) (w : Vec V Num) (phi : Mat K V Num) (start : Num) (k : Fin K) : Num :=
  (List.finRange V).foldl (fun g n => if w n = .fin 0 then g else nAdd F g (nMul F (w n) (phi k n))) start

/-- `X.cast<Scalar>() / num_words` (FastSupervisedEStep.cpp:38). -/
noncomputable def nRatio (F : Format) (X : Vec V ℕ) : Vec V Num := fun n => nDiv F (toNum F (X n)) (toNum F (numWords X))

/-- `(eta.transpose() * z_bar)` (e_step_utils.cpp:325-328). -/
noncomputable def nScores (X : Vec V ℕ) (eta : Mat K C ℝ) (phi : Mat K V Num) : Vec C Num := fun c =>
  D.nsum fun k => nMul F (.fin (eta k c)) (nScaled F (nRatio F X) phi (.fin 0) k)

/-- `softmax_eta_z` (e_step_utils.cpp:328-329). -/
noncomputable def nSoftmax (s : Vec C Num) : Option (Vec C Num) :=
  (mapNum (nExp D) s).map fun e c => nDiv F (e c) (D.nsum e)

/-- `eta_scaled` (e_step_utils.cpp:331-334). -/
noncomputable def nEtaScaled (F : Format) (eta : Mat K C ℝ) : Option (Mat K C Num) :=
  (maxCoeff eta).map fun m k c => if 0 < m then nDiv F (.fin (eta k c)) (.fin m) else .fin (eta k c)

/-- The exponents of `compute_supervised_approximate_phi` (e_step_utils.cpp:337). -/
noncomputable def nExponents (y : Fin C) (w : ℝ) (es : Mat K C Num) (gamma : Vec K Num) (sm : Vec C Num) : Vec K Num :=
  fun k => nAdd F (D.npsi (gamma k))
    (nMul F (.fin w) (nSub F (es k y) (D.nsum fun c => nMul F (es k c) (sm c))))

/-- A column of `normalize_cols` (utils.hpp:521-527). -/
noncomputable def nNormalize {r : ℕ} (v : Vec r Num) : Vec r Num :=
  if D.nsum v ≠ .fin 0 then fun i => nDiv F (v i) (D.nsum v) else v

/-- `compute_supervised_approximate_phi` (e_step_utils.cpp:306-341); `phi` is read and replaced. -/
noncomputable def nPhi (X : Vec V ℕ) (y : Fin C) (beta : Mat K V ℝ) (eta : Mat K C ℝ) (w : ℝ) (gamma : Vec K Num)
    (phi : Mat K V Num) : Option (Mat K V Num) :=
  if numWords X = 0 then some phi
  else
    (nSoftmax D (nScores D X eta phi)).bind fun sm =>
    (nEtaScaled F eta).bind fun es =>
    (mapNum (nExp D) (nExponents D y w es gamma sm)).map fun e k n =>
      nNormalize D (fun k => nMul F (.fin (beta k n)) (e k)) k

/-- `compute_gamma` (e_step_utils.cpp:276-289). -/
noncomputable def nGamma (F : Format) (X : Vec V ℕ) (alpha : Vec K ℝ) (phi : Mat K V Num) : Vec K Num := fun k =>
  nScaled F (fun n => toNum F (X n)) phi (.fin (alpha k)) k

/-- `gamma` and `phi` before the loop of `FastSupervisedEStep::doc_e_step` (FastSupervisedEStep.cpp:51-52):
`1.0/num_topics` is a `double`. -/
noncomputable def nFirst (F : Format) (X : Vec V ℕ) (alpha : Vec K ℝ) : Vec K Num × Mat K V Num :=
  (fun k => nAdd F (.fin (alpha k)) (nDiv F (toNum F (numWords X)) (toNum F K)),
    fun _ _ => toNum F (fl double (1 / K)))

/-- `gamma` and `phi` after `i` passes of the loop of `FastSupervisedEStep::doc_e_step` (FastSupervisedEStep.cpp:57-78),
if it is not left before.  `w` is the weight that `get_weight` returns. -/
noncomputable def nPasses (X : Vec V ℕ) (y : Fin C) (alpha : Vec K ℝ) (beta : Mat K V ℝ) (eta : Mat K C ℝ) (w : ℝ) :
    ℕ → Option (Vec K Num × Mat K V Num)
  | 0 => some (nFirst F X alpha)
  | i + 1 => (nPasses X y alpha beta eta w i).bind fun s =>
      (nPhi D X y beta eta w s.1 s.2).map fun phi => (nGamma F X alpha phi, phi)

end Verif.Overflow
