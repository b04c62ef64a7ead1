import Mathlib.Data.Int.Log
import Mathlib.Data.Real.Archimedean
import Mathlib.Analysis.SpecialFunctions.Exp
import Verif.Model.Train

/-
Floating point numbers.  The other modules compute with real numbers; here the sums, products and quotients of the
unsupervised steps are rounded, as they are in C++ with `float` and `double` (the two instantiations of every
class of the library, e.g. UnsupervisedMStep.cpp:40-41).

Rounding is any function with a bounded relative error.  Simplification: overflow and underflow are left out, so
a bound on the relative error holds for all numbers.
-/
namespace Verif.Rounded

open MathUtils EStep MStep Train

variable {K V C : ℕ}

/-- A value that Eigen may compute for the sum of the elements of `l`: the order and the grouping of the additions
(which depend on the instruction set Eigen vectorises for) are not specified; every addition is rounded
(`.sum()` in utils.hpp:507 and 523, UnsupervisedMStep.cpp:13). -/
inductive Summation (fl : ℝ → ℝ) : List ℝ → ℝ → Prop
  | nil : Summation fl [] 0
  | one (x : ℝ) : Summation fl [x] x
  | add {l l' l'' : List ℝ} {a b : ℝ} : l ≠ [] → l' ≠ [] → Summation fl l a → Summation fl l' b →
      l''.Perm (l ++ l') →
      Summation fl l'' (fl (a + b))

/-- An arithmetic: rounding `fl` with relative error at most `u`, and a function for sums
(`Scalar` in UnsupervisedMStep.hpp:15). -/
structure Arith where
  fl : ℝ → ℝ
  u : ℝ
  u_nonneg : 0 ≤ u
  u_lt : u < 1
  err : ∀ x, |fl x - x| ≤ u * |x|
  sum : ∀ {n : ℕ}, Vec n ℝ → ℝ
  sum_spec : ∀ {n : ℕ} (v : Vec n ℝ), Summation fl (List.ofFn v) (sum v)

/-- Rounding to the nearest integer, ties to even (IEEE 754, the rounding mode of `Scalar` operations such as
UnsupervisedMStep.cpp:36). -/
noncomputable def nearest (x : ℝ) : ℤ :=
  if x - ⌊x⌋ < 1 / 2 then ⌊x⌋ else if 1 / 2 < x - ⌊x⌋ then ⌊x⌋ + 1 else if Even ⌊x⌋ then ⌊x⌋ else ⌊x⌋ + 1

/-- Rounding to a number with `p` significant bits, ties to even: 24 for `float` and 53 for `double`, without limits
for the exponent (UnsupervisedMStep.cpp:40-41). -/
noncomputable def roundTo (p : ℕ) (x : ℝ) : ℝ :=
  nearest (x / 2 ^ (Int.log 2 |x| - (p - 1))) * 2 ^ (Int.log 2 |x| - (p - 1))

/-- The sum from left to right: one of the orders that `.sum()` may use (UnsupervisedMStep.cpp:13). -/
noncomputable def sumLeft (fl : ℝ → ℝ) : List ℝ → ℝ
  | [] => 0
  | x :: l => l.foldl (fun a b => fl (a + b)) x

variable (A : Arith)

/-! ### UnsupervisedMStep -/

/-- `b_ += phi.array().rowwise() * X` (UnsupervisedMStep.cpp:24-36); the counts are converted to `Scalar`. -/
noncomputable def rDoc (X : Vec V ℕ) (phi : Mat K V ℝ) (b : Buf K V) : Buf K V :=
  some fun k n => A.fl ((match b with
    | none => 0
    | some b => b k n) + A.fl (phi k n * A.fl (X n)))

/-- One entry of the quotient: a row of `b_` divided by its sum (UnsupervisedMStep.cpp:12-13). -/
noncomputable def rEntry (row : Vec V ℝ) (n : Fin V) : Ieee ℝ :=
  match quot (row n) (A.sum row) with
  | .fin x => .fin (A.fl x)
  | y => y

/-- `b_.array().colwise() / b_.array().rowwise().sum()` (UnsupervisedMStep.cpp:12-13). -/
noncomputable def rBeta : Buf K V → Beta K V
  | none => .noRows
  | some b => .matrix fun k n => rEntry A (b k) n

/-- `UnsupervisedMStep` (UnsupervisedMStep.cpp) with the corpus. -/
noncomputable def rounded (corpus : ℕ → Doc V) : BatchStep (Params K V C) (VP K V) (Buf K V) where
  doc _ i r s := some (rDoc A (corpus i).words r.phi s)
  step q s := some ({ q with beta := rBeta A s }, s.clear, 0)

/-! ### The E steps -/

/-- A column of `normalize_cols` (utils.hpp:521-527). -/
noncomputable def rNormalize {r : ℕ} (v : Vec r ℝ) : Vec r ℝ :=
  if A.sum v ≠ 0 then fun i => A.fl (v i / A.sum v) else v

/-- `compute_gamma` (e_step_utils.cpp:276-289), with the loop of `sum_cols_scaled` (utils.hpp:571-584). -/
noncomputable def rGamma (X : Vec V ℕ) (alpha : Vec K ℝ) (phi : Mat K V ℝ) : Vec K ℝ := fun k =>
  (List.finRange V).foldl
    (fun g n => if X n = 0 then g else A.fl (g + A.fl (A.fl (X n) * phi k n))) (alpha k)

end Verif.Rounded
