import Verif.Model.Rounded
import Verif.Model.FastExp

/-
The unsupervised expectation step with the numbers of the machine: numbers have not only a limited precision
(Model/Rounded) but also a smallest and a largest magnitude.  Results that are too small become zero (underflow),
results that are too large become infinite (overflow).  The library is compiled for `float` and for `double`
(e.g. UnsupervisedEStep.cpp:95-96).

Overflow is followed where the step runs into it, within `fast_exp`.  Simplifications: the other operations do not
overflow; an infinite result of `fast_exp` (an argument above 88 with `float`, above 709 with `double`) is not
followed further (`none`).
-/
namespace Verif.Limits

open MathUtils EStep Rounded

variable {K V : ℕ}

/-- A binary format of IEEE 754: `prec` significant bits, the smallest positive number is `2 ^ low`, and all numbers
are below `2 ^ high` (the parameter `Scalar` of UnsupervisedEStep.hpp:18). -/
structure Format where
  prec : ℕ
  low : ℤ
  high : ℕ

/-- `float` (UnsupervisedEStep.cpp:95). -/
def float : Format := ⟨24, -149, 128⟩

/-- `double` (UnsupervisedEStep.cpp:96). -/
def double : Format := ⟨53, -1074, 1024⟩

/-- Rounding to the nearest number of the format, ties to even, without an upper limit (the operations on `Scalar`
in e_step_utils.cpp:276-304). -/
noncomputable def fl (F : Format) (x : ℝ) : ℝ :=
  let j := max (Int.log 2 |x| - ((F.prec : ℤ) - 1)) F.low
  nearest (x / 2 ^ j) * 2 ^ j

/-- What a computation in the format takes from elsewhere: Eigen's order of additions (utils.hpp:523), `std::exp`
(utils.hpp:366; `none` is infinity) and `digamma` (utils.hpp:390-404) as computed. -/
structure Machine (F : Format) where
  sum : ∀ {n : ℕ}, Vec n ℝ → ℝ
  sum_spec : ∀ {n : ℕ} (v : Vec n ℝ), Summation (fl F) (List.ofFn v) (sum v)
  stdExp : ℝ → Option ℝ
  stdExp_over : ∀ x, 2 ^ F.high ≤ Real.exp x * (1 - 1 / 1024) → stdExp x = none
  stdExp_fin : ∀ x, Real.exp x * (1 + 1 / 1024) < 2 ^ F.high → stdExp x ≠ none
  stdExp_err : ∀ x v, stdExp x = some v → |v - Real.exp x| ≤ Real.exp x / 1024
  psi : ℝ → ℝ
  psi_err : ∀ x v, 0 < x → FastExp.digamma x = some v → |psi x - v| ≤ (1 + |v|) / 1024

/-- A product or quotient that may be too large: `none` is infinity (utils.hpp:377). -/
noncomputable def bounded (F : Format) (x : ℝ) : Option ℝ :=
  if 2 ^ F.high ≤ fl F x then none else some (fl F x)

/-- The squaring loop (utils.hpp:376-378): the square of infinity is infinity. -/
noncomputable def lSquare (F : Format) : ℕ → Option ℝ → Option ℝ
  | 0, x => x
  | _ + 1, none => none
  | n + 1, some x => lSquare F n (bounded F (x * x))

variable {F : Format} (M : Machine F)

/-- `fast_exp` for nonnegative arguments (utils.hpp:365-380).  Halving and the product with 1024 are exact; the index
is within the table (C29). -/
noncomputable def lExpPos (x : ℝ) : Option ℝ :=
  if 100 < x then M.stdExp x
  else lSquare F (FastExp.halve x).2 (some (fl F ((FastExp.lut ⌊(FastExp.halve x).1 * 1024⌋₊).getD 0)))

/-- `fast_exp` (utils.hpp:360-381): the reciprocal of infinity is zero. -/
noncomputable def lExp (x : ℝ) : Option ℝ :=
  if x < 0 then
    match lExpPos M (-x) with
    | none => some 0
    | some v => some (fl F (1 / v))
  else lExpPos M x

/-- A column of `normalize_cols` (utils.hpp:521-527). -/
noncomputable def lNormalize {r : ℕ} (v : Vec r ℝ) : Vec r ℝ :=
  if M.sum v ≠ 0 then fun i => fl F (v i / M.sum v) else v

/-- The products of `compute_unsupervised_phi` before the normalisation (e_step_utils.cpp:300-301). -/
noncomputable def lWeights (beta : Mat K V ℝ) (w : Vec K ℝ) : Mat K V ℝ := fun k n => fl F (beta k n * w k)

/-- `compute_unsupervised_phi` (e_step_utils.cpp:291-304). -/
noncomputable def lPhi (beta : Mat K V ℝ) (gamma : Vec K ℝ) : Option (Mat K V ℝ) :=
  (mapOpt (fun g => lExp M (M.psi g)) gamma).map fun w k n =>
    lNormalize M (fun k => lWeights (F := F) beta w k n) k

/-- `compute_gamma` (e_step_utils.cpp:276-289), with the loop of `sum_cols_scaled` (utils.hpp:571-584). -/
noncomputable def lGamma (F : Format) (X : Vec V ℕ) (alpha : Vec K ℝ) (phi : Mat K V ℝ) : Vec K ℝ := fun k =>
  (List.finRange V).foldl
    (fun g n => if X n = 0 then g else fl F (g + fl F (fl F (X n) * phi k n))) (alpha k)

/-- `alpha.array() + static_cast<Scalar>(num_words)/num_topics` (UnsupervisedEStep.cpp:42). -/
noncomputable def lFirst (F : Format) (X : Vec V ℕ) (alpha : Vec K ℝ) : Vec K ℝ := fun k =>
  fl F (alpha k + fl F (fl F (numWords X) / fl F K))

/-- `gamma` after `i` passes of the loop in `UnsupervisedEStep::doc_e_step` (UnsupervisedEStep.cpp:47-73), if it is
not left before. -/
noncomputable def lPasses (X : Vec V ℕ) (alpha : Vec K ℝ) (beta : Mat K V ℝ) : ℕ → Option (Vec K ℝ)
  | 0 => some (lFirst F X alpha)
  | i + 1 => (lPasses X alpha beta i).bind fun g => (lPhi M beta g).map (lGamma F X alpha)

end Verif.Limits
