import Verif.Model.FastExp

/-
`fast_exp` and `digamma` (include/ldaplusplus/utils.hpp:360-404) with rounding.  The real functions that they would be
without are in Verif/Model/FastExp.lean.

Every operation may return any number close to its exact result, so that the order of evaluation, extended precision
and the mixture of `float` and `double` (the constants are `double` whatever `Scalar` is) are all covered.
Simplification: results do not overflow.
-/
namespace Verif.Primitives

open FastExp

/-- How precise operations are: the relative error, and the number below which it is the absolute error
`u * tiny` that is bounded (gradual underflow).  With `float` these are `2 ^ -24` and `2 ^ -126`, with `double`
`2 ^ -53` and `2 ^ -1022` (`Scalar` in utils.hpp:360 and 389). -/
structure Precision where
  u : ℝ
  tiny : ℝ

/-- `b` may be the result of an operation whose exact result is `a` (utils.hpp:377 and 395-401). -/
def Close (P : Precision) (a b : ℝ) : Prop := |b - a| ≤ P.u * max |a| P.tiny

variable (P : Precision)

/-- The loop of `digamma` (utils.hpp:394-396): `x` and `result` before and after it. -/
inductive DigammaLoop : ℝ → ℝ → ℝ → ℝ → Prop
  | exit {x r : ℝ} : ¬ x < 7 → DigammaLoop x r x r
  | again {x r q r' x' y s : ℝ} : x < 7 → x ≠ 0 → Close P (1 / x) q → Close P (r - q) r' → Close P (x + 1) x' →
      DigammaLoop x' r' y s → DigammaLoop x r y s

/-- The series (utils.hpp:397-401): `x` before and the sum that is added to `result`.  The constants are rounded. -/
def DigammaSum (y s : ℝ) : Prop :=
  ∃ x xx xx2 xx4 l c1 c2 c3 c4 t1 t2 p3 t3 p4 t4 s1 s2 s3 : ℝ,
    Close P (y - 1 / 2) x ∧ Close P (1 / x) xx ∧ Close P (xx * xx) xx2 ∧ Close P (xx2 * xx2) xx4 ∧
    Close P (Real.log x) l ∧
    Close P (1 / 24) c1 ∧ Close P (c1 * xx2) t1 ∧
    Close P (7 / 960) c2 ∧ Close P (c2 * xx4) t2 ∧
    Close P (31 / 8064) c3 ∧ Close P (c3 * xx4) p3 ∧ Close P (p3 * xx2) t3 ∧
    Close P (127 / 30720) c4 ∧ Close P (c4 * xx4) p4 ∧ Close P (p4 * xx4) t4 ∧
    Close P (l + t1) s1 ∧ Close P (s1 - t2) s2 ∧ Close P (s2 + t3) s3 ∧ Close P (s3 - t4) s

/-- `digamma` (utils.hpp:390-404): a value it may return. -/
def Digamma (x v : ℝ) : Prop :=
  ∃ y r s, DigammaLoop P x 0 y r ∧ DigammaSum P y s ∧ Close P (r + s) v

/-- The squaring loop of `fast_exp` (utils.hpp:376-378). -/
inductive SquareLoop : ℕ → ℝ → ℝ → Prop
  | exit {x : ℝ} : SquareLoop 0 x x
  | again {n : ℕ} {x y v : ℝ} : Close P (x * x) y → SquareLoop n y v → SquareLoop (n + 1) x v

/-- `fast_exp` for nonnegative arguments (utils.hpp:365-380).  Halving and the product with 1024 are exact.  The entry
of the table is converted to `Scalar`. -/
def FastExpPos (x v : ℝ) : Prop :=
  if 100 < x then Close P (Real.exp x) v
  else ∃ e t, lut ⌊(halve x).1 * 1024⌋₊ = some e ∧ Close P e t ∧ SquareLoop P (halve x).2 t v

/-- `fast_exp` (utils.hpp:360-381): a value it may return. -/
def FastExp (x v : ℝ) : Prop :=
  if x < 0 then ∃ w, FastExpPos P (-x) w ∧ w ≠ 0 ∧ Close P (1 / w) v else FastExpPos P x v

end Verif.Primitives
