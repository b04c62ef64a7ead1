import Verif.Model.Rounded
import Verif.Model.Optim

/-
`ArmijoLineSearch` (include/ldaplusplus/optimization/GradientDescent.hpp:98-139) in floating point.  The value and the
gradient of the problem are arbitrary functions (what a problem computes, with whatever errors).  Simplifications: no
overflow, and `x - a * direction` is not contracted to a fused operation.
-/
namespace Verif.Rounded

open MathUtils Optim

variable {r c : ℕ}

/-- Rounding to the nearest number with `p` significant bits that is a multiple of `2 ^ e`, ties to even: IEEE 754 with
gradual underflow, without overflow; `p = 24`, `e = -149` for `float` and `p = 53`, `e = -1074` for `double`
(`Scalar` in GradientDescent.hpp:102). -/
noncomputable def roundSub (p : ℕ) (e : ℤ) (x : ℝ) : ℝ :=
  nearest (x / 2 ^ max (Int.log 2 |x| - (p - 1)) e) * 2 ^ max (Int.log 2 |x| - (p - 1)) e

/-- `x0 - a * direction` (GradientDescent.hpp:127 and 131). -/
def rMove (fl : ℝ → ℝ) (x : Mat r c ℝ) (a : ℝ) (p : Mat r c ℝ) : Mat r c ℝ := fun i j =>
  fl (x i j - fl (a * p i j))

/-- The entries of `grad_x0.array() * direction.array()` (GradientDescent.hpp:121). -/
def rProducts (fl : ℝ → ℝ) (g p : Mat r c ℝ) : List ℝ :=
  (List.finRange r).flatMap fun i => (List.finRange c).map fun j => fl (g i j * p i j)

/-- The loop (GradientDescent.hpp:125-129), from the values of `a` and `value` before it to those after it. -/
inductive RArmijoLoop (fl : ℝ → ℝ) (f : Mat r c ℝ → Option ℝ) (x p : Mat r c ℝ) (v0 decrease tau : ℝ) :
    ℝ → ℝ → ℝ → ℝ → Prop
  | exit {a v : ℝ} : ¬ v > fl (v0 - fl (a * decrease)) → RArmijoLoop fl f x p v0 decrease tau a v a v
  | again {a v v' a'' v'' : ℝ} : v > fl (v0 - fl (a * decrease)) → f (rMove fl x (fl (a * tau)) p) = some v' →
      RArmijoLoop fl f x p v0 decrease tau (fl (a * tau)) v' a'' v'' →
      RArmijoLoop fl f x p v0 decrease tau a v a'' v''

/-- `ArmijoLineSearch::search` (GradientDescent.hpp:113-134).  `1.0/tau_` is computed in `double`, whose rounding is
`fld`, and converted (line 123).  The order of the sum is not specified. -/
def RArmijoSearch (fl fld : ℝ → ℝ) (beta tau : ℝ) : LineSearch r c := fun f x g p x' v =>
  ∃ v0 S a : ℝ, f x = some v0 ∧ tau ≠ 0 ∧ Summation fl (rProducts fl g p) S ∧
    RArmijoLoop fl f x p v0 (fl (beta * S)) tau (fl (fld (1 / tau))) v0 a v ∧ x' = rMove fl x a p

end Verif.Rounded
