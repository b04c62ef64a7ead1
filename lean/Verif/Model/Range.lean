import Verif.Model.Optim

/-
Multinomial logistic regression and its minimisation in `FastSupervisedMStep::m_step`, with an exponential function
whose range is limited, as that of every floating point format is: `std::exp` and Eigen's `exp()` return infinity for
large arguments and zero for small ones.  The objective takes them without subtracting the largest score
(MultinomialLogisticRegression.cpp:48; lines 50-52 are a remark on "overflow issues" that is not compiled).

Simplification: all other operations are those of the real numbers, extended by the infinities and NaN of IEEE 754;
nothing is rounded.  `none` is undefined behaviour (an access out of range), or a gradient that is not finite.
-/
namespace Verif.Optim

open MathUtils EStep Finset

variable {r c K C : ℕ}

/-- A number of the machine (the type `Scalar` of MultinomialLogisticRegression.hpp:31). -/
abbrev Ext := Ieee ℝ

/-- The arguments for which the exponential is neither infinite nor zero (MultinomialLogisticRegression.cpp:48). -/
structure ExpRange where
  lo : ℝ
  hi : ℝ
  lo_neg : lo < 0
  hi_pos : 0 < hi

/-- The range for `double`: numbers from `2^1024` on are infinite, numbers below `2^-1075` are zero
(MultinomialLogisticRegression.cpp:82). -/
noncomputable def doubleRange : ExpRange where
  lo := -(1075 * Real.log 2)
  hi := 1024 * Real.log 2
  lo_neg := by have := Real.log_pos (x := 2) (by norm_num); linarith
  hi_pos := by have := Real.log_pos (x := 2) (by norm_num); linarith

/-- The range for `float`: numbers from `2^128` on are infinite, numbers below `2^-150` are zero
(MultinomialLogisticRegression.cpp:81). -/
noncomputable def floatRange : ExpRange where
  lo := -(150 * Real.log 2)
  hi := 128 * Real.log 2
  lo_neg := by have := Real.log_pos (x := 2) (by norm_num); linarith
  hi_pos := by have := Real.log_pos (x := 2) (by norm_num); linarith

/-- The negative of a number (MultinomialLogisticRegression.cpp:59). -/
def eNeg : Ext → Ext
  | .fin a => .fin (-a)
  | .pinf => .ninf
  | .ninf => .pinf
  | .nan => .nan

/-- Subtraction (MultinomialLogisticRegression.cpp:48, GradientDescent.hpp:125). -/
noncomputable def eSub (a b : Ext) : Ext := Ieee.add a (eNeg b)

/-- Division (FastSupervisedMStep.cpp:85). Zeros have no sign. -/
noncomputable def eDiv : Ext → Ext → Ext
  | .nan, _ => .nan
  | _, .nan => .nan
  | .fin a, .fin b => if b = 0 then (if a = 0 then .nan else if 0 < a then .pinf else .ninf) else .fin (a / b)
  | .fin _, _ => .fin 0
  | .pinf, .fin b => if b < 0 then .ninf else .pinf
  | .ninf, .fin b => if b < 0 then .pinf else .ninf
  | _, _ => .nan

/-- `a > b` (GradientDescent.hpp:125, FastSupervisedMStep.cpp:90): false if one of them is NaN. -/
def eGt : Ext → Ext → Prop
  | .fin a, .fin b => a > b
  | .pinf, .fin _ => True
  | .pinf, .ninf => True
  | .fin _, .ninf => True
  | _, _ => False

/-- A finite exponential (MultinomialLogisticRegression.cpp:48 and 71). -/
noncomputable def expSmall (R : ExpRange) (x : ℝ) : ℝ := if x < R.lo then 0 else Real.exp x

/-- `t.array().exp().sum()` (MultinomialLogisticRegression.cpp:48 and 71-72): infinite if one of the exponentials or
their sum is. -/
noncomputable def expSum (R : ExpRange) (t : Vec C ℝ) : Ext :=
  open Classical in
  if (∃ c, R.hi ≤ t c) ∨ Real.exp R.hi ≤ ∑ c, expSmall R (t c) then .pinf else .fin (∑ c, expSmall R (t c))

/-- `std::log` (MultinomialLogisticRegression.cpp:48). -/
noncomputable def eLog : Ext → Ext
  | .fin a => if a = 0 then .ninf else if a < 0 then .nan else .fin (Real.log a)
  | .pinf => .pinf
  | .ninf => .nan
  | .nan => .nan

/-- The loop of `MultinomialLogisticRegression::value` (MultinomialLogisticRegression.cpp:45-53). -/
noncomputable def limitedLoop (R : ExpRange) (Cy : List (Option ℝ)) (eta : Mat K C ℝ) :
    List ℤ → List (Vec K ℝ) → Ext → Option Ext
  | [], _, acc => some acc
  | _ :: _, [], _ => none
  | y :: ys, x :: xs, acc =>
    let t := scores eta x
    (weightAt Cy y).bind fun w =>
    (entryAt t y).bind fun ty =>
    limitedLoop R Cy eta ys xs (eSub (Ieee.add acc (.fin (w * ty))) (Ieee.mul (.fin w) (eLog (expSum R t))))

/-- `MultinomialLogisticRegression::value` (MultinomialLogisticRegression.cpp:39-60). -/
noncomputable def limitedValue (R : ExpRange) (X : List (Vec K ℝ)) (y : List ℤ) (Cy : List (Option ℝ)) (L : ℝ)
    (eta : Mat K C ℝ) : Option Ext :=
  (limitedLoop R Cy eta y X (.fin 0)).map fun likelihood => Ieee.add (eNeg likelihood) (.fin (L * squaredNorm eta / 2))

/-- The loop of `MultinomialLogisticRegression::gradient` (MultinomialLogisticRegression.cpp:68-73). -/
noncomputable def limitedGradLoop (R : ExpRange) (Cy : List (Option ℝ)) (eta : Mat K C ℝ) :
    List ℤ → List (Vec K ℝ) → Mat K C ℝ → Option (Mat K C ℝ)
  | [], _, g => some g
  | _ :: _, [], _ => none
  | y :: ys, x :: xs, g =>
    (weightAt Cy y).bind fun w =>
    (subCol g y w x).bind fun g' =>
    match expSum R (scores eta x) with
    | .fin s =>
      if s = 0 then none
      else limitedGradLoop R Cy eta ys xs fun k c => g' k c + w * (x k * expSmall R (scores eta x c)) / s
    | _ => none

/-- `MultinomialLogisticRegression::gradient` (MultinomialLogisticRegression.cpp:63-77). -/
noncomputable def limitedGradient (R : ExpRange) (X : List (Vec K ℝ)) (y : List ℤ) (Cy : List (Option ℝ)) (L : ℝ)
    (eta : Mat K C ℝ) : Option (Mat K C ℝ) :=
  (limitedGradLoop R Cy eta y X fun _ _ => 0).map fun g k c => g k c + eta k c * L

/-- A problem as `GradientDescent` sees it (GradientDescent.hpp:186-201). -/
structure ExtProblem (r c : ℕ) where
  value : Mat r c ℝ → Option Ext
  gradient : Mat r c ℝ → Option (Mat r c ℝ)

/-- A `MultinomialLogisticRegression` (MultinomialLogisticRegression.cpp:29-36). -/
noncomputable def limitedLogistic (R : ExpRange) (C : ℕ) (X : List (Vec K ℝ)) (y : List ℤ) (Cy : List (Option ℝ))
    (L : ℝ) : ExtProblem K C :=
  ⟨limitedValue R X y Cy L, limitedGradient R X y Cy L⟩

/-- The loop of `ArmijoLineSearch::search` (GradientDescent.hpp:125-129), from the values of `a` and `value` before it
to those after it. -/
inductive ExtArmijoLoop (f : Mat r c ℝ → Option Ext) (x p : Mat r c ℝ) (v0 : Ext) (decrease tau : ℝ) :
    ℝ → Ext → ℝ → Ext → Prop
  | exit {a : ℝ} {v : Ext} : ¬ eGt v (eSub v0 (.fin (a * decrease))) → ExtArmijoLoop f x p v0 decrease tau a v a v
  | again {a a'' : ℝ} {v v' v'' : Ext} : eGt v (eSub v0 (.fin (a * decrease))) → f (move x (a * tau) p) = some v' →
      ExtArmijoLoop f x p v0 decrease tau (a * tau) v' a'' v'' →
      ExtArmijoLoop f x p v0 decrease tau a v a'' v''

/-- `ArmijoLineSearch::search` (GradientDescent.hpp:113-134), in the direction of the gradient. -/
def ExtArmijo (beta tau : ℝ) (f : Mat r c ℝ → Option Ext) (x g x' : Mat r c ℝ) (v : Ext) : Prop :=
  ∃ (v0 : Ext) (a : ℝ), f x = some v0 ∧ tau ≠ 0 ∧
    ExtArmijoLoop f x g v0 (beta * dot g g) tau (1 / tau) v0 a v ∧ x' = move x a g

/-- The answer of the callback of `FastSupervisedMStep::m_step` (FastSupervisedMStep.cpp:85-91). -/
def goesOn (limit : ℕ) (tol : ℝ) (initial value : Ext) (i : ℕ) : Prop :=
  i < limit ∧ eGt (eDiv (eSub initial value) value) (.fin tol)

/-- The loop of `GradientDescent::minimize` (GradientDescent.hpp:197-200) with the callback and the line search of
`FastSupervisedMStep::m_step` (FastSupervisedMStep.cpp:72-93): position, value, number of iterations and captured
`initial_value` before it, position after it and MaximizationProgressEvents dispatched. -/
inductive ExtDescent (pr : ExtProblem r c) (beta tau : ℝ) (limit : ℕ) (tol : ℝ) :
    Mat r c ℝ → Ext → ℕ → Ext → Mat r c ℝ → List Ext → Prop
  | stop {x : Mat r c ℝ} {v init : Ext} {i : ℕ} : ¬ goesOn limit tol init v i →
      ExtDescent pr beta tau limit tol x v i init x [eNeg v]
  | again {x x' xf g : Mat r c ℝ} {v v' init : Ext} {i : ℕ} {es : List Ext} : goesOn limit tol init v i →
      pr.gradient x = some g → ExtArmijo beta tau pr.value x g x' v' →
      ExtDescent pr beta tau limit tol x' v' (i + 1) v xf es →
      ExtDescent pr beta tau limit tol x v i init xf (eNeg v :: es)

/-- The minimisation in `FastSupervisedMStep::m_step` (FastSupervisedMStep.cpp:71-94): from `eta` before to `eta` after,
with the events.  The line search has the default arguments (GradientDescent.hpp:109). -/
def ExtMStep (pr : ExtProblem r c) (limit : ℕ) (tol : ℝ) (x x' : Mat r c ℝ) (es : List Ext) : Prop :=
  ∃ v, pr.value x = some v ∧ ExtDescent pr (1 / 1000) (1 / 2) limit tol x v 0 .pinf x' es

end Verif.Optim
