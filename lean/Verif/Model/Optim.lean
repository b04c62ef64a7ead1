import Verif.Model.EStep
import Mathlib.Analysis.SpecialFunctions.Exp

/-
Model of include/ldaplusplus/optimization/GradientDescent.hpp,
src/ldaplusplus/optimization/MultinomialLogisticRegression.cpp,
src/ldaplusplus/optimization/SecondOrderLogisticRegressionApproximation.cpp and
src/applications/utils.cpp (`create_class_weights`).

Arithmetic is over the real numbers.  `none` as the result of a computation is undefined behaviour (an
access out of range) or a number that is not finite.  A loop whose termination is not evident is an
inductively defined relation between its state before and after: that the loop terminates (without
undefined behaviour) is that some state after it exists.
-/
namespace Verif.Optim

open MathUtils EStep Finset

variable {r c K C : ℕ}

/-- A problem as `GradientDescent` sees it: the functions `value()` and `gradient()`
(GradientDescent.hpp:186-201). -/
structure Problem (r c : ℕ) where
  value : Mat r c ℝ → Option ℝ
  gradient : Mat r c ℝ → Option (Mat r c ℝ)

/-- `(a.array() * b.array()).sum()` (GradientDescent.hpp:121). -/
def dot (a b : Mat r c ℝ) : ℝ := ∑ i, ∑ j, a i j * b i j

/-- `x - a * direction` (GradientDescent.hpp:69 and 127). -/
def move (x : Mat r c ℝ) (a : ℝ) (p : Mat r c ℝ) : Mat r c ℝ := fun i j => x i j - a * p i j

/-- `lpNorm<Eigen::Infinity>()` (GradientDescent.hpp:197). -/
noncomputable def maxNorm (x : Mat r c ℝ) : ℝ :=
  if h : (univ : Finset (Fin r × Fin c)).Nonempty then univ.sup' h fun p => |x p.1 p.2| else 0

/-! ### Line searches -/

/-- `LineSearch::search` (GradientDescent.hpp:37-42): given the function, the position, the gradient
there and the direction, the final position and the value returned. -/
abbrev LineSearch (r c : ℕ) :=
  (Mat r c ℝ → Option ℝ) → Mat r c ℝ → Mat r c ℝ → Mat r c ℝ → Mat r c ℝ → ℝ → Prop

/-- `ConstantLineSearch::search` (GradientDescent.hpp:63-72). -/
def ConstantSearch (alpha : ℝ) : LineSearch r c := fun f x _ p x' v =>
  x' = move x alpha p ∧ f x' = some v

/-- The loop of `ArmijoLineSearch::search` (GradientDescent.hpp:125-129), from the values of `a` and
`value` before it to those after it. -/
inductive ArmijoLoop (f : Mat r c ℝ → Option ℝ) (x p : Mat r c ℝ) (v0 decrease tau : ℝ) :
    ℝ → ℝ → ℝ → ℝ → Prop
  | exit {a v : ℝ} : ¬ v > v0 - a * decrease → ArmijoLoop f x p v0 decrease tau a v a v
  | again {a v v' a'' v'' : ℝ} : v > v0 - a * decrease → f (move x (a * tau) p) = some v' →
      ArmijoLoop f x p v0 decrease tau (a * tau) v' a'' v'' →
      ArmijoLoop f x p v0 decrease tau a v a'' v''

/-- `ArmijoLineSearch::search` (GradientDescent.hpp:113-134). -/
def ArmijoSearch (beta tau : ℝ) : LineSearch r c := fun f x g p x' v =>
  ∃ v0 a : ℝ, f x = some v0 ∧ tau ≠ 0 ∧
    ArmijoLoop f x p v0 (beta * dot g p) tau (1 / tau) v0 a v ∧ x' = move x a p

/-! ### Gradient descent -/

/-- The callback of the constructor of `GradientDescent` (GradientDescent.hpp:171), with the variables
it captures: it is given the value, the norm of the gradient (`none`: of uninitialised memory) and the
number of iterations, and says whether to go on. -/
abbrev Progress (S : Type) := S → ℝ → Option ℝ → ℕ → S × Bool

/-- The loop of `GradientDescent::minimize` (GradientDescent.hpp:197-200): position, value, memory of
the gradient, number of iterations and captured variables before it, position and captured variables
after it. -/
inductive DescentLoop {S : Type} (search : LineSearch r c) (pr : Problem r c) (progress : Progress S) :
    Mat r c ℝ → ℝ → Option (Mat r c ℝ) → ℕ → S → Mat r c ℝ → S → Prop
  | stop {x : Mat r c ℝ} {v : ℝ} {g : Option (Mat r c ℝ)} {i : ℕ} {s s' : S} :
      progress s v (g.map maxNorm) i = (s', false) → DescentLoop search pr progress x v g i s x s'
  | again {x x' xf : Mat r c ℝ} {v v' : ℝ} {g : Option (Mat r c ℝ)} {g' : Mat r c ℝ} {i : ℕ}
      {s s' sf : S} :
      progress s v (g.map maxNorm) i = (s', true) → pr.gradient x = some g' →
      search pr.value x g' g' x' v' →
      DescentLoop search pr progress x' v' (some g') (i + 1) s' xf sf →
      DescentLoop search pr progress x v g i s xf sf

/-- `GradientDescent::minimize` (GradientDescent.hpp:186-201).  The memory of the gradient is not
initialised (line 188). -/
def Minimize {S : Type} (search : LineSearch r c) (pr : Problem r c) (progress : Progress S)
    (x : Mat r c ℝ) (s : S) (x' : Mat r c ℝ) (s' : S) : Prop :=
  ∃ v, pr.value x = some v ∧ DescentLoop search pr progress x v none 0 s x' s'

/-- `(initial_value - value) / value > tolerance` (FastSupervisedMStep.cpp:85-90) in IEEE arithmetic,
`none` being the `INFINITY` of line 72.  Division by zero gives an infinity, or NaN for `0 / 0`. -/
noncomputable def improves (tol : ℝ) (initial : Option ℝ) (value : ℝ) : Bool :=
  match initial with
  | none => decide (0 ≤ value)
  | some i => if value = 0 then decide (0 < i) else decide ((i - value) / value > tol)

/-- The callback of the supervised M steps (FastSupervisedMStep.cpp:76-92, SupervisedMStep.cpp:93-109):
the captured `initial_value` and the MaximizationProgressEvents dispatched so far. -/
noncomputable def mStepProgress (limit : ℕ) (tol : ℝ) : Progress (Option ℝ × List ℝ) :=
  fun s value _ iterations =>
    ((some value, s.2 ++ [-value]), decide (iterations < limit) && improves tol s.1 value)

/-! ### Class weights -/

/-- `y.maxCoeff() + 1`: undefined for an empty vector (MultinomialLogisticRegression.cpp:17,
SecondOrderLogisticRegressionApproximation.cpp:18). -/
def numClasses : List ℤ → Option ℤ
  | [] => none
  | y :: ys => some (ys.foldl max y + 1)

/-- `Cy(y) += 1` (MultinomialLogisticRegression.cpp:22-24). -/
def countLabel (counts : List ℕ) (y : ℤ) : Option (List ℕ) :=
  if 0 ≤ y ∧ y.toNat < counts.length then some (counts.set y.toNat (counts.getD y.toNat 0 + 1)) else none

/-- `y.rows() / (Cy * C)` for one class: not a finite number for a class without documents
(MultinomialLogisticRegression.cpp:26). -/
noncomputable def weightOf (rows : ℕ) (C : ℤ) (count : ℕ) : Option ℝ :=
  if count = 0 then none else some (rows / ((count : ℝ) * C))

/-- The weights computed by the first constructor of `MultinomialLogisticRegression`
(MultinomialLogisticRegression.cpp:16-26), by the one of `SecondOrderLogisticRegressionApproximation`
(SecondOrderLogisticRegressionApproximation.cpp:17-27) and by `create_class_weights`
(applications/utils.cpp:6-17).  A vector of negative size is undefined. -/
noncomputable def defaultWeights (y : List ℤ) : Option (List (Option ℝ)) :=
  (numClasses y).bind fun C =>
  if C < 0 then none
  else
    (y.foldlM countLabel (List.replicate C.toNat 0)).map fun counts =>
      counts.map (weightOf y.length C)

/-- `Cy_[y]` (MultinomialLogisticRegression.cpp:47). -/
def weightAt (Cy : List (Option ℝ)) (y : ℤ) : Option ℝ :=
  if 0 ≤ y then (Cy[y.toNat]?).join else none

/-! ### The two objectives -/

/-- `t[y]` (MultinomialLogisticRegression.cpp:47). -/
def entryAt {n : ℕ} (t : Vec n ℝ) (y : ℤ) : Option ℝ :=
  if h : 0 ≤ y ∧ y < n then some (t ⟨y.toNat, by omega⟩) else none

/-- `eta.transpose() * x` (MultinomialLogisticRegression.cpp:46 and 71). -/
def scores (eta : Mat K C ℝ) (x : Vec K ℝ) : Vec C ℝ := fun c => ∑ k, eta k c * x k

/-- `eta.squaredNorm()` (MultinomialLogisticRegression.cpp:56). -/
def squaredNorm (eta : Mat r c ℝ) : ℝ := ∑ i, ∑ j, eta i j ^ 2

/-- `grad.col(y) -= w * x` (MultinomialLogisticRegression.cpp:69). -/
def subCol (grad : Mat K C ℝ) (y : ℤ) (w : ℝ) (x : Vec K ℝ) : Option (Mat K C ℝ) :=
  if 0 ≤ y ∧ y < C then
    some fun k c => if (c : ℤ) = y then grad k c - w * x k else grad k c
  else none

/-- The loop of `MultinomialLogisticRegression::value` (MultinomialLogisticRegression.cpp:45-53), over
the labels and the columns of `X_`. -/
noncomputable def logisticLoop (Cy : List (Option ℝ)) (eta : Mat K C ℝ) :
    List ℤ → List (Vec K ℝ) → ℝ → Option ℝ
  | [], _, acc => some acc
  | _ :: _, [], _ => none
  | y :: ys, x :: xs, acc =>
    let t := scores eta x
    (weightAt Cy y).bind fun w =>
    (entryAt t y).bind fun ty =>
    (logc (∑ c, Real.exp (t c))).bind fun l =>
    logisticLoop Cy eta ys xs (acc + w * ty - w * l)

/-- `MultinomialLogisticRegression::value` (MultinomialLogisticRegression.cpp:39-60). -/
noncomputable def logisticValue (X : List (Vec K ℝ)) (y : List ℤ) (Cy : List (Option ℝ)) (L : ℝ)
    (eta : Mat K C ℝ) : Option ℝ :=
  (logisticLoop Cy eta y X 0).map fun likelihood => - likelihood + L * squaredNorm eta / 2

/-- The loop of `MultinomialLogisticRegression::gradient` (MultinomialLogisticRegression.cpp:68-73). -/
noncomputable def logisticGradLoop (Cy : List (Option ℝ)) (eta : Mat K C ℝ) :
    List ℤ → List (Vec K ℝ) → Mat K C ℝ → Option (Mat K C ℝ)
  | [], _, g => some g
  | _ :: _, [], _ => none
  | y :: ys, x :: xs, g =>
    (weightAt Cy y).bind fun w =>
    (subCol g y w x).bind fun g' =>
    let t : Vec C ℝ := fun c => Real.exp (scores eta x c)
    if (∑ c, t c) = 0 then none
    else logisticGradLoop Cy eta ys xs fun k c => g' k c + w * (x k * t c) / ∑ c, t c

/-- `MultinomialLogisticRegression::gradient` (MultinomialLogisticRegression.cpp:63-77). -/
noncomputable def logisticGradient (X : List (Vec K ℝ)) (y : List ℤ) (Cy : List (Option ℝ)) (L : ℝ)
    (eta : Mat K C ℝ) : Option (Mat K C ℝ) :=
  (logisticGradLoop Cy eta y X fun _ _ => 0).map fun g k c => g k c + eta k c * L

/-- A `MultinomialLogisticRegression` with the given weights
(MultinomialLogisticRegression.cpp:29-36). -/
noncomputable def logistic (C : ℕ) (X : List (Vec K ℝ)) (y : List ℤ) (Cy : List (Option ℝ)) (L : ℝ) :
    Problem K C :=
  ⟨logisticValue X y Cy L, logisticGradient X y Cy L⟩

/-- A `MultinomialLogisticRegression` with the default weights
(MultinomialLogisticRegression.cpp:9-27). -/
noncomputable def logisticDefault (C : ℕ) (X : List (Vec K ℝ)) (y : List ℤ) (L : ℝ) :
    Option (Problem K C) :=
  (defaultWeights y).map fun Cy => logistic C X y Cy L

/-- `(eta.transpose() * V * eta).diagonal()` (SecondOrderLogisticRegressionApproximation.cpp:51 and 78).
-/
def quad (eta : Mat K C ℝ) (V : Mat K K ℝ) : Vec C ℝ :=
  fun c => ∑ l, (∑ k, eta k c * V k l) * eta l c

/-- The loop of `SecondOrderLogisticRegressionApproximation::value`
(SecondOrderLogisticRegressionApproximation.cpp:47-53), over the labels, the columns of `X_` and the
matrices of `X_var_`. -/
noncomputable def secondLoop (Cy : List (Option ℝ)) (eta : Mat K C ℝ) :
    List ℤ → List (Vec K ℝ) → List (Mat K K ℝ) → ℝ → Option ℝ
  | [], _, _, acc => some acc
  | y :: ys, x :: xs, V :: Vs, acc =>
    let t := scores eta x
    (weightAt Cy y).bind fun w =>
    (entryAt t y).bind fun ty =>
    (logc (∑ c, Real.exp (t c) * (1 + 0.5 * quad eta V c))).bind fun l =>
    secondLoop Cy eta ys xs Vs (acc + w * ty - w * l)
  | _ :: _, _, _, _ => none

/-- `SecondOrderLogisticRegressionApproximation::value`
(SecondOrderLogisticRegressionApproximation.cpp:41-60). -/
noncomputable def secondValue (X : List (Vec K ℝ)) (V : List (Mat K K ℝ)) (y : List ℤ)
    (Cy : List (Option ℝ)) (L : ℝ) (eta : Mat K C ℝ) : Option ℝ :=
  (secondLoop Cy eta y X V 0).map fun likelihood => - likelihood + L * squaredNorm eta / 2

/-- `grad_d` (SecondOrderLogisticRegressionApproximation.cpp:76-87). -/
noncomputable def secondGradDoc (eta : Mat K C ℝ) (x : Vec K ℝ) (V : Mat K K ℝ) : Mat K C ℝ :=
  let etaEz : Vec C ℝ := fun c => Real.exp (scores eta x c)
  let etaVz : Mat C K ℝ := fun c l => ((∑ k, eta k c * V k l) + ∑ k, eta k c * V l k) / 2
  fun k c => x k * (etaEz c * (1 + 0.5 * quad eta V c)) + etaVz c k * etaEz c

/-- `normalizer` (SecondOrderLogisticRegressionApproximation.cpp:81). -/
noncomputable def secondNormalizer (eta : Mat K C ℝ) (x : Vec K ℝ) (V : Mat K K ℝ) : ℝ :=
  (∑ c, Real.exp (scores eta x c)) + 0.5 * ∑ c, Real.exp (scores eta x c) * quad eta V c

/-- The loop of `SecondOrderLogisticRegressionApproximation::gradient`
(SecondOrderLogisticRegressionApproximation.cpp:72-90). -/
noncomputable def secondGradLoop (Cy : List (Option ℝ)) (eta : Mat K C ℝ) :
    List ℤ → List (Vec K ℝ) → List (Mat K K ℝ) → Mat K C ℝ → Option (Mat K C ℝ)
  | [], _, _, g => some g
  | y :: ys, x :: xs, V :: Vs, g =>
    (weightAt Cy y).bind fun w =>
    (subCol g y w x).bind fun g' =>
    if secondNormalizer eta x V = 0 then none
    else secondGradLoop Cy eta ys xs Vs fun k c =>
      g' k c + w * (1 / secondNormalizer eta x V) * secondGradDoc eta x V k c
  | _ :: _, _, _, _ => none

/-- `SecondOrderLogisticRegressionApproximation::gradient`
(SecondOrderLogisticRegressionApproximation.cpp:63-94). -/
noncomputable def secondGradient (X : List (Vec K ℝ)) (V : List (Mat K K ℝ)) (y : List ℤ)
    (Cy : List (Option ℝ)) (L : ℝ) (eta : Mat K C ℝ) : Option (Mat K C ℝ) :=
  (secondGradLoop Cy eta y X V fun _ _ => 0).map fun g k c => g k c + eta k c * L

/-- A `SecondOrderLogisticRegressionApproximation` with the given weights
(SecondOrderLogisticRegressionApproximation.cpp:30-38). -/
noncomputable def secondOrder (C : ℕ) (X : List (Vec K ℝ)) (V : List (Mat K K ℝ)) (y : List ℤ)
    (Cy : List (Option ℝ)) (L : ℝ) : Problem K C :=
  ⟨secondValue X V y Cy L, secondGradient X V y Cy L⟩

/-- A `SecondOrderLogisticRegressionApproximation` with the default weights
(SecondOrderLogisticRegressionApproximation.cpp:9-28). -/
noncomputable def secondOrderDefault (C : ℕ) (X : List (Vec K ℝ)) (V : List (Mat K K ℝ)) (y : List ℤ)
    (L : ℝ) : Option (Problem K C) :=
  (defaultWeights y).map fun Cy => secondOrder C X V y Cy L

end Verif.Optim
