import Verif.Model.EStep

/-! What the expectation steps are meant to compute. -/
namespace Verif.EStep

open MathUtils Finset

variable {K V C : ℕ}

/-- Every entry of the prior is positive and no word probability is negative. -/
structure Model.Valid (m : Model K V C) : Prop where
  alpha_pos : ∀ k, 0 < m.alpha k
  beta_nonneg : ∀ k n, 0 ≤ m.beta k n

/-- Some topic gives the word positive probability. -/
def Model.Known (m : Model K V C) (n : Fin V) : Prop := ∃ k, 0 < m.beta k n

/-- `gamma` is `alpha` plus the expected topic counts. -/
def Counts (X : Vec V ℕ) (alpha : Vec K ℝ) (s : VP K V) : Prop :=
  ∀ k, s.gamma k = alpha k + ∑ n, (X n : ℝ) * s.phi k n

/-- A column is a distribution. -/
def IsDist {r : ℕ} (v : Vec r ℝ) : Prop := (∀ k, 0 ≤ v k) ∧ ∑ k, v k = 1

/-- The mean absolute change from the previous element of a sequence; before the first there is the
zero vector. -/
noncomputable def change (g : ℕ → Vec K ℝ) : ℕ → ℝ
  | 0 => (∑ k, |g 0 k|) / K
  | i + 1 => (∑ k, |g (i + 1) k - g i k|) / K

/-- `j` is the first index at which the sequence has converged, or the limit. -/
def StopsAt (limit : ℕ) (tol : ℝ) (g : ℕ → Vec K ℝ) (j : ℕ) : Prop :=
  j ≤ limit ∧ (j < limit → change g j < tol) ∧ ∀ i < j, ¬ change g i < tol

/-- A sequence of values obtained by repeated updates, started at `s0`, of which the last is `s`. -/
def Reaches {S : Type} (R : S → S → Prop) (s0 s : S) (limit : ℕ) (tol : ℝ) (gam : S → Vec K ℝ) : Prop :=
  ∃ (f : ℕ → S) (j : ℕ), f 0 = s0 ∧ (∀ i < j, R (f i) (f (i + 1))) ∧ s = f j ∧
    StopsAt limit tol (fun i => gam (f i)) j

/-- Column `n` of `phi` is proportional to the weights, and sums to one unless all weights are zero. -/
def Proportional (phi : Mat K V ℝ) (w : Mat K V ℝ) : Prop :=
  ∀ n, (∀ k, phi k n * (∑ j, w j n) = w k n) ∧ ((∃ k, w k n ≠ 0) → ∑ k, phi k n = 1) ∧
    ((∀ k, w k n = 0) → ∀ k, phi k n = 0)

/-- The update of the unsupervised step, equations (6) and (7) of Blei 2003 (the common factor
`exp (-psi (sum gamma))` of the weights left out). -/
def UnsupervisedUpdate (P : Prims) (X : Vec V ℕ) (m : Model K V C) (s s' : VP K V) : Prop :=
  ∃ psi : Vec K ℝ, (∀ k, P.psi (s.gamma k) = some (psi k)) ∧
    Proportional s'.phi (fun k n => m.beta k n * P.exp (psi k)) ∧ Counts X m.alpha s'

/-- The scaled classification parameters of the fast step: `eta` over its largest entry if that is
positive. -/
def IsScaled (eta es : Mat K C ℝ) : Prop :=
  ∃ mx : ℝ, (∃ k c, eta k c = mx) ∧ (∀ k c, eta k c ≤ mx) ∧
    ((0 < mx ∧ ∀ k c, es k c * mx = eta k c) ∨ (mx ≤ 0 ∧ es = eta))

/-- The probabilities of the classes for the mean topic assignment `1/N ∑ X_n phi_n`. -/
def IsSoftmax (P : Prims) (X : Vec V ℕ) (eta : Mat K C ℝ) (phi : Mat K V ℝ) (sm : Vec C ℝ) : Prop :=
  let score := fun c => P.exp (∑ k, eta k c * ((∑ n, (X n : ℝ) * phi k n) / ∑ n, (X n : ℝ)))
  IsDist sm ∧ ∀ c d, sm c * score d = sm d * score c

/-- The update of the fast supervised step for a document with words. -/
def FastUpdate (P : Prims) (w : ℝ) (X : Vec V ℕ) (y : Fin C) (m : Model K V C) (s s' : VP K V) : Prop :=
  ∃ (psi : Vec K ℝ) (sm : Vec C ℝ) (es : Mat K C ℝ), (∀ k, P.psi (s.gamma k) = some (psi k)) ∧
    IsSoftmax P X m.eta s.phi sm ∧ IsScaled m.eta es ∧
    Proportional s'.phi (fun k n => m.beta k n *
      P.exp (psi k + w * (es k y - ∑ c, sm c * es k c))) ∧ Counts X m.alpha s'

/-- The update of the multinomial step. -/
def MultinomialUpdate (P : Prims) (ew : ℝ) (X : Vec V ℕ) (y : Fin C) (m : Model K V C) (s s' : VP K V) :
    Prop :=
  ∃ (psi : Vec K ℝ) (d : ℝ), (∀ k, P.psi (s.gamma k) = some (psi k)) ∧
    P.psi (∑ k, s.gamma k) = some d ∧
    Proportional s'.phi (fun k n => m.beta k n *
      P.exp (psi k - d - 1 + ew * Real.log (m.eta k y))) ∧ Counts X m.alpha s'

/-- The update of the correspondence step. -/
def CorrespondenceUpdate (P : Prims) (X : Vec V ℕ) (y : Fin C) (m : Model K V C)
    (s s' : VP K V × Vec V ℝ) : Prop :=
  ∃ psi : Vec K ℝ, (∀ k, P.psi (s.1.gamma k) = some (psi k)) ∧
    Proportional s'.1.phi (fun k n => m.beta k n *
      (P.exp (psi k) * P.exp (s.2 n * Real.log (m.eta k y)))) ∧
    Counts X m.alpha s'.1 ∧
    (∀ n, s'.2 n * (∑ l, P.exp (∑ k, s'.1.phi k l * Real.log (m.eta k y))) =
      P.exp (∑ k, s'.1.phi k n * Real.log (m.eta k y))) ∧
    (0 < V → ∑ n, s'.2 n = 1)

/-! ### The supervised step -/

/-- The vector `h` documented in include/ldaplusplus/e_step_utils.hpp for the word `n`: over the
other words of the document. -/
noncomputable def hDoc (P : Prims) (X : Vec V ℕ) (eta : Mat K C ℝ) (phi : Mat K V ℝ) (n : Fin V) :
    Vec K ℝ := fun k =>
  ∑ c, (∏ l ∈ univ.filter (fun l => X l ≠ 0 ∧ l ≠ n),
      ∑ j, phi j l * P.exp ((X l : ℝ) / (∑ i, (X i : ℝ)) * eta j c)) *
    P.exp ((X n : ℝ) / (∑ i, (X i : ℝ)) * eta k c)

/-- Some number of updates in sequence. -/
inductive Times {A : Type} (R : A → A → Prop) : ℕ → A → A → Prop
  | zero (a : A) : Times R 0 a a
  | succ {i : ℕ} {a b c : A} : R a b → Times R i b c → Times R (i + 1) a c

/-- One fixed point update of the column of a word with count `x` in a document of `N` words. -/
def ColumnUpdate (P : Prims) (x : ℕ) (N : ℝ) (bcol ey psi h : Vec K ℝ) (col col' : Vec K ℝ) : Prop :=
  (∑ k, h k * col k) ≠ 0 ∧ ∑ k, col' k = 1 ∧ ∃ Z : ℝ, ∀ k, col' k * Z =
    bcol k * P.exp (psi k + (x : ℝ) / N * ey k - h k / ((∑ k, h k * col k) * x))

/-- The update of one word of the document. -/
def WordUpdate (P : Prims) (X : Vec V ℕ) (y : Fin C) (m : Model K V C) (fp : ℕ) (n : Fin V)
    (s s' : VP K V) : Prop :=
  ∃ psi : Vec K ℝ, (∀ k, P.psi (s.gamma k) = some (psi k)) ∧
    Times (ColumnUpdate P (X n) (∑ i, (X i : ℝ)) (fun k => m.beta k n) (fun k => m.eta k y) psi
      (hDoc P X m.eta s.phi n)) fp (fun k => s.phi k n) (fun k => s'.phi k n) ∧
    (∀ k l, l ≠ n → s'.phi k l = s.phi k l) ∧
    ∀ k, s'.gamma k = s.gamma k + X n * (s'.phi k n - s.phi k n)

/-- The updates of the given words in order. -/
inductive WordUpdates (P : Prims) (X : Vec V ℕ) (y : Fin C) (m : Model K V C) (fp : ℕ) :
    List (Fin V) → VP K V → VP K V → Prop
  | nil (s : VP K V) : WordUpdates P X y m fp [] s s
  | cons {n : Fin V} {ns : List (Fin V)} {s s' s'' : VP K V} : WordUpdate P X y m fp n s s' →
      WordUpdates P X y m fp ns s' s'' → WordUpdates P X y m fp (n :: ns) s s''

/-- The words of a document in the order of the vocabulary. -/
def present (X : Vec V ℕ) : List (Fin V) := (List.finRange V).filter (fun n => X n ≠ 0)

end Verif.EStep
