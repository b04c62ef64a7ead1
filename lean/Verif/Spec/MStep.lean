import Verif.Model.MStep
import Verif.Spec.Optim

/-! Vocabulary in which the properties of the maximisation steps are stated. -/
namespace Verif.MStep

open MathUtils EStep Optim Finset

variable {K V C : ℕ}

/-- A document with the variational parameters the E step found for it. -/
abbrev Given (K V : ℕ) := Doc V × VP K V

/-- The expected number of times word `n` of the documents was drawn from topic `k`. -/
def expectedCounts (ds : List (Given K V)) (k : Fin K) (n : Fin V) : ℝ :=
  (ds.map fun d => (d.1.words n : ℝ) * d.2.phi k n).sum

/-- The expected number of words of the documents drawn from topic `k`. -/
def topicMass (ds : List (Given K V)) (k : Fin K) : ℝ := ∑ n, expectedCounts ds k n

/-- Every row is a distribution. -/
def RowStochastic {r c : ℕ} (m : Mat r c ℝ) : Prop := (∀ i j, 0 ≤ m i j) ∧ ∀ i, ∑ j, m i j = 1

/-- The expected complete log likelihood of the words, as a function of the topics. -/
noncomputable def wordLikelihood (ds : List (Given K V)) (beta : Mat K V ℝ) : ℝ :=
  (ds.map fun d => ∑ k, ∑ n, (d.1.words n : ℝ) * d.2.phi k n * Real.log (beta k n)).sum

/-- A call of an M step: `doc_m_step` (with its arguments) or `m_step` (with its arguments). -/
inductive Call (A B : Type) where
  | doc (a : A)
  | step (b : B)

/-- The arguments of the `doc_m_step` calls since the last `m_step`, in order. -/
def since {A B : Type} (h : List (Call A B)) : List A :=
  h.foldl (fun acc c => match c with
    | .doc a => acc ++ [a]
    | .step _ => []) []

/-- The arguments of all `doc_m_step` calls, in order. -/
def given {A B : Type} (h : List (Call A B)) : List A :=
  h.filterMap fun c => match c with
    | .doc a => some a
    | .step _ => none

/-- The state after a history of calls: `none` if one of them was undefined. -/
def history {S A B : Type} (doc : A → S → Option S) (step : B → S → Option S) (s : S)
    (h : List (Call A B)) : Option S :=
  h.foldlM (fun s c => match c with
    | .doc a => doc a s
    | .step b => step b s) s

/-- The share of the topics in a document: `gamma - alpha`, scaled to sum to one if it can be. -/
noncomputable def topicShare (alpha gamma : Vec K ℝ) (k : Fin K) : ℝ :=
  let total := ∑ j, (gamma j - alpha j)
  if total = 0 then gamma k - alpha k else (gamma k - alpha k) / total

end Verif.MStep
