import Verif.Model.Reports

/-
Training of the topics with the unsupervised steps and the numbers of the machine.
-/
namespace Verif.Overflow

open MathUtils EStep Limits Classical

variable {K V : ℕ} {F : Format}

/-- `UnsupervisedMStep::doc_m_step` (UnsupervisedMStep.cpp:19-37): `b_` after the document `X`. -/
noncomputable def nCounts (F : Format) (X : Vec V ℕ) (phi b : Mat K V Num) : Mat K V Num := fun k n =>
  nAdd F (b k n) (nMul F (phi k n) (toNum F (X n)))

/-- `UnsupervisedMStep::m_step` (UnsupervisedMStep.cpp:8-17): the rows of `b_` divided by their sums, which are not
compared with zero. -/
noncomputable def nTopics (D : Device F) (b : Mat K V Num) : Mat K V Num := fun k n => nDiv F (b k n) (D.nsum (b k))

/-- The results of the documents `docs`, in the order in which they arrive, added to `b` (LDA.cpp:103-120). -/
noncomputable def uGather (D : Device F) (alpha : Vec K ℝ) (tol : ℝ) (iterations : ℕ) (beta : Mat K V Num) :
    List (Vec V ℕ) → Mat K V Num → Option (Mat K V Num)
  | [], b => some b
  | X :: docs, b => (uRun D X alpha beta tol iterations).bind fun s => uGather D alpha tol iterations beta docs (nCounts F X s.2 b)

/-- An epoch (`LDA::partial_fit`, LDA.cpp:91-135) with at least one document. -/
noncomputable def uEpoch (D : Device F) (alpha : Vec K ℝ) (tol : ℝ) (iterations : ℕ) (docs : List (Vec V ℕ)) (beta : Mat K V Num) :
    Option (Mat K V Num) :=
  (uGather D alpha tol iterations beta docs fun _ _ => .fin 0).map (nTopics D)

/-- The epochs of `LDA::fit` (LDA.cpp:75-81), each with the order in which the results arrive. -/
noncomputable def uTrain (D : Device F) (alpha : Vec K ℝ) (tol : ℝ) (iterations : ℕ) : List (List (Vec V ℕ)) → Mat K V Num → Option (Mat K V Num)
  | [], beta => some beta
  | docs :: rest, beta => (uEpoch D alpha tol iterations docs beta).bind (uTrain D alpha tol iterations rest)

end Verif.Overflow
