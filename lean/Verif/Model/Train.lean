import Verif.Model.Pool
import Verif.Model.MStep

/-
Training: `LDA::partial_fit` (LDA.cpp:90-135) with the maximisation steps of the library.

The state of the calling thread is the model parameters, the state of the E step object that `e_step()`
changes (the epoch counter of `FastSupervisedEStep`; any type `T`) and the members of the M step
(`none` after undefined behaviour).
-/
namespace Verif.Train

open MathUtils EStep MStep Pool

variable {K V C : ℕ} {Q R S T : Type}

/-- A maximisation step together with a corpus: `doc q i r s` is `doc_m_step(corpus->at(i), r, q)`; `step` is
`m_step`, with the number of its events.  `Q` are the model parameters (MStepInterface.hpp:24-60). -/
structure BatchStep (Q R S : Type) where
  doc : Q → ℕ → R → S → Option S
  step : Q → S → Option (Q × S × ℕ)

/-- The loop body of `partial_fit` (LDA.cpp:115-119). -/
def trainDoc (b : BatchStep Q R S) (i : ℕ) (r : R) (m : Q × T × Option S) : (Q × T × Option S) × ℕ :=
  ((m.1, m.2.1, m.2.2.bind (b.doc m.1 i r)), 0)

/-- `e_step_->e_step(); m_step_->m_step(model)` (LDA.cpp:126-131). -/
def trainBatch (b : BatchStep Q R S) (next : T → T) (m : Q × T × Option S) : (Q × T × Option S) × ℕ :=
  match m.2.2.bind (b.step m.1) with
  | none => ((m.1, next m.2.1, none), 0)
  | some r => ((r.1, next m.2.1, some r.2.1), r.2.2)

/-- What the E step reads (LDA.cpp:266-269). -/
def trainParams (m : Q × T × Option S) : Q × T := (m.1, m.2.1)

/-- `partial_fit` on a corpus of `n` documents whose index vector was shuffled to `order`
(Document.cpp:62-64), with `W` workers, any E step `eval` and any M step. -/
def trainCfg (b : BatchStep Q R S) (next : T → T) (eval : Q × T → ℕ → R) (owner : Bool) (W n : ℕ)
    (order : ℕ → ℕ) : Cfg (Q × T × Option S) (Q × T) R where
  W := W
  n := n
  kind := .partialFit
  owner := owner
  params := trainParams
  eval p i := eval p (order i)
  docStep i := trainDoc b (order i)
  batch := trainBatch b next

/-- The model parameters `alpha`, `beta` and `eta` (`SupervisedModelParameters`, Parameters.hpp). -/
structure Params (K V C : ℕ) where
  alpha : Vec K ℝ
  beta : Beta K V
  eta : Mat K C ℝ

/-- `UnsupervisedMStep` (UnsupervisedMStep.cpp). -/
noncomputable def unsupervised (corpus : ℕ → Doc V) : BatchStep (Params K V C) (VP K V) (Buf K V) where
  doc _ i r s := some (uDoc (corpus i).words r.phi s)
  step q s := some ({ q with beta := (uM s).1 }, (uM s).2, 0)

/-- `FastSupervisedMStep` (FastSupervisedMStep.cpp). -/
noncomputable def fastSupervised (cfg : SupCfg) (corpus : ℕ → Doc V) :
    BatchStep (Params K V C) (VP K V) (FastState K V) where
  doc q i r s := fastDoc q.alpha (corpus i) r s
  step q s := (fastM cfg q.eta s).map fun o =>
    ({ q with beta := o.1.beta, eta := o.1.eta }, o.2, o.1.events.length)

/-- `SemiSupervisedMStep` (SemiSupervisedMStep.cpp). -/
noncomputable def semiSupervised (cfg : SupCfg) (corpus : ℕ → Doc V) :
    BatchStep (Params K V C) (VP K V) (FastState K V) :=
  { fastSupervised cfg corpus with doc := fun q i r s => semiDoc q.alpha (corpus i) r s }

/-- `SupervisedMStep` (SupervisedMStep.cpp). -/
noncomputable def supervised (cfg : SupCfg) (corpus : ℕ → Doc V) :
    BatchStep (Params K V C) (VP K V) (SupState K V) where
  doc q i r s := supDoc q.alpha (corpus i) r s
  step q s := (supM cfg q.eta s).map fun o =>
    ({ q with beta := o.1.beta, eta := o.1.eta }, o.2, o.1.events.length)

/-- The parameters of the multinomial and correspondence models: `alpha`, and `beta` and `eta`, `none` if
they are matrices without rows (Parameters.hpp:27-60). -/
abbrev MultParams (K V C : ℕ) := Vec K ℝ × Option (Mat K V ℝ × Mat K C ℝ)

/-- `MultinomialSupervisedMStep` (MultinomialSupervisedMStep.cpp).  With an `eta` without columns
`eta.col(y)` is undefined. -/
noncomputable def multinomial (mu : ℝ) (corpus : ℕ → Doc V) :
    BatchStep (MultParams K V C) (VP K V) (MultState K V C) where
  doc q i r s := q.2.bind fun p => multDoc p.2 (corpus i) r.phi s
  step q s := some ((q.1, (multM mu s).1.params), (multM mu s).2, 1)

/-- `CorrespondenceSupervisedMStep` (CorrespondenceSupervisedMStep.cpp): the variational parameters also
have `tau`. -/
noncomputable def correspondence (mu : ℝ) (corpus : ℕ → Doc V) :
    BatchStep (MultParams K V C) (VP K V × Vec V ℝ) (MultState K V C) where
  doc q i r s := q.2.bind fun p => corrDoc p.2 (corpus i) r.1.phi r.2 s
  step q s := some ((q.1, (multM mu s).1.params), (multM mu s).2, 1)

/-! ### The online step -/

/-- What the E step reads while the online M step trains: `beta` and `eta` (`none`: an entry is not finite). -/
def onlineParams (m : Option (OnlineState K V C)) : Option (Mat K V ℝ × Mat K C ℝ) :=
  m.bind fun s => s.beta.bind fun b => s.eta.map fun e => (b, e)

/-- `partial_fit` with `FastOnlineSupervisedMStep`; `none` is undefined behaviour. -/
noncomputable def onlineTrain (cfg : OnlineCfg C) (alpha : Vec K ℝ) (corpus : ℕ → Doc V)
    (eval : Option (Mat K V ℝ × Mat K C ℝ) → ℕ → VP K V) (owner : Bool) (W n : ℕ) :
    Pool.Cfg (Option (OnlineState K V C)) (Option (Mat K V ℝ × Mat K C ℝ)) (VP K V) where
  W := W
  n := n
  kind := .partialFit
  owner := owner
  params := onlineParams
  eval := eval
  docStep i r m :=
    match m.bind (onlineDoc cfg alpha (corpus i) r) with
    | none => (none, 0)
    | some o => (some o.1, o.2.length)
  batch m :=
    match m.bind (onlineM cfg) with
    | none => (none, 0)
    | some o => (some o.1, o.2.length)

end Verif.Train
