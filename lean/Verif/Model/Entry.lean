import Verif.Model.Corpus
import Verif.Model.MStep

/-
Model of what the entry points of `LDA` pass to the steps: documents with and without a label
(src/ldaplusplus/Document.cpp) and the casts that the steps perform on documents and on variational parameters.

`none` is undefined behaviour.  A `static_pointer_cast` to a class that the object is not an instance of,
followed by a use of the result, is undefined; so is the use of a null pointer.
-/
namespace Verif.Entry

open MathUtils EStep MStep

variable {K V C : ℕ}

/-- A corpus that knows the priors of its classes, `EigenClassificationCorpus` (Document.hpp:203-227). -/
structure CorpusInfo where
  size : ℕ
  priors : List ℚ

/-- A document.  `label` is `none` for an `EigenDocument`, which is no `ClassificationDocument`
(Document.hpp:100-112), and the class for a `ClassificationDecorator` (Document.hpp:119-139).  `corpus` is
`none` if `get_corpus()` is null. -/
structure Document (V : ℕ) where
  words : Vec V ℕ
  label : Option ℤ
  corpus : Option CorpusInfo

/-- The documents of an `EigenCorpus` (Document.cpp:79-83): they have no label and no corpus
(Document.hpp:103). -/
def eigenCorpus (X : List (Vec V ℕ)) : List (Document V) := X.map fun w => ⟨w, none, none⟩

/-- The documents of an `EigenClassificationCorpus` (Document.cpp:93-123).  The constructor computes the
priors.  `y_[i]` must exist. -/
def classCorpus (X : List (Vec V ℕ)) (y : List ℤ) : Option (List (Document V)) :=
  (Corpus.priors y).bind fun p =>
  if X.length ≤ y.length then
    some ((X.zip y).map fun q => ⟨q.1, some q.2, some ⟨X.length, p⟩⟩)
  else none

/-- `std::static_pointer_cast<ClassificationDocument>(doc)->get_class()` (e.g.
FastSupervisedEStep.cpp:41). -/
def Document.getClass (d : Document V) : Option ℤ := d.label

/-- The expectation steps (the classes of include/ldaplusplus/em/*EStep.hpp). -/
inductive E where
  | classic (cfg : Cfg)
  | supervised (cfg : Cfg) (fixedPoint : ℕ)
  | fast (cfg : Cfg) (weight : ℝ)
  | multinomial (cfg : Cfg) (etaWeight mu : ℝ)
  | correspondence (cfg : Cfg) (mu : ℝ)
  | semi (supervised unsupervised : E)

/-- What `doc_e_step` returns: `VariationalParameters` or the derived
`SupervisedCorrespondenceVariationalParameters` (Parameters.hpp). -/
inductive Vars (K V : ℕ) where
  | plain (vp : VP K V)
  | corr (vp : VP K V) (tau : Vec V ℝ)

/-- The part they share (Parameters.hpp:67-79). -/
def Vars.vp : Vars K V → VP K V
  | .plain vp => vp
  | .corr vp _ => vp

/-- `static_pointer_cast<SupervisedCorrespondenceVariationalParameters>(v_parameters)`
(CorrespondenceSupervisedMStep.cpp:42). -/
def Vars.asCorr : Vars K V → Option (VP K V × Vec V ℝ)
  | .plain _ => none
  | .corr vp tau => some (vp, tau)

/-- `doc_e_step` of the expectation steps on a document (the lines before the loop: SupervisedEStep.cpp:36,
FastSupervisedEStep.cpp:41, MultinomialSupervisedEStep.cpp:38-40, CorrespondenceSupervisedEStep.cpp:36-37,
SemiSupervisedEStep.cpp:34-38). -/
noncomputable def docE (P : Prims) (draw : ℝ) (d : Document V) (m : Model K V C) : E → Option (Vars K V × Report)
  | .classic cfg => (unsupervised P cfg draw d.words m).map fun r => (.plain r.1, r.2)
  | .supervised cfg fp =>
    d.getClass.bind fun y => (supervised P cfg fp draw d.words y m).map fun r => (.plain r.1, r.2)
  | .fast cfg w =>
    d.getClass.bind fun y => (fast P cfg w draw d.words y m).map fun r => (.plain r.1, r.2)
  | .multinomial cfg ew mu =>
    d.getClass.bind fun y =>
    d.corpus.bind fun c =>
    (Corpus.getPrior c.priors y).bind fun prior =>
    (multinomial P cfg ew mu (prior : ℝ) c.size draw d.words y m).map fun r => (.plain r.1, r.2)
  | .correspondence cfg mu =>
    d.getClass.bind fun y =>
    d.corpus.bind fun c =>
    (correspondence P cfg mu c.size draw d.words y m).map fun r => (.corr r.1.1 r.1.2, r.2)
  | .semi s u =>
    d.getClass.bind fun y => if y < 0 then docE P draw d m u else docE P draw d m s

/-- The maximisation steps with their state (the classes of include/ldaplusplus/em/*MStep.hpp). -/
inductive M (K V C : ℕ) where
  | classic (s : Buf K V)
  | fast (s : FastState K V)
  | supervised (s : SupState K V)
  | semi (s : FastState K V)
  | multinomial (s : MultState K V C)
  | correspondence (s : MultState K V C)
  | online (cfg : OnlineCfg C) (s : OnlineState K V C)

/-- `doc_m_step` of the maximisation steps (the casts are at UnsupervisedMStep.cpp:29,
FastSupervisedMStep.cpp:26-42, SupervisedMStep.cpp:30-51, SemiSupervisedMStep.cpp:13,
MultinomialSupervisedMStep.cpp:39-45, CorrespondenceSupervisedMStep.cpp:39-47,
FastOnlineSupervisedMStep.cpp:55-60). -/
noncomputable def docM (alpha : Vec K ℝ) (eta : Mat K C ℝ) (d : Document V) (v : Vars K V) :
    M K V C → Option (M K V C)
  | .classic s => some (.classic (uDoc d.words v.vp.phi s))
  | .fast s => d.getClass.bind fun y => (fastDoc alpha ⟨d.words, y⟩ v.vp s).map .fast
  | .supervised s => d.getClass.bind fun y => (supDoc alpha ⟨d.words, y⟩ v.vp s).map .supervised
  | .semi s => d.getClass.bind fun y => (semiDoc alpha ⟨d.words, y⟩ v.vp s).map .semi
  | .multinomial s => d.getClass.bind fun y => (multDoc eta ⟨d.words, y⟩ v.vp.phi s).map .multinomial
  | .correspondence s =>
    d.getClass.bind fun y => v.asCorr.bind fun t => (corrDoc eta ⟨d.words, y⟩ t.1.phi t.2 s).map .correspondence
  | .online cfg s => d.getClass.bind fun y => (onlineDoc cfg alpha ⟨d.words, y⟩ v.vp s).map fun r => .online cfg r.1

/-- The part of `partial_fit` that deals with documents (LDA.cpp:104-120), in the order in which they arrive; each
with its random draw.  The model is read by the steps; that the online step changes it meanwhile is left out, so
the model is any model, and may differ from document to document. -/
noncomputable def fitDocs (P : Prims) (e : E) : List (Document V × ℝ × Model K V C) → M K V C → Option (M K V C)
  | [], m => some m
  | q :: qs, m =>
    (docE P q.2.1 q.1 q.2.2 e).bind fun r =>
    (docM q.2.2.alpha q.2.2.eta q.1 r.1 m).bind (fitDocs P e qs)

/-- The loop of `transform` (LDA.cpp:160-170): the column of each document. -/
noncomputable def transformDocs (P : Prims) (e : E) (m : Model K V C) :
    List (Document V × ℝ) → Option (List (Vec K ℝ))
  | [] => some []
  | q :: qs =>
    (docE P q.2 q.1 m e).bind fun r => (transformDocs P e m qs).map fun l => r.1.vp.gamma :: l

end Verif.Entry
