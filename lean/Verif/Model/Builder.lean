import Verif.Model.MStep

/-
Model of `LDABuilder` (include/ldaplusplus/LDABuilder.hpp, src/ldaplusplus/LDABuilder.cpp) and of the
sharing of objects between builders and the LDAs built from them.

The objects behind `std::shared_ptr` have numbers; `next` is the number of the next object to be
allocated.  `none` as the result of a call is undefined behaviour.  Numbers are real numbers.
-/
namespace Verif.Build

open MathUtils EStep MStep Finset

/-- `Eigen::Matrix<Scalar, Dynamic, 1>` (include/ldaplusplus/Parameters.hpp:27-40). -/
structure DVec where
  n : ℕ
  val : Vec n ℝ

/-- `Eigen::Matrix<Scalar, Dynamic, Dynamic>` (include/ldaplusplus/Parameters.hpp:27-60). -/
structure DMat where
  rows : ℕ
  cols : ℕ
  val : Mat rows cols ℝ

/-- A default constructed vector (LDABuilder.cpp:24-26). -/
def DVec.empty : DVec := ⟨0, fun _ => 0⟩

/-- A default constructed matrix (LDABuilder.cpp:24-26). -/
def DMat.empty : DMat := ⟨0, 0, fun _ _ => 0⟩

/-- `SupervisedModelParameters` (Parameters.hpp). -/
structure Params where
  alpha : DVec
  beta : DMat
  eta : DMat

/-- A default constructed `SupervisedModelParameters` (LDABuilder.cpp:24-26). -/
def Params.empty : Params := ⟨.empty, .empty, .empty⟩

/-! ### The steps -/

/-- An expectation step with its constructor arguments, other than `SemiSupervisedEStep`.  `custom` stands
for any class of the user (the objects made in LDABuilder.cpp:44-146). -/
inductive EKind where
  | classic (iterations : ℕ) (tolerance computeLikelihood : ℝ) (seed : ℤ)
  | supervised (iterations : ℕ) (tolerance : ℝ) (fixedPoint : ℕ) (computeLikelihood : ℝ) (seed : ℤ)
  | fast (iterations : ℕ) (tolerance C : ℝ) (weight : WeightType) (computeLikelihood : ℝ) (seed : ℤ)
  | multinomial (iterations : ℕ) (tolerance mu etaWeight computeLikelihood : ℝ) (seed : ℤ)
  | correspondence (iterations : ℕ) (tolerance mu computeLikelihood : ℝ) (seed : ℤ)
  | custom (tag : ℕ)

/-- A pointer to an expectation step: the number of the object and what it is (LDABuilder.hpp:355-358).
-/
inductive EPtr where
  | leaf (id : ℕ) (kind : EKind)
  | semi (id : ℕ) (supervised unsupervised : EPtr)

/-- The number of the object (identity of the object behind the `shared_ptr`, LDABuilder.hpp:818). -/
def EPtr.id : EPtr → ℕ
  | .leaf i _ => i
  | .semi i _ _ => i

/-- The numbers of all objects that are reachable (a SemiSupervisedEStep keeps two pointers,
SemiSupervisedEStep.hpp:55-58). -/
def EPtr.ids : EPtr → List ℕ
  | .leaf i _ => [i]
  | .semi i s u => i :: (s.ids ++ u.ids)

/-- A maximisation step with its constructor arguments (the objects made in LDABuilder.cpp:148-267). -/
inductive MKind where
  | classic
  | fast (iterations : ℕ) (tolerance penalty : ℝ)
  | supervised (iterations : ℕ) (tolerance penalty : ℝ)
  | online (classWeights : List ℝ) (penalty : ℝ) (minibatch : ℕ) (momentum learningRate betaWeight : ℝ)
  | semi (iterations : ℕ) (tolerance penalty : ℝ)
  | multinomial (mu : ℝ)
  | correspondence (mu : ℝ)
  | custom (tag : ℕ)

/-- A pointer to a maximisation step (LDABuilder.hpp:669-673). -/
structure MPtr where
  id : ℕ
  kind : MKind

/-- The arguments of the `get_*_e_step` methods (LDABuilder.hpp:102-345). -/
inductive ESpec where
  | classic (iterations : ℕ) (tolerance computeLikelihood : ℝ) (seed : ℤ)
  | supervised (iterations : ℕ) (tolerance : ℝ) (fixedPoint : ℕ) (computeLikelihood : ℝ) (seed : ℤ)
  | fast (iterations : ℕ) (tolerance C computeLikelihood : ℝ) (seed : ℤ)
  | semi (supervised unsupervised : Option EPtr)
  | multinomial (iterations : ℕ) (tolerance mu etaWeight computeLikelihood : ℝ) (seed : ℤ)
  | correspondence (iterations : ℕ) (tolerance mu computeLikelihood : ℝ) (seed : ℤ)

/-- The arguments of the `get_*_m_step` methods (LDABuilder.hpp:362-664).  The two overloads of
`get_fast_supervised_online_m_step` with given weights are one. -/
inductive MSpec where
  | classic
  | fast (iterations : ℕ) (tolerance penalty : ℝ)
  | supervised (iterations : ℕ) (tolerance penalty : ℝ)
  | onlineClasses (classes : ℕ) (penalty : ℝ) (minibatch : ℕ) (momentum learningRate betaWeight : ℝ)
  | onlineWeights (classWeights : List ℝ) (penalty : ℝ) (minibatch : ℕ)
      (momentum learningRate betaWeight : ℝ)
  | semi (iterations : ℕ) (tolerance penalty : ℝ)
  | multinomial (mu : ℝ)
  | correspondence (mu : ℝ)

/-- `get_classic_e_step()` with the default arguments (LDABuilder.hpp:102-107); also
`UnsupervisedEStep()` (UnsupervisedEStep.hpp:44-49). -/
noncomputable def classicDefault : EKind := .classic 10 (1 / 100) 1 0

/-- `get_fast_supervised_e_step()` with the default arguments (LDABuilder.hpp:186-192). -/
noncomputable def fastDefault : EKind := .fast 10 (1 / 100) 1 .constant 1 0

/-- An argument of `get_semi_supervised_e_step`, replaced by a new step if it is null
(LDABuilder.cpp:99-104). -/
def orNew (next : ℕ) (p : Option EPtr) (k : EKind) : EPtr × ℕ :=
  match p with
  | some p => (p, next)
  | none => (.leaf next k, next + 1)

/-- The `get_*_e_step` methods (LDABuilder.cpp:44-143): the new step and the new value of `next`. -/
noncomputable def getE (next : ℕ) : ESpec → EPtr × ℕ
  | .classic i t l s => (.leaf next (.classic i t l s), next + 1)
  | .supervised i t f l s => (.leaf next (.supervised i t f l s), next + 1)
  | .fast i t C l s => (.leaf next (.fast i t C .constant l s), next + 1)
  | .semi p q =>
    let a := orNew next p fastDefault
    let b := orNew a.2 q classicDefault
    (.semi b.2 a.1 b.1, b.2 + 1)
  | .multinomial i t m w l s => (.leaf next (.multinomial i t m w l s), next + 1)
  | .correspondence i t m l s => (.leaf next (.correspondence i t m l s), next + 1)

/-- What the `get_*_m_step` methods construct (LDABuilder.cpp:145-266; for the number of classes
FastOnlineSupervisedMStep.cpp:29-46). -/
def getMKind : MSpec → MKind
  | .classic => .classic
  | .fast i t l => .fast i t l
  | .supervised i t l => .supervised i t l
  | .onlineClasses c l b m r w => .online (List.replicate c 1) l b m r w
  | .onlineWeights c l b m r w => .online c l b m r w
  | .semi i t l => .semi i t l
  | .multinomial mu => .multinomial mu
  | .correspondence mu => .correspondence mu

/-- The `get_*_m_step` methods (LDABuilder.cpp:148-267). -/
def getM (next : ℕ) (s : MSpec) : MPtr × ℕ := (⟨next, getMKind s⟩, next + 1)

/-- The value the `set_*_e_step` methods leave in `e_requires_eta_`
(LDABuilder.hpp:118, 165, 212, 246, 300, 342). -/
def eFlag : ESpec → Bool
  | .classic .. => false
  | .supervised .. => true
  | .fast .. => true
  | .semi .. => true
  | .multinomial .. => true
  | .correspondence .. => true

/-- The value the `set_*_m_step` methods leave in `m_requires_eta_`
(LDABuilder.hpp:371, 406, 441, 487, 534, 581, 616, 638, 660). -/
def mFlag : MSpec → Bool
  | .classic => false
  | .fast .. => true
  | .supervised .. => true
  | .onlineClasses .. => true
  | .onlineWeights .. => true
  | .semi .. => true
  | .multinomial .. => true
  | .correspondence .. => true

/-! ### Initial topics -/

/-- `row += words` (LDABuilder.cpp:308): the sizes must agree. -/
noncomputable def addWords {V : ℕ} (row : Vec V ℝ) (d : List ℕ) : Option (Vec V ℝ) :=
  if h : d.length = V then some fun n => row n + (d[n.val]'(h ▸ n.isLt) : ℕ) else none

/-- One row of `initialize_topics_seeded` (LDABuilder.cpp:305-310).  The documents that the random
generator chooses are `picks`; the distribution `document(0, size - 1)` is taken modulo the size.  `none` also
if the row is divided by zero. -/
noncomputable def seededRow (V : ℕ) (docs : List (List ℕ)) (picks : List ℕ) : Option (Vec V ℝ) :=
  (picks.foldlM (fun row i => (docs[i % docs.length]?).bind (addWords row)) (fun _ => (1 : ℝ))).bind fun row =>
  if 0 < V ∧ ∑ n, row n = 0 then none else some fun n => row n / ∑ n, row n

/-- The rows of a matrix one after the other (the loops over the topics in LDABuilder.cpp:285-340). -/
def rowsM {K V : ℕ} (f : Fin K → Option (Vec V ℝ)) : Option (Mat K V ℝ) :=
  if h : ∀ k, (f k).isSome then some fun k => (f k).get (h k) else none

/-- `alpha` of both initialisations (LDABuilder.cpp:289, 323).  Without topics the vector is empty. -/
noncomputable def initAlpha (topics : ℕ) : DVec := ⟨topics, fun _ => 1 / topics⟩

/-- `initialize_topics_seeded` (LDABuilder.cpp:283-314).  The words of the documents are counts.  Without a
document `corpus->at(0)` is undefined.  The overload for a matrix passes its columns
(LDABuilder.cpp:269-281). -/
noncomputable def seeded (docs : List (List ℕ)) (topics N : ℕ) (pick : ℕ → ℕ → ℕ) : Option (DVec × DMat) :=
  match docs with
  | [] => none
  | d :: _ =>
    (rowsM fun k : Fin topics => seededRow d.length docs ((List.range N).map (pick k))).map fun b =>
      (initAlpha topics, ⟨topics, d.length, b⟩)

/-- `initialize_topics_random` (LDABuilder.cpp:316-340); the draws of the generator are `draw`. -/
noncomputable def randomTopics (words topics : ℕ) (draw : ℕ → ℕ → ℝ) : DVec × DMat :=
  (initAlpha topics, ⟨topics, words, normalizeRows fun k w => draw k w⟩)

/-! ### The builder -/

/-- An `LDABuilder` (LDABuilder.hpp:815-833), with the contents of its model parameters. -/
structure Builder where
  iterations : ℕ
  workers : ℕ
  e : EPtr
  m : MPtr
  params : Params
  eReq : Bool
  mReq : Bool
  next : ℕ

/-- The constructor (LDABuilder.cpp:18-29) on a machine with `hc` cpus, when `next` is the number of the next
object. -/
noncomputable def Builder.new (hc next : ℕ) : Builder where
  iterations := 20
  workers := hc
  e := .leaf next classicDefault
  m := ⟨next + 1, .classic⟩
  params := .empty
  eReq := false
  mReq := false
  next := next + 2

/-- A call of a method of the builder (LDABuilder.hpp:77-780). -/
inductive Call where
  | setIterations (n : ℕ)
  | setWorkers (n : ℕ)
  | setEStep (s : ESpec)
  | setE (p : EPtr)
  | setMStep (s : MSpec)
  | setM (p : MPtr)
  | topicsSeeded (docs : List (List ℕ)) (topics N : ℕ) (pick : ℕ → ℕ → ℕ)
  | topicsRandom (words topics : ℕ) (draw : ℕ → ℕ → ℝ)
  | topicsFromModel (p : Params)
  | etaZeros (classes : ℕ)
  | etaUniform (classes : ℕ)
  | etaFromModel (p : Params)

/-- The exceptions (LDABuilder.hpp:789-804, LDABuilder.cpp:348-351, 368-371). -/
inductive Throw where
  | noTopics
  | noEta
  | etaBeforeTopics
  deriving DecidableEq

/-- `set_e` (LDABuilder.hpp:355-360). -/
def setE (b : Builder) (p : EPtr) : Builder := { b with eReq := false, e := p }

/-- `set_m` (LDABuilder.hpp:669-674). -/
def setM (b : Builder) (p : MPtr) : Builder := { b with mReq := false, m := p }

/-- The `set_*_e_step` methods (LDABuilder.hpp:112-346). -/
noncomputable def setEStep (b : Builder) (s : ESpec) : Builder :=
  let r := getE b.next s
  { setE { b with next := r.2 } r.1 with eReq := eFlag s }

/-- The `set_*_m_step` methods (LDABuilder.hpp:369-664). -/
def setMStep (b : Builder) (s : MSpec) : Builder :=
  let r := getM b.next s
  { setM { b with next := r.2 } r.1 with mReq := mFlag s }

/-- Assignment of `alpha` and `beta` (LDABuilder.hpp:745-746). -/
def setTopics (b : Builder) (t : DVec × DMat) : Builder :=
  { b with params := { b.params with alpha := t.1, beta := t.2 } }

/-- Assignment of `eta` (LDABuilder.hpp:776). -/
def setEta (b : Builder) (eta : DMat) : Builder := { b with params := { b.params with eta := eta } }

/-- `initialize_eta_zeros` and `initialize_eta_uniform` (LDABuilder.cpp:342-381): a constant matrix, or an
exception before anything is changed. -/
noncomputable def constEta (b : Builder) (classes : ℕ) (v : ℝ) : Builder × Option Throw :=
  if b.params.beta.rows ≤ 0 then (b, some .etaBeforeTopics)
  else (setEta b ⟨b.params.beta.rows, classes, fun _ _ => v⟩, none)

/-- A call: the builder afterwards and the exception, if any.  `1.0 / num_classes` without classes is not
stored anywhere (LDABuilder.hpp:77-780). -/
noncomputable def call (b : Builder) : Call → Option (Builder × Option Throw)
  | .setIterations n => some ({ b with iterations := n }, none)
  | .setWorkers n => some ({ b with workers := n }, none)
  | .setEStep s => some (setEStep b s, none)
  | .setE p => some (setE b p, none)
  | .setMStep s => some (setMStep b s, none)
  | .setM p => some (setM b p, none)
  | .topicsSeeded docs k n pick => (seeded docs k n pick).map fun t => (setTopics b t, none)
  | .topicsRandom w k draw => some (setTopics b (randomTopics w k draw), none)
  | .topicsFromModel p => some (setTopics b (p.alpha, p.beta), none)
  | .etaZeros c => some (constEta b c 0)
  | .etaUniform c => some (constEta b c (1 / c))
  | .etaFromModel p => some (setEta b p.eta, none)

/-- A sequence of calls by a user who catches the exceptions (LDABuilder.hpp:77-780). -/
noncomputable def calls (b : Builder) : List Call → Option Builder
  | [] => some b
  | c :: cs => (call b c).bind fun r => calls r.1 cs

/-- What `operator LDA` passes to the constructor of `LDA` (LDABuilder.hpp:803-810). -/
structure Built where
  iterations : ℕ
  workers : ℕ
  e : EPtr
  m : MPtr
  params : Params

/-- `operator LDA` (LDABuilder.hpp:787-813). -/
def Builder.build (b : Builder) : Except Throw Built :=
  if b.params.beta.rows = 0 then .error .noTopics
  else if b.params.eta.rows = 0 ∧ (b.eReq = true ∨ b.mReq = true) then .error .noEta
  else .ok ⟨b.iterations, b.workers, b.e, b.m, b.params⟩

end Verif.Build
