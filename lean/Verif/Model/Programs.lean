import Verif.Model.Disk
import Verif.Props.Schedule

/-
The programs `lda`, `slda` and `fslda` from the files they read to the files they write
(src/applications/lda.cpp:126-193, slda.cpp:160-230, fslda.cpp:233-332).

The command line is taken as parsed (Apps).  The expectation step is any function of the parameters and the
document, on the bytes of `double` and `int`.
-/
namespace Verif.Programs

open Numpy Disk Pool Train

/-- How a program ends: it has asked the disk for `acts` and returned, or an exception left `main`, or the behaviour is
undefined (lda.cpp:126-193). -/
inductive Outcome where
  | done (acts : List Disk.Act)
  | threw (e : Exc)
  | ub

/-- `io::parse_input_data`: `slda` and `fslda` read documents and labels (lda_io.cpp:13-32; slda.cpp:173, 204),
`lda` the documents only (lda_io.cpp:34-48; lda.cpp:138, 167). -/
def readDocs (m : Machine) (j1 j2 : Junk) (labels : Bool) (file : Option (List Byte)) : Res (Numpy.Mat × Option Numpy.Mat) :=
  if labels then (parseInputData m j1 j2 file).bind fun r => .ok (r.1, some r.2)
  else (load m j1 .i4 (openFile file)).bind fun r => .ok (r.1, none)

/-- The words of document `i` (`X.col(i)`, Document.cpp:81-83). -/
def column (X : Numpy.Mat) (i : ℕ) : List (List Byte) :=
  if h : i < X.cols then List.ofFn fun w => X.val w ⟨i, h⟩ else []

/-- The shapes for which the assignment `phi = beta.array().colwise() * …` is defined (e_step_utils.cpp:291-304 with
`phi` from UnsupervisedEStep.cpp:41); with other shapes a precondition of Eigen is violated.  `alpha` is converted to a
vector (lda_io.cpp:86).  Simplification: with `--e_step_iterations=0` the assignment is not reached. -/
def Fits (p : LdaModel) (X : Numpy.Mat) : Prop :=
  p.alpha.cols = 1 ∧ p.alpha.rows = p.beta.rows ∧ p.beta.cols = X.rows

/-- The matrix that `transform` returns (LDA.cpp:146, 165): `raw` is what the memory held before. -/
def gammas (raw : ℕ → ℕ → List Byte) (K D : ℕ) (f : ℕ → Option (ℕ → List Byte)) : Numpy.Mat :=
  ⟨K, D, fun k i => (f i).elim (raw k i) (· k)⟩

/-- The arguments of `transform` (lda.cpp:89-97). -/
structure TransformArgs where
  labels : Bool
  model : List Char
  data : List Char
  output : List Char
  workers : ℕ

/-- `lda transform`, `slda transform` and `fslda transform` (lda.cpp:164-187, slda.cpp:200-225, fslda.cpp:303-326): every
way they can end.  `estep p doc` is `gamma` of the document. -/
inductive Transform (m : Machine) (j : ℕ → Junk) (a : TransformArgs)
    (estep : LdaModel → List (List Byte) → ℕ → List Byte) (files : Files) : Outcome → Prop where
  | dataThrows (e : Exc) (h : readDocs m (j 0) (j 1) a.labels (files a.data) = .throw e) :
      Transform m j a estep files (.threw e)
  | dataUb (h : readDocs m (j 0) (j 1) a.labels (files a.data) = .ub) : Transform m j a estep files .ub
  | modelThrows (D : Numpy.Mat × Option Numpy.Mat) (e : Exc) (h : readDocs m (j 0) (j 1) a.labels (files a.data) = .ok D)
      (h' : loadLda m (fun i => j (i + 2)) (files a.model) = .throw e) : Transform m j a estep files (.threw e)
  | modelUb (D : Numpy.Mat × Option Numpy.Mat) (h : readDocs m (j 0) (j 1) a.labels (files a.data) = .ok D)
      (h' : loadLda m (fun i => j (i + 2)) (files a.model) = .ub) : Transform m j a estep files .ub
  | shapes (D : Numpy.Mat × Option Numpy.Mat) (p : LdaModel)
      (h : readDocs m (j 0) (j 1) a.labels (files a.data) = .ok D)
      (h' : loadLda m (fun i => j (i + 2)) (files a.model) = .ok p) (hf : ¬ Fits p D.1) :
      Transform m j a estep files .ub
  | returns (D : Numpy.Mat × Option Numpy.Mat) (p : LdaModel) (raw : ℕ → ℕ → List Byte)
      (s : St (LdaModel × (ℕ → Option (ℕ → List Byte))) (ℕ → List Byte) a.workers)
      (h : readDocs m (j 0) (j 1) a.labels (files a.data) = .ok D)
      (h' : loadLda m (fun i => j (i + 2)) (files a.model) = .ok p) (hf : Fits p D.1)
      (hs : Reachable (transformCfg a.workers D.1.cols true fun p i => estep p (column D.1 i)) (p, fun _ => none) s)
      (hr : s.main = .ret) :
      Transform m j a estep files
        (match save m .f8 false (gammas raw p.beta.rows D.1.cols s.model.2) with
        | .ok bytes => .done (saveActs a.output bytes)
        | .throw e => .threw e
        | .ub => .ub)

/-- Calls one after the other on one object, with the state of the caller after each (`LDA::fit`, LDA.cpp:64-81). -/
inductive Epochs {M P R : Type} : List (Cfg M P R) → Left R → M → List M → Prop where
  | nil (l : Left R) (m : M) : Epochs [] l m []
  | cons {c : Cfg M P R} {cs : List (Cfg M P R)} {l : Left R} {m : M} {ms : List M} (as : List Pool.Act)
      (s : St M R c.W) (h : Pool.run c (start c l m) as = some s) (hr : s.main = .ret) (ht : Epochs cs s.left s.model ms) :
      Epochs (c :: cs) l m (s.model :: ms)

/-- What a training is made of apart from the files: the parameters at the start (random, seeded from the documents or
loaded, lda.cpp:39-57, slda.cpp:49-71), the maximisation step for these documents and labels and its members, the
expectation step, and how parameters are written as `double` (lda.cpp:19-63, slda.cpp:19-81, fslda.cpp:19-122). -/
structure Trainer (Q R S T : Type) where
  initial : Files → Numpy.Mat × Option Numpy.Mat → Res Q
  step : Numpy.Mat × Option Numpy.Mat → BatchStep Q R S
  members : S
  estate : T
  next : T → T
  estep : Numpy.Mat × Option Numpy.Mat → Q × T → ℕ → R
  encode : Q → LdaModel

/-- `create_lda_for_train` of `lda` (lda.cpp:19-63): the classic expectation step has no state of its own, and the
maximisation step is the one that the builder starts with.  How the words are counted in the bytes, and how `double` are
written, is left open. -/
noncomputable def ldaTrainer {K V : ℕ} (initial : Files → Numpy.Mat × Option Numpy.Mat → Res (Params K V 1))
    (corpus : Numpy.Mat × Option Numpy.Mat → ℕ → MStep.Doc V)
    (estep : Numpy.Mat × Option Numpy.Mat → Params K V 1 × Unit → ℕ → EStep.VP K V)
    (encode : Params K V 1 → LdaModel) : Trainer (Params K V 1) (EStep.VP K V) (MStep.Buf K V) Unit where
  initial := initial
  step D := unsupervised (corpus D)
  members := none
  estate := ()
  next := id
  estep := estep
  encode := encode

/-- The arguments of `train` (lda.cpp:89-97). -/
structure TrainArgs where
  labels : Bool
  data : List Char
  model : List Char
  iterations : ℕ
  workers : ℕ
  every : ℤ

variable {Q R S T : Type}

/-- `lda train`, `slda train` and `fslda train` (lda.cpp:136-162, slda.cpp:167-198, fslda.cpp:242-271): every way they
can end.  The shuffles are any rearrangements (Document.cpp:62-64). -/
inductive Training (m : Machine) (j : ℕ → Junk) (a : TrainArgs) (t : Trainer Q R S T) (files : Files) :
    Outcome → Prop where
  | dataThrows (e : Exc) (h : readDocs m (j 0) (j 1) a.labels (files a.data) = .throw e) :
      Training m j a t files (.threw e)
  | dataUb (h : readDocs m (j 0) (j 1) a.labels (files a.data) = .ub) : Training m j a t files .ub
  | initialThrows (D : Numpy.Mat × Option Numpy.Mat) (e : Exc)
      (h : readDocs m (j 0) (j 1) a.labels (files a.data) = .ok D) (h' : t.initial files D = .throw e) :
      Training m j a t files (.threw e)
  | initialUb (D : Numpy.Mat × Option Numpy.Mat) (h : readDocs m (j 0) (j 1) a.labels (files a.data) = .ok D)
      (h' : t.initial files D = .ub) : Training m j a t files .ub
  | returns (D : Numpy.Mat × Option Numpy.Mat) (q : Q) (orders : List (ℕ → ℕ)) (ms : List (Q × T × Option S))
      (h : readDocs m (j 0) (j 1) a.labels (files a.data) = .ok D) (h' : t.initial files D = .ok q)
      (hl : orders.length = a.iterations)
      (ho : ∀ p ∈ orders, ((List.range D.1.cols).map p).Perm (List.range D.1.cols))
      (he : Epochs (fitCalls (t.step D) t.next (t.estep D) a.workers D.1.cols orders) .empty
        (q, t.estate, some t.members) ms) :
      Training m j a t files
        (if ∃ x ∈ ms, x.2.2 = none then .ub
        else match trainActs m a.model a.every (ms.map fun x => t.encode x.1)
            (t.encode ((ms.map Prod.fst).getLast?.getD q)) with
          | some acts => .done acts
          | none => .ub)

end Verif.Programs
