import Verif.Model.Builder
import Mathlib.Data.Nat.Digits.Defs
import Mathlib.Algebra.Order.Floor.Ring
import Mathlib.Algebra.Order.Archimedean.Real.Basic

/-
Model of the console applications: the listeners src/applications/*Progress.cpp and SnapshotEvery.cpp, and
how the applications configure the builder (lda.cpp, slda.cpp, fslda.cpp).

`none` is undefined behaviour.  The counters are of type `int`: exceeding the largest `int` is undefined.
-/
namespace Verif.Apps

open MathUtils Build

/-- The largest `int` (the counters are `int`s: SnapshotEvery.hpp:23-25, EpochProgress.hpp:22-25). -/
def intMax : ℤ := 2147483647

/-- The smallest `int` (see EpochProgress.cpp:23). -/
def intMin : ℤ := -2147483648

/-- `n++` for an `int` (SnapshotEvery.cpp:28, EpochProgress.cpp:24 and 36, ExpectationProgress.cpp:13).
-/
def incr (n : ℤ) : Option ℤ := if n < intMax then some (n + 1) else none

/-- `a % b` for `int`s (SnapshotEvery.cpp:29, ExpectationProgress.cpp:14). -/
def remainder (a b : ℤ) : Option ℤ := if b = 0 then none else some (a.tmod b)

/-- An event (ProgressEvents.hpp): the parameters are those of the model at the time of the event. -/
inductive Event (P : Type) where
  | expectation (likelihood : Ieee ℝ)
  | maximization (likelihood : ℝ)
  | epoch (parameters : P)
  | other

variable {P : Type}

/-! ### SnapshotEvery -/

/-- The members (SnapshotEvery.hpp:23-25).  `files` are the files written so far, the last one first: name and
contents. -/
structure Snapshot (P : Type) where
  path : List Char
  saveEvery : ℤ
  seen : ℤ
  files : List (List Char × P)

/-- The constructor (SnapshotEvery.cpp:6-10). -/
def Snapshot.new (path : List Char) (saveEvery : ℤ) : Snapshot P := ⟨path, saveEvery, 0, []⟩

/-- The digits of a number, as `<<` writes them (SnapshotEvery.cpp:19). -/
def decimal (n : ℕ) : List Char :=
  if n = 0 then ['0'] else (Nat.digits 10 n).reverse.map fun d => Char.ofNat (48 + d)

/-- What `<<` writes for a non-negative `int` with fill character `0` and width 3 (SnapshotEvery.cpp:17-19). -/
def padded (n : ℕ) : List Char := List.replicate (3 - (decimal n).length) '0' ++ decimal n

/-- `SnapshotEvery::snapshot` (SnapshotEvery.cpp:12-22).  What `save_lda` writes is the subject of `C26`. -/
def Snapshot.snapshot (s : Snapshot P) (p : P) : Snapshot P :=
  { s with files := (s.path ++ ['_'] ++ padded s.seen.toNat, p) :: s.files }

/-- `SnapshotEvery::on_event` (SnapshotEvery.cpp:24-33). -/
def Snapshot.onEvent (s : Snapshot P) : Event P → Option (Snapshot P)
  | .epoch p =>
    (incr s.seen).bind fun n =>
    let s := { s with seen := n }
    (remainder s.seen s.saveEvery).map fun r => if r = 0 then s.snapshot p else s
  | _ => some s

/-! ### EpochProgress -/

/-- What is printed: the number of an iteration and the likelihood per document, an `int`
(EpochProgress.cpp:17 and 29-30). -/
inductive Line where
  | iteration (n : ℤ)
  | likelihood (v : ℤ)
  deriving DecidableEq

/-- The members (EpochProgress.hpp:22-25) and what has been printed, the last line first. -/
structure EpochProgress where
  iterations : ℤ
  likelihood : ℤ
  count : ℤ
  first : Bool
  printed : List Line

/-- The constructor (EpochProgress.cpp:5-10). -/
def EpochProgress.new : EpochProgress := ⟨0, 0, 0, true, []⟩

/-- Conversion of a `double` to `int`: towards zero, undefined if the result is no `int` (the compound
assignment in EpochProgress.cpp:23). -/
noncomputable def toInt (x : ℝ) : Option ℤ :=
  let t := if 0 ≤ x then ⌊x⌋ else ⌈x⌉
  if intMin ≤ t ∧ t ≤ intMax then some t else none

/-- `likelihood_ / cnt_likelihoods_` (EpochProgress.cpp:29). -/
def divide (a b : ℤ) : Option ℤ := if b = 0 then none else some (a.tdiv b)

/-- The `if` that prints the number of the iteration (EpochProgress.cpp:16-19). -/
def EpochProgress.header (s : EpochProgress) : Option EpochProgress :=
  if s.first then (incr s.iterations).map fun n => { s with first := false, printed := .iteration n :: s.printed }
  else some s

/-- `EpochProgress::on_event` (EpochProgress.cpp:12-40).  The sum of an `int` and a `double` is exact. -/
noncomputable def EpochProgress.onEvent (s : EpochProgress) : Event P → Option EpochProgress
  | .expectation l =>
    s.header.bind fun s =>
    match l with
    | .fin x =>
      if x < 0 then
        (toInt (s.likelihood + x)).bind fun t =>
        (incr s.count).map fun c => { s with likelihood := t, count := c }
      else some s
    | _ => some s
  | .epoch _ =>
    (if s.likelihood < 0 then
        (divide s.likelihood s.count).map fun v => { s with printed := .likelihood v :: s.printed }
      else some s).bind fun s =>
    (incr s.iterations).map fun n => { s with likelihood := 0, count := 0, iterations := n, first := true }
  | _ => some s

/-! ### ExpectationProgress -/

/-- The members (ExpectationProgress.hpp) and the numbers printed, the last one first. -/
structure ExpectationProgress where
  iterations : ℤ
  printEvery : ℤ
  printed : List ℤ

/-- The constructor (ExpectationProgress.cpp:5-8). -/
def ExpectationProgress.new (printEvery : ℤ) : ExpectationProgress := ⟨0, printEvery, []⟩

/-- `ExpectationProgress::on_event` (ExpectationProgress.cpp:10-22). -/
def ExpectationProgress.onEvent (s : ExpectationProgress) : Event P → Option ExpectationProgress
  | .expectation _ =>
    (incr s.iterations).bind fun n =>
    (remainder n s.printEvery).map fun (r : ℤ) =>
      { s with iterations := n, printed := if r = 0 then n :: s.printed else s.printed }
  | .epoch _ => some { s with iterations := 0 }
  | _ => some s

/-- The events one after the other (the calls of `on_event` made by the dispatcher, Events.cpp:105-110).
-/
def feed {S : Type} (f : S → Event P → Option S) (s : S) (es : List (Event P)) : Option S := es.foldlM f s

/-! ### Creating the LDA to be trained -/

/-- The command line options that concern the initial parameters, and the ones passed on to the builder. -/
structure Args where
  iterations : ℕ
  workers : ℕ
  topics : ℕ
  continue_ : Option String
  continueFromUnsupervised : Option String
  initializeRandom : Bool

/-- How a program ends that does not go on: an exception that nobody catches (slda.cpp:19-81 and 160-199
catch nothing). -/
inductive Stop where
  /-- `docopt::value::asString` of an option that was not given. -/
  | notAString
  /-- `load_lda` of a file that is not there or not a model. -/
  | cannotLoad
  | builder (t : Throw)
  deriving DecidableEq

/-- `args[...].asString()`: docopt throws if the option has no value (slda.cpp:50 and 56). -/
def asString : Option String → Except Stop String
  | none => .error .notAString
  | some s => .ok s

/-- `io::load_lda` (lda_io.cpp:73-91); `files` are the model files. -/
def loadLda (files : String → Option Params) (name : String) : Except Stop Params :=
  match files name with
  | none => .error .cannotLoad
  | some p => .ok p

/-- The random choices of the two initialisations (LDABuilder.cpp:285-340). -/
structure Random where
  pick : ℕ → ℕ → ℕ
  draw : ℕ → ℕ → ℝ

/-- `y.maxCoeff() + 1`, converted to `size_t` (slda.cpp:59): `none` if there is no label.  Labels are not
negative. -/
def numClasses (y : List ℕ) : Option ℕ := y.max?.map (· + 1)

/-- The calls that initialise the parameters in slda.cpp:48-77 and fslda.cpp:46-75 (the two are the same), for
documents `docs` over `words` words with labels `y`. -/
def supervisedInit (files : String → Option Params) (r : Random) (args : Args) (words : ℕ) (docs : List (List ℕ))
    (y : List ℕ) : Option (Except Stop (List Call)) :=
  if args.continue_.isSome then
    match asString args.continue_ >>= loadLda files with
    | .error e => some (.error e)
    | .ok p => some (.ok [.topicsFromModel p, .etaFromModel p])
  else if args.continueFromUnsupervised.isSome then
    match asString args.continue_ >>= loadLda files with
    | .error e => some (.error e)
    | .ok p => (numClasses y).map fun c => .ok [.topicsFromModel p, .etaZeros c]
  else if args.initializeRandom then
    (numClasses y).map fun c => .ok [.topicsRandom words args.topics r.draw, .etaZeros c]
  else
    (numClasses y).map fun c => .ok [.topicsSeeded docs args.topics 30 r.pick, .etaZeros c]

/-- The calls of lda.cpp:39-59. -/
def unsupervisedInit (files : String → Option Params) (r : Random) (args : Args) (words : ℕ)
    (docs : List (List ℕ)) : Except Stop (List Call) :=
  if args.continue_.isSome then
    match asString args.continue_ >>= loadLda files with
    | .error e => .error e
    | .ok p => .ok [.topicsFromModel p, .etaZeros 1]
  else if args.initializeRandom then
    .ok [.topicsRandom words args.topics r.draw, .etaZeros 1]
  else
    .ok [.topicsSeeded docs args.topics 30 r.pick, .etaZeros 1]

/-- Calls by a program that does not catch exceptions (slda.cpp:26-77). -/
noncomputable def runCalls (b : Builder) : List Call → Option (Except Stop Builder)
  | [] => some (.ok b)
  | c :: cs =>
    (call b c).bind fun r =>
    match r.2 with
    | some t => some (.error (.builder t))
    | none => runCalls r.1 cs

/-- Calls, then `return builder`, which converts it (slda.cpp:80). -/
noncomputable def runBuild (b : Builder) (cs : List Call) : Option (Except Stop Built) :=
  (runCalls b cs).map fun r =>
  match r with
  | .error e => .error e
  | .ok b =>
    match b.build with
    | .error t => .error (.builder t)
    | .ok l => .ok l

/-- `create_lda_for_train` of slda.cpp (19-81), and `create_lda_for_train` and `create_lda_for_online_train` of
fslda.cpp (107-140) with their own steps `e` and `m`. -/
noncomputable def supervisedTrain (files : String → Option Params) (r : Random) (hc : ℕ) (args : Args) (e : ESpec)
    (m : MSpec) (words : ℕ) (docs : List (List ℕ)) (y : List ℕ) : Option (Except Stop Built) :=
  (supervisedInit files r args words docs y).bind fun
    | .error e => some (.error e)
    | .ok cs =>
      runBuild (Builder.new hc 0)
        ([.setIterations args.iterations, .setWorkers args.workers, .setEStep e, .setMStep m] ++ cs)

/-- `create_lda_for_train` of lda.cpp (19-63). -/
noncomputable def unsupervisedTrain (files : String → Option Params) (r : Random) (hc : ℕ) (args : Args) (e : ESpec)
    (words : ℕ) (docs : List (List ℕ)) : Option (Except Stop Built) :=
  match unsupervisedInit files r args words docs with
  | .error e => some (.error e)
  | .ok cs =>
    runBuild (Builder.new hc 0) ([.setIterations args.iterations, .setWorkers args.workers, .setEStep e] ++ cs)

/-- `load_lda` and `create_lda_for_transform` of slda.cpp (83-103, 207) and fslda.cpp (142-162, 310); without
`eta` of lda.cpp (65-83, 170). -/
noncomputable def transformLda (withEta : Bool) (files : String → Option Params) (hc : ℕ) (workers : ℕ)
    (iterations : ℕ) (tolerance : ℝ) (name : String) : Option (Except Stop Built) :=
  match loadLda files name with
  | .error e => some (.error e)
  | .ok p =>
    runBuild (Builder.new hc 0) ([.setWorkers workers, .setEStep (.classic iterations tolerance 0 0),
      .topicsFromModel p] ++ if withEta then [.etaFromModel p] else [])

end Verif.Apps
