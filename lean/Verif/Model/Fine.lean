import Verif.Model.Pool

/-
The worker pool of `Model/Pool` again, in smaller steps: taking and releasing a mutex are steps of their own, a critical
section reads a queue in one step and writes it in another, the E step reads the model parameters many times, and the
events are handed to the listeners one by one (src/ldaplusplus/LDA.cpp:90-291, src/ldaplusplus/events/Events.cpp:65-124).
The mutexes of the list of listeners are left out (they are in `Model/Races`).
-/
namespace Verif.Fine

open Pool (Cfg Kind Ev Obs Left)

/-- A thread, as the holder of a mutex (LDA.cpp:232-239). -/
inductive Who (W : Nat) where
  | main
  | worker (j : Fin W)
  deriving DecidableEq, Repr

/-- Program counter of a worker, `doc_e_step_worker` (LDA.cpp:250-279). -/
inductive WPc (P R : Type) where
  | unborn
  /-- about to take `queue_in_mutex_` (line 258) -/
  | start
  /-- about to look into `queue_in_` (lines 259, 261) -/
  | look
  /-- has read the first job, about to remove it (line 262) -/
  | pop (i : Nat)
  /-- about to release the mutex (line 263) -/
  | leaveIn (i : Nat)
  /-- found no job, about to release the mutex and return (line 260) -/
  | quit
  /-- in `doc_e_step`; the values of the model parameters read so far (lines 266-269) -/
  | reads (i : Nat) (ps : List P)
  /-- about to take `events_mutex_` (Events.cpp:66) -/
  | ev0 (i : Nat) (r : R)
  /-- about to read the queue of events (Events.cpp:68) -/
  | ev1 (i : Nat) (r : R)
  /-- about to write it (Events.cpp:68) -/
  | ev2 (i : Nat) (r : R) (q : List Ev)
  /-- about to release `events_mutex_` (Events.cpp:69) -/
  | ev3 (i : Nat) (r : R)
  /-- about to take `queue_out_mutex_` (line 273) -/
  | out0 (i : Nat) (r : R)
  /-- about to read `queue_out_` (line 274) -/
  | out1 (i : Nat) (r : R)
  /-- about to write it (line 274) -/
  | out2 (i : Nat) (r : R) (q : List (R × Nat))
  /-- about to release `queue_out_mutex_` (line 275) -/
  | out3
  /-- about to call `notify_one` (line 277) -/
  | sig
  | done

/-- What the calling thread does when it dispatches or processes events (Events.cpp:65-69, 92-111). -/
inductive MI where
  | lockEv
  /-- about to copy the queue of events (line 94) -/
  | copy
  /-- about to clear it (line 95) -/
  | clear (es : List Ev)
  | unlockEv
  /-- the listeners get an event (lines 106-110) -/
  | deliver (e : Ev)
  /-- about to read the queue of events to put one in (line 68) -/
  | load (e : Ev)
  /-- about to write it (line 68) -/
  | store (e : Ev) (q : List Ev)
  deriving DecidableEq, Repr

/-- Where the calling thread goes on after that (LDA.cpp:110-134, 165-170). -/
inductive After (R : Type) where
  | doc (k i : Nat) (r : R)
  | loop (k : Nat)
  | epoch
  | ret

/-- Program counter of the calling thread (LDA.cpp:90-176, 232-247, 282-291). -/
inductive MPc (R : Type) where
  | spawn (j : Nat)
  /-- head of the loop, about to take `queue_out_mutex_` if there is a result to come (lines 104, 160, 284) -/
  | loop (k : Nat)
  /-- has the mutex, about to test the predicate (line 285) -/
  | test (k : Nat)
  /-- has found nothing, about to release the mutex and sleep, in one action (line 285) -/
  | rel (k : Nat)
  /-- sleeps (line 285) -/
  | wait (k : Nat)
  /-- has read the first result, about to remove it (line 288) -/
  | pop (k i : Nat) (r : R)
  /-- about to release the mutex (line 290) -/
  | leaveOut (k i : Nat) (r : R)
  /-- `transform`: about to store the result (line 165) -/
  | col (k i : Nat) (r : R)
  | busy (todo : List MI) (a : After R)
  | join (j : Nat)
  | post
  | ret

/-- The state; `inM`, `outM`, `evM`: who holds `queue_in_mutex_`, `queue_out_mutex_`, `events_mutex_`
(LDA.hpp:264-275, Events.hpp:229). -/
structure St (M P R : Type) (W : Nat) where
  qin : List Nat
  qout : List (R × Nat)
  evq : List Ev
  model : M
  log : List (Obs R)
  ws : Fin W → WPc P R
  main : MPc R
  inM : Option (Who W)
  outM : Option (Who W)
  evM : Option (Who W)

/-- How the E step reads the model parameters: how often for document `i`, and its result as a function of all that
it has read (EStepInterface.hpp:54-57). -/
structure Reads (P R : Type) where
  count : Nat → Nat
  value : Nat → List P → R

variable {M P R : Type}

/-- Start of a call (LDA.cpp:90-100, 139-157). -/
def start (c : Cfg M P R) (l : Left R) (m : M) : St M P R c.W where
  qin := l.qin ++ List.range c.n
  qout := l.qout
  evq := l.evq
  model := m
  log := []
  ws := fun _ => .unborn
  main := .spawn 0
  inM := none
  outM := none
  evM := none

/-- Change the program counter of a worker (LDA.cpp:250-279). -/
def St.setW {W : Nat} (s : St M P R W) (j : Fin W) (v : WPc P R) : St M P R W :=
  { s with ws := fun x => if x = j then v else s.ws x }

/-- `notify_one` (LDA.cpp:277): a sleeping thread will take the mutex again; otherwise nothing happens. -/
def wake : MPc R → MPc R
  | .wait k => .loop k
  | pc => pc

/-- One step of worker `j` (LDA.cpp:250-279). -/
def workerStep (c : Cfg M P R) (d : Reads P R) (s : St M P R c.W) (j : Fin c.W) : Option (St M P R c.W) :=
  match s.ws j with
  | .unborn => none
  | .done => none
  | .start => if s.inM = none then some { s.setW j .look with inM := some (.worker j) } else none
  | .look =>
    match s.qin with
    | [] => some (s.setW j .quit)
    | i :: _ => some (s.setW j (.pop i))
  | .pop i => some { s.setW j (.leaveIn i) with qin := s.qin.tail }
  | .leaveIn i => some { s.setW j (.reads i []) with inM := none }
  | .quit => some { s.setW j .done with inM := none }
  | .reads i ps =>
    if ps.length < d.count i then some (s.setW j (.reads i (ps ++ [c.params s.model])))
    else some (s.setW j (.ev0 i (d.value i ps)))
  | .ev0 i r => if s.evM = none then some { s.setW j (.ev1 i r) with evM := some (.worker j) } else none
  | .ev1 i r => some (s.setW j (.ev2 i r s.evq))
  | .ev2 i r q => some { s.setW j (.ev3 i r) with evq := q ++ [.exp i] }
  | .ev3 i r => some { s.setW j (.out0 i r) with evM := none }
  | .out0 i r => if s.outM = none then some { s.setW j (.out1 i r) with outM := some (.worker j) } else none
  | .out1 i r => some (s.setW j (.out2 i r s.qout))
  | .out2 i r q => some { s.setW j .out3 with qout := q ++ [(r, i)] }
  | .out3 => some { s.setW j .sig with outM := none }
  | .sig => some { s.setW j .start with main := wake s.main }

/-- `process_events` on the calling thread, from the copy of the queue on (Events.cpp:92-111). -/
def processEv : List MI := [.lockEv, .copy]

/-- `dispatch` on the calling thread (Events.cpp:65-69, 118-124). -/
def dispatchP (owner : Bool) (e : Ev) : List MI :=
  [.lockEv, .load e, .unlockEv] ++ if owner then processEv else []

/-- `k` MaximizationProgressEvents (FastSupervisedMStep.cpp:81, SupervisedMStep.cpp:98). -/
def dispatches (owner : Bool) : Nat → List MI
  | 0 => []
  | k + 1 => dispatchP owner .max ++ dispatches owner k

/-- One step of the calling thread (LDA.cpp:100-134, 157-175, 282-291). -/
def mainStep (c : Cfg M P R) (s : St M P R c.W) : Option (St M P R c.W) :=
  match s.main with
  | .spawn j =>
    if h : j < c.W then some { s.setW ⟨j, h⟩ .start with main := .spawn (j + 1) }
    else some { s with main := .loop 0 }
  | .loop k =>
    if k < c.n then
      if s.outM = none then some { s with main := .test k, outM := some .main } else none
    else some { s with main := .join 0 }
  | .test k =>
    match s.qout with
    | [] => some { s with main := .rel k }
    | (r, i) :: _ => some { s with main := .pop k i r }
  | .rel k => some { s with main := .wait k, outM := none }
  | .wait _ => none
  | .pop k i r => some { s with qout := s.qout.tail, main := .leaveOut k i r }
  | .leaveOut k i r =>
    match c.kind with
    | .partialFit => some { s with outM := none, main := .busy processEv (.doc k i r) }
    | .transform => some { s with outM := none, main := .col k i r }
  | .col k i r =>
    let mk := c.docStep i r s.model
    some { s with model := mk.1, log := s.log ++ [.consume i r],
                  main := .busy (dispatches c.owner mk.2 ++ processEv) (.loop (k + 1)) }
  | .busy [] (.doc k i r) =>
    let mk := c.docStep i r s.model
    some { s with model := mk.1, log := s.log ++ [.consume i r],
                  main := .busy (dispatches c.owner mk.2) (.loop (k + 1)) }
  | .busy [] (.loop k) => some { s with main := .loop k }
  | .busy [] .epoch => some { s with main := .busy (dispatchP c.owner .epoch) .ret }
  | .busy [] .ret => some { s with main := .ret }
  | .busy (.lockEv :: t) a => if s.evM = none then some { s with evM := some .main, main := .busy t a } else none
  | .busy (.copy :: t) a => some { s with main := .busy (.clear s.evq :: t) a }
  | .busy (.clear es :: t) a =>
    some { s with evq := [], main := .busy (.unlockEv :: (es.map .deliver ++ t)) a }
  | .busy (.unlockEv :: t) a => some { s with evM := none, main := .busy t a }
  | .busy (.deliver e :: t) a => some { s with log := s.log ++ [.deliver e], main := .busy t a }
  | .busy (.load e :: t) a => some { s with main := .busy (.store e s.evq :: t) a }
  | .busy (.store e q :: t) a => some { s with evq := q ++ [e], main := .busy t a }
  | .join j =>
    if h : j < c.W then
      match s.ws ⟨j, h⟩ with
      | .done => some { s with main := .join (j + 1) }
      | _ => none
    else
      match c.kind with
      | .partialFit => some { s with main := .post }
      | .transform => some { s with main := .ret }
  | .post =>
    let mk := c.batch s.model
    some { s with model := mk.1, log := s.log ++ [.batch], main := .busy (dispatches c.owner mk.2) .epoch }
  | .ret => none

/-- One step of the whole system (LDA.cpp:90-291); the actions are those of `Model/Pool`. -/
def step (c : Cfg M P R) (d : Reads P R) (s : St M P R c.W) : Pool.Act → Option (St M P R c.W)
  | .main => mainStep c s
  | .worker j => if h : j < c.W then workerStep c d s ⟨j, h⟩ else none
  | .spurious =>
    match s.main with
    | .wait k => some { s with main := .loop k }
    | _ => none

/-- Run a schedule (LDA.cpp:90-291). -/
def run (c : Cfg M P R) (d : Reads P R) (s : St M P R c.W) : List Pool.Act → Option (St M P R c.W)
  | [] => some s
  | a :: as =>
    match step c d s a with
    | none => none
    | some s' => run c d s' as

end Verif.Fine
