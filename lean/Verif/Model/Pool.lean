/-
Model of the worker pool of `LDA<Scalar>` (src/ldaplusplus/LDA.cpp).

The calling thread and `W` worker threads are interleaved arbitrarily.  One action of one thread is
one step.  A critical section protected by a mutex is one step (`Props/Refine` proves that nothing is lost
by this for the batch M steps); entering and leaving the condition variable, the E step, the push and the notification
are separate steps, so every order of these is covered.
-/
namespace Verif.Pool

/-- Program counter of one worker thread, `doc_e_step_worker` (LDA.cpp:250-279). -/
inductive WPc (R : Type) where
  /-- not created yet (`create_worker_pool`, LDA.cpp:232-239, has not reached it) -/
  | unborn
  /-- about to take `queue_in_mutex_` (LDA.cpp:257-263) -/
  | fetch
  /-- popped document `i`, about to run `doc_e_step` on it (LDA.cpp:266-269) -/
  | work (i : Nat)
  /-- `doc_e_step` returned `r` for document `i` (its ExpectationProgressEvent has been
      dispatched), about to take `queue_out_mutex_` (LDA.cpp:272-275) -/
  | push (i : Nat) (r : R)
  /-- result pushed, about to call `notify_one` (LDA.cpp:277) -/
  | notify
  /-- left the loop: the thread function returned (LDA.cpp:259-260) -/
  | done
  deriving DecidableEq, Repr

/-- Program counter of the calling thread, `partial_fit`/`transform` (LDA.cpp:90-176). -/
inductive MPc (R : Type) where
  /-- `create_worker_pool`: threads `0..j-1` exist (LDA.cpp:232-239) -/
  | spawn (j : Nat)
  /-- head of the extraction loop, `k` results consumed so far (LDA.cpp:104 / 160);
      if `k` is not the corpus size, about to take `queue_out_mutex_` and test the predicate
      (LDA.cpp:284-285) -/
  | loop (k : Nat)
  /-- blocked inside `queue_out_cv_.wait` (LDA.cpp:285) -/
  | waiting (k : Nat)
  /-- popped the pair `(r, i)` from `queue_out_` (LDA.cpp:287-290) -/
  | got (k : Nat) (i : Nat) (r : R)
  /-- did the first of the two actions of the loop body (see `Kind`) -/
  | mid (k : Nat) (i : Nat) (r : R)
  /-- `destroy_worker_pool`: threads `0..j-1` joined (LDA.cpp:242-247) -/
  | join (j : Nat)
  /-- `partial_fit` only: about to run `e_step()` and `m_step()` (LDA.cpp:126-131) -/
  | post
  /-- `partial_fit` only: about to dispatch the EpochProgressEvent (LDA.cpp:134) -/
  | epoch
  /-- the call has returned -/
  | ret
  deriving DecidableEq, Repr

/-- Which member function is running.  `partialFit`: process worker events, then `doc_m_step`
(LDA.cpp:112-119).  `transform`: store gamma in column `index`, then process worker events
(LDA.cpp:165-169); no batch step and no epoch event. -/
inductive Kind where
  | partialFit
  | transform
  deriving DecidableEq, Repr

/-- Events raised during a call (events/ProgressEvents.hpp). -/
inductive Ev where
  /-- ExpectationProgressEvent raised by `doc_e_step` of document `i` -/
  | exp (i : Nat)
  /-- MaximizationProgressEvent -/
  | max
  /-- EpochProgressEvent -/
  | epoch
  deriving DecidableEq, Repr

/-- What the outside sees, in order: events handed to the listeners and calls into the M step
(LDA.cpp:103-134 and 160-169). -/
inductive Obs (R : Type) where
  /-- an event was delivered to the listeners -/
  | deliver (e : Ev)
  /-- `doc_m_step(corpus->at(i), r, model)` was called (`transform`: column `i` was set from `r`) -/
  | consume (i : Nat) (r : R)
  /-- `m_step(model)` was called -/
  | batch
  deriving DecidableEq, Repr

/-- Static description of one call.

* `n`: corpus size; documents are named by the index given to `corpus->at`.
* `W`: `workers_.size()`.
* `owner`: the call is made on the thread that constructed the LDA object, i.e. the thread whose
  id the SameThreadEventDispatcher stored (LDA.cpp:25, Events.cpp:114-116).
* `M`: everything the calling thread's M step may change (its buffers and the model parameters).
* `P`: what the E step reads of it.
* `docStep i r m` : `doc_m_step` on document `i` with variational parameters `r`; also gives the
  number of MaximizationProgressEvents it dispatches (the online M step dispatches some).
* `batch m` : `e_step_->e_step()` and `m_step_->m_step(model)`, with its number of events. -/
structure Cfg (M P R : Type) where
  W : Nat
  n : Nat
  kind : Kind
  owner : Bool
  params : M → P
  eval : P → Nat → R
  docStep : Nat → R → M → M × Nat
  batch : M → M × Nat

/-- Global state: the two queues, the threads, the queue of the SameThreadEventDispatcher, the
M-step/model state and the trace of observations so far.  A job in `queue_in_` is a pair
(corpus, index) with the same corpus for the whole call (LDA.cpp:96-98); only the index is kept. -/
structure St (M R : Type) (W : Nat) where
  qin : List Nat
  qout : List (R × Nat)
  ws : Fin W → WPc R
  main : MPc R
  evq : List Ev
  model : M
  log : List (Obs R)

/-- One schedulable action (LDA.cpp:90-176 and 250-291). -/
inductive Act where
  /-- the calling thread takes a step -/
  | main
  /-- worker `j` takes a step -/
  | worker (j : Nat)
  /-- the condition variable wakes the calling thread spuriously -/
  | spurious
  deriving DecidableEq, Repr

variable {M P R : Type}

/-- What a call leaves in the members of the LDA object that the next call finds: the two queues
and the queue of the event dispatcher (LDA.hpp:264-275). -/
structure Left (R : Type) where
  qin : List Nat
  qout : List (R × Nat)
  evq : List Ev

/-- Members of a freshly constructed LDA object (LDA.cpp:13-28: the queues are default
constructed). -/
def Left.empty : Left R := ⟨[], [], []⟩

/-- State at the start of a call that finds `l` in the members: all documents are queued behind
what is there, in index order (LDA.cpp:96-98 / 152-154); no worker is created yet. -/
def start (c : Cfg M P R) (l : Left R) (m : M) : St M R c.W where
  qin := l.qin ++ List.range c.n
  qout := l.qout
  ws := fun _ => .unborn
  main := .spawn 0
  evq := l.evq
  model := m
  log := []

/-- What a call leaves behind (LDA.cpp:134 and 175). -/
def St.left {W : Nat} (s : St M R W) : Left R := ⟨s.qin, s.qout, s.evq⟩

/-- State at the start of the first call on an object (LDA.cpp:91-98 and 139-154). -/
def init (c : Cfg M P R) (m : M) : St M R c.W := start c .empty m

/-- Change the program counter of worker `j` (LDA.cpp:250-279). -/
def setW {W : Nat} (ws : Fin W → WPc R) (j : Fin W) (v : WPc R) : Fin W → WPc R :=
  fun x => if x = j then v else ws x

/-- `process_worker_events` (LDA.hpp:214-218, forwarding to ThreadSafeEventDispatcher::process_events,
Events.cpp:71-111): everything queued is delivered, in order. -/
def flush {W : Nat} (s : St M R W) : St M R W :=
  { s with evq := [], log := s.log ++ s.evq.map .deliver }

/-- `dispatch` called by the calling thread (SameThreadEventDispatcher::dispatch,
Events.cpp:118-124): enqueue, and process the queue only on the owning thread. -/
def dispatch (c : Cfg M P R) (s : St M R c.W) (e : Ev) : St M R c.W :=
  let s := { s with evq := s.evq ++ [e] }
  if c.owner then flush s else s

/-- `k` MaximizationProgressEvents dispatched by the M step (LDA.cpp:115-131), in one step (simplification: in the
code a worker can queue an event between two of them). -/
def emitM (c : Cfg M P R) (s : St M R c.W) : Nat → St M R c.W
  | 0 => s
  | k + 1 => emitM c (dispatch c s .max) k

/-- The call into the M step for one document (LDA.cpp:115-119; `transform`: LDA.cpp:165). -/
def consume (c : Cfg M P R) (s : St M R c.W) (i : Nat) (r : R) : St M R c.W :=
  let mk := c.docStep i r s.model
  emitM c { s with model := mk.1, log := s.log ++ [.consume i r] } mk.2

/-- Effect of `notify_one` on the calling thread (LDA.cpp:277): it leaves the wait if it is blocked
in it and will test the predicate again; otherwise the notification is lost. -/
def wake : MPc R → MPc R
  | .waiting k => .loop k
  | pc => pc

/-- One step of worker `j` (LDA.cpp:250-279).  The E step is one step that reads the model
parameters once (simplification: in the code it reads them many times; `Props/Refine` has them all), and its event is queued in the same step
(simplification: in the code it is queued later, but before the result is).  `none`: the worker cannot move. -/
def workerStep (c : Cfg M P R) (s : St M R c.W) (j : Fin c.W) : Option (St M R c.W) :=
  match s.ws j with
  | .unborn => none
  | .done => none
  | .fetch =>
    match s.qin with
    | [] => some { s with ws := setW s.ws j .done }
    | i :: q => some { s with qin := q, ws := setW s.ws j (.work i) }
  | .work i =>
    some { s with ws := setW s.ws j (.push i (c.eval (c.params s.model) i)),
                  evq := s.evq ++ [.exp i] }
  | .push i r => some { s with qout := s.qout ++ [(r, i)], ws := setW s.ws j .notify }
  | .notify =>
    some { s with ws := setW s.ws j .fetch,
                  main := wake s.main }

/-- One step of the calling thread (LDA.cpp:100-134 / 157-175). `none`: it is blocked or has
returned. -/
def mainStep (c : Cfg M P R) (s : St M R c.W) : Option (St M R c.W) :=
  match s.main with
  | .spawn j =>
    if h : j < c.W then some { s with ws := setW s.ws ⟨j, h⟩ .fetch, main := .spawn (j + 1) }
    else some { s with main := .loop 0 }
  | .loop k =>
    if k < c.n then
      match s.qout with
      | [] => some { s with main := .waiting k }
      | (r, i) :: q => some { s with qout := q, main := .got k i r }
    else some { s with main := .join 0 }
  | .waiting _ => none
  | .got k i r =>
    match c.kind with
    | .partialFit => some { flush s with main := .mid k i r }
    | .transform => some { consume c s i r with main := .mid k i r }
  | .mid k i r =>
    match c.kind with
    | .partialFit => some { consume c s i r with main := .loop (k + 1) }
    | .transform => some { flush s with main := .loop (k + 1) }
  | .join j =>
    if h : j < c.W then
      match s.ws ⟨j, h⟩ with
      | .done => some { s with main := .join (j + 1) }
      | _ => none
    else
      match c.kind with
      | .partialFit => some { s with main := .post }
      | .transform => some { s with main := .ret }
  | .post =>
    let mk := c.batch s.model
    some { emitM c { s with model := mk.1, log := s.log ++ [.batch] } mk.2 with main := .epoch }
  | .epoch => some { dispatch c s .epoch with main := .ret }
  | .ret => none

/-- One step of the whole system under action `a` (LDA.cpp:90-291). -/
def step (c : Cfg M P R) (s : St M R c.W) : Act → Option (St M R c.W)
  | .main => mainStep c s
  | .worker j => if h : j < c.W then workerStep c s ⟨j, h⟩ else none
  | .spurious =>
    match s.main with
    | .waiting k => some { s with main := .loop k }
    | _ => none

/-- Run a schedule; `none` if some action is not enabled when its turn comes (LDA.cpp:90-291). -/
def run (c : Cfg M P R) (s : St M R c.W) : List Act → Option (St M R c.W)
  | [] => some s
  | a :: as =>
    match step c s a with
    | none => none
    | some s' => run c s' as

/-- States that can occur during a call that starts with model `m` (LDA.cpp:90-291). -/
def Reachable (c : Cfg M P R) (m : M) (s : St M R c.W) : Prop :=
  ∃ as, run c (init c m) as = some s

/-- Successive calls on one LDA object (`fit` is a sequence of `partial_fit`, LDA.cpp:64-81):
`Calls cs l m l' m' logs` when the calls described by `cs`, made one after the other on an object
whose members hold `l` and whose model is `m`, can return leaving `l'` and `m'`, with the given
traces. -/
inductive Calls : List (Cfg M P R) → Left R → M → Left R → M → List (List (Obs R)) → Prop where
  | nil (l : Left R) (m : M) : Calls [] l m l m []
  | cons {c : Cfg M P R} {cs : List (Cfg M P R)} {l l' : Left R} {m m' : M}
      {logs : List (List (Obs R))} (as : List Act) (s : St M R c.W)
      (h : run c (start c l m) as = some s) (hr : s.main = .ret)
      (ht : Calls cs s.left s.model l' m' logs) :
      Calls (c :: cs) l m l' m' (s.log :: logs)

end Verif.Pool
