/-
Model of the memory accesses and of the synchronisation of a program that trains and uses one LDA object:
src/ldaplusplus/LDA.cpp, src/ldaplusplus/events/Events.cpp and the E and M steps, seen as threads that read, write, lock,
unlock, start threads and join them.

Unlike in `Verif.Model.Pool` a critical section is not one step: every access and every operation on a mutex is a step of
its own, and the threads are interleaved between any two of them.  What the accesses store is left out, except for the
contents of the queues, on which the further course depends.
-/
namespace Verif.Races

/-- The threads: the one that calls `fit`, `partial_fit`, `transform`, the workers of the pool (LDA.cpp:231-239), numbered through over all
calls, and other threads of the user, which use the event dispatcher meanwhile. -/
inductive Tid where
  | main
  | worker (j : Nat)
  | other (i : Nat)
  deriving DecidableEq, Repr

/-- The mutexes: `queue_in_mutex_` and `queue_out_mutex_` (LDA.hpp:268-271), `events_mutex_`, `listeners_mutex_` and
`deleted_listeners_mutex_` of the dispatcher (events/Events.hpp), and the one of the `ThreadSafePRNG`
(utils.hpp:593-615). -/
inductive Mutex where
  | qin | qout | events | listeners | deleted | prng
  deriving DecidableEq, Repr

/-- The memory locations that more than one function of the program uses.
* `corpus`: the members of the corpus, its permutation included (Document.hpp).
* `queueIn`, `queueOut`: the two lists of jobs and of results (LDA.hpp:269-272).
* `events`, `listeners`, `deleted`: the three containers of the dispatcher (events/Events.hpp).
* `prng`: the state of the generator of the E step (AbstractEStep.hpp:69).
* `model`: the model parameters; `eStep`, `mStep`: the members of the steps.
* `user`: whatever the listeners of the user write; `result`: the matrix that `transform` fills.
* `vp j c`: the variational parameters that worker `j` allocates for the `c`-th document it processes.
* `event t c`: the `c`-th event that thread `t` allocates; `ownEvent`: the events of the calling thread.
LDA.cpp:90-291, Events.cpp:48-124. -/
inductive Loc where
  | corpus | queueIn | queueOut | events | listeners | deleted | prng
  | model | eStep | mStep | user | result | ownEvent
  | vp (j c : Nat)
  | event (t : Tid) (c : Nat)
  deriving DecidableEq, Repr

/-- What a thread does to memory and to other threads; the trace of an execution consists of these.  An access stands
for any number of accesses of the kind without synchronisation in between (LDA.cpp:90-291). -/
inductive Op where
  | read (l : Loc)
  | write (l : Loc)
  | lock (m : Mutex)
  | unlock (m : Mutex)
  | spawn (j : Nat)
  | join (j : Nat)
  deriving DecidableEq, Repr

/-- One call of `partial_fit` (`fit = true`) or `transform` (LDA.cpp:90-176).
* `W`, `n`: the number of workers and of documents.
* `owner`: the caller constructed the LDA object (Events.cpp:118-124).
* `docWrites k`: the call of `doc_m_step` for the `k`-th result updates the model parameters.  Only
  `FastOnlineSupervisedMStep` does that, when a minibatch is full (FastOnlineSupervisedMStep.cpp:85-87).
* `docEvents k`, `batchEvents`: how many MaximizationProgressEvents that call and `m_step` dispatch. -/
structure Call where
  fit : Bool
  W : Nat
  n : Nat
  owner : Bool
  docWrites : Nat → Bool
  docEvents : Nat → Nat
  batchEvents : Nat

/-- What is left to do of a program: an operation, or a piece of the program whose course depends on the queues
(LDA.cpp:90-291, Events.cpp:65-124). -/
inductive Instr where
  | op (o : Op)
  /-- all documents are put into `queue_in_` (LDA.cpp:95-98, 152-154) -/
  | fill (n : Nat)
  /-- the worker looks for a job (LDA.cpp:257-262) -/
  | take
  /-- `dispatch` of a new event on a thread that does not own the dispatcher (Events.cpp:65-69) -/
  | raise
  /-- the event is put into the queue (Events.cpp:68) -/
  | emit
  /-- the same for an event of the calling thread -/
  | emitOwn
  /-- the result is put into `queue_out_` (LDA.cpp:274) -/
  | push
  /-- the calling thread is told that there is a result (LDA.cpp:277) -/
  | signal
  /-- the calling thread looks for a result (LDA.cpp:285-290) -/
  | test (c : Call) (k : Nat)
  /-- the wait for a result ends (LDA.cpp:285) -/
  | wake
  /-- the queue of events is emptied into a local list (Events.cpp:92-97) on the calling thread; `own`: it owns the
  dispatcher -/
  | drain (own : Bool)
  /-- the listeners get the event `l` (Events.cpp:107-111) -/
  | notify (l : Loc) (own : Bool)

open Instr Op

/-- `ThreadSafeEventDispatcher::process_events` (Events.cpp:71-112) up to the emptying of the queue; the rest is in
`drain` and `notify`.  Simplification: `std::lock` (line 78) takes the two mutexes one after the other. -/
def processEvents (own : Bool) : List Instr :=
  [op (lock .listeners), op (lock .deleted), op (write .listeners), op (write .deleted), op (unlock .deleted),
    op (unlock .listeners), op (lock .events), drain own]

/-- `SameThreadEventDispatcher::dispatch` on the calling thread (Events.cpp:118-124). -/
def dispatchMain (own : Bool) : List Instr :=
  [op (write .ownEvent), op (lock .events), emitOwn, op (write .events), op (unlock .events)]
    ++ if own then processEvents own else []

/-- `SameThreadEventDispatcher::dispatch` during a call, on the thread that made it (Events.cpp:118-124). -/
def Call.dispatch (c : Call) : List Instr := dispatchMain c.owner

/-- `k` dispatches one after the other (FastSupervisedMStep.cpp:81, SupervisedMStep.cpp:98). -/
def Call.dispatches (c : Call) : Nat → List Instr
  | 0 => []
  | k + 1 => c.dispatch ++ c.dispatches k

/-- What the calling thread does with the `k`-th result (LDA.cpp:110-120 and 165-169). -/
def Call.consume (c : Call) (k : Nat) (v : Loc) : List Instr :=
  if c.fit then
    processEvents c.owner ++ ([op (read .corpus), op (read v), op (read .model), op (write .mStep)]
      ++ ((if c.docWrites k then [op (write .model)] else []) ++ c.dispatches (c.docEvents k)))
  else [op (read v), op (write .result)] ++ processEvents c.owner

/-- The loop over the results (LDA.cpp:104-120, 160-170); `k` is the number of the next one. -/
def Call.loop (c : Call) (k : Nat) : Nat → List Instr
  | 0 => []
  | r + 1 => op (lock .qout) :: test c k :: c.loop (k + 1) r

/-- `create_worker_pool` (LDA.cpp:232-239). -/
def spawns (base : Nat) : Nat → List Instr
  | 0 => []
  | w + 1 => spawns base w ++ [op (spawn (base + w))]

/-- `destroy_worker_pool` (LDA.cpp:242-247). -/
def joins (base : Nat) : Nat → List Instr
  | 0 => []
  | w + 1 => joins base w ++ [op (join (base + w))]

/-- The end of `partial_fit` (LDA.cpp:125-134): the two batch steps and the event. -/
def Call.post (c : Call) : List Instr :=
  if c.fit then
    [op (write .eStep), op (read .model), op (write .model), op (write .mStep)]
      ++ (c.dispatches c.batchEvents ++ c.dispatch)
  else []

/-- `partial_fit` and `transform` (LDA.cpp:90-176), with workers numbered from `base`.  `transform` looks at the model
parameters first and makes a corpus; `partial_fit` shuffles one (simplification: both are given both accesses). -/
def Call.prog (c : Call) (base : Nat) : List Instr :=
  [op (read .model), op (write .corpus), fill c.n, op (write .queueIn)]
    ++ (spawns base c.W ++ (c.loop 0 c.n ++ (joins base c.W ++ c.post)))

/-- Calls one after the other (`fit` is a sequence of `partial_fit`, LDA.cpp:64-81). -/
def session (base : Nat) : List Call → List Instr
  | [] => []
  | c :: cs => c.prog base ++ session (base + c.W) cs

/-- What another thread of the user, or a listener, may do with the dispatcher at any time (Events.cpp:48-69). -/
inductive Req where
  | add
  | remove
  | dispatch
  deriving DecidableEq, Repr

/-- `add_listener` (Events.cpp:48-55). -/
def addListener : List Instr := [op (lock .listeners), op (write .listeners), op (unlock .listeners)]

/-- `remove_listener` (Events.cpp:57-63). -/
def removeListener : List Instr := [op (lock .deleted), op (write .deleted), op (unlock .deleted)]

/-- The program of such a request on a thread that does not own the dispatcher and is not the calling one
(Events.cpp:48-69, 118-124). -/
def Req.prog : Req → List Instr
  | .add => addListener
  | .remove => removeListener
  | .dispatch => [raise]

/-- The program of such a request in a listener that the calling thread runs; `own`: that thread owns the dispatcher
(Events.cpp:48-69, 118-124). -/
def Req.inside (own : Bool) : Req → List Instr
  | .add => addListener
  | .remove => removeListener
  | .dispatch => dispatchMain own

/-- The listeners of the user get an event: they read it, may change state of their own, may look at the model
parameters, and call the dispatcher with the requests `rs` (Events.cpp:107-111).  Simplification: the calls come after the other
accesses. -/
def told (own : Bool) (l : Loc) (rs : List Req) : List Instr :=
  [op (read l), op (write .user), op (read .model)] ++ rs.flatMap (Req.inside own)

/-- The whole program of such a thread (Events.cpp:48-69). -/
def requests : List Req → List Instr
  | [] => []
  | r :: rs => r.prog ++ requests rs

/-- The state: the rest of the program of every thread (empty before it is started and after it has ended), the owner of
every mutex, the contents of the queues, and how many events and results every thread has published (LDA.hpp:262-275).
`listen k`: what the listeners do with the dispatcher when they are told of an event for the `k`-th time; `nc`: how often
they have been told.  `asleep`: the calling thread has found no result and has not been woken since. -/
structure St where
  prog : Tid → List Instr
  owner : Mutex → Option Tid
  qin : List Nat
  qout : List (Nat × Nat)
  evq : List Loc
  ec : Tid → Nat
  vc : Nat → Nat
  listen : Nat → List Req
  nc : Nat
  asleep : Bool

/-- The start: the calling thread and the other threads of the user have their programs, no worker exists, no mutex is
taken, the queues are empty (LDA.cpp:13-28). -/
def St.init (calls : List Call) (others listen : Nat → List Req) : St where
  prog := fun | .main => session 0 calls | .worker _ => [] | .other i => requests (others i)
  owner := fun _ => none
  qin := []
  qout := []
  evq := []
  ec := fun _ => 0
  vc := fun _ => 0
  listen := listen
  nc := 0
  asleep := false

/-- The program of a worker when it looks for its next job (LDA.cpp:255-258). -/
def workerStart : List Instr := [op (lock .qin), take]

/-- What worker `j` does with a job: `doc_e_step` and the publication of its result, then the next job
(LDA.cpp:258-278, UnsupervisedEStep.cpp:26-91; the accesses of the other E steps are the same).  `c` is the number of the
result. -/
def job (j c : Nat) : List Instr :=
  [op (read .queueIn), op (write .queueIn), op (unlock .qin),
    op (read .corpus), op (read .model), op (read .eStep),
    op (lock .prng), op (write .prng), op (unlock .prng),
    op (read .model), raise, op (write (.vp j c)),
    op (lock .qout), push, op (write .queueOut), op (unlock .qout), signal] ++ workerStart

/-- Replace the program of thread `t` (no counterpart in the code). -/
def St.setProg (s : St) (t : Tid) (p : List Instr) : St :=
  { s with prog := fun u => if u = t then p else s.prog u }

/-- One step of thread `t`: the new state and the operation done, if any; `none` when the thread cannot move
(LDA.cpp:90-291, Events.cpp:48-124).  `condition_variable::wait` (LDA.cpp:285) releases the mutex and goes to sleep in one
action: a signal (LDA.cpp:277) has no effect as long as the calling thread holds the mutex.  The standard allows a wait to end at any time,
so `wake` is possible even if `asleep` is true. -/
def step (s : St) (t : Tid) : Option (St × Option Op) :=
  match s.prog t with
  | [] => none
  | op (lock m) :: p =>
    if s.owner m = none then
      some ({ s.setProg t p with owner := fun x => if x = m then some t else s.owner x }, some (lock m))
    else none
  | op (unlock m) :: p =>
    some ({ s.setProg t p with owner := fun x => if x = m then none else s.owner x }, some (unlock m))
  | op (spawn j) :: p => some ((s.setProg t p).setProg (.worker j) workerStart, some (spawn j))
  | op (join j) :: p => if (s.prog (.worker j)).isEmpty then some (s.setProg t p, some (join j)) else none
  | op (.read l) :: p => some (s.setProg t p, some (.read l))
  | op (.write l) :: p => some (s.setProg t p, some (.write l))
  | fill n :: p => some ({ s.setProg t p with qin := s.qin ++ List.range n }, none)
  | take :: _ =>
    match t, s.qin with
    | .worker _, [] => some (s.setProg t [op (read .queueIn), op (unlock .qin)], none)
    | .worker j, _ :: q => some ({ s.setProg t (job j (s.vc j)) with qin := q }, none)
    | _, _ => none
  | raise :: p =>
    some (s.setProg t ([op (write (.event t (s.ec t))), op (lock .events), emit, op (write .events), op (unlock .events)] ++ p),
      none)
  | emit :: p =>
    some ({ s.setProg t p with
      evq := s.evq ++ [.event t (s.ec t)], ec := fun u => if u = t then s.ec t + 1 else s.ec u }, none)
  | emitOwn :: p => some ({ s.setProg t p with evq := s.evq ++ [.ownEvent] }, none)
  | push :: p =>
    match t with
    | .worker j =>
      some ({ s.setProg t p with
        qout := s.qout ++ [(j, s.vc j)], vc := fun i => if i = j then s.vc j + 1 else s.vc i }, none)
    | _ => none
  | signal :: p => some ({ s.setProg t p with asleep := s.asleep && decide (s.owner .qout = some .main) }, none)
  | wake :: p => some ({ s.setProg t p with asleep := false }, none)
  | test c k :: p =>
    match s.qout with
    | [] =>
      some ({ s.setProg t ([op (read .queueOut), op (unlock .qout), wake, op (lock .qout), test c k] ++ p) with
        asleep := true }, none)
    | (j, v) :: q =>
      some ({ s.setProg t ([op (read .queueOut), op (write .queueOut), op (unlock .qout)] ++ (c.consume k (.vp j v) ++ p)) with
        qout := q }, none)
  | drain own :: p =>
    some ({ s.setProg t ([op (read .events), op (write .events), op (unlock .events), op (lock .listeners),
        op (read .listeners), op (unlock .listeners)] ++ (s.evq.map (notify · own) ++ p)) with
      evq := [] }, none)
  | notify l own :: p => some ({ s.setProg t (told own l (s.listen s.nc) ++ p) with nc := s.nc + 1 }, none)

/-- The trace of an execution: the operations in the order they are done, with their threads. -/
abbrev Trace := List (Tid × Op)

/-- One step, with the trace so far (LDA.cpp:90-291). -/
def exec1 (x : St × Trace) (t : Tid) : Option (St × Trace) :=
  (step x.1 t).map fun r => (r.1, x.2 ++ r.2.toList.map fun o => (t, o))

/-- A schedule: the threads move in the given order (LDA.cpp:90-291). -/
def exec (x : St × Trace) : List Tid → Option (St × Trace)
  | [] => some x
  | t :: ts => (exec1 x t).bind fun y => exec y ts

end Verif.Races
