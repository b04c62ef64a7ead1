/-
Model of the thread on which listeners run: the identifiers of threads (`std::thread::id`) and what
`SameThreadEventDispatcher` does with them (src/ldaplusplus/events/Events.cpp:113-124), for the life of one LDA object
(src/ldaplusplus/LDA.cpp).

Threads are told apart by serial numbers that are never used twice.  Identifiers are what `std::this_thread::get_id()`
returns: the library compares those, and the system may give the identifier of a thread that has ended to a new one
([thread.thread.id]: "The library may reuse the value of a thread::id of a terminated thread that can no longer be
joined").  Listeners, events and queues are left out: an entry of the log says that `process_events` ran.
-/
namespace Verif.Threads

/-- What happens, in the order it happens.
* `start i`: the user starts a thread and the system gives it the identifier `i`.
* `finish t`: a thread of the user ends (and has been joined).
* `construct t`: thread `t` constructs the LDA object, and with it the dispatcher (LDA.cpp:25, Events.cpp:114-116).
* `call t is`: thread `t` enters `partial_fit` or `transform` and creates one worker per element of `is`, which
  get these identifiers (LDA.cpp:101, 157, 232-239).
* `workerEvent j`: the `j`-th worker dispatches an event (UnsupervisedEStep.cpp:81 and alike).
* `consume`: the caller has a result and processes events (LDA.cpp:112, 169).
* `callerEvent`: the caller dispatches an event (LDA.cpp:134, and the M steps).
* `userEvent t`: thread `t` of the user dispatches an event of their own.
* `return`: the workers are joined (LDA.cpp:242-247); the call comes back. -/
inductive Act where
  | start (i : Nat)
  | finish (t : Nat)
  | construct (t : Nat)
  | call (t : Nat) (is : List Nat)
  | workerEvent (j : Nat)
  | consume
  | callerEvent
  | userEvent (t : Nat)
  | return
  deriving DecidableEq, Repr

/-- The threads that run, as (serial number, identifier), and whose they are.
* `users`: the threads of the user; `workers`: those of the pool; `next`: the serial number of the next thread.
* `maker`: the serial number and identifier of the thread that constructed the object; the identifier is
  `thread_id_` (Events.hpp:249), the serial number is only remembered by the model.
* `caller`: the thread that is inside `partial_fit` or `transform`.
* `log`: the threads that ran `process_events`, in order. -/
structure World where
  users : List (Nat × Nat)
  workers : List (Nat × Nat)
  next : Nat
  maker : Option (Nat × Nat)
  caller : Option (Nat × Nat)
  log : List Nat

/-- The program starts with its main thread, with serial number 0 and some identifier (no counterpart in the code). -/
def World.init (i : Nat) : World := ⟨[(0, i)], [], 1, none, none, []⟩

/-- The identifiers in use (no counterpart in the code). -/
def World.ids (w : World) : List Nat := (w.users ++ w.workers).map Prod.snd

/-- `SameThreadEventDispatcher::dispatch` on the thread `t` (Events.cpp:118-124): the event is queued, and processed
when the identifier of the thread is the stored one. -/
def World.dispatch (w : World) (t : Nat × Nat) : World :=
  match w.maker with
  | some m => if t.2 = m.2 then { w with log := w.log ++ [t.1] } else w
  | none => w

/-- Workers get serial numbers in the order of their creation (LDA.cpp:232-239). -/
def number (k : Nat) : List Nat → List (Nat × Nat)
  | [] => []
  | i :: is => (k, i) :: number (k + 1) is

/-- The thread of the user with serial number `t` (no counterpart in the code). -/
def World.user (w : World) (t : Nat) : Option (Nat × Nat) := w.users.find? fun u => u.1 == t

/-- One happening; `none` when it cannot happen: the system gives no two running threads the same identifier, a
thread inside a call does nothing else, calls on one object do not overlap, and the object is constructed once (LDA.cpp:13-28, 90-176,
232-247, Events.cpp:113-124). -/
def World.step (w : World) : Act → Option World
  | .start i =>
    if i ∈ w.ids then none else some { w with users := w.users ++ [(w.next, i)], next := w.next + 1 }
  | .finish t =>
    if w.caller.map Prod.fst = some t then none
    else (w.user t).map fun _ => { w with users := w.users.filter fun u => u.1 != t }
  | .construct t =>
    if w.maker.isSome then none else (w.user t).map fun u => { w with maker := some u }
  | .call t is =>
    if w.caller.isSome ∨ w.maker.isNone ∨ ¬ (w.ids ++ is).Nodup then none
    else (w.user t).map fun u =>
      { w with caller := some u, workers := number w.next is, next := w.next + is.length }
  | .workerEvent j => w.workers[j]?.map w.dispatch
  | .consume => w.caller.map fun u => { w with log := w.log ++ [u.1] }
  | .callerEvent => w.caller.map w.dispatch
  | .userEvent t =>
    if w.caller.map Prod.fst = some t then none else (w.user t).map w.dispatch
  | .return => w.caller.map fun _ => { w with caller := none, workers := [] }

/-- A history (no counterpart in the code). -/
def World.run (w : World) : List Act → Option World
  | [] => some w
  | a :: as => (w.step a).bind fun w' => w'.run as

end Verif.Threads
