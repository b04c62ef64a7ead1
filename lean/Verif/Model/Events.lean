/-
Model of the event dispatchers (src/ldaplusplus/events/Events.cpp,
include/ldaplusplus/events/Events.hpp).

Listeners (`std::shared_ptr<EventListenerInterface>`) and events are values of arbitrary types `L`
and `E`; `shared_ptr` equality is equality in `L`.  A notification `l->on_event(ev)` is the pair
`(ev, l)`.
-/
namespace Verif.Events

variable {L E : Type}

/-! ### EventDispatcher (Events.cpp:27-46) -/

/-- `EventDispatcher::add_listener` (Events.cpp:27-29). -/
def simpleAdd (ls : List L) (l : L) : List L := ls ++ [l]

/-- `EventDispatcher::remove_listener` (Events.cpp:32-39): erase the first equal element. -/
def simpleRemove [DecidableEq L] : List L → L → List L
  | [], _ => []
  | x :: xs, l => if x = l then xs else x :: simpleRemove xs l

/-- `EventDispatcher::dispatch` (Events.cpp:42-46), for listeners that do not call back into the
dispatcher (see `reDispatch` for those that do). -/
def simpleDispatch : List L → E → List (E × L)
  | [], _ => []
  | l :: ls, e => (e, l) :: simpleDispatch ls e

/-- What a listener may do to the dispatcher that is calling it (Events.cpp:27-39). -/
inductive Op (L : Type) where
  | add (l : L)
  | remove (l : L)
  deriving DecidableEq

/-- A `std::list` of listeners: nodes with an identity that iterators point to, and the identity
the next node will get (Events.hpp:174). -/
structure NodeList (L : Type) where
  nodes : List (Nat × L)
  fresh : Nat

/-- erase the first node that holds `l` (Events.cpp:32-39). -/
def eraseNode [DecidableEq L] : List (Nat × L) → L → List (Nat × L)
  | [], _ => []
  | x :: xs, l => if x.2 = l then xs else x :: eraseNode xs l

/-- One call made by a listener during notification (Events.cpp:27-39). -/
def NodeList.op [DecidableEq L] (s : NodeList L) : Op L → NodeList L
  | .add l => { nodes := s.nodes ++ [(s.fresh, l)], fresh := s.fresh + 1 }
  | .remove l => { s with nodes := eraseNode s.nodes l }

/-- The nodes behind the node `id`; `none` when the list has no node `id` (`++it` of the loop in
Events.cpp:43). -/
def nodesAfter : List (Nat × L) → Nat → Option (List (Nat × L))
  | [], _ => none
  | x :: xs, id => if x.1 = id then some xs else nodesAfter xs id

/-- `EventDispatcher::dispatch` (Events.cpp:42-46) when notifying listener `l` makes it perform the
calls `cb l` on the same dispatcher.  The range-for loop keeps an iterator to the node being
notified; incrementing it after that node was erased is undefined behaviour, here `none`.
`pos`: the node the iterator points to (`none`: `end()`).  `fuel` bounds the number of loop
iterations (listeners that keep adding listeners make the loop infinite); running out of it is
reported as `some (.inr ..)`, completion as `some (.inl ..)`. -/
def reDispatch [DecidableEq L] (cb : L → List (Op L)) (e : E) :
    Nat → NodeList L → Option (Nat × L) → List (E × L) →
      Option ((NodeList L × List (E × L)) ⊕ (NodeList L × List (E × L)))
  | _, s, none, out => some (.inl (s, out))
  | 0, s, some _, out => some (.inr (s, out))
  | fuel + 1, s, some (id, l), out =>
    let s' := (cb l).foldl NodeList.op s
    match nodesAfter s'.nodes id with
    | none => none
    | some rest => reDispatch cb e fuel s' rest.head? (out ++ [(e, l)])

/-! ### ThreadSafeEventDispatcher (Events.cpp:49-111) -/

/-- The three members (Events.hpp:222-230). The unordered set is kept as a list of the removed
listeners; only membership in it is ever asked. -/
structure Disp (L E : Type) where
  listeners : List L
  deleted : List L
  events : List E

/-- A dispatcher as constructed (Events.hpp:206-230). -/
def Disp.empty : Disp L E := ⟨[], [], []⟩

/-- Events.cpp:49-55. -/
def Disp.add (d : Disp L E) (l : L) : Disp L E := { d with listeners := d.listeners ++ [l] }

/-- Events.cpp:57-63: only noted; carried out by the next `process_events`. -/
def Disp.remove (d : Disp L E) (l : L) : Disp L E := { d with deleted := l :: d.deleted }

/-- Events.cpp:65-69. -/
def Disp.push (d : Disp L E) (e : E) : Disp L E := { d with events := d.events ++ [e] }

/-- How `--it` behaves on the iterator of the first element of a `std::list`.  The C++ standard
leaves it undefined; in libstdc++ and libc++ lists are circular through a sentinel, so the next
`++it` comes back to the first element (Events.cpp:80-85). -/
inductive Iter where
  | strict
  | circular
  deriving DecidableEq

/-- The erase loop of `process_events` (Events.cpp:80-85).  `before` is the part of the list in
front of the iterator (kept elements), the second list starts at the iterator.  On a deleted element
the loop body erases it, so the iterator is at its successor, and decrements the iterator: to
the last element of `before`, from where `l++` of the loop header returns to the successor.
Decrementing when `before` is empty is `--begin()`. -/
def eraseLoop [DecidableEq L] (it : Iter) (del : List L) : List L → List L → Option (List L)
  | before, [] => some before
  | before, x :: xs =>
    if x ∈ del then
      match before, it with
      | [], .strict => none
      | [], .circular => eraseLoop it del [] xs
      | b :: bs, _ => eraseLoop it del (b :: bs) xs
    else eraseLoop it del (before ++ [x]) xs

/-- First critical section of `process_events` (Events.cpp:74-88). -/
def Disp.purge [DecidableEq L] (it : Iter) (d : Disp L E) : Option (Disp L E) :=
  match eraseLoop it d.deleted [] d.listeners with
  | none => none
  | some ls => some { d with listeners := ls, deleted := [] }

/-- The nested delivery loops (Events.cpp:105-110). -/
def deliveries : List E → List L → List (E × L)
  | [], _ => []
  | e :: es, ls => simpleDispatch ls e ++ deliveries es ls

/-- `process_events` without anything happening between its critical sections
(Events.cpp:71-111). -/
def Disp.process [DecidableEq L] (it : Iter) (d : Disp L E) : Option (Disp L E × List (E × L)) :=
  match d.purge it with
  | none => none
  | some d => some ({ d with events := [] }, deliveries d.events d.listeners)

/-- One call on the dispatcher (Events.hpp:206-220). -/
inductive Call (L E : Type) where
  | add (l : L)
  | remove (l : L)
  | dispatch (e : E)
  | process
  deriving DecidableEq

/-- Outcome of a history: the dispatcher and the notifications made by each `process_events`
call, in order (Events.cpp:49-111). -/
def runCalls [DecidableEq L] (it : Iter) :
    Disp L E → List (Call L E) → Option (Disp L E × List (List (E × L)))
  | d, [] => some (d, [])
  | d, .add l :: h => runCalls it (d.add l) h
  | d, .remove l :: h => runCalls it (d.remove l) h
  | d, .dispatch e :: h => runCalls it (d.push e) h
  | d, .process :: h =>
    match d.process it with
    | none => none
    | some (d', out) =>
      match runCalls it d' h with
      | none => none
      | some (d'', outs) => some (d'', out :: outs)

/-! ### The same with other threads (or listeners) acting between the critical sections -/

/-- Progress of one `process_events` call (Events.cpp:71-111). -/
inductive PPc (L E : Type) where
  /-- not called yet -/
  | idle
  /-- listeners purged (Events.cpp:74-88 done) -/
  | purged
  /-- events taken (Events.cpp:91-96 done) -/
  | grabbed (es : List E)
  /-- listeners copied (Events.cpp:99-103 done); the notifications still to be made -/
  | delivering (todo : List (E × L))
  /-- returned -/
  | finished

/-- Any number of `process_events` calls, each identified by a number, in progress at once
(Events.hpp:206-230). -/
structure Sys (L E : Type) where
  disp : Disp L E
  procs : Nat → PPc L E
  /-- notifications made so far: (call, event, listener) -/
  log : List (Nat × E × L)

/-- One atomic action of any thread (Events.cpp:49-111). -/
inductive SAct (L E : Type) where
  | add (l : L)
  | remove (l : L)
  | dispatch (e : E)
  /-- call number `p` of `process_events` executes its next critical section or notification -/
  | proc (p : Nat)

/-- Change the progress of call `p` (Events.cpp:71-111). -/
def setP (f : Nat → PPc L E) (p : Nat) (v : PPc L E) : Nat → PPc L E :=
  fun x => if x = p then v else f x

/-- One step of one `process_events` call (Events.cpp:71-111). -/
def procStep [DecidableEq L] (it : Iter) (s : Sys L E) (p : Nat) : Option (Sys L E) :=
  match s.procs p with
  | .idle =>
    match s.disp.purge it with
    | none => none
    | some d => some { s with disp := d, procs := setP s.procs p .purged }
  | .purged =>
    some { s with disp := { s.disp with events := [] },
                  procs := setP s.procs p (.grabbed s.disp.events) }
  | .grabbed es =>
    some { s with procs := setP s.procs p (.delivering (deliveries es s.disp.listeners)) }
  | .delivering [] => some { s with procs := setP s.procs p .finished }
  | .delivering ((e, l) :: todo) =>
    some { s with procs := setP s.procs p (.delivering todo), log := s.log ++ [(p, e, l)] }
  | .finished => some s

/-- One atomic action (Events.cpp:49-111). -/
def sysStep [DecidableEq L] (it : Iter) (s : Sys L E) : SAct L E → Option (Sys L E)
  | .add l => some { s with disp := s.disp.add l }
  | .remove l => some { s with disp := s.disp.remove l }
  | .dispatch e => some { s with disp := s.disp.push e }
  | .proc p => procStep it s p

/-- A sequence of atomic actions (Events.cpp:49-111). -/
def sysRun [DecidableEq L] (it : Iter) (s : Sys L E) : List (SAct L E) → Option (Sys L E)
  | [] => some s
  | a :: as =>
    match sysStep it s a with
    | none => none
    | some s' => sysRun it s' as

/-- A new dispatcher, no call in progress (Events.hpp:206-230). -/
def Sys.init : Sys L E := ⟨.empty, fun _ => .idle, []⟩

/-! ### SameThreadEventDispatcher (Events.cpp:114-124) -/

/-- `dispatch` on thread `tid` of a dispatcher created on thread `owner` (Events.cpp:118-124). -/
def sameDispatch [DecidableEq L] (it : Iter) (owner tid : Nat) (d : Disp L E) (e : E) :
    Option (Disp L E × List (E × L)) :=
  let d := d.push e
  if tid = owner then d.process it else some (d, [])

/-- One call on a SameThreadEventDispatcher made by thread `tid`: the notifications it makes
(Events.cpp:49-124). -/
def sameCall [DecidableEq L] (it : Iter) (owner tid : Nat) (d : Disp L E) :
    Call L E → Option (Disp L E × List (E × L))
  | .add l => some (d.add l, [])
  | .remove l => some (d.remove l, [])
  | .dispatch e => sameDispatch it owner tid d e
  | .process => d.process it

/-- A history of calls from several threads (Events.cpp:49-124). -/
def sameRun [DecidableEq L] (it : Iter) (owner : Nat) :
    Disp L E → List (Nat × Call L E) → Option (Disp L E × List (List (E × L)))
  | d, [] => some (d, [])
  | d, (tid, c) :: h =>
    match sameCall it owner tid d c with
    | none => none
    | some (d', out) =>
      match sameRun it owner d' h with
      | none => none
      | some (d'', outs) => some (d'', out :: outs)

end Verif.Events
