import Verif.Model.Failure
import Verif.Props.Pool

/-
Listeners that call `transform` (or `decision_function` and `predict`, which call it, LDA.cpp:178-228) of the LDA object
whose event they handle.  The listeners run on the calling thread, inside of `process_worker_events` or of `dispatch`
(LDA.cpp:112 / 169, Events.cpp:71-124), so the call that raised the event is suspended meanwhile; the nested call uses
the same members: `workers_`, the queues and the dispatcher (LDA.hpp:260-275).
-/
namespace Verif.Pool

variable {M P R : Type}

/-- The argument of a nested call of `transform` (LDA.cpp:138): the number of documents, and what the E step makes of
them. -/
structure Query (P R : Type) where
  n : Nat
  eval : P → Nat → R

/-- Where the calling thread is when listeners can be running, if anywhere: `process_worker_events` (LDA.cpp:112 / 169)
notifies them on every thread, `dispatch` in `doc_m_step`, in `m_step` and for the epoch (LDA.cpp:115-134) only on the
thread that made the object (Events.cpp:118-124).  (Simplification: whether there is an event and a listener at all is
left open.) -/
def speaks (c : Cfg M P R) (s : St M R c.W) : Option Point :=
  match s.main with
  | .got k _ _ => match c.kind with
    | .partialFit => some (.document k)
    | .transform => none
  | .mid k _ _ => match c.kind with
    | .partialFit => if c.owner then some (.document k) else none
    | .transform => some (.document k)
  | .post => if c.owner then some .batch else none
  | .epoch => if c.owner then some .epoch else none
  | _ => none

/-- A nested call that is not finished (LDA.cpp:138-176): where it was made, its argument, the model parameters that it
reads, and the state of the pool. -/
structure Inner (P R : Type) (W : Nat) (owner : Bool) where
  point : Point
  query : Query P R
  params : P
  st : St (P × (Nat → Option R)) R (transformCfg W query.n owner query.eval).W

/-- A nested call that has returned: where it was made, its argument, the parameters that it read and the columns of its
result (LDA.cpp:175). -/
structure Answer (P R : Type) where
  point : Point
  query : Query P R
  params : P
  columns : Nat → Option R

/-- A call with nested calls: `dead` after `std::terminate`; otherwise the state of the outer call, the nested call that
is being executed, and the answers so far (LDA.cpp:90-176). -/
inductive Sys (c : Cfg M P R) where
  | dead
  | live (outer : St M R c.W) (inner : Option (Inner P R c.W c.owner)) (answers : List (Answer P R))

/-- What can happen: a step of the outer call, a nested call made by a listener of it, a step of the nested call, a
nested call made by a listener of the nested call, and the return from the nested call (LDA.cpp:90-176).  While `m_step`
runs the model can be half-way between two epochs; `half` is what a nested call reads then. -/
inductive NAct (P R : Type) where
  | outer (a : Act)
  | ask (q : Query P R) (half : P)
  | inner (a : Act)
  | askAgain
  | reply

/-- `create_worker_pool` of a nested call assigns to all threads, which calls `std::terminate` if one of them is joinable
(LDA.cpp:232-239, [thread.thread.assign]). -/
def anyJoinable {W : Nat} (s : St M R W) : Bool := (List.finRange W).any fun j => joinable s j

/-- One step (LDA.cpp:90-176).  `none`: not possible now.  A nested call inside of a nested call is `dead` or not
possible (`C133_nested_twice` shows that it is `dead` whenever a listener can make it). -/
def nstep (c : Cfg M P R) : Sys c → NAct P R → Option (Sys c)
  | .live s none as, .outer a => (step c s a).map fun s' => .live s' none as
  | .live s none as, .ask q half =>
    match speaks c s with
    | none => none
    | some pt =>
      if anyJoinable s then some .dead
      else
        let p := if pt = .batch then half else c.params s.model
        some (.live s (some ⟨pt, q, p, start (transformCfg c.W q.n c.owner q.eval) s.left (p, fun _ => none)⟩) as)
  | .live s (some i) as, .inner a =>
    (step (transformCfg c.W i.query.n c.owner i.query.eval) i.st a).map fun st => .live s (some { i with st := st }) as
  | .live _ (some i) _, .askAgain =>
    match speaks (transformCfg c.W i.query.n c.owner i.query.eval) i.st with
    | none => none
    | some _ => if anyJoinable i.st then some .dead else none
  | .live s (some i) as, .reply =>
    match i.st.main with
    | .ret => some (.live { s with qin := i.st.qin, qout := i.st.qout, evq := i.st.evq } none
        (as ++ [⟨i.point, i.query, i.params, i.st.model.2⟩]))
    | _ => none
  | _, _ => none

/-- A sequence of steps (LDA.cpp:90-176). -/
def nrun (c : Cfg M P R) : Sys c → List (NAct P R) → Option (Sys c)
  | t, [] => some t
  | t, a :: as =>
    match nstep c t a with
    | none => none
    | some t' => nrun c t' as

/-- A call on a new object with listeners that may make nested calls (LDA.cpp:90-176). -/
def ninit (c : Cfg M P R) (m : M) : Sys c := .live (init c m) none []

end Verif.Pool
