import Verif.Model.Events

/-! Specification of the thread-safe dispatcher in terms of the history of calls alone. -/
namespace Verif.Events

variable {L E : Type}

/-- The calls after the last `process_events` of a history. -/
def lastSeg [DecidableEq L] [DecidableEq E] (h : List (Call L E)) : List (Call L E) :=
  (h.reverse.takeWhile (fun c => decide (c ≠ .process))).reverse

/-- The events among some calls, in order. -/
def dispatched (h : List (Call L E)) : List E :=
  h.filterMap fun c => match c with
    | .dispatch e => some e
    | _ => none

/-- The listeners among the `add_listener` calls, in order. -/
def added (h : List (Call L E)) : List L :=
  h.filterMap fun c => match c with
    | .add l => some l
    | _ => none

/-- Events waiting to be delivered after a history. -/
def pending [DecidableEq L] [DecidableEq E] (h : List (Call L E)) : List E :=
  dispatched (lastSeg h)

/-- Whether the call at position `p` of `h` is an `add_listener` whose registration is in force for
a `process_events` call that follows `h`: no removal of the listener is among the calls made after
it, nor among the calls made before it since the last `process_events` call. -/
def survivor [DecidableEq L] [DecidableEq E] (h : List (Call L E)) (p : Nat) : Option L :=
  match h[p]? with
  | some (.add l) =>
    if Call.remove l ∈ lastSeg (h.take p) ++ h.drop (p + 1) then none else some l
  | _ => none

/-- Listeners notified by a `process_events` call that follows `h`, in order of registration. -/
def registered [DecidableEq L] [DecidableEq E] (h : List (Call L E)) : List L :=
  (List.range h.length).filterMap (survivor h)

/-- Each event in turn to each listener in turn. -/
def allPairs (es : List E) (ls : List L) : List (E × L) :=
  es.flatMap fun e => ls.map fun l => (e, l)

end Verif.Events
