import Verif.Model.EStep
import Verif.Model.Events

/-
Model of the semi-supervised expectation step (src/ldaplusplus/em/SemiSupervisedEStep.cpp).

The children are objects on a heap, since they are held by `shared_ptr` and used from elsewhere.  An
expectation step is anything with a state that processes documents, emitting events while doing so.
-/
namespace Verif.SemiStep

open Events

variable {I S L D R E : Type}

/-- The virtual methods of the expectation steps on the heap
(include/ldaplusplus/em/EStepInterface.hpp): new state, result and events emitted, in order. -/
structure Code (I S D R E : Type) where
  doc : I → S → D → S × R × List E
  eStep : I → S → S × List E

/-- An expectation step: its members, and the listeners of its dispatcher (EStepInterface.hpp:24-60). -/
structure Obj (S L : Type) where
  state : S
  listeners : List L

/-- The objects, and the listeners of the semi-supervised step itself (SemiSupervisedEStep.hpp:23-58). -/
structure World (I S L : Type) where
  heap : I → Obj S L
  own : List L

/-- A `SemiSupervisedEStep` (SemiSupervisedEStep.hpp:55-58): the two children, and the listener that
forwards events to `this`. -/
structure Semi (I L : Type) where
  sup : I
  uns : I
  fwd : L

variable [DecidableEq I] [DecidableEq L]

/-- Change one object (SemiSupervisedEStep.cpp:7-46). -/
def World.set (w : World I S L) (i : I) (o : Obj S L) : World I S L :=
  { w with heap := Function.update w.heap i o }

/-- `add_listener` on the dispatcher of an object (SemiSupervisedEStep.cpp:14-18). -/
def World.listen (w : World I S L) (i : I) (l : L) : World I S L :=
  w.set i { w.heap i with listeners := simpleAdd (w.heap i).listeners l }

/-- `remove_listener` on the dispatcher of an object (SemiSupervisedEStep.cpp:23-26). -/
def World.unlisten (w : World I S L) (i : I) (l : L) : World I S L :=
  w.set i { w.heap i with listeners := simpleRemove (w.heap i).listeners l }

/-- The constructor (SemiSupervisedEStep.cpp:7-19). -/
def Semi.construct (s : Semi I L) (w : World I S L) : World I S L :=
  (w.listen s.sup s.fwd).listen s.uns s.fwd

/-- The destructor (SemiSupervisedEStep.cpp:23-26). -/
def Semi.destroy (s : Semi I L) (w : World I S L) : World I S L :=
  (w.unlisten s.sup s.fwd).unlisten s.uns s.fwd

/-- The notifications caused by a child dispatching an event: its listeners in order, and when the
forwarder is among them, the listeners of the semi-supervised step (SemiSupervisedEStep.cpp:14-16). -/
def Semi.notify (s : Semi I L) (own : List L) (childs : List L) (e : E) : List (E × L) :=
  (simpleDispatch childs e).flatMap fun n =>
    if n.2 = s.fwd then simpleDispatch own e else [n]

/-- A method of a child emits events (Events.cpp:42-46). -/
def Semi.notifyAll (s : Semi I L) (w : World I S L) (i : I) (es : List E) : List (E × L) :=
  es.flatMap (s.notify w.own (w.heap i).listeners)

/-- A call of `doc_e_step` on an object (SemiSupervisedEStep.cpp:34-38). -/
def Semi.callDoc (c : Code I S D R E) (s : Semi I L) (w : World I S L) (i : I) (d : D) :
    World I S L × R × List (E × L) :=
  let r := c.doc i (w.heap i).state d
  (w.set i { w.heap i with state := r.1 }, r.2.1, s.notifyAll w i r.2.2)

/-- A call of `e_step` on an object (SemiSupervisedEStep.cpp:43-46). -/
def Semi.callEStep (c : Code I S D R E) (s : Semi I L) (w : World I S L) (i : I) :
    World I S L × List (E × L) :=
  let r := c.eStep i (w.heap i).state
  (w.set i { w.heap i with state := r.1 }, s.notifyAll w i r.2)

/-- `SemiSupervisedEStep::doc_e_step` (SemiSupervisedEStep.cpp:30-39); `cls` is `get_class()`. -/
def Semi.docEStep (c : Code I S D R E) (cls : D → ℤ) (s : Semi I L) (w : World I S L) (d : D) :
    World I S L × R × List (E × L) :=
  if cls d < 0 then s.callDoc c w s.uns d else s.callDoc c w s.sup d

/-- `SemiSupervisedEStep::e_step` (SemiSupervisedEStep.cpp:43-46). -/
def Semi.eStep (c : Code I S D R E) (s : Semi I L) (w : World I S L) : World I S L × List (E × L) :=
  let r1 := s.callEStep c w s.sup
  let r2 := s.callEStep c r1.1 s.uns
  (r2.1, r1.2 ++ r2.2)

/-- What may happen to a semi-supervised step (SemiSupervisedEStep.hpp:23-58). -/
inductive Op (L D : Type) where
  | doc (d : D)
  | eStep
  | add (l : L)
  | remove (l : L)

/-- One of them: the world after it, the result of `doc_e_step`, and the notifications
(SemiSupervisedEStep.cpp:30-46). -/
def Semi.op (c : Code I S D R E) (cls : D → ℤ) (s : Semi I L) (w : World I S L) :
    Op L D → World I S L × Option R × List (E × L)
  | .doc d => let r := s.docEStep c cls w d; (r.1, some r.2.1, r.2.2)
  | .eStep => let r := s.eStep c w; (r.1, none, r.2)
  | .add l => ({ w with own := simpleAdd w.own l }, none, [])
  | .remove l => ({ w with own := simpleRemove w.own l }, none, [])

/-- A sequence of them, with the result and the notifications of each (SemiSupervisedEStep.cpp:30-46). -/
def Semi.run (c : Code I S D R E) (cls : D → ℤ) (s : Semi I L) :
    World I S L → List (Op L D) → World I S L × List (Option R × List (E × L))
  | w, [] => (w, [])
  | w, o :: os =>
    let r := s.op c cls w o
    let rs := Semi.run c cls s r.1 os
    (rs.1, r.2 :: rs.2)

end Verif.SemiStep
