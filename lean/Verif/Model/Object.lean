import Verif.Model.Pool

/-
The life of `LDA` objects: construction, calls and the move constructor (src/ldaplusplus/LDA.cpp:13-38).

Objects are named by numbers.  The parameters and the steps are shared pointers that the move constructor takes
over, so there is one state `M` of them, whichever object holds it.
-/
namespace Verif.Pool

variable {M P R : Type}

/-- The members of an LDA object besides the parameters and the steps: `iterations_`, the size of `workers_`, and the
two queues with the queue of the event dispatcher (LDA.hpp:254-275). -/
structure Obj (R : Type) where
  iterations : Nat
  workers : Nat
  left : Left R

/-- The members after construction (LDA.cpp:13-28). -/
def Obj.new (iterations workers : Nat) : Obj R := ⟨iterations, workers, .empty⟩

/-- The members that the move constructor initialises from those of the other object (LDA.cpp:30-38): the numbers are
copied (`workers_` is constructed with as many threads, none of them running), the dispatcher, with what is in its queue,
is taken over, the two queues are not mentioned and hence empty. -/
def Obj.moved (o : Obj R) : Obj R := ⟨o.iterations, o.workers, ⟨[], [], o.left.evq⟩⟩

/-- What a program does with its LDA objects.  A call is given as a function of the number of workers of the object
(`LDA::partial_fit` and `LDA::transform`, LDA.cpp:90-176); `fit` makes one call per iteration (LDA.cpp:64-81). -/
inductive Op (M P R : Type) where
  | call (x : Nat) (c : Nat → Cfg M P R)
  | fit (x : Nat) (c : Nat → Nat → Cfg M P R)
  /-- `LDA y(std::move(x))` -/
  | move (x y : Nat)

/-- The objects that exist; `none`: not constructed, or its pointers have been taken by a move, so that a call
dereferences a null pointer. -/
abbrev Heap (R : Type) := Nat → Option (Obj R)

/-- Construction (LDA.cpp:13-38) or the end of the use of an object. -/
def Heap.set (h : Heap R) (x : Nat) (o : Option (Obj R)) : Heap R := fun z => if z = x then o else h z

/-- Runs of a program, without undefined behaviour: every call is made on an object that exists and returns, and is
described by a configuration with the number of workers of the object (LDA.cpp:30-81). -/
inductive Life : List (Op M P R) → Heap R → M → Heap R → M → List (List (Obs R)) → Prop where
  | nil (h : Heap R) (m : M) : Life [] h m h m []
  | call {x : Nat} {c : Nat → Cfg M P R} {ops : List (Op M P R)} {h h' : Heap R} {o : Obj R} {l : Left R} {m m1 m' : M}
      {logs1 logs : List (List (Obs R))} (ho : h x = some o) (hc : Calls [c o.workers] o.left m l m1 logs1)
      (ht : Life ops (h.set x (some { o with left := l })) m1 h' m' logs) :
      Life (.call x c :: ops) h m h' m' (logs1 ++ logs)
  | fit {x : Nat} {c : Nat → Nat → Cfg M P R} {ops : List (Op M P R)} {h h' : Heap R} {o : Obj R} {l : Left R}
      {m m1 m' : M} {logs1 logs : List (List (Obs R))} (ho : h x = some o)
      (hc : Calls ((List.range o.iterations).map fun i => c i o.workers) o.left m l m1 logs1)
      (ht : Life ops (h.set x (some { o with left := l })) m1 h' m' logs) :
      Life (.fit x c :: ops) h m h' m' (logs1 ++ logs)
  | move {x y : Nat} {ops : List (Op M P R)} {h h' : Heap R} {o : Obj R} {m m' : M} {logs : List (List (Obs R))}
      (ho : h x = some o) (hy : h y = none) (ht : Life ops ((h.set x none).set y (some o.moved)) m h' m' logs) :
      Life (.move x y :: ops) h m h' m' logs

end Verif.Pool
