import Verif.Model.Pool

/-
What an exception that leaves `partial_fit` or `transform` leaves behind (src/ldaplusplus/LDA.cpp:90-176).  Neither
function catches anything, so the members stay as they are at that moment.  (An exception of the E step, in a worker,
leaves the thread function and calls `std::terminate` at once; it is not considered here.)
-/
namespace Verif.Pool

variable {M P R : Type}

/-- The places where code that is called can throw. -/
inductive Point where
  /-- `corpus->shuffle()` (LDA.cpp:92) or `get_corpus` (LDA.cpp:149) -/
  | shuffle
  /-- `queue_in_.emplace_back`, with `k` jobs in the queue already (LDA.cpp:96-98 / 152-154) -/
  | queue (k : Nat)
  /-- the constructor of thread `j` (LDA.cpp:232-239) -/
  | thread (j : Nat)
  /-- the body of the extraction loop, with `k` results extracted before: a listener, or `doc_m_step`
  (LDA.cpp:112-119 / 165-169) -/
  | document (k : Nat)
  /-- `e_step()` or `m_step()`, or a listener of their events (LDA.cpp:125-131) -/
  | batch
  /-- a listener of the EpochProgressEvent (LDA.cpp:134) -/
  | epoch
  deriving DecidableEq, Repr

/-- The place where the calling thread is, if the next thing it does can throw.  Extraction and `join` cannot
(LDA.cpp:241-246 and 282-291). -/
def MPc.point (W : Nat) : MPc R → Option Point
  | .spawn j => if j < W then some (.thread j) else none
  | .loop _ => none
  | .waiting _ => none
  | .got k _ _ => some (.document k)
  | .mid k _ _ => some (.document k)
  | .join _ => none
  | .post => some .batch
  | .epoch => some .epoch
  | .ret => none

/-- Number of threads that `destroy_worker_pool` has joined (LDA.cpp:241-246). -/
def MPc.joined (W : Nat) : MPc R → Nat
  | .join j => j
  | .post => W
  | .epoch => W
  | .ret => W
  | _ => 0

/-- `workers_[j].joinable()`: the thread was started and not joined, whether it still runs or not (LDA.hpp:260). -/
def joinable {W : Nat} (s : St M R W) (j : Fin W) : Bool :=
  (match s.ws j with
    | .unborn => false
    | _ => true) && decide (s.main.joined W ≤ j)

/-- An object after an exception: which of its threads are joinable, the queues (LDA.hpp:260-269) and the model. -/
structure Wreck (M R : Type) (W : Nat) where
  threads : Fin W → Bool
  left : Left R
  model : M

/-- The exception that leaves a call on an object with the members `l` at the given point (LDA.cpp:90-176).  What the
code that threw did before to the model and to the queue of the event dispatcher is arbitrary. -/
inductive Fails (c : Cfg M P R) (l : Left R) (m : M) : Point → Wreck M R c.W → Prop where
  | shuffle : Fails c l m .shuffle ⟨fun _ => false, l, m⟩
  | queue (k : Nat) (hk : k < c.n) :
      Fails c l m (.queue k) ⟨fun _ => false, ⟨l.qin ++ List.range k, l.qout, l.evq⟩, m⟩
  | running {p : Point} (as : List Act) (s : St M R c.W) (h : run c (start c l m) as = some s)
      (hp : s.main.point c.W = some p) (evq : List Ev) (m' : M) :
      Fails c l m p ⟨joinable s, ⟨s.qin, s.qout, evq⟩, m'⟩

/-- The destructor of `workers_`, and `create_worker_pool` in the next call, which assigns to every element
(LDA.cpp:233-238), call `std::terminate` if one of the threads is joinable. -/
def Wreck.Terminates {W : Nat} (w : Wreck M R W) : Prop := ∃ j, w.threads j = true

end Verif.Pool
