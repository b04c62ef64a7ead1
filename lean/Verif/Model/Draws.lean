import Verif.Model.Pool
import Verif.Model.EStep

/-
The random numbers of the E step.  Whether a document reports its likelihood is decided by a draw from a generator
that the workers share (AbstractEStep.hpp:68-73, ThreadSafePRNG in utils.hpp:586-615).  This extends the worker pool of
`Verif.Model.Pool` with those draws.
-/
namespace Verif.Pool

variable {M P R : Type}

/-- The pool with the generator.

* `next`: how many numbers the generator has produced since the call started; the numbers are named by their position.
* `got j`: the numbers that worker `j` has drawn for the document it holds.
* `used`: the documents whose E step has finished, each with the numbers it drew. -/
structure DSt (M R : Type) (W : Nat) where
  base : St M R W
  next : Nat
  got : Fin W → List Nat
  used : List (Nat × List Nat)

/-- An action of the pool, or worker `j` calls the generator once, which takes `prng_mutex_` (utils.hpp:604-608). -/
inductive DAct where
  | act (a : Act)
  | draw (j : Nat)
  deriving DecidableEq, Repr

/-- State at the start of a call (LDA.cpp:91-98 and 139-154). -/
def dinit (c : Cfg M P R) (m : M) : DSt M R c.W := ⟨init c m, 0, fun _ => [], []⟩

/-- Change what worker `j` has drawn (utils.hpp:604-608). -/
def setG {W : Nat} (g : Fin W → List Nat) (j : Fin W) (v : List Nat) : Fin W → List Nat :=
  fun x => if x = j then v else g x

/-- One step.  `emit_likelihood(get_prng())` (e.g. UnsupervisedEStep.cpp:77-78) calls the generator `k` times, where `k`
depends on the standard library and on the generator; other workers may call it in between.  The E step ends, and queues
its event, after that. -/
def dstep (k : Nat) (c : Cfg M P R) (s : DSt M R c.W) : DAct → Option (DSt M R c.W)
  | .draw j =>
    if h : j < c.W then
      match s.base.ws ⟨j, h⟩ with
      | .work _ =>
        if (s.got ⟨j, h⟩).length < k then
          some { s with next := s.next + 1, got := setG s.got ⟨j, h⟩ (s.got ⟨j, h⟩ ++ [s.next]) }
        else none
      | _ => none
    else none
  | .act (.worker j) =>
    if h : j < c.W then
      match s.base.ws ⟨j, h⟩ with
      | .work i =>
        if (s.got ⟨j, h⟩).length = k then
          (workerStep c s.base ⟨j, h⟩).map fun b =>
            { s with base := b, got := setG s.got ⟨j, h⟩ [], used := s.used ++ [(i, s.got ⟨j, h⟩)] }
        else none
      | _ => (workerStep c s.base ⟨j, h⟩).map fun b => { s with base := b }
    else none
  | .act a => (step c s.base a).map fun b => { s with base := b }

/-- Run a schedule (LDA.cpp:90-291). -/
def drun (k : Nat) (c : Cfg M P R) (s : DSt M R c.W) : List DAct → Option (DSt M R c.W)
  | [] => some s
  | a :: as =>
    match dstep k c s a with
    | none => none
    | some s' => drun k c s' as

/-- The documents that report their likelihood, in the order in which their E steps ended, if the generator produces
`x 0, x 1, …` from the start of the call on and `canon` turns `k` of them into a number of `[0, 1)`
(`std::generate_canonical`; e.g. UnsupervisedEStep.cpp:77-93). -/
noncomputable def reporters (canon : List Nat → ℝ) (x : Nat → Nat) (p : ℝ) (used : List (Nat × List Nat)) : List Nat :=
  (used.filter fun d => EStep.bernoulli p (canon (d.2.map x))).map Prod.fst

end Verif.Pool
