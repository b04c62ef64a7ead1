import Verif.Model.Builder

/-
Several builders, the LDAs built from them and the objects they share: model parameters, expectation and
maximisation steps and event dispatchers are held by `std::shared_ptr` (LDABuilder.hpp:819-826,
LDA.hpp:262-275).

`ES` and `MS` are what the expectation and maximisation steps keep between calls (random generators, epoch
counters, statistics).
-/
namespace Verif.Build

variable {ES MS : Type}

/-- A builder in memory: the members of `Builder`, with a pointer to the model parameters
(LDABuilder.hpp:812-827). -/
structure BuilderObj where
  iterations : ℕ
  workers : ℕ
  e : EPtr
  m : MPtr
  model : ℕ
  eReq : Bool
  mReq : Bool

/-- An `LDA` in memory (LDA.hpp:262-275).  `src` is the number of the builder it was built from; the code does not
keep it. -/
structure LdaObj where
  src : ℕ
  model : ℕ
  e : EPtr
  m : MPtr
  iterations : ℕ
  workers : ℕ

/-- The memory.  `dispatcher` is the LDA to whose event dispatcher a step sends its events
(LDABuilder.hpp:788-822, LDA.cpp:13-46). -/
structure World (ES MS : Type) where
  next : ℕ
  models : ℕ → Params
  eState : ℕ → ES
  mState : ℕ → MS
  dispatcher : ℕ → Option ℕ
  builders : List BuilderObj
  ldas : List LdaObj
  userModels : List ℕ

/-- Before anything is constructed (no counterpart in the code). -/
def World.init (e : ℕ → ES) (m : ℕ → MS) : World ES MS :=
  ⟨0, fun _ => .empty, e, m, fun _ => none, [], [], []⟩

/-- What training changes: the parameters, the states of the expectation step and of the steps it contains, and the
state of the maximisation step.  It reads nothing else of the memory (the corpus is part of the function).
`partial_fit` (LDA.cpp:90-135). -/
def Training (ES MS : Type) := Params → (ℕ → Option ES) → MS → Params × (ℕ → ES) × MS

/-- The steps of the user that a call passes to the builder (LDABuilder.hpp:231-250, 355-358 and
669-673). -/
def Call.pointers : Call → List ℕ
  | .setE p => p.ids
  | .setM p => [p.id]
  | .setEStep (.semi p q) => p.elim [] EPtr.ids ++ q.elim [] EPtr.ids
  | _ => []

/-- What a user does.  `newSteps` stands for the construction of steps by the user, with `get_*_step` or
otherwise (LDABuilder.hpp:77-810, LDA.hpp:60-180). -/
inductive Op (ES MS : Type) where
  | newSteps (n : ℕ)
  | newBuilder (hc : ℕ)
  | newModel (p : Params)
  | writeModel (i : ℕ) (p : Params)
  | call (b : ℕ) (c : Call)
  | topicsFromModel (b i : ℕ)
  | etaFromModel (b i : ℕ)
  | build (b : ℕ)
  | train (l : ℕ) (f : Training ES MS)

/-- The builder as a value: its members and the contents of its model parameters
(LDABuilder.hpp:788-810). -/
def BuilderObj.load (o : BuilderObj) (w : World ES MS) : Builder :=
  ⟨o.iterations, o.workers, o.e, o.m, w.models o.model, o.eReq, o.mReq, w.next⟩

/-- The members after a call (LDABuilder.hpp:812-827). -/
def BuilderObj.store (o : BuilderObj) (b : Builder) : BuilderObj :=
  ⟨b.iterations, b.workers, b.e, b.m, o.model, b.eReq, b.mReq⟩

/-- The constructor of the builder (LDABuilder.cpp:18-29): its two steps and its model parameters are new
objects. -/
noncomputable def newBuilder (hc : ℕ) (w : World ES MS) : World ES MS :=
  let b := Builder.new hc w.next
  { w with
    next := b.next + 1
    models := Function.update w.models b.next b.params
    builders := w.builders ++ [⟨b.iterations, b.workers, b.e, b.m, b.next, b.eReq, b.mReq⟩] }

/-- A call on builder number `i` (LDABuilder.hpp:77-780). -/
noncomputable def callOn (i : ℕ) (c : Call) (w : World ES MS) : Option (World ES MS) :=
  (w.builders[i]?).bind fun o =>
  (Build.call (o.load w) c).map fun r =>
    { w with
      next := r.1.next
      models := Function.update w.models o.model r.1.params
      builders := w.builders.set i (o.store r.1) }

/-- `operator LDA` (LDABuilder.hpp:787-813) and the constructor of `LDA` (LDA.cpp:13-46): the pointers are
copied, and the dispatcher of the new LDA is given to the two steps.  An exception changes nothing. -/
def buildOn (i : ℕ) (w : World ES MS) : Option (World ES MS) :=
  (w.builders[i]?).map fun o =>
    match (o.load w).build with
    | .error _ => w
    | .ok l =>
      { w with
        dispatcher := fun a => if a = l.e.id ∨ a = l.m.id then some w.ldas.length else w.dispatcher a
        ldas := w.ldas ++ [⟨i, o.model, l.e, l.m, l.iterations, l.workers⟩] }

/-- Training of LDA number `i` (LDA.cpp:84-135). -/
def trainOn (i : ℕ) (f : Training ES MS) (w : World ES MS) : Option (World ES MS) :=
  (w.ldas[i]?).map fun l =>
    let r := f (w.models l.model) (fun a => if a ∈ l.e.ids then some (w.eState a) else none) (w.mState l.m.id)
    { w with
      models := Function.update w.models l.model r.1
      eState := fun a => if a ∈ l.e.ids then r.2.1 a else w.eState a
      mState := Function.update w.mState l.m.id r.2.2 }

/-- One operation; `none` if it is undefined or an object does not exist.  A user writes to models of their
own (LDABuilder.hpp:77-822, LDA.cpp:13-135). -/
noncomputable def step (w : World ES MS) : Op ES MS → Option (World ES MS)
  | .newSteps n => some { w with next := w.next + n }
  | .newBuilder hc => some (newBuilder hc w)
  | .newModel p => some { w with
      next := w.next + 1
      models := Function.update w.models w.next p
      userModels := w.next :: w.userModels }
  | .writeModel i p =>
    if i ∈ w.userModels then some { w with models := Function.update w.models i p } else none
  | .call b c => if ∀ a ∈ c.pointers, a < w.next then callOn b c w else none
  | .topicsFromModel b i => if i ∈ w.userModels then callOn b (.topicsFromModel (w.models i)) w else none
  | .etaFromModel b i => if i ∈ w.userModels then callOn b (.etaFromModel (w.models i)) w else none
  | .build b => buildOn b w
  | .train l f => trainOn l f w

/-- A history (LDABuilder.hpp:77-822, LDA.cpp:13-135). -/
noncomputable def steps (w : World ES MS) : List (Op ES MS) → Option (World ES MS)
  | [] => some w
  | o :: os => (step w o).bind fun w => steps w os

end Verif.Build
