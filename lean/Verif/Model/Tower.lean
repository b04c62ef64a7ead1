import Verif.Model.Nested

/-
Listeners that call `partial_fit` of the LDA object whose event they handle (LDA.cpp:90-135).  The nested call uses the
members of the outer one, and so can raise events whose listeners make further calls.
-/
namespace Verif.Pool

variable {M P R : Type}

/-- A call that has not returned (LDA.cpp:90-135): what it is and where it is. -/
structure Frame (M P R : Type) where
  c : Cfg M P R
  s : St M R c.W

/-- The calls that have not returned, the innermost one (`top`) first, or the end of the program by `std::terminate`
(LDA.cpp:90-135); `begun` are the calls made so far in the order in which they were made. -/
inductive Tower (M P R : Type) where
  | dead
  | live (begun : List (Cfg M P R)) (top : Frame M P R) (below : List (Frame M P R))

/-- What can happen: a step of the innermost call, a call of `partial_fit` by a listener of it, and its return
(LDA.cpp:90-135). -/
inductive TAct (M P R : Type) where
  | go (a : Act)
  | nest (c : Cfg M P R)
  | back

/-- One step (LDA.cpp:90-135).  `none`: not possible now.  (Simplification: calls made by listeners of the events of
`m_step` are left out, since they would use the members of the M step that it is working on.)  The number of workers
and the thread that made the object are the same for all calls. -/
def towerStep : Tower M P R → TAct M P R → Option (Tower M P R)
  | .live cs f fs, .go a => (step f.c f.s a).map fun s => .live cs ⟨f.c, s⟩ fs
  | .live cs f fs, .nest c =>
    if c.W = f.c.W ∧ c.owner = f.c.owner ∧ c.kind = .partialFit then
      match speaks f.c f.s with
      | none => none
      | some .batch => none
      | some _ =>
        if anyJoinable f.s then some .dead
        else some (.live (cs ++ [c]) ⟨c, start c f.s.left f.s.model⟩ (f :: fs))
    else none
  | .live cs f (g :: fs), .back =>
    match f.s.main with
    | .ret => some (.live cs ⟨g.c, { g.s with qin := f.s.qin, qout := f.s.qout, evq := f.s.evq, model := f.s.model }⟩ fs)
    | _ => none
  | _, _ => none

/-- A sequence of steps (LDA.cpp:90-135). -/
def towerRun : Tower M P R → List (TAct M P R) → Option (Tower M P R)
  | t, [] => some t
  | t, a :: as => (towerStep t a).bind fun t' => towerRun t' as

/-- A call on a new object (LDA.cpp:90-135). -/
def towerInit (c : Cfg M P R) (m : M) : Tower M P R := .live [c] ⟨c, init c m⟩ []

end Verif.Pool
