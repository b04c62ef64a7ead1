import Verif.Model.Programs

/-
What the shell sees of a program: its exit status, and what it has left on the disk.
-/
namespace Verif.Programs

open Disk

/-- The exit status, and the disk afterwards.  `main` ends with `return 0` whenever the disk has been asked for everything (lda.cpp:192,
slda.cpp:229, fslda.cpp:331): nobody looks at the streams that were written to, so whether the requests were granted plays no part
(lda_io.cpp:62-70).  An exception ends the program without a status, before anything is written. -/
inductive Ends (prog : Outcome → Prop) (w : World) : World → Option ℕ → Prop where
  | done (l : List (Act × Bool)) (h : prog (.done (l.map Prod.fst))) : Ends prog w (w.run l) (some 0)
  | threw (e : Numpy.Exc) (h : prog (.threw e)) : Ends prog w w none

end Verif.Programs
