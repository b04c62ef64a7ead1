import Verif.Model.Apps
import Verif.Model.Numpy

/-
What `lda train`, `slda train`, `fslda train` and `fslda online_train` do to the disk: the snapshots during the
training and the model at the end (src/applications/lda.cpp:148-160, slda.cpp:184-198, fslda.cpp:257-301,
SnapshotEvery.cpp, lda_io.cpp:50-71).

A file is written byte by byte.  Real streams write blocks of bytes, so a run of the program that is interrupted leaves
one of the states considered here.  Simplification: the bytes arrive on the disk in the order they are written.
-/
namespace Verif.Disk

open Numpy Apps

/-- The contents of the files by name, `none` if there is no such file (what lda_io.cpp:62-65 and 81-84 open). -/
abbrev Files := List Char → Option (List Byte)

/-- What is asked of the disk: to open a file for writing, which empties it (`std::ios::out`, lda_io.cpp:62-65), and to
add a byte to it (NumpyFormat.hpp:176-195). -/
inductive Act where
  | truncate (name : List Char)
  | append (name : List Char) (b : Byte)

/-- The file concerned (lda_io.cpp:62-65). -/
def Act.name : Act → List Char
  | .truncate n => n
  | .append n _ => n

/-- The disk and whether the stream in use has failed (lda_io.cpp:62-70). -/
structure World where
  files : Files
  bad : Bool

/-- One request, which the disk grants (`true`) or not (no space left, no permission): a stream that has failed writes
nothing more, and nobody asks whether it has (lda_io.cpp:62-70). -/
def World.act (w : World) : Act × Bool → World
  | (.truncate _, false) => { w with bad := true }
  | (.truncate n, true) => ⟨fun x => if x = n then some [] else w.files x, false⟩
  | (.append n b, ok) =>
    if w.bad then w
    else if ok then { w with files := fun x => if x = n then (w.files n).map (· ++ [b]) else w.files x }
    else { w with bad := true }

/-- Requests one after the other (lda_io.cpp:62-70). -/
def World.run (w : World) (l : List (Act × Bool)) : World := l.foldl World.act w

/-- A file opened and written (lda_io.cpp:62-70). -/
def saveActs (name : List Char) (bytes : List Byte) : List Act := .truncate name :: bytes.map (.append name)

/-- Models saved one after the other, each under its name (`save_lda`, lda_io.cpp:50-71); `none` is undefined
behaviour. -/
def allActs (m : Machine) : List (List Char × LdaModel) → Option (List Act)
  | [] => some []
  | f :: fs =>
    match saveLda m f.2 with
    | .ok bytes => (allActs m fs).map (saveActs f.1 bytes ++ ·)
    | _ => none

/-- The snapshots that a training makes, in order: `epochs` are the models after the epochs, `every` the option
`--snapshot_every` (lda.cpp:148-153, SnapshotEvery.cpp:24-33). -/
def snapshotFiles (path : List Char) (every : ℤ) (epochs : List LdaModel) : Option (List (List Char × LdaModel)) :=
  if 0 < every then
    (feed Snapshot.onEvent (Snapshot.new path every) (epochs.map .epoch)).map fun s => s.files.reverse
  else some []

/-- What the listener asks of the disk during the training (lda.cpp:148-156, slda.cpp:184-192, fslda.cpp:257-265,
287-295). -/
def snapActs (m : Machine) (path : List Char) (every : ℤ) (epochs : List LdaModel) : Option (List Act) :=
  (snapshotFiles path every epochs).bind (allActs m)

/-- What a training asks of the disk: the snapshots, then the trained model (lda.cpp:148-160, slda.cpp:184-198,
fslda.cpp:257-271, 287-301). -/
def trainActs (m : Machine) (path : List Char) (every : ℤ) (epochs : List LdaModel) (final : LdaModel) :
    Option (List Act) :=
  (snapActs m path every epochs).bind fun a =>
    match saveLda m final with
    | .ok bytes => some (a ++ saveActs path bytes)
    | _ => none

end Verif.Disk
