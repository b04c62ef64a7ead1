import Mathlib.Data.Rat.Defs

/-
Model of the corpora (src/ldaplusplus/Document.cpp, include/ldaplusplus/Document.hpp).
`none` stands for undefined behaviour (an index outside a vector, `maxCoeff` of an empty vector).
-/
namespace Verif.Corpus

/-- `std::swap(a[i], a[j])` (part of `std::shuffle`, Document.cpp:63). -/
def swapAt (a : List Nat) (i j : Nat) : Option (List Nat) :=
  match a[i]?, a[j]? with
  | some x, some y => some ((a.set i y).set j x)
  | _, _ => none

/-- `std::shuffle` (used at Document.cpp:63), the Fisher–Yates loop: for `i = 1, 2, ...` swap
element `i` with element `draw i` modulo `i + 1`.  `draw` stands for what the generator and the
distribution deliver; it is arbitrary, so every outcome of `std::shuffle` is covered. -/
def shuffleFrom (draw : Nat → Nat) (a : List Nat) : Nat → Nat → Option (List Nat)
  | _, 0 => some a
  | i, k + 1 =>
    match swapAt a i (draw i % (i + 1)) with
    | none => none
    | some a' => shuffleFrom draw a' (i + 1) k

/-- `CorpusIndexes::shuffle` (Document.cpp:62-64). -/
def shuffle (draw : Nat → Nat) (a : List Nat) : Option (List Nat) :=
  shuffleFrom draw a 1 (a.length - 1)

/-- Any number of shuffles, the `k`-th with its own random numbers (calls of Document.cpp:62-64). -/
def shuffles (a : List Nat) : List (Nat → Nat) → Option (List Nat)
  | [] => some a
  | d :: ds =>
    match shuffle d a with
    | none => none
    | some a' => shuffles a' ds

/-- `EigenClassificationCorpus` (Document.cpp:93-131): the columns of `X` (type `D`), the labels and
the index vector of `CorpusIndexes` (Document.cpp:55-60). -/
structure ClassCorpus (D : Type) where
  X : List D
  y : List Int
  indices : List Nat

variable {D : Type}

/-- The index vector after construction: `std::iota` from 0 over `X.cols()` entries
(Document.cpp:55-60, 97). -/
def ClassCorpus.mk' (X : List D) (y : List Int) : ClassCorpus D := ⟨X, y, List.range X.length⟩

/-- `size` (Document.cpp:109-111). -/
def ClassCorpus.size (c : ClassCorpus D) : Nat := c.X.length

/-- `at` (Document.cpp:113-123): column and label of the document. -/
def ClassCorpus.at (c : ClassCorpus D) (index : Nat) : Option (D × Int) :=
  match c.indices[index]? with
  | none => none
  | some i =>
    match c.X[i]?, c.y[i]? with
    | some x, some l => some (x, l)
    | _, _ => none

/-- `shuffle` (Document.cpp:125-127). -/
def ClassCorpus.shuffles (c : ClassCorpus D) (ds : List (Nat → Nat)) : Option (ClassCorpus D) :=
  match Corpus.shuffles c.indices ds with
  | none => none
  | some idx => some { c with indices := idx }

/-- `y.maxCoeff()`; Eigen requires a nonempty vector (Document.cpp:100). -/
def maxCoeff : List Int → Option Int
  | [] => none
  | [a] => some a
  | a :: b :: l =>
    match maxCoeff (b :: l) with
    | none => none
    | some m => some (if a < m then m else a)

/-- `v[i] ++` with a bounds check (Document.cpp:104). -/
def incr (v : List ℚ) (i : Int) : Option (List ℚ) :=
  if i < 0 then none
  else
    match v[i.toNat]? with
    | none => none
    | some a => some (v.set i.toNat (a + 1))

/-- The counting loop (Document.cpp:103-105). -/
def countLoop (v : List ℚ) : List Int → Option (List ℚ)
  | [] => some v
  | l :: ls =>
    match incr v l with
    | none => none
    | some v' => countLoop v' ls

/-- The constructor's computation of `priors_` (Document.cpp:100-106).  The vector is one of floats;
here the numbers are exact.  A vector of negative size is undefined behaviour as well. -/
def priors (y : List Int) : Option (List ℚ) :=
  match maxCoeff y with
  | none => none
  | some m =>
    if m + 1 < 0 then none
    else
      match countLoop (List.replicate (m + 1).toNat 0) y with
      | none => none
      | some v => if v.sum = 0 then none else some (v.map (· / v.sum))

/-- `get_prior` (Document.cpp:129-131). -/
def getPrior (p : List ℚ) (c : Int) : Option ℚ := if c < 0 then none else p[c.toNat]?

end Verif.Corpus
