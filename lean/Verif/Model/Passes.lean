import Verif.Model.Corpus

/-
The order in which `fit` and `partial_fit` go through the documents (LDA.cpp:50-96).
-/
namespace Verif.Corpus

/-- `std::mt19937` as `std::shuffle` uses it: the state for a seed, and for a number of elements the numbers that
`std::shuffle` gets out of the generator together with the state in which it leaves it (Document.hpp:168-172,
Document.cpp:55-64). -/
structure Gen (G : Type) where
  seed : Int → G
  deal : G → Nat → (Nat → Nat) × G

variable {G : Type}

/-- `CorpusIndexes` (Document.hpp:146-173). -/
structure Indexes (G : Type) where
  indices : List Nat
  prng : G

/-- The constructor (Document.cpp:55-60). -/
def Indexes.new (gen : Gen G) (n : Nat) (randomState : Int := 0) : Indexes G := ⟨List.range n, gen.seed randomState⟩

/-- `CorpusIndexes::shuffle` (Document.cpp:62-64). -/
def Indexes.shuffle (gen : Gen G) (c : Indexes G) : Option (Indexes G) :=
  let d := gen.deal c.prng c.indices.length
  match Corpus.shuffle d.1 c.indices with
  | none => none
  | some idx => some ⟨idx, d.2⟩

/-- The orders of the passes that several calls of `partial_fit(corpus)` make over one corpus; each call shuffles it
first (LDA.cpp:90-98). -/
def passes (gen : Gen G) (c : Indexes G) : Nat → Option (List (List Nat))
  | 0 => some []
  | k + 1 =>
    match c.shuffle gen with
    | none => none
    | some c' =>
      match passes gen c' k with
      | none => none
      | some l => some (c'.indices :: l)

/-- The orders of the epochs of `fit(X, y)` and `fit(X)` for `n` documents: one corpus, with the default `random_state`,
for all iterations (LDA.cpp:50-81). -/
def fitPasses (gen : Gen G) (n iterations : Nat) : Option (List (List Nat)) := passes gen (Indexes.new gen n) iterations

/-- The orders of several calls of `partial_fit(X, y)`: each makes its own corpus, with the default `random_state`
(LDA.cpp:50-61, 84-87). -/
def partialFitPasses (gen : Gen G) (n : Nat) : Nat → Option (List (List Nat))
  | 0 => some []
  | k + 1 =>
    match passes gen (Indexes.new gen n) 1, partialFitPasses gen n k with
    | some l, some l' => some (l ++ l')
    | _, _ => none

end Verif.Corpus
