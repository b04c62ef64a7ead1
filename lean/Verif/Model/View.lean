import Verif.Model.Corpus

/-
Who owns what: the matrix and the labels of the caller, the corpora, which keep references to them, the documents, which
are copies that know their corpus by a pointer that does not own it, and the jobs in the queue of an `LDA` object, which
own their corpus (include/ldaplusplus/Document.hpp, src/ldaplusplus/Document.cpp, src/ldaplusplus/LDA.cpp:90-98).

Every object has a number of its own that is never used again.  A column of the matrix is a value of type `D`.  `none`
is undefined behaviour, which includes the use of an object whose life has ended.
-/
namespace Verif.View

variable {D : Type}

/-- A variable of the caller, to which a corpus may hold a reference (Document.hpp:189, 223-224). -/
inductive Var (A : Type) where
  | fresh
  | live (a : A)
  | dead

/-- Reading a variable through a reference (Document.cpp:75-83). -/
def Var.read {A : Type} : Var A → Option A
  | .live a => some a
  | _ => none

/-- An `EigenCorpus` (`y` is `none`) or an `EigenClassificationCorpus` (Document.hpp:166-228).  `held`: there is a
`shared_ptr` to it besides those in the queue. -/
structure CorpusObj where
  x : ℕ
  y : Option ℕ
  indices : List ℕ
  priors : List ℚ
  held : Bool

/-- An `EigenDocument`, in a `ClassificationDecorator` if there is a label (Document.hpp:88-142). -/
structure DocObj (D : Type) where
  words : D
  label : Option ℤ
  corpus : Option ℕ

/-- The memory, with `queue_in_` (LDA.hpp:264). -/
structure Mem (D : Type) where
  mats : ℕ → Var (List D)
  labs : ℕ → Var (List ℤ)
  corpora : ℕ → Option CorpusObj
  docs : ℕ → Option (DocObj D)
  jobs : List (ℕ × ℕ)

/-- Before anything is constructed (no counterpart in the code). -/
def Mem.empty : Mem D := ⟨fun _ => .fresh, fun _ => .fresh, fun _ => none, fun _ => none, []⟩

/-- The corpus, if it exists: somebody other than its documents owns it, since the deleter of their pointers does
nothing (Document.cpp:119). -/
def Mem.corpus (m : Mem D) (c : ℕ) : Option CorpusObj :=
  match m.corpora c with
  | none => none
  | some o => if o.held || m.jobs.any (fun j => j.1 == c) then some o else none

/-- `size` (Document.cpp:74-76 and 109-111): the number of columns that the matrix has now. -/
def Mem.size (m : Mem D) (o : CorpusObj) : Option ℕ := (m.mats o.x).read.map List.length

/-- `at` (Document.cpp:78-82 and 113-123): copies of the column and of the label as they are now. -/
def Mem.at (m : Mem D) (c : ℕ) (i : ℕ) : Option (DocObj D) :=
  match m.corpus c with
  | none => none
  | some o =>
    match o.indices[i]?, (m.mats o.x).read with
    | some j, some X =>
      match X[j]?, o.y with
      | some w, none => some ⟨w, none, none⟩
      | some w, some y =>
        match (m.labs y).read with
        | none => none
        | some ls => (ls[j]?).map fun l => ⟨w, some l, some c⟩
      | none, _ => none
    | _, _ => none

/-- Change one corpus (no counterpart in the code). -/
def Mem.setCorpus (m : Mem D) (c : ℕ) (o : CorpusObj) : Mem D :=
  { m with corpora := Function.update m.corpora c (some o) }

/-- The constructors (Document.cpp:69-72 and 93-107); the index vector is filled by `CorpusIndexes`
(Document.cpp:55-60). -/
def Mem.construct (m : Mem D) (x : ℕ) (y : Option ℕ) : Option CorpusObj :=
  match (m.mats x).read with
  | none => none
  | some X =>
    match y with
    | none => some ⟨x, none, List.range X.length, [], true⟩
    | some y =>
      match (m.labs y).read with
      | none => none
      | some ls => (Corpus.priors ls).map fun p => ⟨x, some y, List.range X.length, p, true⟩

/-- What the caller does. -/
inductive Op (D : Type) where
  | newMat (x : ℕ) (cols : List D)
  /-- assignment, element by element or as a whole -/
  | setMat (x : ℕ) (cols : List D)
  | endMat (x : ℕ)
  | newLab (y : ℕ) (ls : List ℤ)
  | setLab (y : ℕ) (ls : List ℤ)
  | endLab (y : ℕ)
  /-- `std::make_shared<EigenCorpus>(X)` or `std::make_shared<EigenClassificationCorpus>(X, y)` -/
  | newCorpus (c x : ℕ) (y : Option ℕ)
  | shuffle (c : ℕ) (draw : ℕ → ℕ)
  | size (c : ℕ)
  /-- `d = c->at(i)` -/
  | at (c i d : ℕ)
  /-- the caller's last pointer to the corpus goes away -/
  | release (c : ℕ)
  | words (d : ℕ)
  | cls (d : ℕ)
  /-- `d->get_corpus<ClassificationCorpus>()->get_prior(l)` -/
  | prior (d : ℕ) (l : ℤ)
  /-- `d->get_corpus()->size()` -/
  | docSize (d : ℕ)
  /-- `lda.partial_fit(c)` -/
  | fit (c : ℕ) (draw : ℕ → ℕ)
  /-- `lda.partial_fit(c)`, left by an exception with `k` jobs queued and no thread running -/
  | fitThrow (c : ℕ) (draw : ℕ → ℕ) (k : ℕ)

/-- What the caller sees. -/
inductive Obs (D : Type) where
  | done
  | num (n : ℕ)
  | words (w : D)
  | cls (l : ℤ)
  | prior (p : ℚ)
  /-- the documents given to the expectation step -/
  | docs (l : List (D × Option ℤ))
  deriving DecidableEq

/-- `shuffle` (Document.cpp:62-64, 84-86 and 125-127). -/
def Mem.shuffle (m : Mem D) (c : ℕ) (draw : ℕ → ℕ) : Option (Mem D) :=
  match m.corpus c with
  | none => none
  | some o => (Corpus.shuffle draw o.indices).map fun a => m.setCorpus c { o with indices := a }

/-- The start of `partial_fit` (LDA.cpp:90-98), up to `k` jobs. -/
def Mem.queue (m : Mem D) (c k : ℕ) : Mem D := { m with jobs := m.jobs ++ (List.range k).map fun i => (c, i) }

/-- The workers take all jobs and get the document of each (LDA.cpp:251-269).  What the calling thread reads for
the maximisation step is left out: it is the same documents if the queues were empty before. -/
def Mem.work (m : Mem D) : Option (List (D × Option ℤ)) :=
  (m.jobs.mapM fun j => m.at j.1 j.2).map fun l => l.map fun d => (d.words, d.label)

/-- One operation: the memory afterwards and what is seen (Document.cpp:14-131, LDA.cpp:90-98 and 251-269). -/
def step (m : Mem D) : Op D → Option (Mem D × Obs D)
  | .newMat x cols =>
    match m.mats x with
    | .fresh => some ({ m with mats := Function.update m.mats x (.live cols) }, .done)
    | _ => none
  | .setMat x cols =>
    match m.mats x with
    | .live _ => some ({ m with mats := Function.update m.mats x (.live cols) }, .done)
    | _ => none
  | .endMat x =>
    match m.mats x with
    | .live _ => some ({ m with mats := Function.update m.mats x .dead }, .done)
    | _ => none
  | .newLab y ls =>
    match m.labs y with
    | .fresh => some ({ m with labs := Function.update m.labs y (.live ls) }, .done)
    | _ => none
  | .setLab y ls =>
    match m.labs y with
    | .live _ => some ({ m with labs := Function.update m.labs y (.live ls) }, .done)
    | _ => none
  | .endLab y =>
    match m.labs y with
    | .live _ => some ({ m with labs := Function.update m.labs y .dead }, .done)
    | _ => none
  | .newCorpus c x y =>
    match m.corpora c with
    | some _ => none
    | none => (m.construct x y).map fun o => (m.setCorpus c o, .done)
  | .shuffle c draw => (m.shuffle c draw).map fun m => (m, .done)
  | .size c => (m.corpus c).bind fun o => (m.size o).map fun n => (m, .num n)
  | .at c i d =>
    match m.docs d with
    | some _ => none
    | none => (m.at c i).map fun o => ({ m with docs := Function.update m.docs d (some o) }, .done)
  | .release c =>
    match m.corpora c with
    | none => none
    | some o => if o.held then some (m.setCorpus c { o with held := false }, .done) else none
  | .words d => (m.docs d).map fun o => (m, .words o.words)
  | .cls d => (m.docs d).bind fun o => o.label.map fun l => (m, .cls l)
  | .prior d l =>
    (m.docs d).bind fun o => o.corpus.bind fun c => (m.corpus c).bind fun o =>
      (Corpus.getPrior o.priors l).map fun p => (m, .prior p)
  | .docSize d =>
    (m.docs d).bind fun o => o.corpus.bind fun c => (m.corpus c).bind fun o => (m.size o).map fun n => (m, .num n)
  | .fit c draw =>
    (m.shuffle c draw).bind fun m => (m.corpus c).bind fun o => (m.size o).bind fun n =>
      (m.queue c n).work.map fun l => ({ m with jobs := [] }, .docs l)
  | .fitThrow c draw k =>
    (m.shuffle c draw).bind fun m => (m.corpus c).bind fun o => (m.size o).bind fun n =>
      if k ≤ n then some (m.queue c k, .done) else none

/-- A history (Document.cpp:14-131, LDA.cpp:90-98 and 251-269). -/
def run (m : Mem D) : List (Op D) → Option (Mem D × List (Obs D))
  | [] => some (m, [])
  | o :: os => (step m o).bind fun r => (run r.1 os).map fun s => (s.1, r.2 :: s.2)

end Verif.View
