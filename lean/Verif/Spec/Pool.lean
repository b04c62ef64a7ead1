import Verif.Model.Pool

/-! Vocabulary in which the properties of the worker pool are stated: what an observer outside the
library can read off the trace of a call. -/
namespace Verif.Pool

variable {M P R : Type}

/-- Documents handed to the M step (`transform`: columns written), in order. -/
def consumed (l : List (Obs R)) : List (Nat × R) :=
  l.filterMap fun o => match o with
    | .consume i r => some (i, r)
    | _ => none

/-- Events handed to the listeners, in order. -/
def delivered (l : List (Obs R)) : List Ev :=
  l.filterMap fun o => match o with
    | .deliver e => some e
    | _ => none

/-- The model after folding `doc_m_step` over a list of documents, sequentially. -/
def seqDocs (c : Cfg M P R) (m : M) (ds : List (Nat × R)) : M :=
  ds.foldl (fun m d => (c.docStep d.1 d.2 m).1) m

/-- A call has returned. -/
def Returned {c : Cfg M P R} (s : St M R c.W) : Prop := s.main = .ret

end Verif.Pool
