import Mathlib.Logic.Relation
import Mathlib.Data.Set.Insert
import Mathlib.Tactic.SplitIfs
import Mathlib.Tactic.Tauto
import Verif.Model.Races

/-!
# C119: training is free of data races

Specification: the definition of the C++ standard.  Two accesses of different threads to the same location, one of them a
write, are a data race unless one happens before the other; happens-before is generated by the order within a thread, by
the unlocking of a mutex before it is locked again, by the start of a thread and by the end of a thread that is joined.
-/

namespace Verif.Races

open Relation

/-- One operation precedes another one directly: in the same thread, through a mutex, through the start of a thread or
through its end. -/
def Edge (τ : Trace) (a b : ℕ) : Prop :=
  a < b ∧ ∃ x y, τ[a]? = some x ∧ τ[b]? = some y ∧
    (x.1 = y.1 ∨ (∃ m, x.2 = .unlock m ∧ y.2 = .lock m) ∨ (∃ j, x.2 = .spawn j ∧ y.1 = .worker j)
      ∨ (∃ j, x.1 = .worker j ∧ y.2 = .join j))

/-- Happens before. -/
def HB (τ : Trace) : ℕ → ℕ → Prop := TransGen (Edge τ)

/-- Both operations access the location, and one of them writes it. -/
def Conflict (l : Loc) (o o' : Op) : Prop :=
  (o = .write l ∧ (o' = .read l ∨ o' = .write l)) ∨ (o = .read l ∧ o' = .write l)

/-- The trace contains a data race on the location. -/
def RaceOn (τ : Trace) (l : Loc) : Prop :=
  ∃ a b x y, a < b ∧ τ[a]? = some x ∧ τ[b]? = some y ∧ x.1 ≠ y.1 ∧ Conflict l x.2 y.2 ∧ ¬ HB τ a b

/-! ### Knowledge: which operations happened before what a thread does next -/

/-- The operation happened before whatever thread `t` does next. -/
def Past (τ : Trace) (t : Tid) (a : ℕ) : Prop :=
  ∃ b y, τ[b]? = some y ∧ (y.1 = t ∨ ∃ j, t = .worker j ∧ y.2 = .spawn j) ∧ (a = b ∨ HB τ a b)

/-- The operation happened before the next locking of the mutex. -/
def MPast (τ : Trace) (m : Mutex) (a : ℕ) : Prop :=
  ∃ b y, τ[b]? = some y ∧ y.2 = .unlock m ∧ (a = b ∨ HB τ a b)

theorem get_grow {τ : Trace} {e : Tid × Op} {a : ℕ} {x : Tid × Op} (h : τ[a]? = some x) : (τ ++ [e])[a]? = some x := by
  rw [List.getElem?_append_left (List.getElem?_eq_some_iff.1 h).1, h]

theorem get_new (τ : Trace) (e : Tid × Op) : (τ ++ [e])[τ.length]? = some e := by simp

theorem get_cases {τ : Trace} {e : Tid × Op} {a : ℕ} {x : Tid × Op} (h : (τ ++ [e])[a]? = some x) :
    τ[a]? = some x ∨ (a = τ.length ∧ x = e) := by
  rcases Nat.lt_trichotomy a τ.length with hl | hl | hl
  · rw [List.getElem?_append_left hl] at h; exact .inl h
  · subst hl; rw [get_new] at h; exact .inr ⟨rfl, (Option.some.inj h).symm⟩
  · rw [List.getElem?_eq_none (by simp; omega)] at h; cases h

theorem get_lt {τ : Trace} {a : ℕ} {x : Tid × Op} (h : τ[a]? = some x) : a < τ.length :=
  (List.getElem?_eq_some_iff.1 h).1

theorem edge_grow {τ : Trace} {e : Tid × Op} {a b : ℕ} (h : Edge τ a b) : Edge (τ ++ [e]) a b := by
  obtain ⟨hl, x, y, hx, hy, h⟩ := h
  exact ⟨hl, x, y, get_grow hx, get_grow hy, h⟩

theorem hb_grow {τ : Trace} {e : Tid × Op} {a b : ℕ} (h : HB τ a b) : HB (τ ++ [e]) a b :=
  TransGen.mono (fun _ _ h => edge_grow h) _ _ h

theorem past_grow {τ : Trace} {e : Tid × Op} {t : Tid} {a : ℕ} (h : Past τ t a) : Past (τ ++ [e]) t a := by
  obtain ⟨b, y, hy, ht, h⟩ := h
  exact ⟨b, y, get_grow hy, ht, h.imp id hb_grow⟩

theorem mpast_grow {τ : Trace} {e : Tid × Op} {m : Mutex} {a : ℕ} (h : MPast τ m a) : MPast (τ ++ [e]) m a := by
  obtain ⟨b, y, hy, ht, h⟩ := h
  exact ⟨b, y, get_grow hy, ht, h.imp id hb_grow⟩

theorem past_self {τ : Trace} {a : ℕ} {x : Tid × Op} (h : τ[a]? = some x) : Past τ x.1 a :=
  ⟨a, x, h, .inl rfl, .inl rfl⟩

/-- Reaching the new operation from an old one. -/
theorem hb_via {τ : Trace} {e : Tid × Op} {a b : ℕ} (hab : a = b ∨ HB τ a b) (h : Edge (τ ++ [e]) b τ.length) :
    HB (τ ++ [e]) a τ.length := by
  rcases hab with rfl | hab
  · exact .single h
  · exact .tail (hb_grow hab) h

theorem hb_new {τ : Trace} {t : Tid} {o : Op} {a : ℕ} (h : Past τ t a) : HB (τ ++ [(t, o)]) a τ.length := by
  obtain ⟨b, y, hy, ht, h⟩ := h
  refine hb_via h ⟨get_lt hy, y, (t, o), get_grow hy, get_new _ _, ?_⟩
  rcases ht with ht | ⟨j, rfl, hj⟩
  · exact .inl ht
  · exact .inr (.inr (.inl ⟨j, hj, rfl⟩))

theorem past_lock {τ : Trace} {t : Tid} {m : Mutex} {a : ℕ} (h : MPast τ m a) : Past (τ ++ [(t, .lock m)]) t a := by
  obtain ⟨b, y, hy, hm, h⟩ := h
  refine ⟨τ.length, _, get_new _ _, .inl rfl, .inr (hb_via h ⟨get_lt hy, y, _, get_grow hy, get_new _ _, ?_⟩)⟩
  exact .inr (.inl ⟨m, hm, rfl⟩)

theorem mpast_unlock {τ : Trace} {t : Tid} {m : Mutex} {a : ℕ} (h : Past τ t a) : MPast (τ ++ [(t, .unlock m)]) m a :=
  ⟨τ.length, _, get_new _ _, rfl, .inr (hb_new h)⟩

theorem past_spawn {τ : Trace} {j : ℕ} {a : ℕ} (h : Past τ .main a) : Past (τ ++ [(.main, .spawn j)]) (.worker j) a :=
  ⟨τ.length, _, get_new _ _, .inr ⟨j, rfl, rfl⟩, .inr (hb_new h)⟩

theorem past_join {τ : Trace} {j : ℕ} {a : ℕ} {o : Op} (h : τ[a]? = some (.worker j, o)) :
    Past (τ ++ [(.main, .join j)]) .main a :=
  ⟨τ.length, _, get_new _ _, .inl rfl,
    .inr (.single ⟨get_lt h, _, _, get_grow h, get_new _ _, .inr (.inr (.inr ⟨j, rfl, rfl⟩))⟩)⟩

/-! ### The discipline of the threads -/

/-- What a thread that is not the calling one may access when it holds the mutexes `held` and has published `ec` events and
`vc` results. -/
def WAcc (t : Tid) (held : List Mutex) (ec vc : ℕ) (rd : Bool) : Loc → Prop
  | .corpus => rd = true ∧ ∃ j, t = .worker j
  | .model => rd = true ∧ ∃ j, t = .worker j
  | .eStep => rd = true ∧ ∃ j, t = .worker j
  | .queueIn => .qin ∈ held ∧ ∃ j, t = .worker j
  | .queueOut => .qout ∈ held
  | .events => .events ∈ held
  | .listeners => .listeners ∈ held
  | .deleted => .deleted ∈ held
  | .prng => .prng ∈ held
  | .mStep => False
  | .user => False
  | .result => False
  | .ownEvent => False
  | .vp j c => t = .worker j ∧ c = vc
  | .event u c => u = t ∧ c = ec

/-- The rest of the program of such a thread keeps to that, and it never holds more than one mutex. -/
def WSafe (t : Tid) : List Mutex → ℕ → ℕ → List Instr → Prop
  | held, _, _, [] => held = []
  | held, ec, vc, .op (.read l) :: p => WAcc t held ec vc true l ∧ WSafe t held ec vc p
  | held, ec, vc, .op (.write l) :: p => WAcc t held ec vc false l ∧ WSafe t held ec vc p
  | held, ec, vc, .op (.lock m) :: p => held = [] ∧ WSafe t [m] ec vc p
  | held, ec, vc, .op (.unlock m) :: p => m ∈ held ∧ WSafe t (held.filter (· ≠ m)) ec vc p
  | held, _, _, .take :: p => (∀ m, m ∈ held ↔ m = .qin) ∧ p = [] ∧ ∃ j, t = .worker j
  | held, ec, vc, .raise :: p => held = [] ∧ WSafe t [] (ec + 1) vc p
  | held, ec, vc, .emit :: p => .events ∈ held ∧ WSafe t held (ec + 1) vc p
  | held, ec, vc, .push :: p => .qout ∈ held ∧ ((∃ j, t = .worker j) ∧ .signal ∈ p) ∧ WSafe t held ec (vc + 1) p
  | held, ec, vc, .signal :: p => WSafe t held ec vc p
  | _, _, _, _ => False

/-- What the calling thread may access when the workers `live` exist; `GV` and `GE` are the results and the events that it
has taken out of the queues. -/
def MAcc (live : Set ℕ) (held : List Mutex) (GV : ℕ → ℕ → Prop) (GE : Tid → ℕ → Prop) : Loc → Prop
  | .queueIn => .qin ∈ held ∨ live = ∅
  | .queueOut => .qout ∈ held
  | .events => .events ∈ held
  | .listeners => .listeners ∈ held
  | .deleted => .deleted ∈ held
  | .prng => .prng ∈ held
  | .vp j c => GV j c
  | .event u c => GE u c
  | _ => True

/-- What it may write of that.  `X`: updates of the model parameters while workers run are excused. -/
def MWr (X : Prop) (live : Set ℕ) : Loc → Prop
  | .corpus => live = ∅
  | .eStep => live = ∅
  | .model => live = ∅ ∨ X
  | _ => True

/-- The rest of the program of the calling thread keeps to that, and the only mutex it takes while it holds another one
is the one of the removed listeners. -/
def MSafe (X : Prop) (GV : ℕ → ℕ → Prop) (GE : Tid → ℕ → Prop) : Set ℕ → List Mutex → List Instr → Prop
  | _, held, [] => held = []
  | live, held, .op (.read l) :: p => MAcc live held GV GE l ∧ MSafe X GV GE live held p
  | live, held, .op (.write l) :: p => MAcc live held GV GE l ∧ MWr X live l ∧ MSafe X GV GE live held p
  | live, held, .op (.lock m) :: p =>
    (held = [] ∨ (m = .deleted ∧ held = [.listeners])) ∧ MSafe X GV GE live (m :: held) p
  | live, held, .op (.unlock m) :: p => m ∈ held ∧ MSafe X GV GE live (held.filter (· ≠ m)) p
  | live, held, .op (.spawn j) :: p => j ∉ live ∧ MSafe X GV GE (insert j live) held p
  | live, held, .op (.join j) :: p => held = [] ∧ MSafe X GV GE (live \ {j}) held p
  | live, held, .fill _ :: p => MSafe X GV GE live held p
  | live, held, .emitOwn :: p => .events ∈ held ∧ MSafe X GV GE live held p
  | live, held, .test c _ :: p =>
    (∀ m, m ∈ held ↔ m = .qout) ∧ ((∃ k, c.docWrites k = true) → X) ∧ MSafe X GV GE live [] p
  | live, held, .wake :: p => held = [] ∧ MSafe X GV GE live [] p
  | live, held, .drain _ :: p => (∀ m, m ∈ held ↔ m = .events) ∧ MSafe X GV GE live [] p
  | live, held, .notify l _ :: p =>
    held = [] ∧ (l = .ownEvent ∨ ∃ u c, l = .event u c ∧ GE u c) ∧ MSafe X GV GE live [] p
  | _, _, _ => False

theorem MAcc.mono {live : Set ℕ} {held : List Mutex} {GV GV' : ℕ → ℕ → Prop} {GE GE' : Tid → ℕ → Prop}
    (hV : ∀ j c, GV j c → GV' j c) (hE : ∀ u c, GE u c → GE' u c) {l : Loc} (h : MAcc live held GV GE l) :
    MAcc live held GV' GE' l := by
  cases l <;> first | exact h | exact hV _ _ h | exact hE _ _ h

theorem MSafe.mono {X : Prop} {GV GV' : ℕ → ℕ → Prop} {GE GE' : Tid → ℕ → Prop}
    (hV : ∀ j c, GV j c → GV' j c) (hE : ∀ u c, GE u c → GE' u c) :
    ∀ (p : List Instr) (live : Set ℕ) (held : List Mutex), MSafe X GV GE live held p → MSafe X GV' GE' live held p
  | [], _, _, h => h
  | .op (.read _) :: p, _, _, h => ⟨h.1.mono hV hE, MSafe.mono hV hE p _ _ h.2⟩
  | .op (.write _) :: p, _, _, h => ⟨h.1.mono hV hE, h.2.1, MSafe.mono hV hE p _ _ h.2.2⟩
  | .op (.lock m) :: p, live, held, h => ⟨h.1, MSafe.mono hV hE p live (m :: held) h.2⟩
  | .op (.unlock _) :: p, _, _, h => ⟨h.1, MSafe.mono hV hE p _ _ h.2⟩
  | .op (.spawn j) :: p, live, held, h => ⟨h.1, MSafe.mono hV hE p (insert j live) held h.2⟩
  | .op (.join j) :: p, live, held, h => ⟨h.1, MSafe.mono hV hE p (live \ {j}) held h.2⟩
  | .fill _ :: p, live, held, h => MSafe.mono hV hE p live held h
  | .emitOwn :: p, _, _, h => ⟨h.1, MSafe.mono hV hE p _ _ h.2⟩
  | .test _ _ :: p, _, _, h => ⟨h.1, h.2.1, MSafe.mono hV hE p _ _ h.2.2⟩
  | .wake :: p, _, _, h => ⟨h.1, MSafe.mono hV hE p _ _ h.2⟩
  | .signal :: _, _, _, h => h
  | .drain _ :: p, _, _, h => ⟨h.1, MSafe.mono hV hE p _ _ h.2⟩
  | .notify _ _ :: p, _, _, h =>
    ⟨h.1, h.2.1.imp id fun ⟨u, c, hl, hc⟩ => ⟨u, c, hl, hE u c hc⟩, MSafe.mono hV hE p _ _ h.2.2⟩
  | .take :: _, _, _, h => h
  | .raise :: _, _, _, h => h
  | .emit :: _, _, _, h => h
  | .push :: _, _, _, h => h

/-! ### The programs keep to the discipline -/

section
variable {X : Prop} {GV : ℕ → ℕ → Prop} {GE : Tid → ℕ → Prop} {live : Set ℕ} {p : List Instr}

theorem processEvents_safe (own : Bool) (h : MSafe X GV GE live [] p) :
    MSafe X GV GE live [] (processEvents own ++ p) := by
  simp [processEvents, MSafe, MAcc, MWr, h]

theorem dispatchMain_safe (own : Bool) (h : MSafe X GV GE live [] p) :
    MSafe X GV GE live [] (dispatchMain own ++ p) := by
  have h' := processEvents_safe own h
  unfold dispatchMain
  split
  · simp only [List.append_assoc]; simp [MSafe, MAcc, MWr, h']
  · simp [MSafe, MAcc, MWr, h]

theorem dispatch_safe (c : Call) (h : MSafe X GV GE live [] p) : MSafe X GV GE live [] (c.dispatch ++ p) :=
  dispatchMain_safe c.owner h

theorem dispatches_safe (c : Call) (h : MSafe X GV GE live [] p) :
    ∀ k, MSafe X GV GE live [] (c.dispatches k ++ p)
  | 0 => h
  | k + 1 => by
    rw [Call.dispatches, List.append_assoc]
    exact dispatch_safe c (dispatches_safe c h k)

theorem consume_safe (c : Call) (k : ℕ) {j v : ℕ} (hX : (∃ k, c.docWrites k = true) → X) (hv : GV j v)
    (h : MSafe X GV GE live [] p) : MSafe X GV GE live [] (c.consume k (.vp j v) ++ p) := by
  unfold Call.consume
  split
  · rw [List.append_assoc]
    refine processEvents_safe _ ?_
    have h' := dispatches_safe c h (c.docEvents k)
    split <;> rename_i hk
    · simp only [List.append_assoc]
      simp only [MSafe, MAcc, MWr, List.cons_append, List.nil_append]
      exact ⟨trivial, hv, trivial, trivial, trivial, trivial, .inr (hX ⟨k, hk⟩), h'⟩
    · simp only [List.append_assoc]
      simp [MSafe, MAcc, MWr, h', hv]
  · have h' := processEvents_safe c.owner h
    simp only [List.append_assoc]
    simp [MSafe, MAcc, MWr, h', hv]

theorem loop_safe (c : Call) (hX : (∃ k, c.docWrites k = true) → X) (h : MSafe X GV GE live [] p) :
    ∀ r k, MSafe X GV GE live [] (c.loop k r ++ p)
  | 0, _ => h
  | r + 1, k => by
    have := loop_safe c hX h r (k + 1)
    simp only [Call.loop, List.cons_append, MSafe]
    exact ⟨.inl trivial, by simp, hX, this⟩

theorem inside_safe (own : Bool) (r : Req) (h : MSafe X GV GE live [] p) :
    MSafe X GV GE live [] (r.inside own ++ p) := by
  cases r with
  | dispatch => exact dispatchMain_safe own h
  | _ => simp [Req.inside, addListener, removeListener, MSafe, MAcc, MWr, h]

theorem insides_safe (own : Bool) (h : MSafe X GV GE live [] p) :
    ∀ rs : List Req, MSafe X GV GE live [] (rs.flatMap (Req.inside own) ++ p)
  | [] => h
  | r :: rs => by
    rw [List.flatMap_cons, List.append_assoc]
    exact inside_safe own r (insides_safe own h rs)

theorem told_safe (own : Bool) (rs : List Req) {l : Loc} (hl : l = .ownEvent ∨ ∃ u c, l = .event u c ∧ GE u c)
    (h : MSafe X GV GE live [] p) : MSafe X GV GE live [] (told own l rs ++ p) := by
  have h' := insides_safe own h rs
  unfold told
  rw [List.append_assoc]
  rcases hl with rfl | ⟨u, c, rfl, hl⟩ <;> simp [MSafe, MAcc, MWr, *]

theorem notifies_safe (own : Bool) (h : MSafe X GV GE live [] p) :
    ∀ q : List Loc, (∀ l ∈ q, l = .ownEvent ∨ ∃ u c, l = .event u c ∧ GE u c) →
      MSafe X GV GE live [] (q.map (.notify · own) ++ p)
  | [], _ => h
  | l :: q, hq => by
    rw [List.map_cons, List.cons_append]
    exact ⟨rfl, hq l (by simp), notifies_safe own h q fun x hx => hq x (by simp [hx])⟩

theorem spawns_safe (base : ℕ) (hb : ∀ j, base ≤ j → j ∉ live) : ∀ (w : ℕ) {p : List Instr},
    MSafe X GV GE (live ∪ {j | base ≤ j ∧ j < base + w}) [] p → MSafe X GV GE live [] (spawns base w ++ p)
  | 0, p, h => by
    have : live ∪ {j | base ≤ j ∧ j < base + 0} = live := by
      ext j; simp
    rw [this] at h; exact h
  | w + 1, p, h => by
    rw [spawns, List.append_assoc]
    refine spawns_safe base hb w ?_
    simp only [List.singleton_append, MSafe]
    refine ⟨by simp [hb (base + w) (by omega)], ?_⟩
    have : insert (base + w) (live ∪ {j | base ≤ j ∧ j < base + w}) = live ∪ {j | base ≤ j ∧ j < base + (w + 1)} := by
      ext j
      simp only [Set.mem_insert_iff, Set.mem_union, Set.mem_ofPred_eq]
      by_cases hj : j ∈ live <;> simp [hj]; omega
    rw [this]; exact h

theorem joins_safe (base : ℕ) : ∀ (w : ℕ) {p : List Instr},
    MSafe X GV GE (live \ {j | base ≤ j ∧ j < base + w}) [] p → MSafe X GV GE live [] (joins base w ++ p)
  | 0, p, h => by
    have : live \ {j | base ≤ j ∧ j < base + 0} = live := by
      ext j; simp
    rw [this] at h; exact h
  | w + 1, p, h => by
    rw [joins, List.append_assoc]
    refine joins_safe base w ?_
    simp only [List.singleton_append, MSafe]
    refine ⟨trivial, ?_⟩
    have : (live \ {j | base ≤ j ∧ j < base + w}) \ {base + w} = live \ {j | base ≤ j ∧ j < base + (w + 1)} := by
      ext j
      simp only [Set.mem_sdiff, Set.mem_ofPred_eq, Set.mem_singleton_iff]
      by_cases hj : j ∈ live <;> simp [hj]; omega
    rw [this]; exact h

theorem post_safe (c : Call) (h : MSafe X GV GE ∅ [] p) : MSafe X GV GE ∅ [] (c.post ++ p) := by
  unfold Call.post
  split
  · have h' := dispatches_safe c (dispatch_safe c h) c.batchEvents
    simp only [List.append_assoc]
    simp [MSafe, MAcc, MWr, h']
  · exact h

theorem prog_safe (c : Call) (hX : (∃ k, c.docWrites k = true) → X) (base : ℕ) (h : MSafe X GV GE ∅ [] p) :
    MSafe X GV GE ∅ [] (c.prog base ++ p) := by
  have h1 := post_safe c h
  have h2 : MSafe X GV GE (∅ ∪ {j | base ≤ j ∧ j < base + c.W}) [] (joins base c.W ++ (c.post ++ p)) := by
    refine joins_safe base c.W ?_
    have : (∅ ∪ {j | base ≤ j ∧ j < base + c.W}) \ {j | base ≤ j ∧ j < base + c.W} = (∅ : Set ℕ) := by
      ext j; simp
    rw [this]; exact h1
  have h3 := spawns_safe base (by simp) c.W (loop_safe c hX h2 c.n 0)
  unfold Call.prog
  simp only [List.append_assoc]
  simp [MSafe, MAcc, MWr, h3]

theorem session_safe : ∀ (cs : List Call) (_ : (∃ c ∈ cs, ∃ k, c.docWrites k = true) → X) (base : ℕ),
    MSafe X GV GE ∅ [] (session base cs)
  | [], _, _ => rfl
  | c :: cs, hX, base =>
    prog_safe c (fun h => hX ⟨c, by simp, h⟩) base
      (session_safe cs (fun ⟨d, hd, h⟩ => hX ⟨d, by simp [hd], h⟩) _)

end

theorem requests_safe (i vc : ℕ) : ∀ (rs : List Req) (ec : ℕ), WSafe (.other i) [] ec vc (requests rs)
  | [], _ => rfl
  | .add :: rs, ec => by simp [requests, Req.prog, addListener, WSafe, WAcc, requests_safe i vc rs]
  | .remove :: rs, ec => by simp [requests, Req.prog, removeListener, WSafe, WAcc, requests_safe i vc rs]
  | .dispatch :: rs, ec => by simp [requests, Req.prog, WSafe, requests_safe i vc rs]

theorem workerStart_safe (j ec vc : ℕ) : WSafe (.worker j) [] ec vc workerStart := by
  simp [workerStart, WSafe]

theorem job_safe (j ec vc : ℕ) {held : List Mutex} (h : ∀ m, m ∈ held ↔ m = .qin) :
    WSafe (.worker j) held ec vc (job j vc) := by
  simp [job, workerStart, WSafe, WAcc, h]

/-! ### The invariant -/

/-- The operation accesses the location. -/
def Acc (o : Op) (l : Loc) : Prop := o = .read l ∨ o = .write l

/-- Everybody who uses the mutex knows the operation: its owner, or whoever locks it next. -/
def GK (s : St) (τ : Trace) (m : Mutex) (a : ℕ) : Prop :=
  (s.owner m = none ∧ MPast τ m a) ∨ ∃ t, s.owner m = some t ∧ Past τ t a

/-- The calling thread and all workers know the operation. -/
def Everyone (τ : Trace) (live : Set ℕ) (a : ℕ) : Prop :=
  Past τ .main a ∧ ∀ j ∈ live, Past τ (.worker j) a

/-- The thread is the calling one or a worker. -/
def Inner (t : Tid) : Prop := t = .main ∨ ∃ j, t = .worker j

/-- What is known about operation number `a`, done by `t`, that accesses the location. -/
def Fact (X : Prop) (s : St) (τ : Trace) (live : Set ℕ) (a : ℕ) (t : Tid) (o : Op) : Loc → Prop
  | .corpus => Inner t ∧ (o = .write .corpus → Everyone τ live a)
  | .eStep => Inner t ∧ (o = .write .eStep → Everyone τ live a)
  | .model => Inner t ∧ (X ∨ (o = .write .model → Everyone τ live a))
  | .queueIn => Inner t ∧ (Everyone τ live a ∨ GK s τ .qin a)
  | .queueOut => GK s τ .qout a
  | .events => GK s τ .events a
  | .listeners => GK s τ .listeners a
  | .deleted => GK s τ .deleted a
  | .prng => GK s τ .prng a
  | .mStep => t = .main
  | .user => t = .main
  | .result => t = .main
  | .ownEvent => t = .main
  | .vp j c =>
    (t = .worker j ∧ c ≤ s.vc j ∧ (c < s.vc j → Past τ .main a ∨ ((j, c) ∈ s.qout ∧ GK s τ .qout a)))
      ∨ (t = .main ∧ c < s.vc j)
  | .event u c =>
    (t = u ∧ t ≠ .main ∧ c ≤ s.ec u ∧ (c < s.ec u → Past τ .main a ∨ (.event u c ∈ s.evq ∧ GK s τ .events a)))
      ∨ (t = .main ∧ u ≠ .main ∧ c < s.ec u)

/-- The result is the calling thread's: it is published, and all accesses to it are known to that thread. -/
def GV (s : St) (τ : Trace) (j c : ℕ) : Prop :=
  c < s.vc j ∧ ∀ a t o, τ[a]? = some (t, o) → Acc o (.vp j c) → Past τ .main a

/-- The same for an event. -/
def GE (s : St) (τ : Trace) (u : Tid) (c : ℕ) : Prop :=
  u ≠ .main ∧ c < s.ec u ∧ ∀ a t o, τ[a]? = some (t, o) → Acc o (.event u c) → Past τ .main a

/-- The number of results a thread has published. -/
def vcOf (s : St) : Tid → ℕ
  | .worker j => s.vc j
  | _ => 0

/-- The invariant; `live` are the workers that are started and not joined. -/
structure Inv (X : Prop) (s : St) (τ : Trace) (live : Set ℕ) : Prop where
  w : ∀ t, t ≠ .main → ∃ held, (∀ m, m ∈ held ↔ s.owner m = some t) ∧ WSafe t held (s.ec t) (vcOf s t) (s.prog t)
  lv : ∀ j, s.prog (.worker j) ≠ [] → j ∈ live
  m : ∃ held, (∀ m, m ∈ held ↔ s.owner m = some .main) ∧ MSafe X (GV s τ) (GE s τ) live held (s.prog .main)
  qo : ∀ x ∈ s.qout, x.2 < s.vc x.1
  ev : ∀ l ∈ s.evq, l = .ownEvent ∨ ∃ u c, l = .event u c ∧ u ≠ .main ∧ c < s.ec u
  dead : ∀ a j o, τ[a]? = some (.worker j, o) → j ∈ live ∨ Past τ .main a
  fact : ∀ a t o, τ[a]? = some (t, o) → ∀ l, Acc o l → Fact X s τ live a t o l

theorem inv_init (X : Prop) (calls : List Call) (hX : (∃ c ∈ calls, ∃ k, c.docWrites k = true) → X)
    (others listen : ℕ → List Req) : Inv X (St.init calls others listen) [] ∅ where
  w t ht := by
    refine ⟨[], by simp [St.init], ?_⟩
    cases t with
    | main => exact absurd rfl ht
    | worker j => rfl
    | other i => exact requests_safe i _ _ _
  lv j h := absurd rfl h
  m := ⟨[], by simp [St.init], session_safe calls hX 0⟩
  qo := by simp [St.init]
  ev := by simp [St.init]
  dead := by simp
  fact := by simp

/-- Everything is known to the calling thread when no worker is left, except for what other threads do with the
dispatcher. -/
theorem Inv.alone {X : Prop} {s : St} {τ : Trace} (h : Inv X s τ ∅) {a : ℕ} {t : Tid} {o : Op}
    (ha : τ[a]? = some (t, o)) (ht : Inner t) : Past τ .main a := by
  rcases ht with rfl | ⟨j, rfl⟩
  · exact past_self ha
  · exact (h.dead a j o ha).resolve_left (Set.notMem_empty j)

/-- A mutex that a thread holds passes on what it knows. -/
theorem GK.holder {s : St} {τ : Trace} {m : Mutex} {a : ℕ} {t : Tid} (h : GK s τ m a) (ho : s.owner m = some t) :
    Past τ t a := by
  rcases h with ⟨h, _⟩ | ⟨u, h, hp⟩
  · rw [ho] at h; cases h
  · rw [ho] at h; cases h; exact hp

theorem Acc.of_conflict {l : Loc} {o o' : Op} (h : Conflict l o o') : Acc o l ∧ Acc o' l := by
  rcases h with ⟨h, h'⟩ | ⟨h, h'⟩
  · exact ⟨.inr h, h'⟩
  · exact ⟨.inl h, .inr h'⟩

/-- The calling thread knows all earlier accesses that conflict with the one it does next. -/
theorem main_known {X : Prop} {s : St} {τ : Trace} {live : Set ℕ} (h : Inv X s τ live) {held : List Mutex}
    (hh : ∀ m, m ∈ held ↔ s.owner m = some .main) {l : Loc} {o : Op}
    (hm : MAcc live held (GV s τ) (GE s τ) l) (hw : o = .write l → MWr X live l) (hl : ¬ (l = .model ∧ X))
    {a : ℕ} {t : Tid} {o' : Op} (ha : τ[a]? = some (t, o')) (ht : t ≠ .main) (hc : Conflict l o' o) :
    Past τ .main a := by
  have hf := h.fact a t o' ha l (Acc.of_conflict hc).1
  have shared : ∀ l' : Loc, l' = l → Inner t → (o' = .write l' → Everyone τ live a) → (o = .write l' → live = ∅) →
      Past τ .main a := by
    rintro l' rfl hi h1 h2
    rcases hc with ⟨h', _⟩ | ⟨_, h'⟩
    · exact (h1 h').1
    · have := h2 h'; subst this
      exact h.alone ha hi
  cases l with
  | corpus => exact shared .corpus rfl hf.1 hf.2 hw
  | eStep => exact shared .eStep rfl hf.1 hf.2 hw
  | model =>
    have hX : ¬ X := fun hX => hl ⟨rfl, hX⟩
    exact shared .model rfl hf.1 (hf.2.resolve_left hX) fun h' => (hw h').resolve_right hX
  | queueIn =>
    rcases hf.2 with he | hk
    · exact he.1
    · rcases hm with hm | rfl
      · exact hk.holder ((hh _).1 hm)
      · exact h.alone ha hf.1
  | queueOut => exact GK.holder hf ((hh _).1 hm)
  | events => exact GK.holder hf ((hh _).1 hm)
  | listeners => exact GK.holder hf ((hh _).1 hm)
  | deleted => exact GK.holder hf ((hh _).1 hm)
  | prng => exact GK.holder hf ((hh _).1 hm)
  | mStep => exact absurd hf ht
  | user => exact absurd hf ht
  | result => exact absurd hf ht
  | ownEvent => exact absurd hf ht
  | vp j c => exact hm.2 a t o' ha (Acc.of_conflict hc).1
  | event u c => exact hm.2.2 a t o' ha (Acc.of_conflict hc).1

/-- So does every other thread. -/
theorem other_known {X : Prop} {s : St} {τ : Trace} {live : Set ℕ} (h : Inv X s τ live) {held : List Mutex} {u : Tid}
    (hh : ∀ m, m ∈ held ↔ s.owner m = some u) (hu : u ≠ .main) (hlive : ∀ j, u = .worker j → j ∈ live) {l : Loc} {o : Op}
    {rd : Bool} (hm : WAcc u held (s.ec u) (vcOf s u) rd l) (hw : o = .write l → rd = false) (hl : ¬ (l = .model ∧ X))
    {a : ℕ} {t : Tid} {o' : Op} (ha : τ[a]? = some (t, o')) (ht : t ≠ u) (hc : Conflict l o' o) :
    Past τ u a := by
  have hf := h.fact a t o' ha l (Acc.of_conflict hc).1
  have everyone : Everyone τ live a → (∃ j, u = .worker j) → Past τ u a := by
    rintro he ⟨j, rfl⟩; exact he.2 j (hlive j rfl)
  have shared : ∀ l' : Loc, l' = l → rd = true → (∃ j, u = .worker j) → (o' = .write l' → Everyone τ live a) →
      Past τ u a := by
    rintro l' rfl hr hi h1
    rcases hc with ⟨h', _⟩ | ⟨_, h'⟩
    · exact everyone (h1 h') hi
    · have := hw h'; rw [hr] at this; cases this
  cases l with
  | corpus => exact shared .corpus rfl hm.1 hm.2 hf.2
  | eStep => exact shared .eStep rfl hm.1 hm.2 hf.2
  | model => exact shared .model rfl hm.1 hm.2 (hf.2.resolve_left fun hX => hl ⟨rfl, hX⟩)
  | queueIn =>
    rcases hf.2 with he | hk
    · exact everyone he hm.2
    · exact hk.holder ((hh _).1 hm.1)
  | queueOut => exact GK.holder hf ((hh _).1 hm)
  | events => exact GK.holder hf ((hh _).1 hm)
  | listeners => exact GK.holder hf ((hh _).1 hm)
  | deleted => exact GK.holder hf ((hh _).1 hm)
  | prng => exact GK.holder hf ((hh _).1 hm)
  | mStep => exact hm.elim
  | user => exact hm.elim
  | result => exact hm.elim
  | ownEvent => exact hm.elim
  | vp j c =>
    obtain ⟨rfl, rfl⟩ := hm
    rcases hf with ⟨hf, _⟩ | ⟨_, hf⟩
    · exact absurd hf ht
    · exact absurd hf (by simp [vcOf])
  | event v c =>
    obtain ⟨rfl, rfl⟩ := hm
    rcases hf with ⟨hf, _⟩ | ⟨_, _, hf⟩
    · exact absurd hf ht
    · exact absurd hf (by simp)

/-! ### Steps keep the invariant -/

section
variable {X : Prop} {s s' : St} {τ τ' : Trace} {live live' : Set ℕ}

theorem Fact.next {a : ℕ} {t : Tid} {o : Op} {l : Loc} (h : Fact X s τ live a t o l)
    (hG : ∀ m, GK s τ m a → GK s' τ' m a) (hE : Everyone τ live a → Everyone τ' live' a)
    (hv : ∀ j c, l = .vp j c → Fact X s' τ' live' a t o (.vp j c))
    (he : ∀ u c, l = .event u c → Fact X s' τ' live' a t o (.event u c)) : Fact X s' τ' live' a t o l := by
  cases l with
  | corpus => exact ⟨h.1, fun x => hE (h.2 x)⟩
  | eStep => exact ⟨h.1, fun x => hE (h.2 x)⟩
  | model => exact ⟨h.1, h.2.imp id fun h x => hE (h x)⟩
  | queueIn => exact ⟨h.1, h.2.imp hE (hG _)⟩
  | queueOut => exact hG _ h
  | events => exact hG _ h
  | listeners => exact hG _ h
  | deleted => exact hG _ h
  | prng => exact hG _ h
  | mStep => exact h
  | user => exact h
  | result => exact h
  | ownEvent => exact h
  | vp j c => exact hv j c rfl
  | event u c => exact he u c rfl

theorem vp_same {a : ℕ} {t : Tid} {o : Op} {j c : ℕ} (h : Fact X s τ live a t o (.vp j c))
    (hP : Past τ .main a → Past τ' .main a) (hG : ∀ m, GK s τ m a → GK s' τ' m a) (hvc : s'.vc = s.vc)
    (hq : s'.qout = s.qout) : Fact X s' τ' live' a t o (.vp j c) := by
  unfold Fact at h ⊢
  rw [hvc, hq]
  exact h.imp (fun ⟨h1, h2, h3⟩ => ⟨h1, h2, fun x => (h3 x).imp hP fun ⟨h4, h5⟩ => ⟨h4, hG _ h5⟩⟩) id

theorem event_same {a : ℕ} {t : Tid} {o : Op} {u : Tid} {c : ℕ} (h : Fact X s τ live a t o (.event u c))
    (hP : Past τ .main a → Past τ' .main a) (hG : ∀ m, GK s τ m a → GK s' τ' m a) (hec : s'.ec = s.ec)
    (hq : s'.evq = s.evq) : Fact X s' τ' live' a t o (.event u c) := by
  unfold Fact at h ⊢
  rw [hec, hq]
  exact h.imp (fun ⟨h1, h0, h2, h3⟩ => ⟨h1, h0, h2, fun x => (h3 x).imp hP fun ⟨h4, h5⟩ => ⟨h4, hG _ h5⟩⟩) id

/-- What the mover does not touch. -/
def Frame (s s' : St) (t : Tid) : Prop :=
  ∀ u, u ≠ t → s'.prog u = s.prog u ∧ s'.ec u = s.ec u ∧ vcOf s' u = vcOf s u ∧
    ∀ m, s'.owner m = some u ↔ s.owner m = some u

theorem Inv.frame_w (h : Inv X s τ live) {t : Tid} (hf : Frame s s' t)
    (ht : t ≠ .main → ∃ held, (∀ m, m ∈ held ↔ s'.owner m = some t) ∧ WSafe t held (s'.ec t) (vcOf s' t) (s'.prog t)) :
    ∀ u, u ≠ .main → ∃ held, (∀ m, m ∈ held ↔ s'.owner m = some u) ∧ WSafe u held (s'.ec u) (vcOf s' u) (s'.prog u) := by
  intro u hu
  by_cases hut : u = t
  · subst hut; exact ht hu
  · obtain ⟨h1, h2, h3, h4⟩ := hf u hut
    obtain ⟨held, h5, h6⟩ := h.w u hu
    exact ⟨held, fun m => (h5 m).trans (h4 m).symm, by rw [h1, h2, h3]; exact h6⟩

theorem Inv.frame_m (h : Inv X s τ live) {t : Tid} (hf : Frame s s' t) (ht : t ≠ .main)
    (hV : ∀ j c, GV s τ j c → GV s' τ' j c) (hE : ∀ u c, GE s τ u c → GE s' τ' u c) :
    ∃ held, (∀ m, m ∈ held ↔ s'.owner m = some .main) ∧ MSafe X (GV s' τ') (GE s' τ') live held (s'.prog .main) := by
  obtain ⟨h1, _, _, h4⟩ := hf .main (Ne.symm ht)
  obtain ⟨held, h5, h6⟩ := h.m
  exact ⟨held, fun m => (h5 m).trans (h4 m).symm, by rw [h1]; exact h6.mono hV hE⟩

theorem gv_grow {t : Tid} {o : Op} (hvc : s'.vc = s.vc)
    (hn : ∀ j c, Acc o (.vp j c) → t = .main ∨ s.vc j ≤ c) {j c : ℕ} (h : GV s τ j c) : GV s' (τ ++ [(t, o)]) j c := by
  refine ⟨hvc ▸ h.1, fun a u o' ha hacc => ?_⟩
  rcases get_cases ha with ha | ⟨rfl, he⟩
  · exact past_grow (h.2 a u o' ha hacc)
  · obtain ⟨rfl, rfl⟩ := Prod.mk.inj he
    rcases hn j c hacc with rfl | hle
    · exact past_self ha
    · exact absurd h.1 (by omega)

theorem ge_grow {t : Tid} {o : Op} (hec : s'.ec = s.ec)
    (hn : ∀ u c, Acc o (.event u c) → t = .main ∨ s.ec u ≤ c) {u : Tid} {c : ℕ} (h : GE s τ u c) :
    GE s' (τ ++ [(t, o)]) u c := by
  refine ⟨h.1, hec ▸ h.2.1, fun a v o' ha hacc => ?_⟩
  rcases get_cases ha with ha | ⟨rfl, he⟩
  · exact past_grow (h.2.2 a v o' ha hacc)
  · obtain ⟨rfl, rfl⟩ := Prod.mk.inj he
    rcases hn u c hacc with rfl | hle
    · exact past_self ha
    · exact absurd h.2.1 (by omega)

/-- A step that does an operation. -/
theorem Inv.do_op (h : Inv X s τ live) {t : Tid} {o : Op}
    (hvc : s'.vc = s.vc) (hec : s'.ec = s.ec) (hqo : s'.qout = s.qout) (hevq : s'.evq = s.evq)
    (hG : ∀ m a, GK s τ m a → GK s' (τ ++ [(t, o)]) m a)
    (hE : ∀ a, Everyone τ live a → Everyone (τ ++ [(t, o)]) live' a)
    (hdead : ∀ j, j ∈ live → j ∈ live' ∨ ∀ a o', τ[a]? = some (.worker j, o') → Past (τ ++ [(t, o)]) .main a)
    (hnd : ∀ j, t = .worker j → j ∈ live')
    (w : ∀ t, t ≠ .main → ∃ held, (∀ m, m ∈ held ↔ s'.owner m = some t) ∧ WSafe t held (s'.ec t) (vcOf s' t) (s'.prog t))
    (lv : ∀ j, s'.prog (.worker j) ≠ [] → j ∈ live')
    (m : ∃ held, (∀ m, m ∈ held ↔ s'.owner m = some .main) ∧
      MSafe X (GV s' (τ ++ [(t, o)])) (GE s' (τ ++ [(t, o)])) live' held (s'.prog .main))
    (hnew : ∀ l, Acc o l → Fact X s' (τ ++ [(t, o)]) live' τ.length t o l) :
    Inv X s' (τ ++ [(t, o)]) live' where
  w := w
  lv := lv
  m := m
  qo := by rw [hqo, hvc]; exact h.qo
  ev := by rw [hevq, hec]; exact h.ev
  dead a j o' ha := by
    rcases get_cases ha with ha | ⟨rfl, he⟩
    · rcases h.dead a j o' ha with hj | hj
      · exact (hdead j hj).imp id fun hd => hd a o' ha
      · exact .inr (past_grow hj)
    · exact .inl (hnd j (Prod.mk.inj he).1.symm)
  fact a u o' ha l hacc := by
    rcases get_cases ha with ha | ⟨rfl, he⟩
    · have hf := h.fact a u o' ha l hacc
      refine hf.next (fun m => hG m a) (hE a) ?_ ?_
      · rintro j c rfl; exact vp_same hf past_grow (fun m => hG m a) hvc hqo
      · rintro v c rfl; exact event_same hf past_grow (fun m => hG m a) hec hevq
    · obtain ⟨rfl, rfl⟩ := Prod.mk.inj he
      exact hnew l hacc

/-- A step that does no operation and leaves the mutexes alone. -/
theorem Inv.do_ctl (h : Inv X s τ live) (ho : s'.owner = s.owner)
    (w : ∀ t, t ≠ .main → ∃ held, (∀ m, m ∈ held ↔ s'.owner m = some t) ∧ WSafe t held (s'.ec t) (vcOf s' t) (s'.prog t))
    (lv : ∀ j, s'.prog (.worker j) ≠ [] → j ∈ live)
    (m : ∃ held, (∀ m, m ∈ held ↔ s'.owner m = some .main) ∧ MSafe X (GV s' τ) (GE s' τ) live held (s'.prog .main))
    (qo : ∀ x ∈ s'.qout, x.2 < s'.vc x.1)
    (ev : ∀ l ∈ s'.evq, l = .ownEvent ∨ ∃ u c, l = .event u c ∧ u ≠ .main ∧ c < s'.ec u)
    (hv : ∀ a t o j c, τ[a]? = some (t, o) → Acc o (.vp j c) → Fact X s τ live a t o (.vp j c) →
      Fact X s' τ live a t o (.vp j c))
    (he : ∀ a t o u c, τ[a]? = some (t, o) → Acc o (.event u c) → Fact X s τ live a t o (.event u c) →
      Fact X s' τ live a t o (.event u c)) :
    Inv X s' τ live where
  w := w
  lv := lv
  m := m
  qo := qo
  ev := ev
  dead := h.dead
  fact a t o ha l hacc := by
    have hf := h.fact a t o ha l hacc
    refine hf.next (fun m hg => by unfold GK at hg ⊢; rw [ho]; exact hg) id ?_ ?_
    · rintro j c rfl; exact hv a t o j c ha hacc hf
    · rintro u c rfl; exact he a t o u c ha hacc hf

theorem gk_ctl (ho : s'.owner = s.owner) {m : Mutex} {a : ℕ} (h : GK s τ m a) : GK s' τ m a := by
  unfold GK at h ⊢; rw [ho]; exact h

theorem gk_grow {e : Tid × Op} (ho : s'.owner = s.owner) {m : Mutex} {a : ℕ} (h : GK s τ m a) : GK s' (τ ++ [e]) m a := by
  unfold GK at h ⊢; rw [ho]
  exact h.imp (fun ⟨h1, h2⟩ => ⟨h1, mpast_grow h2⟩) fun ⟨t, h1, h2⟩ => ⟨t, h1, past_grow h2⟩

theorem gk_lock {t : Tid} {m₀ : Mutex} (hn : s.owner m₀ = none)
    (ho : ∀ x, s'.owner x = if x = m₀ then some t else s.owner x) {m : Mutex} {a : ℕ} (h : GK s τ m a) :
    GK s' (τ ++ [(t, .lock m₀)]) m a := by
  by_cases hm : m = m₀
  · subst hm
    right
    rcases h with ⟨_, h⟩ | ⟨u, hu, _⟩
    · exact ⟨t, by rw [ho, if_pos rfl], past_lock h⟩
    · rw [hn] at hu; cases hu
  · unfold GK
    rw [ho, if_neg hm]
    exact h.imp (fun ⟨h1, h2⟩ => ⟨h1, mpast_grow h2⟩) fun ⟨t, h1, h2⟩ => ⟨t, h1, past_grow h2⟩

theorem gk_unlock {t : Tid} {m₀ : Mutex} (hn : s.owner m₀ = some t)
    (ho : ∀ x, s'.owner x = if x = m₀ then none else s.owner x) {m : Mutex} {a : ℕ} (h : GK s τ m a) :
    GK s' (τ ++ [(t, .unlock m₀)]) m a := by
  by_cases hm : m = m₀
  · subst hm
    exact .inl ⟨by rw [ho, if_pos rfl], mpast_unlock (h.holder hn)⟩
  · unfold GK
    rw [ho, if_neg hm]
    exact h.imp (fun ⟨h1, h2⟩ => ⟨h1, mpast_grow h2⟩) fun ⟨t, h1, h2⟩ => ⟨t, h1, past_grow h2⟩

theorem everyone_grow {e : Tid × Op} {a : ℕ} (h : Everyone τ live a) : Everyone (τ ++ [e]) live a :=
  ⟨past_grow h.1, fun j hj => past_grow (h.2 j hj)⟩

end

@[simp] theorem setProg_same (s : St) (t : Tid) (p : List Instr) : (s.setProg t p).prog t = p := by simp [St.setProg]

theorem setProg_ne (s : St) {t u : Tid} (p : List Instr) (h : u ≠ t) : (s.setProg t p).prog u = s.prog u := by
  simp [St.setProg, h]

section
variable {X : Prop} {s : St} {τ : Trace} {live : Set ℕ}

theorem frame_setProg (s : St) (t : Tid) (p : List Instr) : Frame s (s.setProg t p) t := fun u hu =>
  ⟨setProg_ne s p hu, rfl, by cases u <;> rfl, fun _ => Iff.rfl⟩

theorem Inv.lv_set (h : Inv X s τ live) {t : Tid} {i : Instr} {q : List Instr} (hp : s.prog t = i :: q) (p : List Instr) :
    ∀ j, (s.setProg t p).prog (.worker j) ≠ [] → j ∈ live := by
  intro j hj
  by_cases hjt : .worker j = t
  · exact h.lv j (by rw [hjt, hp]; simp)
  · rw [setProg_ne s p hjt] at hj; exact h.lv j hj

/-- An access by a thread that is not the calling one. -/
theorem inv_access_other (h : Inv X s τ live) {t : Tid} (ht : t ≠ .main) {o : Op} {l : Loc} {p : List Instr}
    (hp : s.prog t = .op o :: p) {rd : Bool} (ho : (o = .read l ∧ rd = true) ∨ (o = .write l ∧ rd = false))
    (hw : ∀ held, WSafe t held (s.ec t) (vcOf s t) (.op o :: p) →
      WAcc t held (s.ec t) (vcOf s t) rd l ∧ WSafe t held (s.ec t) (vcOf s t) p) :
    Inv X (s.setProg t p) (τ ++ [(t, o)]) live := by
  obtain ⟨held, hh, hs⟩ := h.w t ht
  rw [hp] at hs
  obtain ⟨hacc, hs⟩ := hw held hs
  have hl : ∀ l', Acc o l' → l' = l := by
    rintro l' (h' | h') <;> rcases ho with ⟨ho, _⟩ | ⟨ho, _⟩ <;> rw [ho] at h' <;> cases h' <;> rfl
  have hlive : ∀ j, t = .worker j → j ∈ live := by
    rintro j rfl; exact h.lv j (by rw [hp]; simp)
  have hF := frame_setProg s t p
  have hself : Past (τ ++ [(t, o)]) t τ.length := past_self (get_new τ (t, o))
  have hV : ∀ j c, Acc o (.vp j c) → t = .main ∨ s.vc j ≤ c := by
    intro j c hc
    have := hl _ hc; subst this
    obtain ⟨rfl, rfl⟩ := hacc
    exact .inr le_rfl
  have hE : ∀ u c, Acc o (.event u c) → t = .main ∨ s.ec u ≤ c := by
    intro u c hc
    have := hl _ hc; subst this
    obtain ⟨rfl, rfl⟩ := hacc
    exact .inr le_rfl
  refine h.do_op (live' := live) rfl rfl rfl rfl (fun m a hg => gk_grow rfl hg) (fun a => everyone_grow)
    (fun j hj => .inl hj) hlive (h.frame_w hF fun _ => ⟨held, hh, ?_⟩) (h.lv_set hp p)
    (h.frame_m hF ht (fun j c => gv_grow rfl hV) fun u c => ge_grow rfl hE) ?_
  · rw [setProg_same]; exact hs
  · intro l' hl'
    have := hl l' hl'; subst this
    have nowrite : rd = true → ∀ l'', o ≠ .write l'' := by
      rintro hr l'' h'
      rcases ho with ⟨ho, _⟩ | ⟨_, hr'⟩
      · rw [ho] at h'; cases h'
      · rw [hr'] at hr; cases hr
    have hk : ∀ m, m ∈ held → GK (s.setProg t p) (τ ++ [(t, o)]) m τ.length := fun m hm => .inr ⟨t, (hh m).1 hm, hself⟩
    cases l' with
    | corpus => exact ⟨.inr hacc.2, fun h' => absurd h' (nowrite hacc.1 _)⟩
    | eStep => exact ⟨.inr hacc.2, fun h' => absurd h' (nowrite hacc.1 _)⟩
    | model => exact ⟨.inr hacc.2, .inr fun h' => absurd h' (nowrite hacc.1 _)⟩
    | queueIn => exact ⟨.inr hacc.2, .inr (hk _ hacc.1)⟩
    | queueOut => exact hk _ hacc
    | events => exact hk _ hacc
    | listeners => exact hk _ hacc
    | deleted => exact hk _ hacc
    | prng => exact hk _ hacc
    | mStep => exact hacc.elim
    | user => exact hacc.elim
    | result => exact hacc.elim
    | ownEvent => exact hacc.elim
    | vp j c =>
      obtain ⟨rfl, rfl⟩ := hacc
      exact .inl ⟨rfl, le_rfl, fun hlt => absurd hlt (lt_irrefl _)⟩
    | event u c =>
      obtain ⟨rfl, rfl⟩ := hacc
      exact .inl ⟨rfl, ht, le_rfl, fun hlt => absurd hlt (lt_irrefl _)⟩

/-- An access by the calling thread. -/
theorem inv_access_main (h : Inv X s τ live) {o : Op} {l : Loc} {p : List Instr}
    (hp : s.prog .main = .op o :: p) (ho : o = .read l ∨ o = .write l) {held : List Mutex}
    (hh : ∀ m, m ∈ held ↔ s.owner m = some .main) (hacc : MAcc live held (GV s τ) (GE s τ) l)
    (hw : o = .write l → MWr X live l) (hs : MSafe X (GV s τ) (GE s τ) live held p) :
    Inv X (s.setProg .main p) (τ ++ [(.main, o)]) live := by
  have hl : ∀ l', Acc o l' → l' = l := by
    rintro l' (h' | h') <;> rcases ho with ho | ho <;> rw [ho] at h' <;> cases h' <;> rfl
  have hF := frame_setProg s .main p
  have hself : Past (τ ++ [(.main, o)]) .main τ.length := past_self (get_new τ (.main, o))
  refine h.do_op (live' := live) rfl rfl rfl rfl (fun m a hg => gk_grow rfl hg) (fun a => everyone_grow)
    (fun j hj => .inl hj) (fun j hj => nomatch hj) (h.frame_w hF fun hne => absurd rfl hne) (h.lv_set hp p)
    ⟨held, hh, ?_⟩ ?_
  · rw [setProg_same]
    exact hs.mono (fun j c => gv_grow rfl fun _ _ _ => .inl rfl) fun u c => ge_grow rfl fun _ _ _ => .inl rfl
  · intro l' hl'
    have := hl l' hl'; subst this
    have hk : ∀ m, m ∈ held → GK (s.setProg .main p) (τ ++ [(.main, o)]) m τ.length :=
      fun m hm => .inr ⟨.main, (hh m).1 hm, hself⟩
    have hev : live = ∅ → Everyone (τ ++ [(.main, o)]) live τ.length := by
      rintro rfl; exact ⟨hself, fun j hj => absurd hj (Set.notMem_empty j)⟩
    cases l' with
    | corpus => exact ⟨.inl rfl, fun h' => hev (hw h')⟩
    | eStep => exact ⟨.inl rfl, fun h' => hev (hw h')⟩
    | model =>
      refine ⟨.inl rfl, ?_⟩
      by_cases hX : X
      · exact .inl hX
      · exact .inr fun h' => hev ((hw h').resolve_right hX)
    | queueIn => exact ⟨.inl rfl, hacc.symm.imp hev (hk _)⟩
    | queueOut => exact hk _ hacc
    | events => exact hk _ hacc
    | listeners => exact hk _ hacc
    | deleted => exact hk _ hacc
    | prng => exact hk _ hacc
    | mStep => rfl
    | user => rfl
    | result => rfl
    | ownEvent => rfl
    | vp j c => exact .inr ⟨rfl, hacc.1⟩
    | event u c => exact .inr ⟨rfl, hacc.1, hacc.2.1⟩

theorem no_acc_lock {m : Mutex} {l : Loc} : ¬ Acc (.lock m) l := by rintro (h | h) <;> cases h
theorem no_acc_unlock {m : Mutex} {l : Loc} : ¬ Acc (.unlock m) l := by rintro (h | h) <;> cases h
theorem no_acc_spawn {j : ℕ} {l : Loc} : ¬ Acc (.spawn j) l := by rintro (h | h) <;> cases h
theorem no_acc_join {j : ℕ} {l : Loc} : ¬ Acc (.join j) l := by rintro (h | h) <;> cases h

/-- A mutex is locked. -/
theorem inv_lock (h : Inv X s τ live) {t : Tid} {m₀ : Mutex} {p : List Instr} (hp : s.prog t = .op (.lock m₀) :: p)
    (hn : s.owner m₀ = none) :
    Inv X { s.setProg t p with owner := fun x => if x = m₀ then some t else s.owner x } (τ ++ [(t, .lock m₀)]) live := by
  have hF : Frame s { s.setProg t p with owner := fun x => if x = m₀ then some t else s.owner x } t := by
    intro u hu
    refine ⟨setProg_ne s p hu, rfl, by cases u <;> rfl, fun m => ?_⟩
    dsimp only
    split
    · subst m; rw [hn]; simp [Ne.symm hu]
    · rfl
  have hheld : ∀ held : List Mutex, (∀ m, m ∈ held ↔ s.owner m = some t) →
      ∀ m, m ∈ m₀ :: held ↔ (if m = m₀ then some t else s.owner m) = some t := by
    intro held hh m
    by_cases hm : m = m₀ <;> simp [hm, hh]
  have hlive : ∀ j, t = .worker j → j ∈ live := by
    rintro j rfl; exact h.lv j (by rw [hp]; simp)
  have hV : ∀ j c, GV s τ j c → GV { s.setProg t p with owner := fun x => if x = m₀ then some t else s.owner x }
      (τ ++ [(t, .lock m₀)]) j c := fun j c => gv_grow rfl fun _ _ hc => absurd hc no_acc_lock
  have hE : ∀ u c, GE s τ u c → GE { s.setProg t p with owner := fun x => if x = m₀ then some t else s.owner x }
      (τ ++ [(t, .lock m₀)]) u c := fun u c => ge_grow rfl fun _ _ hc => absurd hc no_acc_lock
  refine h.do_op (live' := live) rfl rfl rfl rfl (fun m a hg => gk_lock hn (fun _ => rfl) hg) (fun a => everyone_grow)
    (fun j hj => .inl hj) hlive (h.frame_w hF fun hne => ?_) (h.lv_set hp p) ?_ fun l hl => absurd hl no_acc_lock
  · obtain ⟨held, hh, hs⟩ := h.w t hne
    rw [hp] at hs
    obtain ⟨rfl, hs⟩ := hs
    refine ⟨[m₀], hheld [] hh, ?_⟩
    change WSafe t [m₀] (s.ec t) (vcOf s t) ((s.setProg t p).prog t)
    rw [setProg_same]; exact hs
  · by_cases hne : t = .main
    · subst hne
      obtain ⟨held, hh, hs⟩ := h.m
      rw [hp] at hs
      refine ⟨m₀ :: held, hheld held hh, ?_⟩
      change MSafe X _ _ live (m₀ :: held) ((s.setProg .main p).prog .main)
      rw [setProg_same]
      exact MSafe.mono hV hE p live (m₀ :: held) hs.2
    · exact h.frame_m hF hne hV hE

/-- A mutex is unlocked. -/
theorem inv_unlock (h : Inv X s τ live) {t : Tid} {m₀ : Mutex} {p : List Instr}
    (hp : s.prog t = .op (.unlock m₀) :: p) :
    Inv X { s.setProg t p with owner := fun x => if x = m₀ then none else s.owner x } (τ ++ [(t, .unlock m₀)]) live := by
  have hn : s.owner m₀ = some t := by
    by_cases hne : t = .main
    · subst hne
      obtain ⟨held, hh, hs⟩ := h.m
      rw [hp] at hs
      exact (hh m₀).1 hs.1
    · obtain ⟨held, hh, hs⟩ := h.w t hne
      rw [hp] at hs
      exact (hh m₀).1 hs.1
  have hF : Frame s { s.setProg t p with owner := fun x => if x = m₀ then none else s.owner x } t := by
    intro u hu
    refine ⟨setProg_ne s p hu, rfl, by cases u <;> rfl, fun m => ?_⟩
    dsimp only
    split
    · subst m; rw [hn]; simp [Ne.symm hu]
    · rfl
  have hheld : ∀ held : List Mutex, (∀ m, m ∈ held ↔ s.owner m = some t) →
      ∀ m, m ∈ held.filter (· ≠ m₀) ↔ (if m = m₀ then none else s.owner m) = some t := by
    intro held hh m
    by_cases hm : m = m₀ <;> simp [hm, hh]
  have hlive : ∀ j, t = .worker j → j ∈ live := by
    rintro j rfl; exact h.lv j (by rw [hp]; simp)
  have hV : ∀ j c, GV s τ j c → GV { s.setProg t p with owner := fun x => if x = m₀ then none else s.owner x }
      (τ ++ [(t, .unlock m₀)]) j c := fun j c => gv_grow rfl fun _ _ hc => absurd hc no_acc_unlock
  have hE : ∀ u c, GE s τ u c → GE { s.setProg t p with owner := fun x => if x = m₀ then none else s.owner x }
      (τ ++ [(t, .unlock m₀)]) u c := fun u c => ge_grow rfl fun _ _ hc => absurd hc no_acc_unlock
  refine h.do_op (live' := live) rfl rfl rfl rfl (fun m a hg => gk_unlock hn (fun _ => rfl) hg) (fun a => everyone_grow)
    (fun j hj => .inl hj) hlive (h.frame_w hF fun hne => ?_) (h.lv_set hp p) ?_ fun l hl => absurd hl no_acc_unlock
  · obtain ⟨held, hh, hs⟩ := h.w t hne
    rw [hp] at hs
    refine ⟨held.filter (· ≠ m₀), hheld held hh, ?_⟩
    change WSafe t (held.filter (· ≠ m₀)) (s.ec t) (vcOf s t) ((s.setProg t p).prog t)
    rw [setProg_same]; exact hs.2
  · by_cases hne : t = .main
    · subst hne
      obtain ⟨held, hh, hs⟩ := h.m
      rw [hp] at hs
      refine ⟨held.filter (· ≠ m₀), hheld held hh, ?_⟩
      change MSafe X _ _ live (held.filter (· ≠ m₀)) ((s.setProg .main p).prog .main)
      rw [setProg_same]
      exact MSafe.mono hV hE p live _ hs.2
    · exact h.frame_m hF hne hV hE

/-- A worker is started. -/
theorem inv_spawn (h : Inv X s τ live) {t : Tid} {i : ℕ} {p : List Instr} (hp : s.prog t = .op (.spawn i) :: p) :
    Inv X ((s.setProg t p).setProg (.worker i) workerStart) (τ ++ [(t, .spawn i)]) (insert i live) := by
  have hm : t = .main := by
    by_contra hne
    obtain ⟨held, hh, hs⟩ := h.w t hne
    rw [hp] at hs; exact hs
  subst hm
  obtain ⟨held, hh, hs⟩ := h.m
  rw [hp] at hs
  obtain ⟨hfresh, hs⟩ := hs
  have hi : s.prog (.worker i) = [] := by
    by_contra hne; exact hfresh (h.lv i hne)
  refine h.do_op rfl rfl rfl rfl (fun m a hg => gk_grow rfl hg) ?_ (fun j hj => .inl (.inr hj)) (fun j hj => nomatch hj)
    ?_ ?_ ⟨held, hh, ?_⟩ fun l hl => absurd hl no_acc_spawn
  · intro a ha
    refine ⟨past_grow ha.1, ?_⟩
    rintro j (rfl | hj)
    · exact past_spawn ha.1
    · exact past_grow (ha.2 j hj)
  · intro u hu
    by_cases hui : u = .worker i
    · subst hui
      obtain ⟨held', hh', hs'⟩ := h.w (.worker i) hu
      rw [hi] at hs'
      refine ⟨held', hh', ?_⟩
      rw [setProg_same, hs']
      exact workerStart_safe i _ _
    · obtain ⟨held', hh', hs'⟩ := h.w u hu
      refine ⟨held', hh', ?_⟩
      rw [setProg_ne _ _ hui, setProg_ne _ _ hu]
      cases u <;> exact hs'
  · intro j hj
    by_cases hji : j = i
    · exact .inl hji
    · refine .inr (h.lv j ?_)
      rwa [setProg_ne _ _ (by simpa using hji), setProg_ne _ _ (by simp)] at hj
  · rw [setProg_ne _ _ (by simp), setProg_same]
    exact MSafe.mono (fun j c => gv_grow rfl fun _ _ hc => absurd hc no_acc_spawn)
      (fun u c => ge_grow rfl fun _ _ hc => absurd hc no_acc_spawn) p _ _ hs

/-- A worker is joined. -/
theorem inv_join (h : Inv X s τ live) {t : Tid} {i : ℕ} {p : List Instr} (hp : s.prog t = .op (.join i) :: p)
    (hi : s.prog (.worker i) = []) : Inv X (s.setProg t p) (τ ++ [(t, .join i)]) (live \ {i}) := by
  have hm : t = .main := by
    by_contra hne
    obtain ⟨held, hh, hs⟩ := h.w t hne
    rw [hp] at hs; exact hs
  subst hm
  obtain ⟨held, hh, hs⟩ := h.m
  rw [hp] at hs
  refine h.do_op rfl rfl rfl rfl (fun m a hg => gk_grow rfl hg) ?_ ?_ (fun j hj => nomatch hj)
    (h.frame_w (frame_setProg s .main p) fun hne => absurd rfl hne) ?_ ⟨held, hh, ?_⟩ fun l hl => absurd hl no_acc_join
  · intro a ha
    exact ⟨past_grow ha.1, fun j hj => past_grow (ha.2 j hj.1)⟩
  · intro j hj
    by_cases hji : j = i
    · subst hji; exact .inr fun a o' ha => past_join ha
    · exact .inl ⟨hj, hji⟩
  · intro j hj
    rw [setProg_ne _ _ (by simp)] at hj
    refine ⟨h.lv j hj, ?_⟩
    rintro rfl
    exact hj hi
  · rw [setProg_same]
    exact MSafe.mono (fun j c => gv_grow rfl fun _ _ hc => absurd hc no_acc_join)
      (fun u c => ge_grow rfl fun _ _ hc => absurd hc no_acc_join) p _ _ hs.2

theorem vp_ctl {s' : St} (ho : s'.owner = s.owner) (hvc : s'.vc = s.vc) (hq : s'.qout = s.qout) (a : ℕ) (t : Tid) (o : Op)
    (j c : ℕ) (_ : τ[a]? = some (t, o)) (_ : Acc o (.vp j c)) (h : Fact X s τ live a t o (.vp j c)) :
    Fact X s' τ live a t o (.vp j c) :=
  vp_same h id (fun _ => gk_ctl ho) hvc hq

theorem event_ctl {s' : St} (ho : s'.owner = s.owner) (hec : s'.ec = s.ec) (hq : s'.evq = s.evq) (a : ℕ) (t : Tid)
    (o : Op) (u : Tid) (c : ℕ) (_ : τ[a]? = some (t, o)) (_ : Acc o (.event u c))
    (h : Fact X s τ live a t o (.event u c)) : Fact X s' τ live a t o (.event u c) :=
  event_same h id (fun _ => gk_ctl ho) hec hq

/-- The program of a thread that is not the calling one is replaced by another safe one. -/
theorem inv_replace_other (h : Inv X s τ live) {t : Tid} (ht : t ≠ .main) {i : Instr} {q p : List Instr}
    (hp : s.prog t = i :: q) {qin : List ℕ}
    (hw : ∀ held, WSafe t held (s.ec t) (vcOf s t) (i :: q) → WSafe t held (s.ec t) (vcOf s t) p) :
    Inv X { s.setProg t p with qin := qin } τ live := by
  have hF : Frame s { s.setProg t p with qin := qin } t := frame_setProg s t p
  refine h.do_ctl rfl (h.frame_w hF fun _ => ?_) (h.lv_set hp p) (h.frame_m hF ht (fun j c hc => hc) fun u c hc => hc)
    h.qo h.ev (vp_ctl rfl rfl rfl) (event_ctl rfl rfl rfl)
  obtain ⟨held, hh, hs⟩ := h.w t ht
  rw [hp] at hs
  refine ⟨held, hh, ?_⟩
  change WSafe t held (s.ec t) (vcOf s t) ((s.setProg t p).prog t)
  rw [setProg_same]
  exact hw held hs

theorem raise_safe {t : Tid} {held : List Mutex} {ec vc : ℕ} {p : List Instr} (h : WSafe t held ec vc (.raise :: p)) :
    WSafe t held ec vc ([.op (.write (.event t ec)), .op (.lock .events), .emit, .op (.write .events),
      .op (.unlock .events)] ++ p) := by
  obtain ⟨rfl, h⟩ := h
  simp [WSafe, WAcc, h]

/-- An event is put into the queue. -/
theorem inv_emit (h : Inv X s τ live) {t : Tid} {p : List Instr} (hp : s.prog t = .emit :: p) :
    Inv X { s.setProg t p with
      evq := s.evq ++ [.event t (s.ec t)], ec := fun u => if u = t then s.ec t + 1 else s.ec u } τ live := by
  have ht : t ≠ .main := by
    rintro rfl
    obtain ⟨held, hh, hs⟩ := h.m
    rw [hp] at hs; exact hs
  obtain ⟨held, hh, hs⟩ := h.w t ht
  rw [hp] at hs
  obtain ⟨hheld, hs⟩ := hs
  have hown := (hh _).1 hheld
  have hle : ∀ u, s.ec u ≤ if u = t then s.ec t + 1 else s.ec u := by
    intro u; split
    · subst u; omega
    · exact le_rfl
  have hF : Frame s { s.setProg t p with
      evq := s.evq ++ [.event t (s.ec t)], ec := fun u => if u = t then s.ec t + 1 else s.ec u } t := by
    intro u hu
    exact ⟨setProg_ne s p hu, by simp [hu], by cases u <;> rfl, fun _ => Iff.rfl⟩
  refine h.do_ctl rfl (h.frame_w hF fun _ => ⟨held, hh, ?_⟩) (h.lv_set hp p)
    (h.frame_m hF ht (fun j c hc => hc) fun u c hc => ⟨hc.1, lt_of_lt_of_le hc.2.1 (hle u), hc.2.2⟩)
    h.qo ?_ (vp_ctl rfl rfl rfl) ?_
  · change WSafe t held (if t = t then s.ec t + 1 else s.ec t) (vcOf s t) ((s.setProg t p).prog t)
    rw [if_pos rfl, setProg_same]
    exact hs
  · intro l hl
    rcases List.mem_append.1 hl with hl | hl
    · rcases h.ev l hl with rfl | ⟨u, c, rfl, hu, hc⟩
      · exact .inl rfl
      · exact .inr ⟨u, c, rfl, hu, lt_of_lt_of_le hc (hle u)⟩
    · rw [List.mem_singleton.1 hl]
      exact .inr ⟨t, s.ec t, rfl, ht, by simp⟩
  · rintro a v o u c ha - (⟨rfl, h0, h1, h2⟩ | ⟨rfl, h1, h2⟩)
    · refine .inl ⟨rfl, h0, le_trans h1 (hle v), fun hlt => ?_⟩
      by_cases hc : c < s.ec v
      · rcases h2 hc with h3 | ⟨h3, h4⟩
        · exact .inl h3
        · exact .inr ⟨List.mem_append_left _ h3, h4⟩
      · have hce : c = s.ec v := by omega
        dsimp only at hlt
        split at hlt
        · subst v
          refine .inr ⟨List.mem_append_right _ (by simp [hce]), .inr ⟨t, hown, past_self ha⟩⟩
        · exact absurd hlt hc
    · exact .inr ⟨rfl, h1, lt_of_lt_of_le h2 (hle u)⟩

/-- A result is put into the queue. -/
theorem inv_push (h : Inv X s τ live) {i : ℕ} {p : List Instr} (hp : s.prog (.worker i) = .push :: p) :
    Inv X { s.setProg (.worker i) p with
      qout := s.qout ++ [(i, s.vc i)], vc := fun j => if j = i then s.vc i + 1 else s.vc j } τ live := by
  have ht : Tid.worker i ≠ .main := by simp
  obtain ⟨held, hh, hs⟩ := h.w _ ht
  rw [hp] at hs
  obtain ⟨hheld, hs⟩ := hs
  have hown := (hh _).1 hheld
  have hle : ∀ j, s.vc j ≤ if j = i then s.vc i + 1 else s.vc j := by
    intro j; split
    · subst j; omega
    · exact le_rfl
  have hF : Frame s { s.setProg (.worker i) p with
      qout := s.qout ++ [(i, s.vc i)], vc := fun j => if j = i then s.vc i + 1 else s.vc j } (.worker i) := by
    intro u hu
    refine ⟨setProg_ne s p hu, rfl, ?_, fun _ => Iff.rfl⟩
    cases u with
    | main => rfl
    | other => rfl
    | worker j =>
      have : j ≠ i := fun hji => hu (by rw [hji])
      simp [vcOf, this]
  refine h.do_ctl rfl (h.frame_w hF fun _ => ⟨held, hh, ?_⟩) (h.lv_set hp p)
    (h.frame_m hF ht (fun j c hc => ⟨lt_of_lt_of_le hc.1 (hle j), hc.2⟩) fun u c hc => hc)
    ?_ h.ev ?_ (event_ctl rfl rfl rfl)
  · change WSafe (.worker i) held (s.ec (.worker i)) (if i = i then s.vc i + 1 else s.vc i)
      ((s.setProg (.worker i) p).prog (.worker i))
    rw [if_pos rfl, setProg_same]
    exact hs.2
  · intro x hx
    rcases List.mem_append.1 hx with hx | hx
    · exact lt_of_lt_of_le (h.qo x hx) (hle x.1)
    · rw [List.mem_singleton.1 hx]; simp
  · rintro a v o j c ha - (⟨rfl, h1, h2⟩ | ⟨rfl, h2⟩)
    · refine .inl ⟨rfl, le_trans h1 (hle j), fun hlt => ?_⟩
      by_cases hc : c < s.vc j
      · rcases h2 hc with h3 | ⟨h3, h4⟩
        · exact .inl h3
        · exact .inr ⟨List.mem_append_left _ h3, h4⟩
      · have hce : c = s.vc j := by omega
        dsimp only at hlt
        split at hlt
        · subst j
          refine .inr ⟨List.mem_append_right _ (by simp [hce]), .inr ⟨_, hown, past_self ha⟩⟩
        · exact absurd hlt hc
    · exact .inr ⟨rfl, lt_of_lt_of_le h2 (hle j)⟩

/-- The program of the calling thread is replaced by another safe one, the queues stay. -/
theorem inv_replace_main (h : Inv X s τ live) {i : Instr} {q p : List Instr}
    (hp : s.prog .main = i :: q) {qin : List ℕ}
    (hw : ∀ held, MSafe X (GV s τ) (GE s τ) live held (i :: q) → MSafe X (GV s τ) (GE s τ) live held p) :
    Inv X { s.setProg .main p with qin := qin } τ live := by
  have hF : Frame s { s.setProg .main p with qin := qin } .main := frame_setProg s .main p
  obtain ⟨held, hh, hs⟩ := h.m
  rw [hp] at hs
  refine h.do_ctl rfl (h.frame_w hF fun hne => absurd rfl hne) (h.lv_set hp p) ⟨held, hh, ?_⟩
    h.qo h.ev (vp_ctl rfl rfl rfl) (event_ctl rfl rfl rfl)
  change MSafe X (GV s τ) (GE s τ) live held ((s.setProg .main p).prog .main)
  rw [setProg_same]
  exact hw held hs

/-- Whether the calling thread sleeps does not matter to the invariant. -/
theorem inv_asleep (h : Inv X s τ live) (b : Bool) : Inv X { s with asleep := b } τ live :=
  ⟨h.w, h.lv, h.m, h.qo, h.ev, h.dead, h.fact⟩

/-- The calling thread puts an event into the queue. -/
theorem inv_emitOwn (h : Inv X s τ live) {p : List Instr} (hp : s.prog .main = .emitOwn :: p) :
    Inv X { s.setProg .main p with evq := s.evq ++ [.ownEvent] } τ live := by
  have hF : Frame s { s.setProg .main p with evq := s.evq ++ [.ownEvent] } .main := frame_setProg s .main p
  obtain ⟨held, hh, hs⟩ := h.m
  rw [hp] at hs
  refine h.do_ctl rfl (h.frame_w hF fun hne => absurd rfl hne) (h.lv_set hp p) ⟨held, hh, ?_⟩
    h.qo ?_ (vp_ctl rfl rfl rfl) ?_
  · change MSafe X (GV s τ) (GE s τ) live held ((s.setProg .main p).prog .main)
    rw [setProg_same]
    exact hs.2
  · intro l hl
    rcases List.mem_append.1 hl with hl | hl
    · exact h.ev l hl
    · exact .inl (List.mem_singleton.1 hl)
  · rintro a v o u c ha - (⟨rfl, h0, h1, h2⟩ | h1)
    · refine .inl ⟨rfl, h0, h1, fun hlt => (h2 hlt).imp id fun ⟨h3, h4⟩ => ⟨List.mem_append_left _ h3, h4⟩⟩
    · exact .inr h1

/-- The calling thread takes a result. -/
theorem inv_pop (h : Inv X s τ live) {c : Call} {k : ℕ} {p : List Instr} (hp : s.prog .main = .test c k :: p)
    {i v : ℕ} {q : List (ℕ × ℕ)} (hq : s.qout = (i, v) :: q) :
    Inv X { s.setProg .main ([.op (.read .queueOut), .op (.write .queueOut), .op (.unlock .qout)]
        ++ (c.consume k (.vp i v) ++ p)) with qout := q } τ live := by
  obtain ⟨held, hh, hs⟩ := h.m
  rw [hp] at hs
  obtain ⟨hheld, hX, hs⟩ := hs
  have hown : s.owner .qout = some .main := (hh _).1 ((hheld _).2 rfl)
  have hF : Frame s { s.setProg .main ([.op (.read .queueOut), .op (.write .queueOut), .op (.unlock .qout)]
        ++ (c.consume k (.vp i v) ++ p)) with qout := q } .main := frame_setProg s .main _
  have hgv : ∀ a t o, τ[a]? = some (t, o) → Acc o (.vp i v) → Past τ .main a := by
    intro a t o ha hacc
    rcases h.fact a t o ha _ hacc with ⟨rfl, _, h2⟩ | ⟨rfl, _⟩
    · rcases h2 (h.qo (i, v) (by rw [hq]; simp)) with h3 | ⟨_, h3⟩
      · exact h3
      · exact h3.holder hown
    · exact past_self ha
  have hgot : GV s τ i v := ⟨h.qo (i, v) (by rw [hq]; simp), hgv⟩
  refine h.do_ctl rfl (h.frame_w hF fun hne => absurd rfl hne) (h.lv_set hp
      ([.op (.read .queueOut), .op (.write .queueOut), .op (.unlock .qout)]
      ++ (c.consume k (.vp i v) ++ p))) ⟨held, hh, ?_⟩
    (fun x hx => h.qo x (by rw [hq]; exact List.mem_cons_of_mem _ hx)) h.ev ?_ (event_ctl rfl rfl rfl)
  · change MSafe X (GV s τ) (GE s τ) live held ((s.setProg .main ([.op (.read .queueOut), .op (.write .queueOut),
      .op (.unlock .qout)] ++ (c.consume k (.vp i v) ++ p))).prog .main)
    rw [setProg_same]
    have h0 : held.filter (· ≠ Mutex.qout) = [] := by
      rw [List.filter_eq_nil_iff]; intro m hm; simp [(hheld m).1 hm]
    have h1 := consume_safe (GV := GV s τ) (GE := GE s τ) (live := live) c k hX hgot hs
    simp only [List.cons_append, List.nil_append, MSafe, MAcc, MWr, h0]
    exact ⟨(hheld _).2 rfl, (hheld _).2 rfl, trivial, (hheld _).2 rfl, h1⟩
  · rintro a t o j c' ha hacc (⟨rfl, h1, h2⟩ | h1)
    · refine .inl ⟨rfl, h1, fun hlt => ?_⟩
      rcases h2 hlt with h3 | ⟨h3, h4⟩
      · exact .inl h3
      · rw [hq] at h3
        rcases List.mem_cons.1 h3 with h3 | h3
        · obtain ⟨rfl, rfl⟩ := Prod.mk.inj h3
          exact .inl (hgv a _ o ha hacc)
        · exact .inr ⟨h3, h4⟩
    · exact .inr h1

/-- The calling thread empties the queue of events. -/
theorem inv_drain (h : Inv X s τ live) {own : Bool} {p : List Instr} (hp : s.prog .main = .drain own :: p) :
    Inv X { s.setProg .main ([.op (.read .events), .op (.write .events), .op (.unlock .events), .op (.lock .listeners),
        .op (.read .listeners), .op (.unlock .listeners)] ++ (s.evq.map (.notify · own) ++ p)) with evq := [] } τ live := by
  obtain ⟨held, hh, hs⟩ := h.m
  rw [hp] at hs
  obtain ⟨hheld, hs⟩ := hs
  have hown : s.owner .events = some .main := (hh _).1 ((hheld _).2 rfl)
  have hF : Frame s { s.setProg .main ([.op (.read .events), .op (.write .events), .op (.unlock .events),
      .op (.lock .listeners), .op (.read .listeners), .op (.unlock .listeners)] ++ (s.evq.map (.notify · own) ++ p)) with
        evq := [] } .main := frame_setProg s .main _
  have hge : ∀ u c, Loc.event u c ∈ s.evq → ∀ a t o, τ[a]? = some (t, o) → Acc o (.event u c) → Past τ .main a := by
    intro u c hm a t o ha hacc
    rcases h.fact a t o ha _ hacc with ⟨rfl, _, _, h2⟩ | ⟨rfl, _⟩
    · rcases h.ev _ hm with h' | ⟨u', c', he, _, hlt⟩
      · cases h'
      · cases he
        rcases h2 hlt with h3 | ⟨_, h3⟩
        · exact h3
        · exact h3.holder hown
    · exact past_self ha
  refine h.do_ctl rfl (h.frame_w hF fun hne => absurd rfl hne) (h.lv_set hp
      ([.op (.read .events), .op (.write .events), .op (.unlock .events), .op (.lock .listeners),
      .op (.read .listeners), .op (.unlock .listeners)] ++ (s.evq.map (.notify · own) ++ p))) ⟨held, hh, ?_⟩
    h.qo (fun l hl => absurd hl (by simp)) (vp_ctl rfl rfl rfl) ?_
  · change MSafe X (GV s τ) (GE s τ) live held ((s.setProg .main ([.op (.read .events), .op (.write .events),
      .op (.unlock .events), .op (.lock .listeners), .op (.read .listeners), .op (.unlock .listeners)]
      ++ (s.evq.map (.notify · own) ++ p))).prog .main)
    rw [setProg_same]
    have h0 : held.filter (· ≠ Mutex.events) = [] := by
      rw [List.filter_eq_nil_iff]; intro m hm; simp [(hheld m).1 hm]
    have h1 := notifies_safe (GV := GV s τ) (GE := GE s τ) (live := live) own hs s.evq fun l hl => by
      rcases h.ev l hl with rfl | ⟨u, c, rfl, hu, hc⟩
      · exact .inl rfl
      · exact .inr ⟨u, c, rfl, hu, hc, hge u c hl⟩
    simp only [List.cons_append, List.nil_append, MSafe, MAcc, MWr, h0]
    exact ⟨(hheld _).2 rfl, (hheld _).2 rfl, trivial, (hheld _).2 rfl, by simp, by simp, by simpa using h1⟩
  · rintro a t o u c ha hacc (⟨rfl, h0, h1, h2⟩ | h1)
    · refine .inl ⟨rfl, h0, h1, fun hlt => .inl ?_⟩
      rcases h2 hlt with h3 | ⟨h3, _⟩
      · exact h3
      · exact hge _ c h3 a _ o ha hacc
    · exact .inr h1

/-- The listeners are told of an event. -/
theorem inv_notify (h : Inv X s τ live) {l : Loc} {own : Bool} {p : List Instr} (hp : s.prog .main = .notify l own :: p) :
    Inv X { s.setProg .main (told own l (s.listen s.nc) ++ p) with nc := s.nc + 1 } τ live := by
  have hF : Frame s { s.setProg .main (told own l (s.listen s.nc) ++ p) with nc := s.nc + 1 } .main :=
    frame_setProg s .main _
  obtain ⟨held, hh, hs⟩ := h.m
  rw [hp] at hs
  obtain ⟨rfl, hl, hs⟩ := hs
  refine h.do_ctl rfl (h.frame_w hF fun hne => absurd rfl hne) (h.lv_set hp (told own l (s.listen s.nc) ++ p))
    ⟨[], hh, ?_⟩ h.qo h.ev (vp_ctl rfl rfl rfl) (event_ctl rfl rfl rfl)
  change MSafe X (GV s τ) (GE s τ) live [] ((s.setProg .main (told own l (s.listen s.nc) ++ p)).prog .main)
  rw [setProg_same]
  exact told_safe own _ hl hs

end

/-- Every step keeps the invariant. -/
theorem inv_step {X : Prop} {s s' : St} {τ : Trace} {live : Set ℕ} (h : Inv X s τ live) {t : Tid} {oo : Option Op}
    (hs : step s t = some (s', oo)) : ∃ live', Inv X s' (τ ++ oo.toList.map fun o => (t, o)) live' := by
  have onlyMain : ∀ {i : Instr} {p : List Instr}, s.prog t = i :: p → (∀ held ec vc, ¬ WSafe t held ec vc (i :: p)) →
      t = .main := by
    intro i p hp hno
    by_contra hne
    obtain ⟨held, _, hs⟩ := h.w t hne
    rw [hp] at hs; exact hno _ _ _ hs
  have notMain : ∀ {i : Instr} {p : List Instr}, s.prog t = i :: p →
      (∀ held, ¬ MSafe X (GV s τ) (GE s τ) live held (i :: p)) → t ≠ .main := by
    rintro i p hp hno rfl
    obtain ⟨held, _, hs⟩ := h.m
    rw [hp] at hs; exact hno _ hs
  unfold step at hs
  split at hs
  · cases hs
  · next m p hp =>
    split at hs <;> cases hs
    exact ⟨live, inv_lock h hp (by assumption)⟩
  · next m p hp => cases hs; exact ⟨live, inv_unlock h hp⟩
  · next j p hp => cases hs; exact ⟨_, inv_spawn h hp⟩
  · next j p hp =>
    split at hs <;> cases hs
    exact ⟨_, inv_join h hp (List.isEmpty_iff.1 (by assumption))⟩
  · next l p hp =>
    cases hs
    by_cases hm : t = .main
    · subst hm
      obtain ⟨held, hh, hS⟩ := h.m
      rw [hp] at hS
      exact ⟨live, inv_access_main h hp (.inl rfl) hh hS.1 (fun h' => nomatch h') hS.2⟩
    · exact ⟨live, inv_access_other h hm hp (.inl ⟨rfl, rfl⟩) fun held hS => hS⟩
  · next l p hp =>
    cases hs
    by_cases hm : t = .main
    · subst hm
      obtain ⟨held, hh, hS⟩ := h.m
      rw [hp] at hS
      exact ⟨live, inv_access_main h hp (.inr rfl) hh hS.1 (fun _ => hS.2.1) hS.2.2⟩
    · exact ⟨live, inv_access_other h hm hp (.inr ⟨rfl, rfl⟩) fun held hS => hS⟩
  · next n p hp =>
    cases hs
    have := onlyMain hp fun _ _ _ hS => hS
    subst this
    have := inv_replace_main (p := p) (qin := s.qin ++ List.range n) h hp fun held hS => hS
    exact ⟨live, by simp only [Option.toList_none, List.map_nil, List.append_nil]; exact this⟩
  · next p hp =>
    split at hs
    · cases hs
      refine ⟨live, ?_⟩
      have := inv_replace_other (qin := s.qin) h (by simp) hp (p := [.op (.read .queueIn), .op (.unlock .qin)]) ?_
      · simp only [Option.toList_none, List.map_nil, List.append_nil]; exact this
      · intro held hS
        have hS : ∀ m, m ∈ held ↔ m = .qin := hS.1
        simp [WSafe, WAcc, hS]
    · next q _ =>
      cases hs
      refine ⟨live, ?_⟩
      have := inv_replace_other (qin := q) h (by simp) hp (fun held hS => job_safe _ _ _ hS.1)
      simp only [Option.toList_none, List.map_nil, List.append_nil]; exact this
    · cases hs
  · next p hp =>
    cases hs
    have hm := notMain hp fun _ hS => hS
    have := inv_replace_other (qin := s.qin) h hm hp fun held hS => raise_safe hS
    exact ⟨live, by simp only [Option.toList_none, List.map_nil, List.append_nil]; exact this⟩
  · next p hp => cases hs; exact ⟨live, by simp only [Option.toList_none, List.map_nil, List.append_nil]; exact inv_emit h hp⟩
  · next p hp =>
    cases hs
    have := onlyMain hp fun _ _ _ hS => hS
    subst this
    exact ⟨live, by simp only [Option.toList_none, List.map_nil, List.append_nil]; exact inv_emitOwn h hp⟩
  · next p hp =>
    split at hs
    · cases hs
      exact ⟨live, by simp only [Option.toList_none, List.map_nil, List.append_nil]; exact inv_push h hp⟩
    · cases hs
  · next p hp =>
    cases hs
    have hm := notMain hp fun _ hS => hS
    have := inv_asleep (inv_replace_other (qin := s.qin) (p := p) h hm hp fun held hS => hS)
      (s.asleep && decide (s.owner .qout = some .main))
    exact ⟨live, by simp only [Option.toList_none, List.map_nil, List.append_nil]; exact this⟩
  · next p hp =>
    cases hs
    have := onlyMain hp fun _ _ _ hS => hS
    subst this
    have := inv_asleep (inv_replace_main (qin := s.qin) (p := p) h hp fun held hS => by rw [hS.1]; exact hS.2) false
    exact ⟨live, by simp only [Option.toList_none, List.map_nil, List.append_nil]; exact this⟩
  · next c k p hp =>
    have := onlyMain hp fun _ _ _ hS => hS
    subst this
    split at hs
    · cases hs
      refine ⟨live, ?_⟩
      have := inv_asleep (inv_replace_main (qin := s.qin) h hp
        (p := [.op (.read .queueOut), .op (.unlock .qout), .wake, .op (.lock .qout), .test c k] ++ p) ?_) true
      · simp only [Option.toList_none, List.map_nil, List.append_nil]; exact this
      · rintro held ⟨hheld, hX, hS⟩
        have h0 : held.filter (· ≠ Mutex.qout) = [] := by
          rw [List.filter_eq_nil_iff]; intro m hm; simp [(hheld m).1 hm]
        simp only [List.cons_append, List.nil_append, MSafe, MAcc, h0]
        exact ⟨(hheld _).2 rfl, (hheld _).2 rfl, trivial, .inl trivial, by simp, hX, hS⟩
    · next i v q hq =>
      cases hs
      exact ⟨live, by simp only [Option.toList_none, List.map_nil, List.append_nil]; exact inv_pop h hp hq⟩
  · next p hp =>
    have := onlyMain hp fun _ _ _ hS => hS
    subst this
    cases hs
    exact ⟨live, by simp only [Option.toList_none, List.map_nil, List.append_nil]; exact inv_drain h hp⟩
  · next l own p hp =>
    have := onlyMain hp fun _ _ _ hS => hS
    subst this
    cases hs
    exact ⟨live, by simp only [Option.toList_none, List.map_nil, List.append_nil]; exact inv_notify h hp⟩

theorem step_op {s s' : St} {t : Tid} {o : Op} (hs : step s t = some (s', some o)) :
    ∃ p, s.prog t = .op o :: p := by
  unfold step at hs
  split at hs
  · cases hs
  · next m p hp => split at hs <;> cases hs; exact ⟨p, hp⟩
  · next m p hp => cases hs; exact ⟨p, hp⟩
  · next m p hp => cases hs; exact ⟨p, hp⟩
  · next m p hp => split at hs <;> cases hs; exact ⟨p, hp⟩
  · next m p hp => cases hs; exact ⟨p, hp⟩
  · next m p hp => cases hs; exact ⟨p, hp⟩
  · cases hs
  · split at hs <;> cases hs
  · cases hs
  · cases hs
  · cases hs
  · split at hs <;> cases hs
  · cases hs
  · cases hs
  · split at hs <;> cases hs
  · cases hs
  · cases hs

/-- A step adds no race, except one on the model parameters if `X`. -/
theorem race_step {X : Prop} {s s' : St} {τ : Trace} {live : Set ℕ} (h : Inv X s τ live) {t : Tid} {oo : Option Op}
    (hs : step s t = some (s', oo)) (hr : ∀ l, RaceOn τ l → l = .model ∧ X) :
    ∀ l, RaceOn (τ ++ oo.toList.map fun o => (t, o)) l → l = .model ∧ X := by
  cases oo with
  | none => simpa using hr
  | some o =>
    simp only [Option.toList_some, List.map_cons, List.map_nil]
    obtain ⟨p, hp⟩ := step_op hs
    rintro l ⟨a, b, x, y, hab, hx, hy, hne, hc, hhb⟩
    rcases get_cases hy with hy | ⟨rfl, rfl⟩
    · have hx' : τ[a]? = some x := by
        rcases get_cases hx with hx | ⟨rfl, _⟩
        · exact hx
        · exact absurd (get_lt hy) (by omega)
      exact hr l ⟨a, b, x, y, hab, hx', hy, hne, hc, fun hh => hhb (hb_grow hh)⟩
    · by_contra hl
      have hx' : τ[a]? = some x := by
        rcases get_cases hx with hx | ⟨rfl, _⟩
        · exact hx
        · exact absurd hab (lt_irrefl _)
      obtain ⟨u, o'⟩ := x
      refine hhb (hb_new ?_)
      dsimp only at hne hc
      by_cases hm : t = .main
      · subst hm
        obtain ⟨held, hh, hS⟩ := h.m
        rw [hp] at hS
        rcases (Acc.of_conflict hc).2 with rfl | rfl
        · exact main_known (o := .read l) h hh hS.1 (fun h' => nomatch h') hl hx' hne hc
        · exact main_known h hh hS.1 (fun _ => hS.2.1) hl hx' hne hc
      · obtain ⟨held, hh, hS⟩ := h.w t hm
        rw [hp] at hS
        have hlive : ∀ j, t = .worker j → j ∈ live := by
          rintro j rfl; exact h.lv j (by rw [hp]; simp)
        rcases (Acc.of_conflict hc).2 with rfl | rfl
        · exact other_known (o := .read l) h hh hm hlive hS.1 (fun h' => nomatch h') hl hx' hne hc
        · exact other_known h hh hm hlive hS.1 (fun _ => rfl) hl hx' hne hc

theorem race_exec {X : Prop} : ∀ (ts : List Tid) {s s' : St} {τ τ' : Trace} {live : Set ℕ}, Inv X s τ live →
    (∀ l, RaceOn τ l → l = .model ∧ X) → exec (s, τ) ts = some (s', τ') → ∀ l, RaceOn τ' l → l = .model ∧ X
  | [], _, _, _, _, _, _, hr, he => by cases he; exact hr
  | t :: ts, s, s', τ, τ', live, h, hr, he => by
    simp only [exec, exec1] at he
    cases hs : step s t with
    | none => rw [hs] at he; cases he
    | some r =>
      obtain ⟨s1, oo⟩ := r
      rw [hs] at he
      simp only [Option.map_some, Option.bind_some] at he
      obtain ⟨live1, h1⟩ := inv_step h hs
      exact race_exec ts h1 (race_step h hs hr) he

/-- **C119**, the part that holds for every maximisation step.  Whatever calls are made one after the other on an LDA
object, with whatever numbers of workers and documents, and whatever listeners and other threads do with its event dispatcher
meanwhile,
in every interleaving the only location on which there can be a data race is the model parameters, and only if
`doc_m_step` updates them.  Missing: the model parameters with the online maximisation step, see `C119_online_race`. -/
theorem C119_races_partial (calls : List Call) (others listen : ℕ → List Req) (ts : List Tid) {s : St} {τ : Trace}
    (h : exec (St.init calls others listen, []) ts = some (s, τ)) {l : Loc} (hr : RaceOn τ l) :
    l = .model ∧ ∃ c ∈ calls, ∃ k, c.docWrites k = true :=
  race_exec ts (inv_init _ calls id others listen) (by rintro l ⟨a, b, x, y, _, hx, _⟩; simp at hx) h l hr

/-- **C119** for the batch maximisation steps: no interleaving has a data race. -/
theorem C119_no_race (calls : List Call) (hb : ∀ c ∈ calls, ∀ k, c.docWrites k = false) (others listen : ℕ → List Req)
    (ts : List Tid) {s : St} {τ : Trace} (h : exec (St.init calls others listen, []) ts = some (s, τ)) (l : Loc) :
    ¬ RaceOn τ l := by
  intro hr
  obtain ⟨_, c, hc, k, hk⟩ := C119_races_partial calls others listen ts h hr
  rw [hb c hc k] at hk; cases hk

/-- The two last operations of a trace race if they conflict. -/
theorem race_last {τ : Trace} {t u : Tid} {l : Loc} {o o' : Op} (htu : t ≠ u) (hc : Conflict l o o') :
    RaceOn (τ ++ [(t, o), (u, o')]) l := by
  have h1 : (τ ++ [(t, o), (u, o')])[τ.length]? = some (t, o) := by simp
  have h2 : (τ ++ [(t, o), (u, o')])[τ.length + 1]? = some (u, o') := by simp
  have hedge : ¬ Edge (τ ++ [(t, o), (u, o')]) τ.length (τ.length + 1) := by
    rintro ⟨_, x, y, hx, hy, h⟩
    rw [h1] at hx; rw [h2] at hy
    cases hx; cases hy
    obtain ⟨ha, hb⟩ := Acc.of_conflict hc
    rcases h with h | ⟨m, h, _⟩ | ⟨j, h, _⟩ | ⟨j, _, h⟩
    · exact htu h
    · rcases ha with rfl | rfl <;> cases h
    · rcases ha with rfl | rfl <;> cases h
    · rcases hb with rfl | rfl <;> cases h
  refine ⟨τ.length, τ.length + 1, _, _, by omega, h1, h2, htu, hc, fun hh => ?_⟩
  have lt_of : ∀ {a b}, HB (τ ++ [(t, o), (u, o')]) a b → a < b := by
    intro a b hab
    induction hab with
    | single h => exact h.1
    | tail _ h ih => exact lt_trans ih h.1
  rcases TransGen.tail'_iff.1 hh with ⟨b, hab, hbc⟩
  rcases reflTransGen_iff_eq_or_transGen.1 hab with rfl | hab
  · exact hedge hbc
  · have := lt_of hab; have := hbc.1; omega

/-- One call of `partial_fit` on two documents with one worker. -/
def twoDocs (writes : Bool) : Call := ⟨true, 1, 2, true, fun _ => writes, fun _ => 0, 0⟩

/-- The worker finishes the first document and takes the second, the calling thread consumes the first, and the worker
starts to read the model parameters. -/
def racySchedule : List Tid :=
  List.replicate 5 .main ++ (List.replicate 30 (.worker 0) ++ (List.replicate 28 .main ++ [.worker 0]))

/-- **C119** is false for the online maximisation step: with one worker, two documents and minibatches of one document
there is an execution in which the calling thread updates the model parameters while the worker reads them. -/
theorem C119_online_race : ∃ s τ, exec (St.init [twoDocs true] (fun _ => []) fun _ => [], []) racySchedule = some (s, τ) ∧
    RaceOn τ .model := by
  have h : (exec (St.init [twoDocs true] (fun _ => []) fun _ => [], []) racySchedule).map (fun p => p.2.drop (p.2.length - 2))
      = some [(.main, .write .model), (.worker 0, .read .model)] := by decide +kernel
  cases he : exec (St.init [twoDocs true] (fun _ => []) fun _ => [], []) racySchedule with
  | none => rw [he] at h; cases h
  | some p =>
    obtain ⟨s, τ⟩ := p
    rw [he] at h
    refine ⟨s, τ, rfl, ?_⟩
    have h' : τ.drop (τ.length - 2) = [(.main, .write .model), (.worker 0, .read .model)] := Option.some.inj h
    rw [← List.take_append_drop (τ.length - 2) τ, h']
    exact race_last (by simp) (.inl ⟨rfl, .inl rfl⟩)

/-- A listener that adds a listener, dispatches an event and removes a listener when it is told of the second event. -/
def oneCallback (k : ℕ) : List Req := if k = 1 then [.add, .dispatch, .remove] else []

/-- The same call with a batch maximisation step and this listener, while another thread adds a listener, dispatches an event and removes a
listener: the schedule can be carried through to the return of the call, and has no race. -/
def fullSchedule : List Tid :=
  List.replicate 5 .main ++ (List.replicate 5 (.other 0) ++ (List.replicate 20 (.worker 0) ++ (List.replicate 4 (.other 0)
    ++ (List.replicate 32 (.worker 0) ++ (List.replicate 115 .main ++ List.replicate 3 (.other 0))))))

example : ∃ s τ, exec (St.init [twoDocs false] (fun i => if i = 0 then [.add, .dispatch, .remove] else []) oneCallback, []) fullSchedule
      = some (s, τ) ∧ s.prog .main = [] ∧ s.prog (.worker 0) = [] ∧ ∀ l, ¬ RaceOn τ l := by
  have h : (exec (St.init [twoDocs false] (fun i => if i = 0 then [.add, .dispatch, .remove] else []) oneCallback, []) fullSchedule).map
      (fun p => (p.1.prog .main).isEmpty && (p.1.prog (.worker 0)).isEmpty) = some true := by decide +kernel
  cases he : exec (St.init [twoDocs false] (fun i => if i = 0 then [.add, .dispatch, .remove] else []) oneCallback, []) fullSchedule with
  | none => rw [he] at h; cases h
  | some p =>
    obtain ⟨s, τ⟩ := p
    rw [he] at h
    have h' := Option.some.inj h
    rw [Bool.and_eq_true, List.isEmpty_iff, List.isEmpty_iff] at h'
    exact ⟨s, τ, rfl, h'.1, h'.2, fun l => C119_no_race _ (by simp [twoDocs]) _ _ _ he l⟩

end Verif.Races
