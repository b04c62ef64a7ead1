import Verif.Spec.Events
import Mathlib.Data.List.Basic
import Mathlib.Data.List.TakeWhile

/-! Properties C11–C16 of the event dispatchers. -/
set_option linter.unusedSectionVars false
set_option linter.unusedSimpArgs false

namespace Verif.Events

variable {L E : Type} [DecidableEq L] [DecidableEq E]

/-! ### The model computes what its loops look like -/

theorem simpleDispatch_eq (ls : List L) (e : E) : simpleDispatch ls e = ls.map (fun l => (e, l)) := by
  induction ls with
  | nil => rfl
  | cons l ls ih => simp [simpleDispatch, ih]

theorem deliveries_eq (es : List E) (ls : List L) : deliveries es ls = allPairs es ls := by
  induction es with
  | nil => rfl
  | cons e es ih => simp [deliveries, simpleDispatch_eq, ih, allPairs]

theorem eraseLoop_some {it : Iter} {del : List L} :
    ∀ (xs before ls : List L), eraseLoop it del before xs = some ls →
      ls = before ++ xs.filter (fun x => x ∉ del) := by
  intro xs
  induction xs with
  | nil => intro before ls h; simp [eraseLoop] at h; simp [h]
  | cons x xs ih =>
    intro before ls h
    rw [eraseLoop.eq_def] at h
    simp only at h
    by_cases hx : x ∈ del
    · rw [if_pos hx] at h
      cases before with
      | nil =>
        cases it with
        | strict => simp at h
        | circular => simp only at h; rw [ih _ _ h]; simp [hx]
      | cons b bs => simp only at h; rw [ih _ _ h]; simp [hx]
    · rw [if_neg hx] at h
      rw [ih _ _ h]
      simp [hx]

theorem eraseLoop_cons_some {it : Iter} {del : List L} :
    ∀ (xs : List L) (b : L) (bs : List L), (eraseLoop it del (b :: bs) xs).isSome := by
  intro xs
  induction xs with
  | nil => intro b bs; rfl
  | cons x xs ih =>
    intro b bs
    rw [eraseLoop]
    by_cases hx : x ∈ del
    · rw [if_pos hx]; exact ih b bs
    · rw [if_neg hx]; exact ih b (bs ++ [x])

theorem eraseLoop_circular {del : List L} :
    ∀ (xs before : List L), (eraseLoop .circular del before xs).isSome := by
  intro xs
  induction xs with
  | nil => intro b; rfl
  | cons x xs ih =>
    intro before
    rw [eraseLoop.eq_def]
    simp only
    by_cases hx : x ∈ del
    · rw [if_pos hx]; cases before <;> exact ih _
    · rw [if_neg hx]; exact ih _

/-! ### The specification, one call at a time -/

theorem lastSeg_snoc (h : List (Call L E)) (c : Call L E) (hc : c ≠ .process) :
    lastSeg (h ++ [c]) = lastSeg h ++ [c] := by
  simp [lastSeg, List.takeWhile_cons, hc]

theorem lastSeg_process (h : List (Call L E)) : lastSeg (h ++ [.process]) = [] := by
  simp [lastSeg]

theorem survivor_snoc_lt (h : List (Call L E)) (c : Call L E) {p : Nat} (hp : p < h.length) :
    survivor (h ++ [c]) p =
      (survivor h p).bind (fun l => if c = .remove l then none else some l) := by
  unfold survivor
  rw [List.getElem?_append_left hp, List.take_append_of_le_length (by omega),
    List.drop_append_of_le_length (by omega)]
  cases h[p]? with
  | none => rfl
  | some x =>
    cases x with
    | add l =>
      simp only [← List.append_assoc]
      by_cases h1 : Call.remove l ∈ lastSeg (h.take p) ++ h.drop (p + 1)
      · rw [if_pos (List.mem_append_left _ h1), if_pos h1]; rfl
      · rw [if_neg h1]
        by_cases h2 : c = .remove l
        · rw [if_pos (by simp [h2])]; simp [h2]
        · rw [if_neg (by simp only [List.mem_append] at h1 ⊢; simp [h1, Ne.symm h2])]; simp [h2]
    | remove l => rfl
    | dispatch e => rfl
    | process => rfl

theorem survivor_last (h : List (Call L E)) (c : Call L E) :
    survivor (h ++ [c]) h.length = match c with
      | .add l => if Call.remove l ∈ lastSeg h then none else some l
      | _ => none := by
  unfold survivor
  rw [List.getElem?_append_right (Nat.le_refl _)]
  cases c <;> simp

theorem registered_snoc (h : List (Call L E)) (c : Call L E) :
    registered (h ++ [c]) =
      (registered h).filter (fun l => c ≠ .remove l) ++
        (match c with
          | .add l => if Call.remove l ∈ lastSeg h then [] else [l]
          | _ => []) := by
  unfold registered
  rw [List.length_append, List.length_singleton, List.range_succ, List.filterMap_append]
  congr 1
  · rw [← List.filterMap_eq_filter, List.filterMap_filterMap]
    apply List.filterMap_congr
    intro p hp
    rw [survivor_snoc_lt h c (List.mem_range.1 hp)]
    cases survivor h p with
    | none => rfl
    | some l => by_cases hc : c = .remove l <;> simp [Option.guard, hc]
  · rw [List.filterMap_cons, survivor_last]
    cases c with
    | add l => by_cases hl : Call.remove l ∈ lastSeg h <;> simp [hl]
    | _ => rfl

/-! ### The dispatcher against the specification -/

/-- State of the dispatcher after a history, in terms of the history. -/
structure Rep (h : List (Call L E)) (d : Disp L E) : Prop where
  regs : registered h = d.listeners.filter (fun l => l ∉ d.deleted)
  del : ∀ l, l ∈ d.deleted ↔ Call.remove l ∈ lastSeg h
  evs : d.events = pending h

theorem Rep.nil : Rep ([] : List (Call L E)) .empty := by
  constructor <;> simp [registered, Disp.empty, lastSeg, pending, dispatched]

theorem pending_snoc (h : List (Call L E)) (c : Call L E) (hc : c ≠ .process) :
    pending (h ++ [c]) = pending h ++ (match c with | .dispatch e => [e] | _ => []) := by
  unfold pending
  rw [lastSeg_snoc h c hc]
  unfold dispatched
  rw [List.filterMap_append]
  cases c <;> rfl

theorem Rep.add {h : List (Call L E)} {d : Disp L E} (r : Rep h d) (l : L) :
    Rep (h ++ [.add l]) (d.add l) := by
  constructor
  · rw [registered_snoc, r.regs]
    simp only [Disp.add, List.filter_append]
    rw [List.filter_filter]
    congr 1
    · by_cases hl : l ∈ d.deleted
      · simp [hl, (r.del l).1 hl]
      · simp [hl, mt (r.del l).2 hl]
  · intro x
    rw [lastSeg_snoc _ _ (by simp)]
    simp [Disp.add, r.del x]
  · rw [pending_snoc _ _ (by simp)]
    simp [Disp.add, r.evs]

theorem Rep.remove {h : List (Call L E)} {d : Disp L E} (r : Rep h d) (l : L) :
    Rep (h ++ [.remove l]) (d.remove l) := by
  constructor
  · rw [registered_snoc, r.regs]
    simp only [Disp.remove, List.append_nil]
    rw [List.filter_filter]
    apply List.filter_congr
    intro x _
    by_cases hx : x = l
    · subst hx; simp
    · simp [hx, Ne.symm hx]
  · intro x
    rw [lastSeg_snoc _ _ (by simp)]
    simp only [Disp.remove, List.mem_cons, List.mem_append, List.mem_singleton, Call.remove.injEq,
      List.not_mem_nil, or_false]
    rw [r.del x]
    tauto
  · rw [pending_snoc _ _ (by simp)]
    simp [Disp.remove, r.evs]

theorem Rep.push {h : List (Call L E)} {d : Disp L E} (r : Rep h d) (e : E) :
    Rep (h ++ [.dispatch e]) (d.push e) := by
  constructor
  · rw [registered_snoc, r.regs]
    simp only [Disp.push, List.append_nil]
    rw [List.filter_filter]
    apply List.filter_congr
    intro x _
    by_cases hx : x ∈ d.deleted <;> simp [hx]
  · intro x
    rw [lastSeg_snoc _ _ (by simp)]
    simp [Disp.push, r.del x]
  · rw [pending_snoc _ _ (by simp)]
    simp [Disp.push, r.evs]

theorem Rep.process {it : Iter} {h : List (Call L E)} {d d' : Disp L E} {out : List (E × L)}
    (r : Rep h d) (hp : d.process it = some (d', out)) :
    Rep (h ++ [.process]) d' ∧ out = allPairs (pending h) (registered h) ∧
      d'.listeners = registered h := by
  simp only [Disp.process, Disp.purge] at hp
  cases he : eraseLoop it d.deleted [] d.listeners with
  | none => simp [he] at hp
  | some ls =>
    have hls := eraseLoop_some _ _ _ he
    simp only [List.nil_append] at hls
    simp only [he, Option.some.injEq, Prod.mk.injEq] at hp
    obtain ⟨rfl, rfl⟩ := hp
    have hreg : registered h = ls := by rw [r.regs, hls]
    refine ⟨⟨?_, ?_, ?_⟩, ?_, ?_⟩
    · rw [registered_snoc, hreg]; simp
    · intro x; rw [lastSeg_process]; simp
    · simp [pending, lastSeg_process, dispatched]
    · rw [deliveries_eq, hreg, r.evs]
    · exact hreg.symm

/-- Generalised over the history that led to the starting state. -/
theorem runCalls_rep {it : Iter} :
    ∀ (h h0 : List (Call L E)) (d d' : Disp L E) (outs : List (List (E × L))), Rep h0 d →
      runCalls it d h = some (d', outs) →
      Rep (h0 ++ h) d' ∧ outs.length = h.count .process ∧
      ∀ h1 h2, h = h1 ++ .process :: h2 →
        outs[h1.count .process]? = some (allPairs (pending (h0 ++ h1)) (registered (h0 ++ h1))) := by
  intro h
  induction h with
  | nil =>
    intro h0 d d' outs r hr
    simp only [runCalls, Option.some.injEq, Prod.mk.injEq] at hr
    obtain ⟨rfl, rfl⟩ := hr
    refine ⟨by simpa using r, rfl, ?_⟩
    intro h1 h2 e
    simp at e
  | cons c h ih =>
    intro h0 d d' outs r hr
    have other : ∀ d1, c ≠ .process → Rep (h0 ++ [c]) d1 → runCalls it d1 h = some (d', outs) →
        Rep (h0 ++ c :: h) d' ∧ outs.length = (c :: h).count .process ∧
        ∀ h1 h2, c :: h = h1 ++ .process :: h2 →
        outs[h1.count .process]? = some (allPairs (pending (h0 ++ h1)) (registered (h0 ++ h1))) := by
      intro d1 hc r1 hr1
      obtain ⟨a, b, e⟩ := ih (h0 ++ [c]) d1 d' outs r1 hr1
      refine ⟨by simpa using a, ?_, ?_⟩
      · rw [b, List.count_cons_of_ne hc]
      · intro h1 h2 e1
        cases h1 with
        | nil => simp at e1; exact absurd e1.1 hc
        | cons c' h1 =>
          simp only [List.cons_append, List.cons.injEq] at e1
          obtain ⟨rfl, rfl⟩ := e1
          have := e h1 h2 rfl
          rw [List.count_cons_of_ne hc]
          simpa using this
    cases c with
    | add l => exact other _ (by simp) (r.add l) hr
    | remove l => exact other _ (by simp) (r.remove l) hr
    | dispatch e => exact other _ (by simp) (r.push e) hr
    | process =>
      simp only [runCalls] at hr
      cases hp : d.process it with
      | none => simp [hp] at hr
      | some x =>
        obtain ⟨d1, out⟩ := x
        simp only [hp] at hr
        cases hq : runCalls it d1 h with
        | none => simp [hq] at hr
        | some y =>
          obtain ⟨d2, outs'⟩ := y
          simp only [hq, Option.some.injEq, Prod.mk.injEq] at hr
          obtain ⟨rfl, rfl⟩ := hr
          obtain ⟨r1, hout, -⟩ := r.process hp
          obtain ⟨a, b, e⟩ := ih (h0 ++ [.process]) d1 d2 outs' r1 hq
          refine ⟨by simpa using a, by simp [b], ?_⟩
          intro h1 h2 e1
          cases h1 with
          | nil => simp [hout]
          | cons c' h1 =>
            simp only [List.cons_append, List.cons.injEq] at e1
            obtain ⟨rfl, rfl⟩ := e1
            have := e h1 h2 rfl
            simpa using this

/-! ### C11 -/

/-- **C11**.  In every history of calls on a fresh ThreadSafeEventDispatcher, the `process_events`
call that follows the calls `h1` notifies exactly: each event dispatched since the previous
`process_events` call in order, to each listener in force, in order of registration. -/
theorem C11_process_notifies {it : Iter} {h : List (Call L E)} {d : Disp L E}
    {outs : List (List (E × L))} (hr : runCalls it .empty h = some (d, outs)) :
    outs.length = h.count .process ∧
    ∀ h1 h2, h = h1 ++ .process :: h2 →
      outs[h1.count .process]? = some (allPairs (pending h1) (registered h1)) := by
  obtain ⟨-, b, e⟩ := runCalls_rep h [] .empty d outs Rep.nil hr
  exact ⟨b, by simpa using e⟩

example : ∃ d, runCalls .strict (.empty : Disp Nat Nat)
    [.add 1, .add 2, .dispatch 7, .dispatch 8, .process, .remove 2, .dispatch 9, .process] =
    some (d, [[(7, 1), (7, 2), (8, 1), (8, 2)], [(9, 1)]]) := ⟨_, rfl⟩

theorem dispatched_append (a b : List (Call L E)) :
    dispatched (a ++ b) = dispatched a ++ dispatched b := List.filterMap_append ..

theorem allPairs_filter (es : List E) (ls : List L) (l : L) (hl : ls.count l = 1) :
    ((allPairs es ls).filter (fun p => p.2 = l)).map Prod.fst = es := by
  induction es with
  | nil => rfl
  | cons e es ih =>
    have h1 : ((ls.map fun x => (e, x)).filter (fun p => p.2 = l)).map Prod.fst = [e] := by
      rw [List.filter_map, List.map_map]
      have : (ls.filter ((fun p : E × L => decide (p.2 = l)) ∘ fun x => (e, x))).length = 1 := by
        rw [← hl, List.count_eq_length_filter]
        congr 1
      obtain ⟨x, hx⟩ := List.length_eq_one_iff.1 this
      rw [hx]
      rfl
    simp only [allPairs, List.flatMap_cons, List.filter_append, List.map_append] at ih ⊢
    rw [h1, ih]
    rfl

/-- **C11**.  Nothing is lost, duplicated or reordered: a listener that is added once, before
anything else, and never removed receives over the `process_events` calls exactly the events
dispatched before the last of them, in order, each once; the others are still pending. -/
theorem C11_no_event_lost {it : Iter} {l : L} :
    ∀ {h : List (Call L E)} {d : Disp L E} {outs : List (List (E × L))},
      runCalls it .empty (.add l :: h) = some (d, outs) →
      Call.add l ∉ h → Call.remove l ∉ h →
      (outs.flatten.filter (fun p => p.2 = l)).map Prod.fst ++ d.events = dispatched h := by
  -- generalise over the starting state
  have key : ∀ (h : List (Call L E)) (d d' : Disp L E) (outs : List (List (E × L))),
      runCalls it d h = some (d', outs) → d.listeners.count l = 1 → l ∉ d.deleted →
      Call.add l ∉ h → Call.remove l ∉ h →
      (outs.flatten.filter (fun p => p.2 = l)).map Prod.fst ++ d'.events =
        d.events ++ dispatched h := by
    intro h
    induction h with
    | nil =>
      intro d d' outs hr _ _ _ _
      simp only [runCalls, Option.some.injEq, Prod.mk.injEq] at hr
      obtain ⟨rfl, rfl⟩ := hr
      simp [dispatched]
    | cons c h ih =>
      intro d d' outs hr hc hd ha hm
      simp only [List.mem_cons, not_or] at ha hm
      cases c with
      | add x =>
        have hx : x ≠ l := fun e => ha.1 (by rw [e])
        refine ih (d.add x) d' outs hr ?_ hd ha.2 hm.2
        simp [Disp.add, List.count_append, hc, hx]
      | remove x =>
        have hx : l ≠ x := fun e => hm.1 (by rw [e])
        refine ih (d.remove x) d' outs hr hc ?_ ha.2 hm.2
        simp [Disp.remove, hd, hx]
      | dispatch e =>
        rw [ih (d.push e) d' outs hr hc hd ha.2 hm.2]
        simp [Disp.push, dispatched]
      | process =>
        simp only [runCalls] at hr
        cases hp : d.process it with
        | none => simp [hp] at hr
        | some x =>
          obtain ⟨d1, out⟩ := x
          simp only [hp] at hr
          cases hq : runCalls it d1 h with
          | none => simp [hq] at hr
          | some y =>
            obtain ⟨d2, outs'⟩ := y
            simp only [hq, Option.some.injEq, Prod.mk.injEq] at hr
            obtain ⟨rfl, rfl⟩ := hr
            simp only [Disp.process, Disp.purge] at hp
            cases he : eraseLoop it d.deleted [] d.listeners with
            | none => simp [he] at hp
            | some ls =>
              have hls := eraseLoop_some _ _ _ he
              simp only [List.nil_append] at hls
              simp only [he, Option.some.injEq, Prod.mk.injEq] at hp
              obtain ⟨rfl, rfl⟩ := hp
              have hcount : ls.count l = 1 := by
                rw [hls, List.count_filter (by simpa using hd), hc]
              have := ih _ _ _ hq hcount (by simp) ha.2 hm.2
              simp only [List.nil_append] at this
              rw [List.flatten_cons, List.filter_append, List.map_append, List.append_assoc, this,
                deliveries_eq, allPairs_filter _ _ _ hcount]
              rfl
  intro h d outs hr ha hm
  have := key h (Disp.add .empty l) d outs hr (by simp [Disp.add, Disp.empty])
    (by simp [Disp.add, Disp.empty]) ha hm
  simpa [Disp.add, Disp.empty] using this

/-- Events dispatched by a sequence of actions. -/
def sysDispatched (as : List (SAct L E)) : List E :=
  as.filterMap fun a => match a with
    | .dispatch e => some e
    | _ => none

/-- Listeners added by a sequence of actions. -/
def sysAdded (as : List (SAct L E)) : List L :=
  as.filterMap fun a => match a with
    | .add l => some l
    | _ => none

/-- Notifications made by `process_events` call `p`, in order. -/
def logOf (p : Nat) (log : List (Nat × E × L)) : List (E × L) :=
  (log.filter fun x => x.1 = p).map Prod.snd

/-- What call `p` has done, given its batch `b` and its copy `ls` of the listeners. -/
def PInv (b : List E) (ls : List L) (out : List (E × L)) : PPc L E → Prop
  | .idle | .purged => out = []
  | .grabbed es => es = b ∧ out = []
  | .delivering todo => out ++ todo = allPairs b ls
  | .finished => out = allPairs b ls

structure SysInv (as : List (SAct L E)) (s : Sys L E) (order : List Nat) (B : Nat → List E)
    (Ls : Nat → List L) : Prop where
  nodup : order.Nodup
  early : ∀ p, p ∈ order ↔ ¬ (s.procs p = .idle ∨ s.procs p = .purged)
  evs : order.flatMap B ++ s.disp.events = sysDispatched as
  ls : s.disp.listeners.Sublist (sysAdded as)
  snap : ∀ p ∈ order, (Ls p).Sublist (sysAdded as)
  procs : ∀ p, PInv (B p) (Ls p) (logOf p s.log) (s.procs p)

theorem logOf_snoc (p q : Nat) (log : List (Nat × E × L)) (x : E × L) :
    logOf p (log ++ [(q, x)]) = if q = p then logOf p log ++ [x] else logOf p log := by
  by_cases h : q = p <;> simp [logOf, List.filter_append, h]

theorem setP_same (f : Nat → PPc L E) (p : Nat) (v : PPc L E) : setP f p v p = v := by simp [setP]
theorem setP_ne (f : Nat → PPc L E) {p q : Nat} (v : PPc L E) (h : q ≠ p) : setP f p v q = f q := by
  simp [setP, h]

theorem purge_sublist {it : Iter} {d d' : Disp L E} (h : d.purge it = some d') :
    d'.listeners.Sublist d.listeners ∧ d'.events = d.events := by
  simp only [Disp.purge] at h
  cases he : eraseLoop it d.deleted [] d.listeners with
  | none => simp [he] at h
  | some ls =>
    have hls := eraseLoop_some _ _ _ he
    simp only [he, Option.some.injEq] at h
    subst h
    exact ⟨by rw [hls]; simp, rfl⟩

theorem flatMap_congr_mem {order : List Nat} {B B' : Nat → List E} (h : ∀ p ∈ order, B p = B' p) :
    order.flatMap B = order.flatMap B' := by
  induction order with
  | nil => rfl
  | cons q o ih =>
    simp only [List.flatMap_cons]
    rw [h q (by simp), ih (fun p hp => h p (List.mem_cons_of_mem _ hp))]

theorem sysInv_step {it : Iter} {as : List (SAct L E)} {a : SAct L E} {s s' : Sys L E}
    {order : List Nat} {B : Nat → List E} {Ls : Nat → List L} (I : SysInv as s order B Ls)
    (h : sysStep it s a = some s') :
    ∃ order' B' Ls', SysInv (as ++ [a]) s' order' B' Ls' := by
  have addEq : ∀ a : SAct L E, sysAdded (as ++ [a]) = sysAdded as ++
      (match a with | .add l => [l] | _ => []) := by
    intro a; simp only [sysAdded, List.filterMap_append]; cases a <;> rfl
  have dispEq : ∀ a : SAct L E, sysDispatched (as ++ [a]) = sysDispatched as ++
      (match a with | .dispatch e => [e] | _ => []) := by
    intro a; simp only [sysDispatched, List.filterMap_append]; cases a <;> rfl
  cases a with
  | add l =>
    simp only [sysStep, Option.some.injEq] at h
    subst h
    refine ⟨order, B, Ls, ⟨I.nodup, I.early, ?_, ?_, ?_, I.procs⟩⟩
    · rw [dispEq]; simpa [Disp.add] using I.evs
    · rw [addEq]; exact I.ls.append_right _
    · intro p hp; rw [addEq]; exact (I.snap p hp).trans (List.sublist_append_left _ _)
  | remove l =>
    simp only [sysStep, Option.some.injEq] at h
    subst h
    refine ⟨order, B, Ls, ⟨I.nodup, I.early, ?_, ?_, ?_, I.procs⟩⟩
    · rw [dispEq]; simpa [Disp.remove] using I.evs
    · rw [addEq]; simpa [Disp.remove] using I.ls
    · intro p hp; rw [addEq]; simpa using I.snap p hp
  | dispatch e =>
    simp only [sysStep, Option.some.injEq] at h
    subst h
    refine ⟨order, B, Ls, ⟨I.nodup, I.early, ?_, ?_, ?_, I.procs⟩⟩
    · rw [dispEq, ← I.evs]; simp [Disp.push]
    · rw [addEq]; simpa [Disp.push] using I.ls
    · intro p hp; rw [addEq]; simpa using I.snap p hp
  | proc p =>
    have hadd := addEq (.proc p)
    have hdis := dispEq (.proc p)
    simp only [List.append_nil] at hadd hdis
    simp only [sysStep, procStep] at h
    have Ip := I.procs p
    split at h
    · -- purge
      rename_i hp
      cases hd : s.disp.purge it with
      | none => simp [hd] at h
      | some d =>
        simp only [hd, Option.some.injEq] at h
        subst h
        obtain ⟨h1, h2⟩ := purge_sublist hd
        refine ⟨order, B, Ls, ⟨I.nodup, ?_, ?_, ?_, ?_, ?_⟩⟩
        · intro q
          by_cases hq : q = p
          · subst hq
            rw [I.early]
            simp [setP_same, hp]
          · rw [I.early]; simp [setP_ne _ _ hq]
        · rw [hdis]; simpa [h2] using I.evs
        · rw [hadd]; exact h1.trans I.ls
        · rw [hadd]; exact I.snap
        · intro q
          by_cases hq : q = p
          · subst hq
            simp only [hp, PInv] at Ip
            simp [setP_same, PInv, Ip]
          · simpa [setP_ne _ _ hq] using I.procs q
    · -- grab
      rename_i hp
      simp only [Option.some.injEq] at h
      subst h
      have hnot : p ∉ order := by rw [I.early]; simp [hp]
      refine ⟨order ++ [p], fun q => if q = p then s.disp.events else B q,
        fun q => if q = p then [] else Ls q, ⟨?_, ?_, ?_, ?_, ?_, ?_⟩⟩
      · rw [List.nodup_append]
        refine ⟨I.nodup, by simp, ?_⟩
        intro a ha b hb
        simp only [List.mem_singleton] at hb
        subst hb
        exact fun e => hnot (e ▸ ha)
      · intro q
        by_cases hq : q = p
        · subst hq; simp [setP_same]
        · simp only [List.mem_append, List.mem_singleton, hq, or_false, setP_ne _ _ hq]
          exact I.early q
      · rw [hdis, ← I.evs, List.flatMap_append]
        have hB : order.flatMap (fun q => if q = p then s.disp.events else B q) = order.flatMap B := by
          apply flatMap_congr_mem
          intro q hq
          have hqp : q ≠ p := fun e => hnot (e ▸ hq)
          simp [hqp]
        rw [hB]
        simp
      · rw [hadd]; exact I.ls
      · intro q hq
        rw [hadd]
        by_cases hqp : q = p
        · simp [hqp]
        · simp only [List.mem_append, List.mem_singleton, hqp, or_false] at hq
          simpa [hqp] using I.snap q hq
      · intro q
        by_cases hq : q = p
        · subst hq
          simp only [hp, PInv] at Ip
          simp [setP_same, PInv, Ip]
        · simpa [setP_ne _ _ hq, hq] using I.procs q
    · -- copy the listeners
      rename_i es hp
      simp only [Option.some.injEq] at h
      subst h
      have hin : p ∈ order := by rw [I.early]; simp [hp]
      refine ⟨order, B, fun q => if q = p then s.disp.listeners else Ls q,
        ⟨I.nodup, ?_, ?_, ?_, ?_, ?_⟩⟩
      · intro q
        by_cases hq : q = p
        · subst hq; simp [setP_same, hin]
        · rw [I.early]; simp [setP_ne _ _ hq]
      · rw [hdis]; exact I.evs
      · rw [hadd]; exact I.ls
      · intro q hq
        rw [hadd]
        by_cases hqp : q = p
        · simpa [hqp] using I.ls
        · simpa [hqp] using I.snap q hq
      · intro q
        by_cases hq : q = p
        · subst hq
          simp only [hp, PInv] at Ip
          simp [setP_same, PInv, Ip.1, Ip.2, deliveries_eq]
        · simpa [setP_ne _ _ hq, hq] using I.procs q
    · -- return
      rename_i hp
      simp only [Option.some.injEq] at h
      subst h
      have hin : p ∈ order := by rw [I.early]; simp [hp]
      refine ⟨order, B, Ls, ⟨I.nodup, ?_, ?_, ?_, ?_, ?_⟩⟩
      · intro q
        by_cases hq : q = p
        · subst hq; simp [setP_same, hin]
        · rw [I.early]; simp [setP_ne _ _ hq]
      · rw [hdis]; exact I.evs
      · rw [hadd]; exact I.ls
      · rw [hadd]; exact I.snap
      · intro q
        by_cases hq : q = p
        · subst hq
          simp only [hp, PInv, List.append_nil] at Ip
          simp [setP_same, PInv, Ip]
        · simpa [setP_ne _ _ hq, hq] using I.procs q
    · -- notify one listener
      rename_i e l todo hp
      simp only [Option.some.injEq] at h
      subst h
      have hin : p ∈ order := by rw [I.early]; simp [hp]
      refine ⟨order, B, Ls, ⟨I.nodup, ?_, ?_, ?_, ?_, ?_⟩⟩
      · intro q
        by_cases hq : q = p
        · subst hq; simp [setP_same, hin]
        · rw [I.early]; simp [setP_ne _ _ hq]
      · rw [hdis]; exact I.evs
      · rw [hadd]; exact I.ls
      · rw [hadd]; exact I.snap
      · intro q
        simp only [logOf_snoc]
        by_cases hq : q = p
        · subst hq
          simp only [hp, PInv] at Ip
          simp [setP_same, PInv, ← Ip]
        · simpa [setP_ne _ _ hq, Ne.symm hq] using I.procs q
    · simp only [Option.some.injEq] at h
      subst h
      refine ⟨order, B, Ls, ⟨I.nodup, I.early, ?_, ?_, ?_, I.procs⟩⟩
      · rw [hdis]; exact I.evs
      · rw [hadd]; exact I.ls
      · rw [hadd]; exact I.snap

/-- **C11**, with any number of `process_events` calls in progress at once and anything happening
between their critical sections and notifications (other threads, or listeners calling back into
the dispatcher).  There is an order of the calls that took events and a batch `B p` of events for
each, such that the batches in that order, followed by the events still queued, are exactly the
dispatched events in dispatch order: every event is in one batch, once.  Call `p` notifies, in
order, every event of its batch to every listener of the copy `Ls p` it took, and nothing else;
once it has returned it has notified all of them. -/
theorem C11_concurrent {it : Iter} {as : List (SAct L E)} {s : Sys L E}
    (h : sysRun it .init as = some s) :
    ∃ (order : List Nat) (B : Nat → List E) (Ls : Nat → List L),
      order.Nodup ∧ order.flatMap B ++ s.disp.events = sysDispatched as ∧
      (∀ p ∈ order, (Ls p).Sublist (sysAdded as)) ∧
      (∀ p, p ∉ order → logOf p s.log = []) ∧
      (∀ p ∈ order, logOf p s.log <+: allPairs (B p) (Ls p)) ∧
      (∀ p, s.procs p = .finished → p ∈ order ∧ logOf p s.log = allPairs (B p) (Ls p)) := by
  have key : ∀ (as as0 : List (SAct L E)) (s0 s : Sys L E) (order : List Nat) (B : Nat → List E)
      (Ls : Nat → List L), SysInv as0 s0 order B Ls → sysRun it s0 as = some s →
      ∃ order B Ls, SysInv (as0 ++ as) s order B Ls := by
    intro as
    induction as with
    | nil =>
      intro as0 s0 s order B Ls I hr
      simp only [sysRun, Option.some.injEq] at hr
      subst hr
      exact ⟨order, B, Ls, by simpa using I⟩
    | cons a as ih =>
      intro as0 s0 s order B Ls I hr
      simp only [sysRun] at hr
      split at hr
      · cases hr
      · rename_i s1 h1
        obtain ⟨o, b, l, I'⟩ := sysInv_step I h1
        have := ih (as0 ++ [a]) s1 s o b l I' hr
        simpa using this
  obtain ⟨order, B, Ls, I⟩ := key as [] .init s [] (fun _ => []) (fun _ => [])
    ⟨by simp, by simp [Sys.init], rfl, by simp [Sys.init, Disp.empty], by simp,
      fun p => by simp [Sys.init, PInv, logOf]⟩ h
  rw [List.nil_append] at I
  refine ⟨order, B, Ls, I.nodup, I.evs, I.snap, ?_, ?_, ?_⟩
  · intro p hp
    rw [I.early, not_not] at hp
    have := I.procs p
    rcases hp with hp | hp <;> simpa [hp, PInv] using this
  · intro p _
    have := I.procs p
    cases hp : s.procs p with
    | idle => simp only [hp, PInv] at this; simp [this]
    | purged => simp only [hp, PInv] at this; simp [this]
    | grabbed es => simp only [hp, PInv] at this; simp [this.2]
    | delivering todo => simp only [hp, PInv] at this; exact ⟨todo, this⟩
    | finished => simp only [hp, PInv] at this; simp [this]
  · intro p hp
    have := I.procs p
    simp only [hp, PInv] at this
    refine ⟨?_, this⟩
    rw [I.early]
    simp [hp]

-- two calls overlap; a listener is added and an event dispatched while they run
example : ∃ s, sysRun .strict (.init : Sys Nat Nat)
    [.add 1, .dispatch 7, .proc 0, .dispatch 8, .proc 0, .proc 1, .add 2, .dispatch 9, .proc 1,
     .proc 0, .proc 1, .proc 1, .proc 0, .proc 0, .proc 1] = some s ∧
    s.log = [(1, 9, 1), (0, 7, 1), (0, 7, 2), (1, 9, 2)] := ⟨_, rfl, rfl⟩

/-! ### C12 -/

theorem mem_registered {h : List (Call L E)} {l : L} :
    l ∈ registered h ↔ ∃ p < h.length, survivor h p = some l := by
  simp [registered, List.mem_filterMap]

theorem survivor_some {h : List (Call L E)} {p : Nat} {l : L} (hs : survivor h p = some l) :
    h[p]? = some (.add l) ∧ Call.remove l ∉ lastSeg (h.take p) ++ h.drop (p + 1) := by
  unfold survivor at hs
  cases hp : h[p]? with
  | none => simp [hp] at hs
  | some c =>
    cases c with
    | add x =>
      simp only [hp] at hs
      split at hs
      · cases hs
      · rename_i hn
        simp only [Option.some.injEq] at hs
        subst hs
        exact ⟨rfl, hn⟩
    | _ => simp [hp] at hs

/-- **C12**.  After `remove_listener(l)`, a later `process_events` call notifies `l` only if it was
added again in between. -/
theorem C12_removed_not_notified {it : Iter} {h1 h2 h3 : List (Call L E)} {l : L} {d : Disp L E}
    {outs : List (List (E × L))}
    (hr : runCalls it .empty (h1 ++ .remove l :: (h2 ++ .process :: h3)) = some (d, outs))
    (hn : Call.add l ∉ h2) :
    ∃ out, outs[(h1 ++ .remove l :: h2).count .process]? = some out ∧ ∀ x ∈ out, x.2 ≠ l := by
  have h := (C11_process_notifies hr).2 (h1 ++ .remove l :: h2) h3 (by simp)
  refine ⟨_, h, ?_⟩
  rintro ⟨e, x⟩ hx rfl
  simp only [allPairs, List.mem_flatMap, List.mem_map, Prod.mk.injEq] at hx
  obtain ⟨e', _, x', hx', rfl, rfl⟩ := hx
  obtain ⟨p, hp, hs⟩ := mem_registered.1 hx'
  obtain ⟨ha, hnr⟩ := survivor_some hs
  by_cases hlt : p < h1.length
  · apply hnr
    apply List.mem_append_right
    rw [List.drop_append_of_le_length (by omega)]
    apply List.mem_append_right
    simp
  · by_cases heq : p = h1.length
    · subst heq
      simp at ha
    · rw [List.getElem?_append_right (by omega)] at ha
      obtain ⟨k, hk⟩ : ∃ k, p - h1.length = k + 1 := ⟨p - h1.length - 1, by omega⟩
      rw [hk, List.getElem?_cons_succ] at ha
      exact hn (List.mem_of_getElem? ha)

/-- Dispatchers that differ at most in listener `l`. -/
structure SameBut (l : L) (d d' : Disp L E) : Prop where
  ls : d.listeners.filter (· ≠ l) = d'.listeners.filter (· ≠ l)
  del : ∀ x, x ≠ l → (x ∈ d.deleted ↔ x ∈ d'.deleted)
  evs : d.events = d'.events

theorem allPairs_other (es : List E) (ls : List L) (l : L) :
    (allPairs es ls).filter (fun p => p.2 ≠ l) = allPairs es (ls.filter (· ≠ l)) := by
  induction es with
  | nil => rfl
  | cons e es ih =>
    simp only [allPairs, List.flatMap_cons, List.filter_append] at ih ⊢
    rw [ih, List.filter_map]
    rfl

theorem sameBut_process {it it' : Iter} {l : L} {d d' d1 d1' : Disp L E} {o o' : List (E × L)}
    (s : SameBut l d d') (h : d.process it = some (d1, o)) (h' : d'.process it' = some (d1', o')) :
    SameBut l d1 d1' ∧ o.filter (fun p => p.2 ≠ l) = o'.filter (fun p => p.2 ≠ l) := by
  simp only [Disp.process, Disp.purge] at h h'
  cases he : eraseLoop it d.deleted [] d.listeners with
  | none => simp [he] at h
  | some ls =>
    cases he' : eraseLoop it' d'.deleted [] d'.listeners with
    | none => simp [he'] at h'
    | some ls' =>
      have hls := eraseLoop_some _ _ _ he
      have hls' := eraseLoop_some _ _ _ he'
      simp only [List.nil_append] at hls hls'
      simp only [he, Option.some.injEq, Prod.mk.injEq] at h
      simp only [he', Option.some.injEq, Prod.mk.injEq] at h'
      obtain ⟨rfl, rfl⟩ := h
      obtain ⟨rfl, rfl⟩ := h'
      have hfil : ls.filter (· ≠ l) = ls'.filter (· ≠ l) := by
        have swap : ∀ (xs del : List L), (xs.filter (fun x => x ∉ del)).filter (· ≠ l) =
            (xs.filter (· ≠ l)).filter (fun x => x ∉ del) := by
          intro xs del
          rw [List.filter_filter, List.filter_filter]
          apply List.filter_congr
          intro x _
          exact Bool.and_comm ..
        rw [hls, hls', swap, swap, s.ls]
        apply List.filter_congr
        intro x hx
        have hx' : x ≠ l := by simpa using (List.mem_filter.1 hx).2
        simp [s.del x hx']
      refine ⟨⟨hfil, by simp, rfl⟩, ?_⟩
      rw [deliveries_eq, deliveries_eq, allPairs_other, allPairs_other, hfil, s.evs]

theorem runCalls_sameBut {it it' : Iter} {l : L} :
    ∀ (h : List (Call L E)) (d d' d1 d1' : Disp L E) (o o' : List (List (E × L))),
      SameBut l d d' → runCalls it d h = some (d1, o) → runCalls it' d' h = some (d1', o') →
      o.map (List.filter fun p => p.2 ≠ l) = o'.map (List.filter fun p => p.2 ≠ l) := by
  intro h
  induction h with
  | nil =>
    intro d d' d1 d1' o o' _ hr hr'
    simp only [runCalls, Option.some.injEq, Prod.mk.injEq] at hr hr'
    rw [← hr.2, ← hr'.2]
  | cons c h ih =>
    intro d d' d1 d1' o o' s hr hr'
    cases c with
    | add x =>
      refine ih (d.add x) (d'.add x) _ _ _ _ ⟨?_, s.del, s.evs⟩ hr hr'
      simp only [Disp.add, List.filter_append, s.ls]
    | remove x =>
      refine ih (d.remove x) (d'.remove x) _ _ _ _ ⟨s.ls, ?_, s.evs⟩ hr hr'
      intro y hy
      simp [Disp.remove, s.del y hy]
    | dispatch e =>
      refine ih (d.push e) (d'.push e) _ _ _ _ ⟨s.ls, s.del, ?_⟩ hr hr'
      simp [Disp.push, s.evs]
    | process =>
      simp only [runCalls] at hr hr'
      cases hp : d.process it with
      | none => simp [hp] at hr
      | some x =>
        cases hp' : d'.process it' with
        | none => simp [hp'] at hr'
        | some x' =>
          obtain ⟨e1, out⟩ := x
          obtain ⟨e1', out'⟩ := x'
          simp only [hp] at hr
          simp only [hp'] at hr'
          cases hq : runCalls it e1 h with
          | none => simp [hq] at hr
          | some y =>
            cases hq' : runCalls it' e1' h with
            | none => simp [hq'] at hr'
            | some y' =>
              obtain ⟨e2, outs⟩ := y
              obtain ⟨e2', outs'⟩ := y'
              simp only [hq, Option.some.injEq, Prod.mk.injEq] at hr
              simp only [hq', Option.some.injEq, Prod.mk.injEq] at hr'
              obtain ⟨rfl, rfl⟩ := hr
              obtain ⟨rfl, rfl⟩ := hr'
              obtain ⟨s1, ho⟩ := sameBut_process s hp hp'
              rw [List.map_cons, List.map_cons, ih _ _ _ _ _ _ s1 hq hq', ho]

theorem runCalls_append {it : Iter} : ∀ (h h' : List (Call L E)) (d d2 : Disp L E)
    (outs : List (List (E × L))), runCalls it d (h ++ h') = some (d2, outs) →
    ∃ d1 o1 o2, runCalls it d h = some (d1, o1) ∧ runCalls it d1 h' = some (d2, o2) ∧
      outs = o1 ++ o2 := by
  intro h
  induction h with
  | nil => intro h' d d2 outs hr; exact ⟨d, [], outs, rfl, hr, rfl⟩
  | cons c h ih =>
    intro h' d d2 outs hr
    cases c with
    | add l => exact ih h' _ _ _ hr
    | remove l => exact ih h' _ _ _ hr
    | dispatch e => exact ih h' _ _ _ hr
    | process =>
      simp only [List.cons_append, runCalls] at hr ⊢
      cases hp : d.process it with
      | none => simp [hp] at hr
      | some x =>
        obtain ⟨e1, out⟩ := x
        simp only [hp] at hr ⊢
        cases hq : runCalls it e1 (h ++ h') with
        | none => simp [hq] at hr
        | some y =>
          obtain ⟨e2, outs'⟩ := y
          simp only [hq, Option.some.injEq, Prod.mk.injEq] at hr
          obtain ⟨rfl, rfl⟩ := hr
          obtain ⟨d1, o1, o2, a, b, rfl⟩ := ih h' _ _ _ hq
          exact ⟨d1, out :: o1, o2, by simp [a], b, rfl⟩

/-- **C12**.  Removing `l` does not change what the other listeners are told, by any
`process_events` call of any history. -/
theorem C12_others_unaffected {it : Iter} {h1 h2 : List (Call L E)} {l : L} {d d' : Disp L E}
    {outs outs' : List (List (E × L))}
    (hr : runCalls it .empty (h1 ++ .remove l :: h2) = some (d, outs))
    (hr' : runCalls it .empty (h1 ++ h2) = some (d', outs')) :
    outs.map (List.filter fun p => p.2 ≠ l) = outs'.map (List.filter fun p => p.2 ≠ l) := by
  obtain ⟨d1, o1, o2, a, b, rfl⟩ := runCalls_append _ _ _ _ _ hr
  obtain ⟨d1', o1', o2', a', b', rfl⟩ := runCalls_append _ _ _ _ _ hr'
  rw [a] at a'
  simp only [Option.some.injEq, Prod.mk.injEq] at a'
  obtain ⟨rfl, rfl⟩ := a'
  rw [List.map_append, List.map_append]
  congr 1
  refine runCalls_sameBut h2 (d1.remove l) d1 _ _ _ _ ⟨rfl, ?_, rfl⟩ b b'
  intro x hx
  simp [Disp.remove, hx]

example : (runCalls .strict (.empty : Disp Nat Nat)
      ([.add 1, .add 2] ++ .remove 2 :: ([.dispatch 5] ++ .process :: []))).isSome ∧
    (runCalls .strict (.empty : Disp Nat Nat) ([.add 1, .add 2] ++ [.dispatch 5, .process])).isSome := by
  decide

/-! ### C13 -/

/-- **C13** (partial).  A listener whose last call is `add_listener` is notified of all pending
events, provided no `remove_listener` for it came between the previous `process_events` and that
`add_listener`.  Missing: that case, where the claim is false (`C13_readded_listener_lost`). -/
theorem C13_added_is_notified_partial {it : Iter} {h1 h2 h3 : List (Call L E)} {l : L}
    {d : Disp L E} {outs : List (List (E × L))}
    (hr : runCalls it .empty (h1 ++ .add l :: (h2 ++ .process :: h3)) = some (d, outs))
    (hn : Call.remove l ∉ h2) (hs : Call.remove l ∉ lastSeg h1) :
    ∃ out, outs[(h1 ++ .add l :: h2).count .process]? = some out ∧
      ∀ e ∈ pending (h1 ++ .add l :: h2), (e, l) ∈ out := by
  have h := (C11_process_notifies hr).2 (h1 ++ .add l :: h2) h3 (by simp)
  refine ⟨_, h, ?_⟩
  intro e he
  simp only [allPairs, List.mem_flatMap, List.mem_map, Prod.mk.injEq]
  refine ⟨e, he, l, mem_registered.2 ⟨h1.length, by simp, ?_⟩, rfl, rfl⟩
  unfold survivor
  have e1 : (h1 ++ Call.add l :: h2)[h1.length]? = some (.add l) := by simp
  have e2 : (h1 ++ Call.add l :: h2).take h1.length = h1 := by simp
  have e3 : (h1 ++ Call.add l :: h2).drop (h1.length + 1) = h2 := by
    rw [List.drop_append]; simp
  rw [e1, e2, e3]
  simp only
  rw [if_neg]
  rw [List.mem_append, not_or]
  exact ⟨hs, hn⟩

example : ∃ x, runCalls .strict (.empty : Disp Nat Nat)
      ([.add 1, .add 2, .remove 2, .process] ++ .add 2 :: ([.dispatch 5] ++ .process :: [])) = some x ∧
    Call.remove 2 ∉ lastSeg ([.add 1, .add 2, .remove 2, .process] : List (Call Nat Nat)) :=
  ⟨_, rfl, by decide⟩

/-- **C13 is false**: a listener that is removed and added again before `process_events` gets
nothing, although its last call is `add_listener`. -/
theorem C13_readded_listener_lost :
    ∃ d, runCalls .strict (.empty : Disp Nat Nat)
      [.add 1, .add 2, .remove 2, .add 2, .dispatch 5, .process] = some (d, [[(5, 1)]]) :=
  ⟨_, rfl⟩

/-! ### C14 -/

/-- **C14** (partial).  `process_events` has undefined behaviour exactly when the first listener
of the list is among the removed ones; in every other state it completes.  Missing: that state,
where the claim is false (`C14_remove_first_listener_ub`). -/
theorem C14_ub_iff_partial (d : Disp L E) :
    d.process .strict = none ↔ ∃ l ls, d.listeners = l :: ls ∧ l ∈ d.deleted := by
  have h : d.process .strict = none ↔ eraseLoop .strict d.deleted [] d.listeners = none := by
    simp only [Disp.process, Disp.purge]
    cases eraseLoop .strict d.deleted [] d.listeners <;> simp
  rw [h]
  cases hl : d.listeners with
  | nil => simp [eraseLoop]
  | cons l ls =>
    rw [eraseLoop]
    by_cases hd : l ∈ d.deleted
    · simp [hd]
    · rw [if_neg hd]
      have := eraseLoop_cons_some (it := .strict) (del := d.deleted) ls l []
      simp only [List.nil_append]
      constructor
      · intro hn; rw [hn] at this; cases this
      · rintro ⟨x, xs, he, hx⟩
        simp only [List.cons.injEq] at he
        rw [← he.1] at hx
        exact absurd hx hd

/-- **C14 is false**: adding a listener, removing it and processing is undefined behaviour. -/
theorem C14_remove_first_listener_ub :
    runCalls .strict (.empty : Disp Nat Nat) [.add 1, .remove 1, .process] = none := rfl

/-- On an implementation whose lists are circular the loop completes in every state. -/
theorem C14_circular_completes (d : Disp L E) : (d.process .circular).isSome := by
  have := eraseLoop_circular (del := d.deleted) d.listeners []
  simp only [Disp.process, Disp.purge]
  cases h : eraseLoop .circular d.deleted [] d.listeners with
  | none => rw [h] at this; cases this
  | some ls => rfl

/-! ### C15 -/

/-- **C15**.  `dispatch` notifies each registration once, in order. -/
theorem C15_dispatch_in_order (ls : List L) (e : E) :
    simpleDispatch ls e = ls.map fun l => (e, l) := simpleDispatch_eq ls e

/-- **C15**.  `remove_listener` drops the earliest registration of the listener and nothing else. -/
theorem C15_remove_earliest (A B : List L) (l : L) (h : l ∉ A) :
    simpleRemove (A ++ l :: B) l = A ++ B := by
  induction A with
  | nil => simp [simpleRemove]
  | cons a A ih =>
    simp only [List.mem_cons, not_or] at h
    simp [simpleRemove, Ne.symm h.1, ih h.2]

/-- **C15**.  Removing an unknown listener does nothing. -/
theorem C15_remove_unknown (ls : List L) (l : L) (h : l ∉ ls) : simpleRemove ls l = ls := by
  induction ls with
  | nil => rfl
  | cons a A ih =>
    simp only [List.mem_cons, not_or] at h
    simp [simpleRemove, Ne.symm h.1, ih h.2]

/-- State of an EventDispatcher after add/remove calls. -/
def simpleRun (ls : List L) : List (Op L) → List L
  | [] => ls
  | .add l :: h => simpleRun (simpleAdd ls l) h
  | .remove l :: h => simpleRun (simpleRemove ls l) h

theorem simpleRemove_eq_erase (ls : List L) (l : L) : simpleRemove ls l = ls.erase l := by
  induction ls with
  | nil => rfl
  | cons a A ih => by_cases h : a = l <;> simp [simpleRemove, List.erase_cons, h, ih]

/-- Net number of registrations of `l`: an add counts one, a remove takes one away if there is
one. -/
def netCount (l : L) (k : Nat) : List (Op L) → Nat
  | [] => k
  | .add x :: h => netCount l (if x = l then k + 1 else k) h
  | .remove x :: h => netCount l (if x = l then k - 1 else k) h

/-- **C15**.  After any history of adds and removes, the number of times a dispatched event
reaches listener `l` is the net number of its registrations, and listeners are notified in the
order of the `add_listener` calls. -/
theorem C15_history (h : List (Op L)) (e : E) (l : L) :
    ((simpleDispatch (simpleRun [] h) e).filter (fun p => p.2 = l)).length = netCount l 0 h ∧
    ((simpleDispatch (simpleRun [] h) e).map Prod.snd).Sublist
      (h.filterMap fun o => match o with | .add x => some x | .remove _ => none) := by
  have key : ∀ (h : List (Op L)) (ls : List L),
      (simpleRun ls h).count l = netCount l (ls.count l) h ∧
      (simpleRun ls h).Sublist
        (ls ++ h.filterMap fun o => match o with | .add x => some x | .remove _ => none) := by
    intro h
    induction h with
    | nil => intro ls; simp [simpleRun, netCount]
    | cons o h ih =>
      intro ls
      cases o with
      | add x =>
        obtain ⟨h1, h2⟩ := ih (simpleAdd ls x)
        refine ⟨?_, by simpa [simpleRun, simpleAdd] using h2⟩
        rw [simpleRun, h1, netCount, simpleAdd, List.count_append, List.count_singleton]
        congr 1
        by_cases hx : x = l <;> simp [hx]
      | remove x =>
        obtain ⟨h1, h2⟩ := ih (simpleRemove ls x)
        constructor
        · rw [simpleRun, h1, netCount, simpleRemove_eq_erase, List.count_erase]
          congr 1
          by_cases hx : x = l <;> simp [hx]
        · rw [simpleRun]
          refine h2.trans ?_
          rw [simpleRemove_eq_erase, List.filterMap_cons]
          exact (List.erase_sublist).append_right _
  have h1 := key h []
  rw [simpleDispatch_eq]
  constructor
  · rw [List.filter_map, List.length_map]
    have h2 := h1.1
    rw [List.count_nil] at h2
    rw [← h2, List.count_eq_length_filter]
    congr 1
  · rw [List.map_map]
    have : (Prod.snd ∘ fun l : L => (e, l)) = id := rfl
    rw [this, List.map_id]
    simpa using h1.2

example : simpleDispatch (simpleRun [] [Op.add 1, .add 2, .add 1, .remove 1, .remove 3]) 7 =
    [(7, 2), (7, 1)] := rfl

/-! ### C16 -/

/-- **C16**.  On the creating thread `dispatch` returns with everything that was queued, then the
new event, delivered to the listeners in force; nothing stays queued. -/
theorem C16_own_thread_synchronous {it : Iter} {owner : Nat} {h : List (Call L E)}
    {d d' : Disp L E} {out : List (E × L)} (e : E) (r : Rep h d)
    (hc : sameDispatch it owner owner d e = some (d', out)) :
    out = allPairs (pending h ++ [e]) (registered h) ∧ d'.events = [] := by
  simp only [sameDispatch, if_true] at hc
  obtain ⟨r', ho, _⟩ := (r.push e).process hc
  rw [ho, pending_snoc _ _ (by simp), registered_snoc]
  refine ⟨?_, ?_⟩
  · simp
  · rw [r'.evs, pending, lastSeg_process]; rfl

/-- **C16**.  On another thread `dispatch` calls no listener and the event is queued last. -/
theorem C16_other_thread_queues {it : Iter} {owner tid : Nat} (ht : tid ≠ owner)
    (d : Disp L E) (e : E) :
    sameDispatch it owner tid d e = some ({ d with events := d.events ++ [e] }, []) := by
  simp [sameDispatch, ht, Disp.push]

/-- Unfolds every call of the owner that triggers processing into the dispatcher's own calls. -/
def flatten (owner : Nat) : List (Nat × Call L E) → List (Call L E)
  | [] => []
  | (tid, .dispatch e) :: h =>
    if tid = owner then .dispatch e :: .process :: flatten owner h
    else .dispatch e :: flatten owner h
  | (_, c) :: h => c :: flatten owner h

/-- **C16**.  A SameThreadEventDispatcher behaves, in every history of calls from any threads, like
a ThreadSafeEventDispatcher on which the creating thread follows each of its dispatches by
`process_events`: the same notifications in the same order. -/
theorem C16_refines {it : Iter} {owner : Nat} :
    ∀ (h : List (Nat × Call L E)) (d : Disp L E),
      (sameRun it owner d h).map (fun x => (x.1, x.2.flatten)) =
        (runCalls it d (flatten owner h)).map (fun x => (x.1, x.2.flatten)) := by
  intro h
  induction h with
  | nil => intro d; rfl
  | cons c h ih =>
    intro d
    obtain ⟨tid, c⟩ := c
    have lift : ∀ (d1 : Disp L E) (out : List (E × L)),
        (Option.map (fun x : Disp L E × List (List (E × L)) => (x.1, x.2.flatten))
          (match sameRun it owner d1 h with
            | none => none
            | some (d'', outs) => some (d'', out :: outs))) =
        (runCalls it d1 (flatten owner h)).map (fun x => (x.1, out ++ x.2.flatten)) := by
      intro d1 out
      have := ih d1
      cases hs : sameRun it owner d1 h with
      | none =>
        rw [hs] at this
        cases hq : runCalls it d1 (flatten owner h) with
        | none => rfl
        | some y => rw [hq] at this; cases this
      | some x =>
        rw [hs] at this
        cases hq : runCalls it d1 (flatten owner h) with
        | none => rw [hq] at this; cases this
        | some y =>
          rw [hq] at this
          simp only [Option.map_some, Option.some.injEq, Prod.mk.injEq] at this
          simp [this.1, this.2]
    have proc : ∀ (d1 : Disp L E),
        (Option.map (fun x : Disp L E × List (List (E × L)) => (x.1, x.2.flatten))
          (match d1.process it with
            | none => none
            | some (d', out) =>
              match sameRun it owner d' h with
              | none => none
              | some (d'', outs) => some (d'', out :: outs))) =
        (runCalls it d1 (.process :: flatten owner h)).map (fun x => (x.1, x.2.flatten)) := by
      intro d1
      simp only [runCalls]
      cases hp : d1.process it with
      | none => rfl
      | some x =>
        obtain ⟨d2, out⟩ := x
        simp only
        rw [lift d2 out]
        cases runCalls it d2 (flatten owner h) with
        | none => rfl
        | some y => simp
    cases c with
    | add l =>
      simp only [sameRun, sameCall, flatten, runCalls]
      exact (lift _ _).trans (by simp)
    | remove l =>
      simp only [sameRun, sameCall, flatten, runCalls]
      exact (lift _ _).trans (by simp)
    | dispatch e =>
      by_cases ht : tid = owner
      · simp only [sameRun, sameCall, sameDispatch, flatten, ht, if_true]
        exact proc _
      · simp only [sameRun, sameCall, sameDispatch, flatten, ht, if_false, runCalls]
        exact (lift _ _).trans (by simp)
    | process =>
      simp only [sameRun, sameCall, flatten]
      exact proc d

example : ∃ d, sameRun .strict 0 (.empty : Disp Nat Nat)
    [(0, .add 1), (3, .dispatch 7), (2, .dispatch 8), (0, .dispatch 9)] =
    some (d, [[], [], [], [(7, 1), (8, 1), (9, 1)]]) := ⟨_, rfl⟩

end Verif.Events
