import Verif.Props.Races
import Mathlib.Algebra.BigOperators.Group.Finset.Basic
import Mathlib.Algebra.Order.BigOperators.Group.Finset
import Mathlib.Order.Interval.Finset.Nat
import Mathlib.Algebra.BigOperators.Intervals
import Mathlib.Data.Finset.Image

/-!
# C121: no deadlock

Single lock operations, with listeners that call back into the dispatcher and with other threads that use it.
-/

namespace Verif.Races

open Finset

/-! ### Specification -/

/-- All threads have ended. -/
def Done (s : St) : Prop := ∀ t, s.prog t = []

/-- The calling thread would wake up from the wait for a result without having been told of one (LDA.cpp:285). -/
def Spurious (s : St) (t : Tid) : Prop := (∃ p, s.prog t = .wake :: p) ∧ s.asleep = true

open Classical in
/-- How often in a schedule a wait ends without reason. -/
noncomputable def spurious (x : St × Trace) : List Tid → ℕ
  | [] => 0
  | t :: ts => (if Spurious x.1 t then 1 else 0) + ((exec1 x t).map fun y => spurious y ts).getD 0

/-! ### A measure for what is left to do -/

/-- The weight of an instruction: a bound of the steps that it takes, without steps for others. -/
def wt : Instr → ℕ
  | .op (.spawn _) => 5
  | .op _ => 1
  | .fill n => 1 + 34 * n
  | .take => 3
  | .raise => 10
  | .emit => 5
  | .emitOwn => 5
  | .push => 1
  | .signal => 7
  | .wake => 1
  | .test c k => 24 + 23 * c.docEvents k
  | .drain _ => 7
  | .notify _ _ => 4

/-- The weight of a program. -/
def wts (p : List Instr) : ℕ := (p.map wt).sum

@[simp] theorem wts_nil : wts [] = 0 := rfl
@[simp] theorem wts_cons (i : Instr) (p : List Instr) : wts (i :: p) = wt i + wts p := rfl
@[simp] theorem wts_append (p q : List Instr) : wts (p ++ q) = wts p + wts q := by simp [wts]

theorem wts_processEvents (own : Bool) : wts (processEvents own) = 14 := rfl

theorem wts_dispatchMain (own : Bool) : wts (dispatchMain own) ≤ 23 := by
  cases own <;> decide

theorem wts_dispatches (c : Call) : ∀ k, wts (c.dispatches k) ≤ 23 * k
  | 0 => le_refl _
  | k + 1 => by
    have h1 := wts_dispatches c k
    have h2 := wts_dispatchMain c.owner
    simp only [Call.dispatches, Call.dispatch, wts_append]
    omega

theorem wts_consume (c : Call) (k : ℕ) (l : Loc) : wts (c.consume k l) ≤ 19 + 23 * c.docEvents k := by
  have h := wts_dispatches c (c.docEvents k)
  unfold Call.consume
  split
  · simp only [wts_append, wts_processEvents, wts_cons, wts_nil, wt]
    split <;> simp only [wts_cons, wts_nil, wt] <;> omega
  · simp only [wts_append, wts_processEvents, wts_cons, wts_nil, wt]
    omega

theorem wts_inside (own : Bool) (r : Req) : wts (r.inside own) ≤ 23 := by
  cases r with
  | dispatch => exact wts_dispatchMain own
  | _ => exact (by decide : 3 ≤ 23)

theorem wts_insides (own : Bool) : ∀ rs : List Req, wts (rs.flatMap (Req.inside own)) ≤ 23 * rs.length
  | [] => le_refl _
  | r :: rs => by
    have h1 := wts_inside own r
    have h2 := wts_insides own rs
    simp only [List.flatMap_cons, wts_append, List.length_cons]
    omega

theorem wts_notifies (own : Bool) (q : List Loc) : wts (q.map (.notify · own)) = 4 * q.length := by
  induction q with
  | nil => rfl
  | cons l q ih => simp only [List.map_cons, wts_cons, wt, ih, List.length_cons]; omega

/-- The weight of what listeners will still ask for. -/
def cbs (K : ℕ) (s : St) : ℕ := ∑ k ∈ Ico s.nc K, 23 * (s.listen k).length

/-- The weight of a wait. -/
def credit : Bool → ℕ
  | true => 0
  | false => 6

/-- The weight of a state; `T` contains all threads. -/
def load (T : Finset Tid) (K : ℕ) (s : St) : ℕ :=
  ∑ t ∈ T, wts (s.prog t) + 34 * s.qin.length + 4 * s.evq.length + cbs K s + credit s.asleep

theorem sum_set {T : Finset Tid} {t : Tid} (ht : t ∈ T) (f : List Instr → ℕ) {s s' : St}
    (ho : ∀ u, u ≠ t → s'.prog u = s.prog u) :
    ∑ u ∈ T, f (s'.prog u) + f (s.prog t) = ∑ u ∈ T, f (s.prog u) + f (s'.prog t) := by
  rw [← Finset.add_sum_erase T (fun u => f (s'.prog u)) ht, ← Finset.add_sum_erase T (fun u => f (s.prog u)) ht]
  have : ∑ u ∈ T.erase t, f (s'.prog u) = ∑ u ∈ T.erase t, f (s.prog u) :=
    Finset.sum_congr rfl fun u hu => by rw [ho u (Finset.ne_of_mem_erase hu)]
  omega

/-- Every step makes the rest lighter, except waking up without reason. -/
theorem load_step {T : Finset Tid} {K : ℕ} {s s' : St} {t : Tid} {oo : Option Op}
    (hT : ∀ t, s.prog t ≠ [] → t ∈ T) (hK : ∀ k, K ≤ k → s.listen k = [])
    (hA : ∀ c k p, s.prog t = .test c k :: p → s.asleep = false) (hs : step s t = some (s', oo)) :
    (¬ Spurious s t ∧ load T K s' + 1 ≤ load T K s) ∨ (Spurious s t ∧ load T K s' = load T K s + 5) := by
  have hne : s.prog t ≠ [] := by
    intro h
    unfold step at hs
    split at hs <;> first | (cases hs; done) | simp_all
  have ht := hT t hne
  have nospin : (∀ p, s.prog t ≠ .wake :: p) → ¬ Spurious s t := by
    rintro h ⟨⟨p, hp⟩, _⟩; exact h p hp
  have key : ∀ (p' : List Instr) (s'' : St), s''.prog = (s.setProg t p').prog →
      ∑ u ∈ T, wts (s''.prog u) + wts (s.prog t) = ∑ u ∈ T, wts (s.prog u) + wts p' := by
    intro p' s'' h
    have := sum_set (T := T) ht wts (s := s) (s' := s'') (fun u hu => by rw [h]; exact setProg_ne s p' hu)
    rw [this, h, setProg_same]
  unfold step at hs
  split at hs
  · cases hs
  · next m p hp =>
    split at hs <;> cases hs
    refine .inl ⟨nospin (by simp [hp]), ?_⟩
    have := key p { s.setProg t p with owner := fun x => if x = m then some t else s.owner x } rfl
    rw [hp] at this
    simp only [wts_cons, wt] at this
    simp only [load, cbs, St.setProg] at this ⊢
    omega
  · next m p hp =>
    cases hs
    refine .inl ⟨nospin (by simp [hp]), ?_⟩
    have := key p { s.setProg t p with owner := fun x => if x = m then none else s.owner x } rfl
    rw [hp] at this
    simp only [wts_cons, wt] at this
    simp only [load, cbs, St.setProg] at this ⊢
    omega
  · next j p hp =>
    cases hs
    refine .inl ⟨nospin (by simp [hp]), ?_⟩
    have h1 := key p (s.setProg t p) rfl
    rw [hp] at h1
    simp only [wts_cons, wt] at h1
    have h2 : ∑ u ∈ T, wts (((s.setProg t p).setProg (.worker j) workerStart).prog u)
        ≤ ∑ u ∈ T, wts ((s.setProg t p).prog u) + 4 := by
      by_cases hj : Tid.worker j ∈ T
      · have := sum_set hj wts (s := s.setProg t p) (s' := (s.setProg t p).setProg (.worker j) workerStart)
          (fun u hu => setProg_ne _ _ hu)
        rw [setProg_same] at this
        have hw : wts workerStart = 4 := rfl
        omega
      · refine le_of_eq_of_le (Finset.sum_congr rfl fun u hu => ?_) (Nat.le_add_right _ 4)
        rw [setProg_ne]
        rintro rfl; exact hj hu
    simp only [load]
    have h6 : ((s.setProg t p).setProg (.worker j) workerStart).asleep = s.asleep := rfl
    have h3 : cbs K ((s.setProg t p).setProg (.worker j) workerStart) = cbs K s := rfl
    have h4 : ((s.setProg t p).setProg (.worker j) workerStart).qin = s.qin := rfl
    have h5 : ((s.setProg t p).setProg (.worker j) workerStart).evq = s.evq := rfl
    rw [h3, h4, h5, h6]
    omega
  · next j p hp =>
    split at hs <;> cases hs
    refine .inl ⟨nospin (by simp [hp]), ?_⟩
    have := key p (s.setProg t p) rfl
    rw [hp] at this
    simp only [wts_cons, wt] at this
    simp only [load, cbs, St.setProg] at this ⊢
    omega
  · next l p hp =>
    cases hs
    refine .inl ⟨nospin (by simp [hp]), ?_⟩
    have := key p (s.setProg t p) rfl
    rw [hp] at this
    simp only [wts_cons, wt] at this
    simp only [load, cbs, St.setProg] at this ⊢
    omega
  · next l p hp =>
    cases hs
    refine .inl ⟨nospin (by simp [hp]), ?_⟩
    have := key p (s.setProg t p) rfl
    rw [hp] at this
    simp only [wts_cons, wt] at this
    simp only [load, cbs, St.setProg] at this ⊢
    omega
  · next n p hp =>
    cases hs
    refine .inl ⟨nospin (by simp [hp]), ?_⟩
    have := key p { s.setProg t p with qin := s.qin ++ List.range n } rfl
    rw [hp] at this
    simp only [wts_cons, wt] at this
    simp only [load, cbs, St.setProg, List.length_append, List.length_range] at this ⊢
    omega
  · next p hp =>
    split at hs
    · cases hs
      refine .inl ⟨nospin (by simp [hp]), ?_⟩
      have := key [.op (.read .queueIn), .op (.unlock .qin)] (s.setProg _ _) rfl
      rw [hp] at this
      simp only [wts_cons, wt, wts_nil] at this
      simp only [load, cbs, St.setProg] at this ⊢
      omega
    · next j _ q hq =>
      cases hs
      refine .inl ⟨nospin (by simp [hp]), ?_⟩
      have := key (job j (s.vc j)) { s.setProg (.worker j) (job j (s.vc j)) with qin := q } rfl
      rw [hp] at this
      have hw : wts (job j (s.vc j)) = 36 := rfl
      rw [hw] at this
      simp only [wts_cons, wt] at this
      simp only [load, cbs, St.setProg, hq, List.length_cons] at this ⊢
      omega
    · cases hs
  · next p hp =>
    cases hs
    refine .inl ⟨nospin (by simp [hp]), ?_⟩
    have := key ([.op (.write (.event t (s.ec t))), .op (.lock .events), .emit, .op (.write .events),
      .op (.unlock .events)] ++ p) (s.setProg t _) rfl
    rw [hp] at this
    simp only [wts_cons, wts_append, wts_nil, wt] at this
    simp only [load, cbs, St.setProg] at this ⊢
    omega
  · next p hp =>
    cases hs
    refine .inl ⟨nospin (by simp [hp]), ?_⟩
    have := key p { s.setProg t p with
      evq := s.evq ++ [.event t (s.ec t)], ec := fun u => if u = t then s.ec t + 1 else s.ec u } rfl
    rw [hp] at this
    simp only [wts_cons, wt] at this
    simp only [load, cbs, St.setProg, List.length_append, List.length_singleton] at this ⊢
    omega
  · next p hp =>
    cases hs
    refine .inl ⟨nospin (by simp [hp]), ?_⟩
    have := key p { s.setProg t p with evq := s.evq ++ [.ownEvent] } rfl
    rw [hp] at this
    simp only [wts_cons, wt] at this
    simp only [load, cbs, St.setProg, List.length_append, List.length_singleton] at this ⊢
    omega
  · next p hp =>
    split at hs
    · next j =>
      cases hs
      refine .inl ⟨nospin (by simp [hp]), ?_⟩
      have := key p { s.setProg (.worker j) p with
        qout := s.qout ++ [(j, s.vc j)], vc := fun i => if i = j then s.vc j + 1 else s.vc i } rfl
      rw [hp] at this
      simp only [wts_cons, wt] at this
      simp only [load, cbs, St.setProg] at this ⊢
      omega
    · cases hs
  · next p hp =>
    cases hs
    refine .inl ⟨nospin (by simp [hp]), ?_⟩
    have := key p { s.setProg t p with asleep := s.asleep && decide (s.owner .qout = some .main) } rfl
    rw [hp] at this
    simp only [wts_cons, wt] at this
    simp only [load, cbs, St.setProg] at this ⊢
    have : credit (s.asleep && decide (s.owner .qout = some .main)) ≤ 6 := by
      cases s.asleep && decide (s.owner .qout = some .main) <;> decide
    omega
  · next p hp =>
    cases hs
    have := key p { s.setProg t p with asleep := false } rfl
    rw [hp] at this
    simp only [wts_cons, wt] at this
    cases ha : s.asleep with
    | false =>
      refine .inl ⟨fun h => (by have h2 := h.2; rw [ha] at h2; cases h2), ?_⟩
      simp only [load, cbs, St.setProg, ha] at this ⊢
      omega
    | true =>
      refine .inr ⟨⟨⟨p, hp⟩, ha⟩, ?_⟩
      simp only [load, cbs, St.setProg, ha, credit] at this ⊢
      omega
  · next c k p hp =>
    have ha := hA c k p hp
    split at hs
    · next hq =>
      cases hs
      refine .inl ⟨nospin (by simp [hp]), ?_⟩
      have := key ([.op (.read .queueOut), .op (.unlock .qout), .wake, .op (.lock .qout), .test c k] ++ p)
        { s.setProg t ([.op (.read .queueOut), .op (.unlock .qout), .wake, .op (.lock .qout), .test c k] ++ p) with
          asleep := true } rfl
      rw [hp] at this
      simp only [wts_cons, wts_append, wts_nil, wt] at this
      simp only [load, cbs, St.setProg, ha, credit] at this ⊢
      omega
    · next j v q hq =>
      cases hs
      refine .inl ⟨nospin (by simp [hp]), ?_⟩
      have := key ([.op (.read .queueOut), .op (.write .queueOut), .op (.unlock .qout)] ++ (c.consume k (.vp j v) ++ p))
        { s.setProg t ([.op (.read .queueOut), .op (.write .queueOut), .op (.unlock .qout)]
          ++ (c.consume k (.vp j v) ++ p)) with qout := q } rfl
      rw [hp] at this
      have hw := wts_consume c k (.vp j v)
      simp only [wts_cons, wts_append, wts_nil, wt] at this
      simp only [load, cbs, St.setProg] at this ⊢
      omega
  · next own p hp =>
    cases hs
    refine .inl ⟨nospin (by simp [hp]), ?_⟩
    have := key ([.op (.read .events), .op (.write .events), .op (.unlock .events), .op (.lock .listeners),
        .op (.read .listeners), .op (.unlock .listeners)] ++ (s.evq.map (.notify · own) ++ p))
      { s.setProg t ([.op (.read .events), .op (.write .events), .op (.unlock .events), .op (.lock .listeners),
        .op (.read .listeners), .op (.unlock .listeners)] ++ (s.evq.map (.notify · own) ++ p)) with evq := [] } rfl
    rw [hp] at this
    simp only [wts_cons, wts_append, wts_nil, wt, wts_notifies] at this
    simp only [load, cbs, St.setProg, List.length_nil] at this ⊢
    omega
  · next l own p hp =>
    cases hs
    refine .inl ⟨nospin (by simp [hp]), ?_⟩
    have := key (told own l (s.listen s.nc) ++ p)
      { s.setProg t (told own l (s.listen s.nc) ++ p) with nc := s.nc + 1 } rfl
    rw [hp] at this
    have hw := wts_insides own (s.listen s.nc)
    simp only [told, wts_cons, wts_append, wts_nil, wt] at this
    have hc : ∑ k ∈ Ico (s.nc + 1) K, 23 * (s.listen k).length + 23 * (s.listen s.nc).length
        ≤ ∑ k ∈ Ico s.nc K, 23 * (s.listen k).length := by
      by_cases hn : s.nc < K
      · rw [Finset.sum_eq_sum_Ico_succ_bot hn]; omega
      · rw [hK _ (Nat.le_of_not_lt hn), Finset.Ico_eq_empty (by omega)]; simp
    simp only [load, cbs, St.setProg, told] at this hc ⊢
    omega

/-! ### Work is neither lost nor forgotten -/

/-- Instructions that have nothing to do with the amount of work. -/
def Instr.neutral : Instr → Bool
  | .test _ _ => false
  | .fill _ => false
  | .push => false
  | .take => false
  | .op (.spawn _) => false
  | _ => true

/-- A worker is started before the next result is expected. -/
def Sp : List Instr → Prop
  | [] => False
  | .test _ _ :: _ => False
  | .op (.spawn _) :: _ => True
  | _ :: p => Sp p

/-- The calling thread expects exactly `q` more results before it queues documents again, and starts workers then. -/
def Bal : ℕ → List Instr → Prop
  | q, [] => q = 0
  | q, .test _ _ :: p => 0 < q ∧ Bal (q - 1) p
  | q, .fill n :: p => q = 0 ∧ (n = 0 ∨ Sp p) ∧ Bal n p
  | q, _ :: p => Bal q p

/-- How many results a thread is about to publish. -/
def pushes (p : List Instr) : ℕ := p.countP fun | .push => true | _ => false

theorem neutral_sp {i : Instr} (hi : i.neutral = true) (p : List Instr) : Sp (i :: p) ↔ Sp p := by
  cases i with
  | op o => cases o <;> first | exact Iff.rfl | cases hi
  | _ => first | exact Iff.rfl | cases hi

theorem neutral_bal {i : Instr} (hi : i.neutral = true) (q : ℕ) (p : List Instr) : Bal q (i :: p) ↔ Bal q p := by
  cases i with
  | op o => cases o <;> exact Iff.rfl
  | _ => first | exact Iff.rfl | cases hi

theorem neutral_pushes {i : Instr} (hi : i.neutral = true) (p : List Instr) : pushes (i :: p) = pushes p := by
  cases i <;> first | (simp [pushes]; done) | exact absurd hi (by decide)

theorem neutral_sps {r : List Instr} (hr : ∀ i ∈ r, i.neutral = true) (p : List Instr) : Sp (r ++ p) ↔ Sp p := by
  induction r with
  | nil => exact Iff.rfl
  | cons i r ih =>
    rw [List.cons_append, neutral_sp (hr i (by simp)), ih fun x hx => hr x (by simp [hx])]

theorem neutral_bals {r : List Instr} (hr : ∀ i ∈ r, i.neutral = true) (q : ℕ) (p : List Instr) :
    Bal q (r ++ p) ↔ Bal q p := by
  induction r with
  | nil => exact Iff.rfl
  | cons i r ih =>
    rw [List.cons_append, neutral_bal (hr i (by simp)), ih fun x hx => hr x (by simp [hx])]

theorem neutral_pushess {r : List Instr} (hr : ∀ i ∈ r, i.neutral = true) (p : List Instr) :
    pushes (r ++ p) = pushes p := by
  induction r with
  | nil => rfl
  | cons i r ih =>
    rw [List.cons_append, neutral_pushes (hr i (by simp)), ih fun x hx => hr x (by simp [hx])]

theorem processEvents_neutral (own : Bool) : ∀ i ∈ processEvents own, i.neutral = true := by
  simp [processEvents, Instr.neutral]

theorem dispatchMain_neutral (own : Bool) : ∀ i ∈ dispatchMain own, i.neutral = true := by
  cases own <;> simp [dispatchMain, processEvents, Instr.neutral]

theorem dispatches_neutral (c : Call) : ∀ k, ∀ i ∈ c.dispatches k, i.neutral = true
  | 0, _, h => by cases h
  | k + 1, i, h => by
    rcases List.mem_append.1 h with h | h
    · exact dispatchMain_neutral _ i h
    · exact dispatches_neutral c k i h

theorem consume_neutral (c : Call) (k : ℕ) (l : Loc) : ∀ i ∈ c.consume k l, i.neutral = true := by
  have h1 := processEvents_neutral c.owner
  have h2 := dispatches_neutral c (c.docEvents k)
  intro i hi
  unfold Call.consume at hi
  split at hi
  · simp only [List.mem_append, List.mem_cons, List.not_mem_nil, or_false] at hi
    rcases hi with hi | (rfl | rfl | rfl | rfl) | hi | hi
    · exact h1 i hi
    · rfl
    · rfl
    · rfl
    · rfl
    · split at hi
      · rw [List.mem_singleton.1 hi]; rfl
      · cases hi
    · exact h2 i hi
  · simp only [List.mem_append, List.mem_cons, List.not_mem_nil, or_false] at hi
    rcases hi with (rfl | rfl) | hi
    · rfl
    · rfl
    · exact h1 i hi

theorem told_neutral (own : Bool) (l : Loc) (rs : List Req) : ∀ i ∈ told own l rs, i.neutral = true := by
  intro i hi
  simp only [told, List.mem_append, List.mem_cons, List.not_mem_nil, or_false, List.mem_flatMap] at hi
  rcases hi with (rfl | rfl | rfl) | ⟨r, _, hi⟩
  · rfl
  · rfl
  · rfl
  · cases r with
    | dispatch => exact dispatchMain_neutral own i hi
    | _ =>
      simp only [Req.inside, addListener, removeListener, List.mem_cons, List.not_mem_nil, or_false] at hi
      rcases hi with rfl | rfl | rfl <;> rfl

theorem notifies_neutral (own : Bool) (q : List Loc) : ∀ i ∈ q.map (Instr.notify · own), i.neutral = true := by
  intro i hi
  obtain ⟨l, _, rfl⟩ := List.mem_map.1 hi
  rfl

theorem joins_neutral (base : ℕ) : ∀ w, ∀ i ∈ joins base w, i.neutral = true
  | 0, _, h => by cases h
  | w + 1, i, h => by
    rcases List.mem_append.1 h with h | h
    · exact joins_neutral base w i h
    · rw [List.mem_singleton.1 h]; rfl

theorem post_neutral (c : Call) : ∀ i ∈ c.post, i.neutral = true := by
  have h1 := dispatches_neutral c c.batchEvents
  have h2 := dispatchMain_neutral c.owner
  intro i hi
  unfold Call.post at hi
  split at hi
  · simp only [List.mem_append, List.mem_cons, List.not_mem_nil, or_false] at hi
    rcases hi with (rfl | rfl | rfl | rfl) | hi | hi
    · rfl
    · rfl
    · rfl
    · rfl
    · exact h1 i hi
    · exact h2 i hi
  · cases hi

/-- Results that are still to be taken: documents in the queue, in the hands of workers, and results in the queue. -/
def supply (T : Finset Tid) (s : St) : ℕ := s.qin.length + s.qout.length + ∑ t ∈ T, pushes (s.prog t)

/-- The second invariant; `T` contains all threads that run or will run. -/
structure LInv (T : Finset Tid) (K : ℕ) (s : St) : Prop where
  out : ∀ t, s.prog t ≠ [] → t ∈ T
  spn : ∀ t j, Instr.op (.spawn j) ∈ s.prog t → Tid.worker j ∈ T
  bal : Bal (supply T s) (s.prog .main)
  act : s.qin = [] ∨ (∃ j, Instr.take ∈ s.prog (.worker j)) ∨ Sp (s.prog .main)
  lst : ∀ k, K ≤ k → s.listen k = []

section
variable {T : Finset Tid} {K : ℕ} {s : St}

theorem supply_set {t : Tid} {i : Instr} {p p' : List Instr} (h : LInv T K s) (hp : s.prog t = i :: p) (s' : St)
    (hs : s'.prog = (s.setProg t p').prog) :
    ∑ u ∈ T, pushes (s'.prog u) + pushes (i :: p) = ∑ u ∈ T, pushes (s.prog u) + pushes p' := by
  have ht := h.out t (by rw [hp]; simp)
  have := sum_set (T := T) ht pushes (s := s) (s' := s') (fun u hu => by rw [hs]; exact setProg_ne s p' hu)
  rw [hp, hs, setProg_same] at this
  rw [hs]
  exact this

/-- Steps that have nothing to do with the amount of work. -/
theorem linv_neutral (h : LInv T K s) {t : Tid} {i : Instr} {p r : List Instr} (hp : s.prog t = i :: p)
    (hi : i.neutral = true) (hr : ∀ x ∈ r, x.neutral = true) (s' : St) (hs : s'.prog = (s.setProg t (r ++ p)).prog)
    (h1 : s'.qin = s.qin) (h2 : s'.qout = s.qout) (h3 : s'.listen = s.listen) : LInv T K s' := by
  have hsame : s'.prog t = r ++ p := by rw [hs, setProg_same]
  have hother : ∀ u, u ≠ t → s'.prog u = s.prog u := fun u hu => by rw [hs]; exact setProg_ne _ _ hu
  refine ⟨?_, ?_, ?_, ?_, by rw [h3]; exact h.lst⟩
  · intro u hu
    by_cases ht : u = t
    · subst ht; exact h.out u (by rw [hp]; simp)
    · rw [hother u ht] at hu; exact h.out u hu
  · intro u j hj
    by_cases ht : u = t
    · subst ht
      rw [hsame] at hj
      rcases List.mem_append.1 hj with hj | hj
      · cases hr _ hj
      · exact h.spn u j (by rw [hp]; exact List.mem_cons_of_mem _ hj)
    · rw [hother u ht] at hj; exact h.spn u j hj
  · have hsup : supply T s' = supply T s := by
      have := supply_set h hp s' hs
      rw [neutral_pushes hi, neutral_pushess hr] at this
      simp only [supply, h1, h2]
      omega
    rw [hsup]
    by_cases ht : t = .main
    · subst ht
      rw [hsame, neutral_bals hr, ← neutral_bal hi, ← hp]
      exact h.bal
    · rw [hother _ (Ne.symm ht)]; exact h.bal
  · rw [h1]
    refine h.act.imp id (Or.imp ?_ ?_)
    · rintro ⟨j, hj⟩
      refine ⟨j, ?_⟩
      by_cases ht : Tid.worker j = t
      · subst ht
        rw [hp] at hj
        rcases List.mem_cons.1 hj with rfl | hj
        · cases hi
        · rw [hsame]; exact List.mem_append_right _ hj
      · rw [hother _ ht]; exact hj
    · intro hsp
      by_cases ht : t = .main
      · subst ht
        rw [hsame, neutral_sps hr, ← neutral_sp hi, ← hp]
        exact hsp
      · rw [hother _ (Ne.symm ht)]; exact hsp

end

/-- Every step keeps the second invariant. -/
theorem linv_step {X : Prop} {T : Finset Tid} {K : ℕ} {s s' : St} {τ : Trace} {live : Set ℕ} (h : Inv X s τ live)
    (hL : LInv T K s) {t : Tid} {oo : Option Op} (hs : step s t = some (s', oo)) : LInv T K s' := by
  have onlyMain : ∀ {i : Instr} {p : List Instr}, s.prog t = i :: p → (∀ held ec vc, ¬ WSafe t held ec vc (i :: p)) →
      t = .main := by
    intro i p hp hno
    by_contra hne
    obtain ⟨held, _, hs⟩ := h.w t hne
    rw [hp] at hs; exact hno _ _ _ hs
  unfold step at hs
  split at hs
  · cases hs
  · next m p hp =>
    split at hs <;> cases hs
    exact linv_neutral hL hp rfl (r := []) (by simp) _ rfl rfl rfl rfl
  · next m p hp => cases hs; exact linv_neutral hL hp rfl (r := []) (by simp) _ rfl rfl rfl rfl
  · next j p hp =>
    cases hs
    have := onlyMain hp fun _ _ _ hS => hS
    subst this
    obtain ⟨held, hh, hS⟩ := h.m
    rw [hp] at hS
    have hj : s.prog (.worker j) = [] := by
      by_contra hne
      exact hS.1 (h.lv j hne)
    have hjT := hL.spn .main j (by rw [hp]; simp)
    have e1 : ((s.setProg .main p).setProg (.worker j) workerStart).prog .main = p := by
      rw [setProg_ne _ _ (by simp), setProg_same]
    have e2 : ((s.setProg .main p).setProg (.worker j) workerStart).prog (.worker j) = workerStart := setProg_same _ _ _
    have e3 : ∀ u, u ≠ .main → u ≠ .worker j →
        ((s.setProg .main p).setProg (.worker j) workerStart).prog u = s.prog u := by
      intro u h1 h2
      rw [setProg_ne _ _ h2, setProg_ne _ _ h1]
    refine ⟨?_, ?_, ?_, .inr (.inl ⟨j, by rw [e2]; simp [workerStart]⟩), hL.lst⟩
    · intro u hu
      by_cases h1 : u = .main
      · subst h1; exact hL.out _ (by rw [hp]; simp)
      · by_cases h2 : u = .worker j
        · rw [h2]; exact hjT
        · rw [e3 u h1 h2] at hu; exact hL.out u hu
    · intro u i hi
      by_cases h1 : u = .main
      · subst h1
        rw [e1] at hi
        exact hL.spn .main i (by rw [hp]; exact List.mem_cons_of_mem _ hi)
      · by_cases h2 : u = .worker j
        · subst h2
          rw [e2] at hi
          simp [workerStart] at hi
        · rw [e3 u h1 h2] at hi; exact hL.spn u i hi
    · rw [e1]
      have hb := hL.bal
      rw [hp] at hb
      have hsup : supply T ((s.setProg .main p).setProg (.worker j) workerStart) = supply T s := by
        have a1 := supply_set hL hp (s.setProg .main p) rfl
        have a2 := sum_set hjT pushes (s := s.setProg .main p)
          (s' := (s.setProg .main p).setProg (.worker j) workerStart) (fun u hu => setProg_ne _ _ hu)
        rw [e2, setProg_ne _ _ (by simp), hj] at a2
        have a3 : pushes workerStart = 0 := rfl
        have a4 : pushes [] = 0 := rfl
        have a5 : pushes (.op (.spawn j) :: p) = pushes p := by simp [pushes]
        simp only [supply]
        change s.qin.length + s.qout.length + _ = _
        omega
      rw [hsup]
      exact hb
  · next j p hp =>
    split at hs <;> cases hs
    exact linv_neutral hL hp rfl (r := []) (by simp) _ rfl rfl rfl rfl
  · next l p hp => cases hs; exact linv_neutral hL hp rfl (r := []) (by simp) _ rfl rfl rfl rfl
  · next l p hp => cases hs; exact linv_neutral hL hp rfl (r := []) (by simp) _ rfl rfl rfl rfl
  · next n p hp =>
    cases hs
    have := onlyMain hp fun _ _ _ hS => hS
    subst this
    have hb := hL.bal
    rw [hp] at hb
    obtain ⟨hz, hsp, hb⟩ := hb
    have hq0 : s.qin = [] := by
      rw [← List.length_eq_zero_iff]
      simp only [supply] at hz
      omega
    have e1 : (s.setProg .main p).prog .main = p := setProg_same _ _ _
    have e3 : ∀ u, u ≠ .main → (s.setProg .main p).prog u = s.prog u := fun u hu => setProg_ne _ _ hu
    refine ⟨?_, ?_, ?_, ?_, hL.lst⟩
    · intro u hu
      by_cases h1 : u = .main
      · subst h1; exact hL.out _ (by rw [hp]; simp)
      · exact hL.out u (by rw [← e3 u h1]; exact hu)
    · intro u i hi
      by_cases h1 : u = .main
      · subst h1
        exact hL.spn .main i (by rw [hp]; exact List.mem_cons_of_mem _ (by rw [← e1]; exact hi))
      · exact hL.spn u i (by rw [← e3 u h1]; exact hi)
    · have hsup : supply T { s.setProg .main p with qin := s.qin ++ List.range n } = n := by
        have a1 := supply_set hL hp { s.setProg .main p with qin := s.qin ++ List.range n } rfl
        have a5 : pushes (.fill n :: p) = pushes p := by simp [pushes]
        simp only [supply] at hz a1 ⊢
        simp only [List.length_append, List.length_range]
        change s.qin.length + n + s.qout.length + _ = _
        omega
      rw [hsup]
      change Bal n ((s.setProg .main p).prog .main)
      rw [e1]; exact hb
    · rcases hsp with rfl | hsp
      · left
        change s.qin ++ List.range 0 = []
        rw [hq0]; rfl
      · refine .inr (.inr ?_)
        change Sp ((s.setProg .main p).prog .main)
        rw [e1]; exact hsp
  · next p hp =>
    split at hs
    · next j hq =>
      cases hs
      obtain ⟨held, _, hS⟩ := h.w (.worker j) (by simp)
      rw [hp] at hS
      obtain ⟨_, rfl, _⟩ := hS
      have e1 : (s.setProg (.worker j) [.op (.read .queueIn), .op (.unlock .qin)]).prog (.worker j)
        = [.op (.read .queueIn), .op (.unlock .qin)] := setProg_same _ _ _
      have e3 : ∀ u, u ≠ .worker j →
        (s.setProg (.worker j) [.op (.read .queueIn), .op (.unlock .qin)]).prog u = s.prog u := fun u hu => setProg_ne _ _ hu
      refine ⟨?_, ?_, ?_, .inl hq, hL.lst⟩
      · intro u hu
        by_cases h1 : u = .worker j
        · subst h1; exact hL.out _ (by rw [hp]; simp)
        · exact hL.out u (by rw [← e3 u h1]; exact hu)
      · intro u i hi
        by_cases h1 : u = .worker j
        · subst h1
          rw [e1] at hi
          simp at hi
        · exact hL.spn u i (by rw [← e3 u h1]; exact hi)
      · rw [e3 _ (by simp)]
        have a1 := supply_set hL hp (s.setProg (.worker j) [.op (.read .queueIn), .op (.unlock .qin)]) rfl
        have a2 : pushes [.take] = 0 := rfl
        have a3 : pushes [.op (.read .queueIn), .op (.unlock .qin)] = 0 := rfl
        have hsup : supply T (s.setProg (.worker j) [.op (.read .queueIn), .op (.unlock .qin)]) = supply T s := by
          simp only [supply]
          change s.qin.length + s.qout.length + _ = _
          omega
        rw [hsup]; exact hL.bal
    · next j _ q hq =>
      cases hs
      obtain ⟨held, _, hS⟩ := h.w (.worker j) (by simp)
      rw [hp] at hS
      obtain ⟨_, rfl, _⟩ := hS
      have e1 : (s.setProg (.worker j) (job j (s.vc j))).prog (.worker j) = job j (s.vc j) := setProg_same _ _ _
      have e3 : ∀ u, u ≠ .worker j → (s.setProg (.worker j) (job j (s.vc j))).prog u = s.prog u :=
        fun u hu => setProg_ne _ _ hu
      refine ⟨?_, ?_, ?_, .inr (.inl ⟨j, ?_⟩), hL.lst⟩
      · intro u hu
        by_cases h1 : u = .worker j
        · subst h1; exact hL.out _ (by rw [hp]; simp)
        · exact hL.out u (by rw [← e3 u h1]; exact hu)
      · intro u i hi
        by_cases h1 : u = .worker j
        · subst h1
          change _ ∈ (s.setProg (.worker j) (job j (s.vc j))).prog (.worker j) at hi
          rw [e1] at hi
          simp [job, workerStart] at hi
        · exact hL.spn u i (by rw [← e3 u h1]; exact hi)
      · change Bal _ ((s.setProg (.worker j) (job j (s.vc j))).prog .main)
        rw [e3 _ (by simp)]
        have a1 := supply_set hL hp { s.setProg (.worker j) (job j (s.vc j)) with qin := q } rfl
        have a2 : pushes [.take] = 0 := rfl
        have a3 : pushes (job j (s.vc j)) = 1 := rfl
        have hsup : supply T { s.setProg (.worker j) (job j (s.vc j)) with qin := q } = supply T s := by
          simp only [supply, hq, List.length_cons] at a1 ⊢
          change q.length + s.qout.length + _ = _
          omega
        rw [hsup]; exact hL.bal
      · change _ ∈ (s.setProg (.worker j) (job j (s.vc j))).prog (.worker j)
        rw [e1]; simp [job, workerStart]
    · cases hs
  · next p hp =>
    cases hs
    exact linv_neutral hL hp rfl (r := [.op (.write (.event t (s.ec t))), .op (.lock .events), .emit, .op (.write .events),
      .op (.unlock .events)]) (by simp [Instr.neutral]) _ rfl rfl rfl rfl
  · next p hp => cases hs; exact linv_neutral hL hp rfl (r := []) (by simp) _ rfl rfl rfl rfl
  · next p hp => cases hs; exact linv_neutral hL hp rfl (r := []) (by simp) _ rfl rfl rfl rfl
  · next p hp =>
    split at hs
    · next j =>
      cases hs
      have e1 : (s.setProg (.worker j) p).prog (.worker j) = p := setProg_same _ _ _
      have e3 : ∀ u, u ≠ .worker j → (s.setProg (.worker j) p).prog u = s.prog u := fun u hu => setProg_ne _ _ hu
      refine ⟨?_, ?_, ?_, ?_, hL.lst⟩
      · intro u hu
        by_cases h1 : u = .worker j
        · subst h1; exact hL.out _ (by rw [hp]; simp)
        · exact hL.out u (by rw [← e3 u h1]; exact hu)
      · intro u i hi
        by_cases h1 : u = .worker j
        · subst h1
          exact hL.spn _ i (by rw [hp]; exact List.mem_cons_of_mem _ (by rw [← e1]; exact hi))
        · exact hL.spn u i (by rw [← e3 u h1]; exact hi)
      · change Bal _ ((s.setProg (.worker j) p).prog .main)
        rw [e3 _ (by simp)]
        have a1 := supply_set hL hp { s.setProg (.worker j) p with
          qout := s.qout ++ [(j, s.vc j)], vc := fun i => if i = j then s.vc j + 1 else s.vc i } rfl
        have a2 : pushes (.push :: p) = pushes p + 1 := by simp [pushes]
        have hsup : supply T { s.setProg (.worker j) p with
            qout := s.qout ++ [(j, s.vc j)], vc := fun i => if i = j then s.vc j + 1 else s.vc i } = supply T s := by
          simp only [supply, List.length_append, List.length_singleton] at a1 ⊢
          change s.qin.length + _ + _ = _
          omega
        rw [hsup]; exact hL.bal
      · refine hL.act.imp id (Or.imp ?_ ?_)
        · rintro ⟨i, hi⟩
          refine ⟨i, ?_⟩
          by_cases h1 : i = j
          · subst h1
            change _ ∈ (s.setProg (.worker i) p).prog (.worker i)
            rw [e1]
            rw [hp] at hi
            rcases List.mem_cons.1 hi with hi | hi
            · cases hi
            · exact hi
          · change _ ∈ (s.setProg (.worker j) p).prog (.worker i)
            rw [e3 _ (by simpa using h1)]; exact hi
        · intro hsp
          change Sp ((s.setProg (.worker j) p).prog .main)
          rw [e3 _ (by simp)]; exact hsp
    · cases hs
  · next p hp => cases hs; exact linv_neutral hL hp rfl (r := []) (by simp) _ rfl rfl rfl rfl
  · next p hp => cases hs; exact linv_neutral hL hp rfl (r := []) (by simp) _ rfl rfl rfl rfl
  · next c k p hp =>
    have := onlyMain hp fun _ _ _ hS => hS
    subst this
    have hb := hL.bal
    rw [hp] at hb
    have hact : s.qin = [] ∨ ∃ j, Instr.take ∈ s.prog (.worker j) := by
      rcases hL.act with h1 | h1 | h1
      · exact .inl h1
      · exact .inr h1
      · rw [hp] at h1; exact absurd h1 id
    have general : ∀ (p' : List Instr) (s' : St), s'.prog = (s.setProg .main p').prog → s'.qin = s.qin →
        s'.listen = s.listen → (∀ j, Instr.op (.spawn j) ∈ p' → Instr.op (.spawn j) ∈ p) →
        Bal (supply T s') p' → LInv T K s' := by
      intro p' s' hs h1 h3 hsub hbal
      have e1 : s'.prog .main = p' := by rw [hs, setProg_same]
      have e3 : ∀ u, u ≠ .main → s'.prog u = s.prog u := fun u hu => by rw [hs]; exact setProg_ne _ _ hu
      refine ⟨?_, ?_, by rw [e1]; exact hbal, ?_, by rw [h3]; exact hL.lst⟩
      · intro u hu
        by_cases h1 : u = .main
        · subst h1; exact hL.out _ (by rw [hp]; simp)
        · exact hL.out u (by rw [← e3 u h1]; exact hu)
      · intro u i hi
        by_cases h1 : u = .main
        · subst h1
          rw [e1] at hi
          exact hL.spn _ i (by rw [hp]; exact List.mem_cons_of_mem _ (hsub i hi))
        · exact hL.spn u i (by rw [← e3 u h1]; exact hi)
      · rw [h1]
        refine hact.imp id fun ⟨j, hj⟩ => .inl ⟨j, ?_⟩
        rw [e3 _ (by simp)]; exact hj
    split at hs
    · cases hs
      refine general ([.op (.read .queueOut), .op (.unlock .qout), .wake, .op (.lock .qout), .test c k] ++ p) _ rfl rfl rfl
        (by simp) ?_
      have a1 := supply_set hL hp { s.setProg .main
        ([.op (.read .queueOut), .op (.unlock .qout), .wake, .op (.lock .qout), .test c k] ++ p) with asleep := true } rfl
      have a2 : pushes ([.op (.read .queueOut), .op (.unlock .qout), .wake, .op (.lock .qout), .test c k] ++ p)
        = pushes (.test c k :: p) := by simp [pushes]
      have hsup : supply T { s.setProg .main
        ([.op (.read .queueOut), .op (.unlock .qout), .wake, .op (.lock .qout), .test c k] ++ p) with asleep := true }
          = supply T s := by
        simp only [supply] at a1 ⊢
        change s.qin.length + s.qout.length + _ = _
        omega
      rw [hsup]
      exact hb
    · next j v q hq =>
      cases hs
      have hn : ∀ i ∈ [.op (.read .queueOut), .op (.write .queueOut), .op (.unlock .qout)] ++ c.consume k (.vp j v),
          i.neutral = true := by
        intro i hi
        rcases List.mem_append.1 hi with hi | hi
        · simp only [List.mem_cons, List.not_mem_nil, or_false] at hi
          rcases hi with rfl | rfl | rfl <;> rfl
        · exact consume_neutral c k _ i hi
      have happ : ([.op (.read .queueOut), .op (.write .queueOut), .op (.unlock .qout)] ++ (c.consume k (.vp j v) ++ p))
          = ([.op (.read .queueOut), .op (.write .queueOut), .op (.unlock .qout)] ++ c.consume k (.vp j v)) ++ p := by
        rw [List.append_assoc]
      rw [happ]
      refine general _ _ rfl rfl rfl ?_ ?_
      · intro i hi
        rcases List.mem_append.1 hi with hi | hi
        · cases hn _ hi
        · exact hi
      · rw [neutral_bals hn]
        have a1 := supply_set hL hp { s.setProg .main
          (([.op (.read .queueOut), .op (.write .queueOut), .op (.unlock .qout)] ++ c.consume k (.vp j v)) ++ p) with
            qout := q } rfl
        rw [neutral_pushess hn] at a1
        have a2 : pushes (.test c k :: p) = pushes p := by simp [pushes]
        have hsup : supply T { s.setProg .main
          (([.op (.read .queueOut), .op (.write .queueOut), .op (.unlock .qout)] ++ c.consume k (.vp j v)) ++ p) with
            qout := q } = supply T s - 1 := by
          simp only [supply, hq, List.length_cons] at a1 ⊢
          change s.qin.length + _ + _ = _
          omega
        rw [hsup]; exact hb.2
  · next own p hp =>
    cases hs
    refine linv_neutral hL hp rfl (r := [.op (.read .events), .op (.write .events), .op (.unlock .events),
      .op (.lock .listeners), .op (.read .listeners), .op (.unlock .listeners)] ++ s.evq.map (.notify · own)) ?_ _ ?_
      rfl rfl rfl
    · intro i hi
      rcases List.mem_append.1 hi with hi | hi
      · simp only [List.mem_cons, List.not_mem_nil, or_false] at hi
        rcases hi with rfl | rfl | rfl | rfl | rfl | rfl <;> rfl
      · exact notifies_neutral own _ i hi
    · rw [List.append_assoc]
  · next l own p hp =>
    cases hs
    exact linv_neutral hL hp rfl (told_neutral own l _) _ rfl rfl rfl rfl

/-! ### No signal is lost -/

/-- The third invariant: a calling thread that sleeps has found nothing, and if there is something by now then a worker is
about to say so. -/
structure WInv (s : St) : Prop where
  slp : s.asleep = true → ∃ c k p,
    s.prog .main = .op (.read .queueOut) :: .op (.unlock .qout) :: .wake :: .op (.lock .qout) :: .test c k :: p ∨
    s.prog .main = .op (.unlock .qout) :: .wake :: .op (.lock .qout) :: .test c k :: p ∨
    s.prog .main = .wake :: .op (.lock .qout) :: .test c k :: p
  lost : s.asleep = true → s.qout = [] ∨ (s.owner .qout ≠ some .main ∧ ∃ t, t ≠ .main ∧ .signal ∈ s.prog t)

theorem winv_awake {s : St} (h : s.asleep = false) : WInv s :=
  ⟨fun h' => (by rw [h] at h'; cases h'), fun h' => (by rw [h] at h'; cases h')⟩

theorem WInv.test {s : St} (h : WInv s) {c : Call} {k : ℕ} {p : List Instr} (hp : s.prog .main = .test c k :: p) :
    s.asleep = false := by
  by_contra ha
  obtain ⟨c', k', p', h1 | h1 | h1⟩ := h.slp (by simpa using ha) <;> (rw [hp] at h1; cases h1)

/-- A step of another thread. -/
theorem winv_other {s s' : St} (h : WInv s) {t : Tid} (ht : t ≠ .main) {i : Instr} {p p' : List Instr}
    (hp : s.prog t = i :: p) (hi : i ≠ .signal) (hs : s'.prog = (s.setProg t p').prog) (hsub : .signal ∈ p → .signal ∈ p')
    (hq : s'.qout = s.qout) (ha : s'.asleep = s.asleep)
    (ho : s'.owner .qout = some .main → s.owner .qout = some .main) : WInv s' := by
  refine ⟨fun h1 => ?_, fun h1 => ?_⟩
  · rw [hs, setProg_ne _ _ (Ne.symm ht)]; exact h.slp (by rw [← ha]; exact h1)
  · rw [hq]
    refine (h.lost (by rw [← ha]; exact h1)).imp id ?_
    rintro ⟨h2, u, hu, h3⟩
    refine ⟨fun h4 => h2 (ho h4), u, hu, ?_⟩
    by_cases hut : u = t
    · subst hut
      rw [hs, setProg_same]
      rw [hp] at h3
      exact hsub ((List.mem_cons.1 h3).resolve_left (Ne.symm hi))
    · rw [hs, setProg_ne _ _ hut]; exact h3

/-- Every step keeps the third invariant. -/
theorem winv_step {X : Prop} {s s' : St} {τ : Trace} {live : Set ℕ} (h : Inv X s τ live) (hW : WInv s) {t : Tid}
    {oo : Option Op} (hs : step s t = some (s', oo)) : WInv s' := by
  by_cases ht : t = .main
  · subst ht
    cases ha : s.asleep with
    | true =>
      obtain ⟨c, k, p, hp | hp | hp⟩ := hW.slp ha
      · simp only [step, hp] at hs
        cases hs
        exact ⟨fun _ => ⟨c, k, p, .inr (.inl (setProg_same _ _ _))⟩, fun h1 => (hW.lost ha).imp id fun ⟨h2, u, hu, h3⟩ =>
          ⟨h2, u, hu, (by rw [setProg_ne _ _ hu]; exact h3)⟩⟩
      · simp only [step, hp] at hs
        cases hs
        refine ⟨fun _ => ⟨c, k, p, .inr (.inr (setProg_same s .main (.wake :: .op (.lock .qout) :: .test c k :: p)))⟩, fun h1 => (hW.lost ha).imp id fun ⟨h2, u, hu, h3⟩ =>
          ⟨by simp, u, hu, ?_⟩⟩
        change _ ∈ (s.setProg _ _).prog u
        rw [setProg_ne _ _ hu]; exact h3
      · simp only [step, hp] at hs
        cases hs
        exact winv_awake rfl
    | false =>
      unfold step at hs
      split at hs
      · cases hs
      · split at hs <;> cases hs
        exact winv_awake ha
      · cases hs; exact winv_awake ha
      · cases hs; exact winv_awake ha
      · split at hs <;> cases hs
        exact winv_awake ha
      · cases hs; exact winv_awake ha
      · cases hs; exact winv_awake ha
      · cases hs; exact winv_awake ha
      · split at hs <;> cases hs <;> exact winv_awake ha
      · cases hs; exact winv_awake ha
      · cases hs; exact winv_awake ha
      · cases hs; exact winv_awake ha
      · split at hs <;> cases hs
        exact winv_awake ha
      · cases hs; exact winv_awake (by simp [ha])
      · cases hs; exact winv_awake rfl
      · next c k p hp =>
        split at hs
        · next hq =>
          cases hs
          exact ⟨fun _ => ⟨c, k, p, .inl (setProg_same s .main ([.op (.read .queueOut), .op (.unlock .qout), .wake,
            .op (.lock .qout), .test c k] ++ p))⟩, fun _ => .inl hq⟩
        · cases hs; exact winv_awake ha
      · cases hs; exact winv_awake ha
      · cases hs; exact winv_awake ha
  · obtain ⟨held, hh, hS⟩ := h.w t ht
    unfold step at hs
    split at hs
    · cases hs
    · next m p hp =>
      split at hs <;> cases hs
      refine winv_other hW ht (p' := p) hp (by simp) rfl id rfl rfl ?_
      intro h1
      simp only at h1
      split at h1
      · exact absurd (Option.some.inj h1) ht
      · exact h1
    · next m p hp =>
      cases hs
      refine winv_other hW ht (p' := p) hp (by simp) rfl id rfl rfl ?_
      intro h1
      simp only at h1
      split at h1
      · cases h1
      · exact h1
    · next j p hp => rw [hp] at hS; exact absurd hS id
    · next j p hp => rw [hp] at hS; exact absurd hS id
    · next l p hp => cases hs; exact winv_other hW ht (p' := p) hp (by simp) rfl id rfl rfl id
    · next l p hp => cases hs; exact winv_other hW ht (p' := p) hp (by simp) rfl id rfl rfl id
    · next n p hp => rw [hp] at hS; exact absurd hS id
    · next p hp =>
      rw [hp] at hS
      obtain ⟨_, rfl, _⟩ := hS
      split at hs
      · cases hs; exact winv_other hW ht hp (by simp) rfl (by simp) rfl rfl id
      · cases hs; exact winv_other hW ht (p' := job _ _) hp (by simp) rfl (by simp) rfl rfl id
      · cases hs
    · next p hp => cases hs; exact winv_other hW ht hp (by simp) rfl (by simp) rfl rfl id
    · next p hp => cases hs; exact winv_other hW ht (p' := p) hp (by simp) rfl id rfl rfl id
    · next p hp => rw [hp] at hS; exact absurd hS id
    · next p hp =>
      rw [hp] at hS
      split at hs
      · next j =>
        cases hs
        refine ⟨fun h1 => ?_, fun h1 => .inr ⟨?_, .worker j, by simp, ?_⟩⟩
        · change ∃ c k q, (s.setProg (.worker j) p).prog .main = _ ∨ (s.setProg (.worker j) p).prog .main = _ ∨
            (s.setProg (.worker j) p).prog .main = _
          rw [setProg_ne _ _ (by simp)]
          exact hW.slp h1
        · change s.owner .qout ≠ _
          rw [(hh .qout).1 hS.1]; simp
        · change _ ∈ (s.setProg (.worker j) p).prog (.worker j)
          rw [setProg_same]; exact hS.2.1.2
      · cases hs
    · next p hp =>
      cases hs
      by_cases ho : s.owner .qout = some .main
      · refine ⟨fun h1 => ?_, fun h1 => ?_⟩
        · change ∃ c k q, (s.setProg t p).prog .main = _ ∨ (s.setProg t p).prog .main = _ ∨ (s.setProg t p).prog .main = _
          rw [setProg_ne _ _ (Ne.symm ht)]
          exact hW.slp (by simpa [ho] using h1)
        · rcases hW.lost (by simpa [ho] using h1) with h2 | ⟨h2, _⟩
          · exact .inl h2
          · exact absurd ho h2
      · exact winv_awake (by simp [ho])
    · next p hp => rw [hp] at hS; exact absurd hS id
    · next c k p hp => rw [hp] at hS; exact absurd hS id
    · next own p hp => rw [hp] at hS; exact absurd hS id
    · next l own p hp => rw [hp] at hS; exact absurd hS id

/-! ### Somebody can always go on -/

/-- The thread can do a step. -/
def Can (s : St) (t : Tid) : Prop := ∃ r, step s t = some r

theorem msafe_no_push {X : Prop} {GV : ℕ → ℕ → Prop} {GE : Tid → ℕ → Prop} :
    ∀ (p : List Instr) (live : Set ℕ) (held : List Mutex), MSafe X GV GE live held p → pushes p = 0
  | [], _, _, _ => rfl
  | .op (.read _) :: p, _, _, h => (neutral_pushes rfl p).trans (msafe_no_push p _ _ h.2)
  | .op (.write _) :: p, _, _, h => (neutral_pushes rfl p).trans (msafe_no_push p _ _ h.2.2)
  | .op (.lock m) :: p, live, held, h => (neutral_pushes rfl p).trans (msafe_no_push p live (m :: held) h.2)
  | .op (.unlock _) :: p, _, _, h => (neutral_pushes rfl p).trans (msafe_no_push p _ _ h.2)
  | .op (.spawn j) :: p, live, held, h => by
    have := msafe_no_push p (insert j live) held h.2
    simpa [pushes] using this
  | .op (.join j) :: p, live, held, h => (neutral_pushes rfl p).trans (msafe_no_push p (live \ {j}) held h.2)
  | .fill n :: p, live, held, h => by
    have := msafe_no_push p live held h
    simpa [pushes] using this
  | .emitOwn :: p, _, _, h => (neutral_pushes rfl p).trans (msafe_no_push p _ _ h.2)
  | .test _ _ :: p, _, _, h => by
    have := msafe_no_push p _ _ h.2.2
    simpa [pushes] using this
  | .wake :: p, _, _, h => (neutral_pushes rfl p).trans (msafe_no_push p _ _ h.2)
  | .signal :: _, _, _, h => absurd h id
  | .drain _ :: p, _, _, h => (neutral_pushes rfl p).trans (msafe_no_push p _ _ h.2)
  | .notify _ _ :: p, _, _, h => (neutral_pushes rfl p).trans (msafe_no_push p _ _ h.2.2)
  | .take :: _, _, _, h => absurd h id
  | .raise :: _, _, _, h => absurd h id
  | .emit :: _, _, _, h => absurd h id
  | .push :: _, _, _, h => absurd h id

section
variable {X : Prop} {s : St} {τ : Trace} {live : Set ℕ}

/-- Only a taken mutex or a running worker stops a thread. -/
theorem stuck_cases (h : Inv X s τ live) {t : Tid} {i : Instr} {p : List Instr} (hp : s.prog t = i :: p)
    (hn : ¬ Can s t) :
    (∃ m v, i = .op (.lock m) ∧ s.owner m = some v) ∨ (t = .main ∧ ∃ j, i = .op (.join j) ∧ s.prog (.worker j) ≠ []) := by
  have isWorker : (i = .take ∨ i = .push) → ∃ j, t = .worker j := by
    intro hi
    by_cases hm : t = .main
    · subst hm
      obtain ⟨held, _, hS⟩ := h.m
      rw [hp] at hS
      rcases hi with rfl | rfl <;> exact absurd hS id
    · obtain ⟨held, _, hS⟩ := h.w t hm
      rw [hp] at hS
      rcases hi with rfl | rfl
      · exact hS.2.2
      · exact hS.2.1.1
  have hstep : ∀ r, step s t ≠ some r := fun r hr => hn ⟨r, hr⟩
  cases i with
  | op o =>
    cases o with
    | lock m =>
      left
      cases ho : s.owner m with
      | some v => exact ⟨m, v, rfl, ho⟩
      | none => exact absurd (by simp only [step, hp, ho]; rfl) (hstep _)
    | join j =>
      by_cases hj : s.prog (.worker j) = []
      · exact absurd (by simp only [step, hp, hj]; rfl) (hstep _)
      · refine .inr ⟨?_, j, rfl, hj⟩
        by_contra hm
        obtain ⟨held, _, hS⟩ := h.w t hm
        rw [hp] at hS
        exact hS
    | _ => exact absurd (by simp only [step, hp]; rfl) (hstep _)
  | take =>
    obtain ⟨j, rfl⟩ := isWorker (.inl rfl)
    cases hq : s.qin with
    | nil => exact absurd (by simp only [step, hp, hq]; rfl) (hstep _)
    | cons a q => exact absurd (by simp only [step, hp, hq]; rfl) (hstep _)
  | push =>
    obtain ⟨j, rfl⟩ := isWorker (.inr rfl)
    exact absurd (by simp only [step, hp]; rfl) (hstep _)
  | test c k =>
    cases hq : s.qout with
    | nil => exact absurd (by simp only [step, hp, hq]; rfl) (hstep _)
    | cons a q => exact absurd (by simp only [step, hp, hq]; rfl) (hstep _)
  | _ => exact absurd (by simp only [step, hp]; rfl) (hstep _)

/-- A thread that holds a mutex and is not the calling one can go on. -/
theorem owner_can (h : Inv X s τ live) {t : Tid} (ht : t ≠ .main) {m : Mutex} (ho : s.owner m = some t) : Can s t := by
  obtain ⟨held, hh, hS⟩ := h.w t ht
  have hm : m ∈ held := (hh m).2 ho
  cases hp : s.prog t with
  | nil =>
    rw [hp] at hS
    have hS : held = [] := hS
    rw [hS] at hm; cases hm
  | cons i p =>
    by_contra hn
    rcases stuck_cases h hp hn with ⟨m', v, rfl, _⟩ | ⟨h1, _⟩
    · rw [hp] at hS
      rw [hS.1] at hm; cases hm
    · exact ht h1

theorem spurious_main (h : Inv X s τ live) {t : Tid} (hs : Spurious s t) : t = .main := by
  obtain ⟨⟨p, hp⟩, _⟩ := hs
  by_contra hm
  obtain ⟨held, _, hS⟩ := h.w t hm
  rw [hp] at hS
  exact hS

/-- In every state in which some thread has not ended, a thread can do a step, other than waking up without reason. -/
theorem useful_step {T : Finset Tid} {K : ℕ} (h : Inv X s τ live) (hL : LInv T K s) (hW : WInv s) (hd : ¬ Done s) :
    ∃ t, Can s t ∧ ¬ Spurious s t := by
  by_contra hcon
  push Not at hcon
  have ownMain : ∀ {m v}, s.owner m = some v → v = .main := by
    intro m v hv
    by_contra hne
    exact hne (spurious_main h (hcon v (owner_can h hne hv)))
  have others : ∀ u, u ≠ .main → s.prog u ≠ [] → ∃ m, s.owner m = some .main := by
    intro u hu hne
    cases hp : s.prog u with
    | nil => exact absurd hp hne
    | cons i p =>
      rcases stuck_cases h hp (fun hc => hu (spurious_main h (hcon u hc))) with ⟨m, v, rfl, hv⟩ | ⟨h1, _⟩
      · exact ⟨m, by rw [hv, ownMain hv]⟩
      · exact absurd h1 hu
  obtain ⟨held, hh, hS⟩ := h.m
  have alone : held = [] → ∀ u, u ≠ .main → s.prog u = [] := by
    intro h0 u hu
    by_contra hne
    obtain ⟨m, ho⟩ := others u hu hne
    have := (hh m).2 ho
    rw [h0] at this; cases this
  by_cases hsp : Spurious s .main
  · obtain ⟨⟨q, hq⟩, ha⟩ := hsp
    have hq' : ∃ c k p, s.prog .main = .wake :: .op (.lock .qout) :: .test c k :: p := by
      obtain ⟨c, k, p, h1 | h1 | h1⟩ := hW.slp ha
      · rw [hq] at h1; cases h1
      · rw [hq] at h1; cases h1
      · exact ⟨c, k, p, h1⟩
    obtain ⟨c, k, p, hq⟩ := hq'
    have hpush : pushes (s.prog .main) = 0 := msafe_no_push _ _ _ hS
    rw [hq] at hS
    have hall := alone hS.1
    have hqout : s.qout = [] := by
      rcases hW.lost ha with h1 | ⟨_, u, hu, h1⟩
      · exact h1
      · rw [hall u hu] at h1; cases h1
    have hb := hL.bal
    have hsum : ∑ t ∈ T, pushes (s.prog t) = 0 := by
      refine Finset.sum_eq_zero fun t _ => ?_
      by_cases ht : t = .main
      · rw [ht]; exact hpush
      · rw [hall t ht]; rfl
    rw [hq] at hb
    have hpos : 0 < supply T s := hb.1
    simp only [supply, hsum, hqout, List.length_nil] at hpos
    rcases hL.act with h1 | ⟨j, hj⟩ | h1
    · rw [h1] at hpos; exact absurd hpos (by simp)
    · rw [hall _ (by simp)] at hj; cases hj
    · rw [hq] at h1; exact h1
  · have hmain : ¬ Can s .main := fun hc => hsp (hcon _ hc)
    cases hp : s.prog .main with
    | nil =>
      rw [hp] at hS
      refine hd fun t => ?_
      by_cases ht : t = .main
      · rw [ht]; exact hp
      · exact alone hS t ht
    | cons i p =>
      rw [hp] at hS
      rcases stuck_cases h hp hmain with ⟨m, v, rfl, hv⟩ | ⟨_, j, rfl, hj⟩
      · have hm : m ∈ held := (hh m).2 (by rw [hv, ownMain hv])
        rcases hS.1 with h1 | ⟨rfl, h1⟩
        · rw [h1] at hm; cases hm
        · rw [h1] at hm; simp at hm
      · exact hj (alone hS.1 _ (by simp))

end

theorem exec_append : ∀ (ts ts' : List Tid) (x : St × Trace), exec x (ts ++ ts') = (exec x ts).bind fun y => exec y ts'
  | [], _, _ => rfl
  | t :: ts, ts', x => by
    simp only [List.cons_append, exec]
    cases exec1 x t with
    | none => rfl
    | some y => exact exec_append ts ts' y

theorem exec_one {s s' : St} {τ : Trace} {t : Tid} {oo : Option Op} (hs : step s t = some (s', oo)) :
    exec (s, τ) [t] = some (s', τ ++ oo.toList.map fun o => (t, o)) := by
  simp [exec, exec1, hs]

/-- Everything that is known about a state. -/
structure Good (T : Finset Tid) (K : ℕ) (x : St × Trace) : Prop where
  inv : ∃ live, Inv True x.1 x.2 live
  linv : LInv T K x.1
  winv : WInv x.1

theorem Good.step {T : Finset Tid} {K : ℕ} {s s' : St} {τ : Trace} (h : Good T K (s, τ)) {t : Tid} {oo : Option Op}
    (hs : Verif.Races.step s t = some (s', oo)) : Good T K (s', τ ++ oo.toList.map fun o => (t, o)) := by
  obtain ⟨live, hi⟩ := h.inv
  exact ⟨inv_step hi hs, linv_step hi h.linv hs, winv_step hi h.winv hs⟩

theorem Good.exec {T : Finset Tid} {K : ℕ} : ∀ (ts : List Tid) {x y : St × Trace}, Good T K x →
    Verif.Races.exec x ts = some y → Good T K y
  | [], _, _, h, he => by cases he; exact h
  | t :: ts, (s, τ), y, h, he => by
    simp only [Verif.Races.exec, exec1] at he
    cases hs : Verif.Races.step s t with
    | none => rw [hs] at he; cases he
    | some r =>
      rw [hs] at he
      exact Good.exec ts (h.step hs) he

theorem Good.load_step {T : Finset Tid} {K : ℕ} {s s' : St} {τ : Trace} (h : Good T K (s, τ)) {t : Tid} {oo : Option Op}
    (hs : Verif.Races.step s t = some (s', oo)) :
    (¬ Spurious s t ∧ load T K s' + 1 ≤ load T K s) ∨ (Spurious s t ∧ load T K s' = load T K s + 5) := by
  obtain ⟨live, hi⟩ := h.inv
  refine Verif.Races.load_step h.linv.out h.linv.lst (fun c k p hp => ?_) hs
  have ht : t = .main := by
    by_contra hm
    obtain ⟨held, _, hS⟩ := hi.w t hm
    simp only at hS
    rw [hp] at hS; exact hS
  subst ht
  exact h.winv.test hp

open Classical in
theorem Good.bound {T : Finset Tid} {K : ℕ} : ∀ (ts : List Tid) {x y : St × Trace}, Good T K x →
    Verif.Races.exec x ts = some y → ts.length + load T K y.1 ≤ load T K x.1 + 6 * spurious x ts
  | [], _, _, _, he => by cases he; simp [spurious]
  | t :: ts, (s, τ), y, h, he => by
    simp only [Verif.Races.exec, exec1] at he
    cases hs : Verif.Races.step s t with
    | none => rw [hs] at he; cases he
    | some r =>
      rw [hs] at he
      have ih := Good.bound ts (h.step hs) he
      have hl := h.load_step hs
      simp only [spurious, exec1, hs, Option.map_some, Option.getD_some, List.length_cons] at ih ⊢
      rcases hl with ⟨h1, h2⟩ | ⟨h1, h2⟩
      · rw [if_neg h1]; omega
      · rw [if_pos h1]; omega

/-- Everything can be brought to an end. -/
theorem completes {T : Finset Tid} {K : ℕ} : ∀ (n : ℕ) (x : St × Trace), Good T K x → load T K x.1 ≤ n →
    ∃ ts y, exec x ts = some y ∧ spurious x ts = 0 ∧ Done y.1
  | n, (s, τ), h, hn => by
    by_cases hd : Done s
    · exact ⟨[], (s, τ), rfl, rfl, hd⟩
    · obtain ⟨live, hi⟩ := h.inv
      obtain ⟨t, ⟨⟨s1, oo⟩, hs⟩, hns⟩ := useful_step hi h.linv h.winv hd
      have hl : load T K s1 + 1 ≤ load T K s := by
        rcases h.load_step hs with ⟨_, h1⟩ | ⟨h1, _⟩
        · exact h1
        · exact absurd h1 hns
      simp only at hn
      cases n with
      | zero => omega
      | succ n =>
        obtain ⟨ts, y, he, h0, hy⟩ := completes n _ (h.step hs) (by simp only; omega)
        refine ⟨t :: ts, y, ?_, ?_, hy⟩
        · simp only [exec, exec1, hs, Option.map_some, Option.bind_some]; exact he
        · simp only [spurious, exec1, hs, Option.map_some, Option.getD_some, h0, if_neg hns]

/-! ### The start -/

theorem spawns_sp (base : ℕ) (p : List Instr) : ∀ w, Sp (spawns base (w + 1) ++ p)
  | 0 => trivial
  | w + 1 => by
    rw [spawns, List.append_assoc]
    induction w with
    | zero => trivial
    | succ w ih =>
      rw [spawns, List.append_assoc]
      have : ∀ (w : ℕ) (q : List Instr), Sp (spawns base (w + 1) ++ q) := by
        intro w
        induction w with
        | zero => intro q; trivial
        | succ w ihw => intro q; rw [spawns, List.append_assoc]; exact ihw _
      have h := this w ([.op (.spawn (base + (w + 1)))] ++ ([.op (.spawn (base + (w + 1 + 1)))] ++ p))
      rw [spawns, List.append_assoc] at h
      rw [spawns] at ih
      simp only [spawns, List.append_assoc] at h ⊢
      exact h

theorem spawns_bal (base q : ℕ) : ∀ (w : ℕ) (p : List Instr), Bal q (spawns base w ++ p) ↔ Bal q p
  | 0, _ => Iff.rfl
  | w + 1, p => by
    rw [spawns, List.append_assoc, spawns_bal base q w]
    exact Iff.rfl

theorem loop_bal (c : Call) (p : List Instr) : ∀ n k, Bal n (c.loop k n ++ p) ↔ Bal 0 p
  | 0, _ => Iff.rfl
  | n + 1, k => by
    have := loop_bal c p n (k + 1)
    simp only [Call.loop, List.cons_append, Bal]
    rw [Nat.add_sub_cancel, this]
    simp

theorem session_bal : ∀ (cs : List Call), (∀ c ∈ cs, 0 < c.n → 0 < c.W) → ∀ base, Bal 0 (session base cs)
  | [], _, _ => rfl
  | c :: cs, hW, base => by
    have ih := session_bal cs (fun d hd => hW d (by simp [hd])) (base + c.W)
    have h1 : Bal c.n (spawns base c.W ++ (c.loop 0 c.n ++ (joins base c.W ++ (c.post ++ session (base + c.W) cs)))) := by
      rw [spawns_bal, loop_bal, neutral_bals (joins_neutral base c.W), neutral_bals (post_neutral c)]
      exact ih
    have h2 : c.n = 0 ∨ Sp (spawns base c.W ++ (c.loop 0 c.n ++ (joins base c.W ++ (c.post ++ session (base + c.W) cs)))) := by
      rcases Nat.eq_zero_or_pos c.n with h | h
      · exact .inl h
      · right
        have := hW c (by simp) h
        obtain ⟨w, hw⟩ := Nat.exists_eq_succ_of_ne_zero (Nat.pos_iff_ne_zero.1 this)
        rw [hw]
        exact spawns_sp base _ w
    unfold session Call.prog
    simp only [List.append_assoc]
    exact ⟨rfl, h2, h1⟩

theorem spawn_mem_spawns (base : ℕ) (j : ℕ) : ∀ w, Instr.op (.spawn j) ∈ spawns base w → j < base + w
  | 0, h => by cases h
  | w + 1, h => by
    rcases List.mem_append.1 h with h | h
    · have := spawn_mem_spawns base j w h; omega
    · cases List.mem_singleton.1 h; omega

theorem spawn_not_loop (c : Call) (j : ℕ) : ∀ n k, Instr.op (.spawn j) ∉ c.loop k n
  | 0, _ => by simp [Call.loop]
  | n + 1, k => by
    simp only [Call.loop, List.mem_cons, not_or]
    exact ⟨by simp, by simp, spawn_not_loop c j n (k + 1)⟩

theorem spawn_mem_session : ∀ (cs : List Call) (base j : ℕ), Instr.op (.spawn j) ∈ session base cs →
    j < base + (cs.map Call.W).sum
  | [], _, _, h => by cases h
  | c :: cs, base, j, h => by
    simp only [List.map_cons, List.sum_cons]
    rcases List.mem_append.1 h with h | h
    · unfold Call.prog at h
      simp only [List.mem_append] at h
      rcases h with h | h | h | h | h
      · simp at h
      · have := spawn_mem_spawns base j c.W h; omega
      · exact absurd h (spawn_not_loop c j _ _)
      · cases joins_neutral base c.W _ h
      · cases post_neutral c _ h
    · have := spawn_mem_session cs _ j h; omega

theorem requests_no_spawn (j : ℕ) : ∀ rs : List Req, Instr.op (.spawn j) ∉ requests rs
  | [], h => by cases h
  | r :: rs, h => by
    rcases List.mem_append.1 h with h | h
    · cases r <;> simp [Req.prog, addListener, removeListener] at h
    · exact requests_no_spawn j rs h

theorem requests_no_push : ∀ rs : List Req, pushes (requests rs) = 0
  | [] => rfl
  | r :: rs => by
    have ih := requests_no_push rs
    cases r <;> simpa [requests, Req.prog, addListener, removeListener, pushes] using ih

/-- The threads of a program. -/
def allThreads (calls : List Call) (N : ℕ) : Finset Tid :=
  insert .main ((Finset.range (calls.map Call.W).sum).image Tid.worker ∪ (Finset.range N).image Tid.other)

theorem good_init (calls : List Call) (hW : ∀ c ∈ calls, 0 < c.n → 0 < c.W) (others listen : ℕ → List Req) (N K : ℕ)
    (hN : ∀ i, N ≤ i → others i = []) (hK : ∀ k, K ≤ k → listen k = []) :
    Good (allThreads calls N) K (St.init calls others listen, []) := by
  have hi := inv_init True calls (fun _ => trivial) others listen
  refine ⟨⟨∅, hi⟩, ⟨?_, ?_, ?_, .inl rfl, hK⟩, winv_awake rfl⟩
  · intro t ht
    cases t with
    | main => simp [allThreads]
    | worker j => exact absurd rfl ht
    | other i =>
      have : i < N := by
        by_contra hge
        refine ht ?_
        change requests (others i) = []
        rw [hN i (Nat.le_of_not_lt hge)]; rfl
      simp [allThreads, this]
  · intro t j hj
    cases t with
    | main =>
      have := spawn_mem_session calls 0 j hj
      simp only [allThreads, Finset.mem_insert, Finset.mem_union, Finset.mem_image, Finset.mem_range]
      exact .inr (.inl ⟨j, by omega, rfl⟩)
    | worker i => cases hj
    | other i => exact absurd hj (requests_no_spawn j _)
  · have hsup : supply (allThreads calls N) (St.init calls others listen) = 0 := by
      have : ∑ t ∈ allThreads calls N, pushes ((St.init calls others listen).prog t) = 0 := by
        refine Finset.sum_eq_zero fun t _ => ?_
        cases t with
        | main =>
          obtain ⟨held, _, hS⟩ := hi.m
          exact msafe_no_push _ _ _ hS
        | worker j => rfl
        | other i => exact requests_no_push _
      simp only [supply, this]
      rfl
    rw [hsup]
    exact session_bal calls hW 0

/-! ### Theorems -/

/-- **C121**: no deadlock.  Whatever calls are made one after the other, with at least one worker if there are documents,
whatever other threads do with the event dispatcher and whatever listeners do with it from inside a notification (finitely
much altogether): wherever an execution has got to, some thread can go on, unless all calls have returned and all threads
have ended.  The wait for a result ends only because of a signal here. -/
theorem C121_never_stuck (calls : List Call) (hW : ∀ c ∈ calls, 0 < c.n → 0 < c.W) (others listen : ℕ → List Req) (N K : ℕ)
    (hN : ∀ i, N ≤ i → others i = []) (hK : ∀ k, K ≤ k → listen k = []) (ts : List Tid) {x : St × Trace}
    (h : exec (St.init calls others listen, []) ts = some x) :
    Done x.1 ∨ ∃ t r, step x.1 t = some r ∧ ¬ Spurious x.1 t := by
  by_cases hd : Done x.1
  · exact .inl hd
  · have g := (good_init calls hW others listen N K hN hK).exec ts h
    obtain ⟨live, hi⟩ := g.inv
    obtain ⟨t, ⟨r, hr⟩, hs⟩ := useful_step hi g.linv g.winv hd
    exact .inr ⟨t, r, hr, hs⟩

/-- **C121**: every execution ends.  There is a bound for the number of steps that depends on nothing but the calls, the requests and
how often a wait ends without reason; so whatever the scheduler does, even an unfair one, threads that go on as long as
some can come to the end of everything. -/
theorem C121_bounded (calls : List Call) (hW : ∀ c ∈ calls, 0 < c.n → 0 < c.W) (others listen : ℕ → List Req) (N K : ℕ)
    (hN : ∀ i, N ≤ i → others i = []) (hK : ∀ k, K ≤ k → listen k = []) :
    ∃ B, ∀ (ts : List Tid) (x : St × Trace), exec (St.init calls others listen, []) ts = some x →
      ts.length ≤ B + 6 * spurious (St.init calls others listen, []) ts := by
  refine ⟨load (allThreads calls N) K (St.init calls others listen), fun ts x h => ?_⟩
  have := (good_init calls hW others listen N K hN hK).bound ts h
  simp only at this
  omega

/-- **C121**: from every point on everything can be brought to an end, without a wait that ends without reason. -/
theorem C121_can_complete (calls : List Call) (hW : ∀ c ∈ calls, 0 < c.n → 0 < c.W) (others listen : ℕ → List Req) (N K : ℕ)
    (hN : ∀ i, N ≤ i → others i = []) (hK : ∀ k, K ≤ k → listen k = []) (ts : List Tid) {x : St × Trace}
    (h : exec (St.init calls others listen, []) ts = some x) :
    ∃ ts' y, exec x ts' = some y ∧ spurious x ts' = 0 ∧ Done y.1 :=
  completes _ x ((good_init calls hW others listen N K hN hK).exec ts h) (le_refl _)

/-- One worker, two documents, a listener that calls back and another thread: the hypotheses hold, also in the middle of
the call, when the worker has gone to look for the second document. -/
example : (∀ c ∈ [twoDocs false], 0 < c.n → 0 < c.W) ∧ (∀ k, 2 ≤ k → oneCallback k = []) ∧
    ∃ x, exec (St.init [twoDocs false] (fun i => if i = 0 then [.add, .dispatch, .remove] else []) oneCallback, [])
      racySchedule = some x ∧ ¬ Done x.1 := by
  refine ⟨by simp [twoDocs], fun k hk => ?_, ?_⟩
  · unfold oneCallback; rw [if_neg (by omega)]
  · have h : (exec (St.init [twoDocs false] (fun i => if i = 0 then [.add, .dispatch, .remove] else []) oneCallback, [])
      racySchedule).map (fun p => (p.1.prog .main).isEmpty) = some false := by decide +kernel
    cases he : exec (St.init [twoDocs false] (fun i => if i = 0 then [.add, .dispatch, .remove] else []) oneCallback, [])
      racySchedule with
    | none => rw [he] at h; cases h
    | some x =>
      rw [he] at h
      refine ⟨x, rfl, fun hd => ?_⟩
      have h' := Option.some.inj h
      simp only [hd .main] at h'
      cases h'

/-- Without workers the calling thread waits for ever for the first result (C05): the hypothesis on the workers is needed. -/
theorem C121_no_worker (c : Call) (hn : 0 < c.n) (hW : c.W = 0) :
    ∃ ts x, exec (St.init [c] (fun _ => []) fun _ => [], []) ts = some x ∧ ¬ Done x.1 ∧
      ∀ t r, step x.1 t = some r → Spurious x.1 t := by
  obtain ⟨fit, W, n, owner, dw, de, be⟩ := c
  simp only at hn hW
  subst hW
  obtain ⟨m, rfl⟩ := Nat.exists_eq_succ_of_ne_zero (Nat.pos_iff_ne_zero.1 hn)
  refine ⟨List.replicate 8 .main, _, rfl, fun h => List.cons_ne_nil _ _ (h .main), fun t r hs => ?_⟩
  cases t with
  | main => exact ⟨⟨_, rfl⟩, rfl⟩
  | worker j => exact nomatch (show none = some r from hs)
  | other i => exact nomatch (show none = some r from hs)

end Verif.Races
