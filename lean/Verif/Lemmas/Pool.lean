import Mathlib.Algebra.BigOperators.Fin
import Mathlib.Algebra.BigOperators.Group.List.Basic
import Mathlib.Tactic.Ring
import Verif.Spec.Pool

/-! Helper lemmas for the worker pool model: a rule-per-constructor view of `step` and the
inductive invariants. -/
namespace Verif.Pool

open Finset

variable {M P R : Type}

/-! ### Sums over the workers -/

theorem sum_setW {W : Nat} (f : WPc R → Nat) (ws : Fin W → WPc R) (j : Fin W) (v : WPc R) :
    (∑ w, f (setW ws j v w)) + f (ws j) = (∑ w, f (ws w)) + f v := by
  classical
  have h1 : ∀ w, f (setW ws j v w) = Function.update (fun w => f (ws w)) j (f v) w := by
    intro w
    unfold setW Function.update
    by_cases h : w = j <;> simp [h]
  simp only [h1]
  rw [Finset.sum_update_of_mem (mem_univ j)]
  rw [← Finset.sum_sdiff (subset_univ {j}) (f := fun w => f (ws w))]
  simp only [Finset.sum_singleton]
  omega

@[simp] theorem setW_same {W : Nat} (ws : Fin W → WPc R) (j : Fin W) (v : WPc R) :
    setW ws j v j = v := by simp [setW]

theorem setW_ne {W : Nat} (ws : Fin W → WPc R) {j x : Fin W} (v : WPc R) (h : x ≠ j) :
    setW ws j v x = ws x := by simp [setW, h]

/-! ### One constructor per kind of step -/

/-- Rule view of `step`. -/
inductive Trans (c : Cfg M P R) (s : St M R c.W) : Act → St M R c.W → Prop where
  | fetchDone (j : Fin c.W) (h : s.ws j = .fetch) (hq : s.qin = []) :
      Trans c s (.worker j) { s with ws := setW s.ws j .done }
  | fetchJob (j : Fin c.W) (i : Nat) (q : List Nat) (h : s.ws j = .fetch) (hq : s.qin = i :: q) :
      Trans c s (.worker j) { s with qin := q, ws := setW s.ws j (.work i) }
  | work (j : Fin c.W) (i : Nat) (h : s.ws j = .work i) :
      Trans c s (.worker j)
        { s with ws := setW s.ws j (.push i (c.eval (c.params s.model) i)),
                 evq := s.evq ++ [.exp i] }
  | push (j : Fin c.W) (i : Nat) (r : R) (h : s.ws j = .push i r) :
      Trans c s (.worker j) { s with qout := s.qout ++ [(r, i)], ws := setW s.ws j .notify }
  | notify (j : Fin c.W) (h : s.ws j = .notify) :
      Trans c s (.worker j) { s with ws := setW s.ws j .fetch, main := wake s.main }
  | spawn (j : Nat) (hj : j < c.W) (h : s.main = .spawn j) :
      Trans c s .main { s with ws := setW s.ws ⟨j, hj⟩ .fetch, main := .spawn (j + 1) }
  | spawned (j : Nat) (hj : ¬ j < c.W) (h : s.main = .spawn j) :
      Trans c s .main { s with main := .loop 0 }
  | wait (k : Nat) (hk : k < c.n) (h : s.main = .loop k) (hq : s.qout = []) :
      Trans c s .main { s with main := .waiting k }
  | extract (k : Nat) (i : Nat) (r : R) (q : List (R × Nat)) (hk : k < c.n) (h : s.main = .loop k)
      (hq : s.qout = (r, i) :: q) :
      Trans c s .main { s with qout := q, main := .got k i r }
  | loopEnd (k : Nat) (hk : ¬ k < c.n) (h : s.main = .loop k) :
      Trans c s .main { s with main := .join 0 }
  | pfProcess (k i : Nat) (r : R) (hk : c.kind = .partialFit) (h : s.main = .got k i r) :
      Trans c s .main { flush s with main := .mid k i r }
  | trConsume (k i : Nat) (r : R) (hk : c.kind = .transform) (h : s.main = .got k i r) :
      Trans c s .main { consume c s i r with main := .mid k i r }
  | pfConsume (k i : Nat) (r : R) (hk : c.kind = .partialFit) (h : s.main = .mid k i r) :
      Trans c s .main { consume c s i r with main := .loop (k + 1) }
  | trProcess (k i : Nat) (r : R) (hk : c.kind = .transform) (h : s.main = .mid k i r) :
      Trans c s .main { flush s with main := .loop (k + 1) }
  | join (j : Nat) (hj : j < c.W) (h : s.main = .join j) (hd : s.ws ⟨j, hj⟩ = .done) :
      Trans c s .main { s with main := .join (j + 1) }
  | pfJoined (j : Nat) (hj : ¬ j < c.W) (hk : c.kind = .partialFit) (h : s.main = .join j) :
      Trans c s .main { s with main := .post }
  | trJoined (j : Nat) (hj : ¬ j < c.W) (hk : c.kind = .transform) (h : s.main = .join j) :
      Trans c s .main { s with main := .ret }
  | post (h : s.main = .post) :
      Trans c s .main
        { emitM c { s with model := (c.batch s.model).1, log := s.log ++ [.batch] }
            (c.batch s.model).2 with main := .epoch }
  | epoch (h : s.main = .epoch) :
      Trans c s .main { dispatch c s .epoch with main := .ret }
  | spurious (k : Nat) (h : s.main = .waiting k) :
      Trans c s .spurious { s with main := .loop k }

theorem trans_of_step {c : Cfg M P R} {s s' : St M R c.W} {a : Act}
    (h : step c s a = some s') : Trans c s a s' := by
  cases a with
  | main =>
    simp only [step, mainStep] at h
    split at h
    · rename_i j hm
      split at h
      · rename_i hj
        cases h
        exact .spawn j hj hm
      · rename_i hj
        cases h
        exact .spawned j hj hm
    · rename_i k hm
      split at h
      · rename_i hk
        split at h
        · rename_i hq
          cases h
          exact .wait k hk hm hq
        · rename_i r i q hq
          cases h
          exact .extract k i r q hk hm hq
      · rename_i hk
        cases h
        exact .loopEnd k hk hm
    · cases h
    · rename_i k i r hm
      split at h
      · rename_i hk
        cases h
        exact .pfProcess k i r hk hm
      · rename_i hk
        cases h
        exact .trConsume k i r hk hm
    · rename_i k i r hm
      split at h
      · rename_i hk
        cases h
        exact .pfConsume k i r hk hm
      · rename_i hk
        cases h
        exact .trProcess k i r hk hm
    · rename_i j hm
      split at h
      · rename_i hj
        split at h
        · rename_i hd
          cases h
          exact .join j hj hm hd
        · cases h
      · rename_i hj
        split at h
        · rename_i hk
          cases h
          exact .pfJoined j hj hk hm
        · rename_i hk
          cases h
          exact .trJoined j hj hk hm
    · rename_i hm
      cases h
      exact .post hm
    · rename_i hm
      cases h
      exact .epoch hm
    · cases h
  | worker j =>
    simp only [step] at h
    split at h
    · rename_i hj
      simp only [workerStep] at h
      split at h
      · cases h
      · cases h
      · rename_i hw
        split at h
        · rename_i hq
          cases h
          exact .fetchDone ⟨j, hj⟩ hw hq
        · rename_i i q hq
          cases h
          exact .fetchJob ⟨j, hj⟩ i q hw hq
      · rename_i i hw
        cases h
        exact .work ⟨j, hj⟩ i hw
      · rename_i i r hw
        cases h
        exact .push ⟨j, hj⟩ i r hw
      · rename_i hw
        cases h
        exact .notify ⟨j, hj⟩ hw
    · cases h
  | spurious =>
    simp only [step] at h
    split at h
    · rename_i k hm
      cases h
      exact .spurious k hm
    · cases h

theorem run_append (c : Cfg M P R) (s : St M R c.W) (as bs : List Act) :
    run c s (as ++ bs) = (run c s as).bind (fun s' => run c s' bs) := by
  induction as generalizing s with
  | nil => rfl
  | cons a as ih =>
    simp only [List.cons_append, run]
    cases step c s a with
    | none => rfl
    | some s1 => exact ih s1

theorem Reachable.init (c : Cfg M P R) (m : M) : Reachable c m (init c m) := ⟨[], rfl⟩

theorem Reachable.step {c : Cfg M P R} {m : M} {s s' : St M R c.W} {a : Act}
    (h : Reachable c m s) (hs : step c s a = some s') : Reachable c m s' := by
  obtain ⟨as, h⟩ := h
  refine ⟨as ++ [a], ?_⟩
  rw [run_append, h]
  simp [run, hs]

theorem Reachable.run {c : Cfg M P R} {m : M} {s s' : St M R c.W} {as : List Act}
    (h : Reachable c m s) (hs : run c s as = some s') : Reachable c m s' := by
  obtain ⟨bs, h⟩ := h
  refine ⟨bs ++ as, ?_⟩
  rw [run_append, h]
  simpa using hs

/-- Induction principle: whatever holds initially and is preserved by `Trans` from reachable
states holds in every reachable state. -/
theorem reachable_induct {c : Cfg M P R} {m : M} (I : St M R c.W → Prop)
    (h0 : I (Pool.init c m)) (hs : ∀ s a s', Reachable c m s → I s → Trans c s a s' → I s') :
    ∀ s, Reachable c m s → I s := by
  have key : ∀ (as : List Act) (s0 s : St M R c.W), Reachable c m s0 → I s0 →
      Pool.run c s0 as = some s → I s := by
    intro as
    induction as with
    | nil => intro s0 s _ hI h; cases h; exact hI
    | cons a as ih =>
      intro s0 s hr hI h
      simp only [Pool.run] at h
      split at h
      · cases h
      · rename_i s1 h1
        exact ih s1 s (hr.step h1) (hs s0 a s1 hr hI (trans_of_step h1)) h
  rintro s ⟨as, h⟩
  exact key as _ _ (Reachable.init c m) h0 h

/-! ### Projections of the state changes that involve the event queue -/

@[simp] theorem flush_qin {W} (s : St M R W) : (flush s).qin = s.qin := rfl
@[simp] theorem flush_qout {W} (s : St M R W) : (flush s).qout = s.qout := rfl
@[simp] theorem flush_ws {W} (s : St M R W) : (flush s).ws = s.ws := rfl
@[simp] theorem flush_main {W} (s : St M R W) : (flush s).main = s.main := rfl
@[simp] theorem flush_model {W} (s : St M R W) : (flush s).model = s.model := rfl
@[simp] theorem flush_evq {W} (s : St M R W) : (flush s).evq = [] := rfl
@[simp] theorem flush_log {W} (s : St M R W) :
    (flush s).log = s.log ++ s.evq.map .deliver := rfl

variable (c : Cfg M P R)

@[simp] theorem dispatch_qin (s : St M R c.W) (e) : (dispatch c s e).qin = s.qin := by
  unfold dispatch; split <;> rfl
@[simp] theorem dispatch_qout (s : St M R c.W) (e) : (dispatch c s e).qout = s.qout := by
  unfold dispatch; split <;> rfl
@[simp] theorem dispatch_ws (s : St M R c.W) (e) : (dispatch c s e).ws = s.ws := by
  unfold dispatch; split <;> rfl
@[simp] theorem dispatch_main (s : St M R c.W) (e) : (dispatch c s e).main = s.main := by
  unfold dispatch; split <;> rfl
@[simp] theorem dispatch_model (s : St M R c.W) (e) : (dispatch c s e).model = s.model := by
  unfold dispatch; split <;> rfl

@[simp] theorem emitM_qin (s : St M R c.W) (k) : (emitM c s k).qin = s.qin := by
  induction k generalizing s with
  | zero => rfl
  | succ k ih => rw [emitM, ih]; simp
@[simp] theorem emitM_qout (s : St M R c.W) (k) : (emitM c s k).qout = s.qout := by
  induction k generalizing s with
  | zero => rfl
  | succ k ih => rw [emitM, ih]; simp
@[simp] theorem emitM_ws (s : St M R c.W) (k) : (emitM c s k).ws = s.ws := by
  induction k generalizing s with
  | zero => rfl
  | succ k ih => rw [emitM, ih]; simp
@[simp] theorem emitM_main (s : St M R c.W) (k) : (emitM c s k).main = s.main := by
  induction k generalizing s with
  | zero => rfl
  | succ k ih => rw [emitM, ih]; simp
@[simp] theorem emitM_model (s : St M R c.W) (k) : (emitM c s k).model = s.model := by
  induction k generalizing s with
  | zero => rfl
  | succ k ih => rw [emitM, ih]; simp

@[simp] theorem consume_qin (s : St M R c.W) (i r) : (consume c s i r).qin = s.qin := by
  simp [consume]
@[simp] theorem consume_qout (s : St M R c.W) (i r) : (consume c s i r).qout = s.qout := by
  simp [consume]
@[simp] theorem consume_ws (s : St M R c.W) (i r) : (consume c s i r).ws = s.ws := by
  simp [consume]
@[simp] theorem consume_model (s : St M R c.W) (i r) :
    (consume c s i r).model = (c.docStep i r s.model).1 := by
  simp [consume]

/-! ### Projections of the log -/

@[simp] theorem consumed_nil : consumed ([] : List (Obs R)) = [] := rfl
@[simp] theorem delivered_nil : delivered ([] : List (Obs R)) = [] := rfl
@[simp] theorem consumed_append (a b : List (Obs R)) :
    consumed (a ++ b) = consumed a ++ consumed b := List.filterMap_append ..
@[simp] theorem delivered_append (a b : List (Obs R)) :
    delivered (a ++ b) = delivered a ++ delivered b := List.filterMap_append ..
@[simp] theorem consumed_deliver (es : List Ev) :
    consumed (es.map (Obs.deliver (R := R))) = [] := by
  induction es with
  | nil => rfl
  | cons e es ih => simp [consumed]
@[simp] theorem delivered_deliver (es : List Ev) :
    delivered (es.map (Obs.deliver (R := R))) = es := by
  induction es with
  | nil => rfl
  | cons e es ih => simp [delivered]
@[simp] theorem consumed_consume (i : Nat) (r : R) : consumed [Obs.consume i r] = [(i, r)] := rfl
@[simp] theorem delivered_consume (i : Nat) (r : R) : delivered [Obs.consume i r] = [] := rfl
@[simp] theorem consumed_batch : consumed [Obs.batch (R := R)] = [] := rfl
@[simp] theorem delivered_batch : delivered [Obs.batch (R := R)] = [] := rfl

/-- What `dispatch` does to the log and the event queue. -/
theorem dispatch_evs (s : St M R c.W) (e : Ev) :
    ∃ es, (dispatch c s e).log = s.log ++ es.map .deliver ∧
      es ++ (dispatch c s e).evq = s.evq ++ [e] ∧ (c.owner = true → (dispatch c s e).evq = []) := by
  unfold dispatch
  by_cases h : c.owner = true
  · exact ⟨s.evq ++ [e], by simp [h], by simp [h], by simp [h]⟩
  · exact ⟨[], by simp [h], by simp [h], fun h' => absurd h' h⟩

/-- What `emitM` does to the log and the event queue. -/
theorem emitM_evs (s : St M R c.W) (k : Nat) :
    ∃ es, (emitM c s k).log = s.log ++ es.map .deliver ∧
      es ++ (emitM c s k).evq = s.evq ++ List.replicate k .max ∧
      (c.owner = true → k ≠ 0 → (emitM c s k).evq = []) := by
  induction k generalizing s with
  | zero => exact ⟨[], by simp [emitM], by simp [emitM], by simp⟩
  | succ k ih =>
    obtain ⟨e1, h1, h2, h3⟩ := dispatch_evs c s .max
    obtain ⟨e2, g1, g2, g3⟩ := ih (dispatch c s .max)
    refine ⟨e1 ++ e2, ?_, ?_, ?_⟩
    · rw [emitM, g1, h1]; simp
    · rw [emitM, List.append_assoc, g2, ← List.append_assoc, h2, List.replicate_succ]; simp
    · intro ho _
      rw [emitM]
      by_cases hk : k = 0
      · subst hk; exact h3 ho
      · exact g3 ho hk

theorem consume_evs (s : St M R c.W) (i : Nat) (r : R) :
    ∃ es, (consume c s i r).log = s.log ++ .consume i r :: es.map .deliver ∧
      es ++ (consume c s i r).evq = s.evq ++ List.replicate (c.docStep i r s.model).2 .max ∧
      (c.owner = true → (c.docStep i r s.model).2 ≠ 0 → (consume c s i r).evq = []) := by
  obtain ⟨es, h1, h2, h3⟩ := emitM_evs c
    { s with model := (c.docStep i r s.model).1, log := s.log ++ [.consume i r] }
    (c.docStep i r s.model).2
  exact ⟨es, by simpa [consume] using h1, by simpa [consume] using h2, by simpa [consume] using h3⟩

@[simp] theorem consumed_dispatch (s : St M R c.W) (e) :
    consumed (dispatch c s e).log = consumed s.log := by
  obtain ⟨es, h, _⟩ := dispatch_evs c s e; simp [h]
@[simp] theorem consumed_emitM (s : St M R c.W) (k) :
    consumed (emitM c s k).log = consumed s.log := by
  obtain ⟨es, h, _⟩ := emitM_evs c s k; simp [h]
@[simp] theorem consumed_consumeStep (s : St M R c.W) (i r) :
    consumed (consume c s i r).log = consumed s.log ++ [(i, r)] := by
  simp [consume]

/-- Every event is either delivered or still queued. -/
theorem allEv_dispatch (s : St M R c.W) (e) :
    delivered (dispatch c s e).log ++ (dispatch c s e).evq = delivered s.log ++ s.evq ++ [e] := by
  obtain ⟨es, h, h2, _⟩ := dispatch_evs c s e
  rw [h]; simp [h2]
theorem allEv_emitM (s : St M R c.W) (k) :
    delivered (emitM c s k).log ++ (emitM c s k).evq =
      delivered s.log ++ s.evq ++ List.replicate k .max := by
  obtain ⟨es, h, h2, _⟩ := emitM_evs c s k
  rw [h]; simp [h2]
theorem allEv_consume (s : St M R c.W) (i r) :
    delivered (consume c s i r).log ++ (consume c s i r).evq =
      delivered s.log ++ s.evq ++ List.replicate (c.docStep i r s.model).2 .max := by
  simp [consume, allEv_emitM]

theorem count_evq_dispatch_le (s : St M R c.W) (e) (x : Ev) :
    (dispatch c s e).evq.count x ≤ s.evq.count x + (if e = x then 1 else 0) := by
  obtain ⟨es, _, h2, _⟩ := dispatch_evs c s e
  have := congrArg (List.count x) h2
  simp [List.count_append, List.count_singleton] at this
  omega
theorem count_evq_emitM_le (s : St M R c.W) (k) (x : Ev) (hx : x ≠ .max) :
    (emitM c s k).evq.count x ≤ s.evq.count x := by
  obtain ⟨es, _, h2, _⟩ := emitM_evs c s k
  have := congrArg (List.count x) h2
  simp [List.count_append, List.count_replicate, hx.symm] at this
  omega
theorem count_evq_consume_le (s : St M R c.W) (i r) (x : Ev) (hx : x ≠ .max) :
    (consume c s i r).evq.count x ≤ s.evq.count x := by
  unfold consume
  exact count_evq_emitM_le c _ _ x hx

end Verif.Pool
