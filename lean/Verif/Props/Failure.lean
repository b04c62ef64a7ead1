import Verif.Model.Failure
import Verif.Props.Object
import Verif.Props.Arrival

/-! Property C112: an exception inside of `partial_fit` or `transform`. -/
namespace Verif.Pool

open Finset

variable {M P R : Type}

/-- The points that leave an object in the state of a new one: before anything is queued and after the workers were
joined. -/
def Point.Safe : Point → Prop
  | .shuffle => True
  | .queue k => k = 0
  | .thread _ => False
  | .document _ => False
  | .batch => True
  | .epoch => True

/-- The points with threads that run. -/
def Point.Threads : Point → Prop
  | .thread j => 0 < j
  | .document _ => True
  | _ => False

theorem run_induct {c : Cfg M P R} {s0 : St M R c.W} (I : St M R c.W → Prop) (h0 : I s0)
    (hs : ∀ s a s', I s → Trans c s a s' → I s') : ∀ (as : List Act) (s : St M R c.W), run c s0 as = some s → I s := by
  intro as
  induction as generalizing s0 with
  | nil => intro s h; cases h; exact h0
  | cons a as ih =>
    intro s h
    simp only [Pool.run] at h
    split at h
    · cases h
    · rename_i s1 h1
      exact ih (hs s0 a s1 h0 (trans_of_step h1)) s h

/-- Without workers nothing is extracted from an empty queue. -/
theorem got_workers {c : Cfg M P R} {m : M} (hW : c.W = 0) : ∀ s : St M R c.W, Reachable c m s →
    s.qout = [] ∧ ∀ k i r, s.main ≠ .got k i r ∧ s.main ≠ .mid k i r := by
  apply reachable_induct
  · simp [init, start, Left.empty]
  · intro s a s' _ ⟨h1, h2⟩ ht
    cases ht with
    | fetchDone j h hq => exact absurd j.isLt (by omega)
    | fetchJob j i q h hq => exact absurd j.isLt (by omega)
    | work j i h => exact absurd j.isLt (by omega)
    | push j i r h => exact absurd j.isLt (by omega)
    | notify j h => exact absurd j.isLt (by omega)
    | extract k i r q hk h hq => rw [h1] at hq; cases hq
    | pfProcess k i r hk h => exact absurd h (h2 k i r).1
    | trConsume k i r hk h => exact absurd h (h2 k i r).1
    | pfConsume k i r hk h => exact absurd h (h2 k i r).2
    | trProcess k i r hk h => exact absurd h (h2 k i r).2
    | _ => exact ⟨by simpa using h1, by simp⟩

/-- **C112**, the points at which an exception is harmless.  On an object in the state of a new one, a call left at a
safe point leaves no thread and empty queues. -/
theorem C112_safe_partial {c : Cfg M P R} {q : List Ev} {m : M} {p : Point} {w : Wreck M R c.W}
    (h : Fails c ⟨[], [], q⟩ m p w) (hp : p.Safe) :
    (∀ j, w.threads j = false) ∧ w.left.qin = [] ∧ w.left.qout = [] := by
  cases h with
  | shuffle => exact ⟨fun _ => rfl, rfl, rfl⟩
  | queue k hk =>
    simp only [Point.Safe] at hp
    subst hp
    exact ⟨fun _ => rfl, rfl, rfl⟩
  | running as t h ht evq m' =>
    obtain ⟨s, hs, h1, h2, h3, h4, _⟩ := call_framed h
    have key : (s.main = .post ∨ s.main = .epoch) → (∀ j, joinable t j = false) ∧ t.qin = [] ∧ t.qout = [] := by
      intro hm
      have hc := inv_cnt s hs
      have hq : s.qin = [] ∧ s.qout = [] := by
        rcases hm with hm | hm <;> rw [hm] at hc <;> exact queues_empty hs hc
      refine ⟨fun j => ?_, h1.trans hq.1, h2.trans hq.2⟩
      have : t.main.joined c.W = c.W := by
        rw [h4]
        rcases hm with hm | hm <;> rw [hm] <;> rfl
      have hj := j.isLt
      simp only [joinable, this, Bool.and_eq_false_iff, decide_eq_false_iff_not]
      right
      omega
    rw [h4] at ht
    cases hm : s.main with
    | spawn j =>
      rw [hm, MPc.point] at ht
      split at ht
      · cases ht; exact absurd hp id
      · cases ht
    | got k i r => rw [hm] at ht; cases ht; exact absurd hp id
    | mid k i r => rw [hm] at ht; cases ht; exact absurd hp id
    | post => exact key (.inl hm)
    | epoch => exact key (.inr hm)
    | loop k => rw [hm] at ht; cases ht
    | waiting k => rw [hm] at ht; cases ht
    | join k => rw [hm] at ht; cases ht
    | ret => rw [hm] at ht; cases ht

/-- **C112**, false in general: an exception of a listener or of `doc_m_step` while the documents are processed, or of
the constructor of a thread but the first, leaves a thread that is joinable, so that neither the next call nor the
destructor survives. -/
theorem C112_terminates {c : Cfg M P R} {q : List Ev} {m : M} {p : Point} {w : Wreck M R c.W}
    (h : Fails c ⟨[], [], q⟩ m p w) (hp : p.Threads) : w.Terminates := by
  cases h with
  | shuffle => exact absurd hp id
  | queue k hk => exact absurd hp id
  | running as t h ht evq m' =>
    obtain ⟨s, hs, h1, h2, h3, h4, _⟩ := call_framed h
    have hb := inv_born s hs
    rw [h4] at ht
    have key : ∀ hW : 0 < c.W, s.ws ⟨0, hW⟩ ≠ .unborn → s.main.joined c.W = 0 → ∃ j, joinable t j = true := by
      intro hW hu hj
      refine ⟨⟨0, hW⟩, ?_⟩
      simp only [joinable, h3, h4, hj]
      cases hw : s.ws ⟨0, hW⟩ <;> simp_all
    have key2 : (∀ j, s.ws j ≠ .unborn) → c.W ≠ 0 → s.main.joined c.W = 0 → ∃ j, joinable t j = true :=
      fun h5 h6 h7 => key (Nat.pos_of_ne_zero h6) (h5 _) h7
    cases hm : s.main with
    | spawn j =>
      rw [hm] at hb
      simp only [hm, MPc.point] at ht
      split at ht
      · rename_i hj
        cases ht
        simp only [Point.Threads] at hp
        refine key (by omega) ?_ (by rw [hm]; rfl)
        intro hu
        have := (hb.2 ⟨0, by omega⟩).2 hu
        simp only at this
        omega
      · cases ht
    | got k i r =>
      rw [hm] at hb
      refine key2 hb ?_ (by rw [hm]; rfl)
      intro hW
      exact ((got_workers hW s hs).2 k i r).1 hm
    | mid k i r =>
      rw [hm] at hb
      refine key2 hb ?_ (by rw [hm]; rfl)
      intro hW
      exact ((got_workers hW s hs).2 k i r).2 hm
    | post => rw [hm] at ht; cases ht; exact absurd hp id
    | epoch => rw [hm] at ht; cases ht; exact absurd hp id
    | loop k => rw [hm] at ht; cases ht
    | waiting k => rw [hm] at ht; cases ht
    | join k => rw [hm] at ht; cases ht
    | ret => rw [hm] at ht; cases ht

/-- Which exceptions can occur in a call with `W` workers and `n` documents, and the threads that are left: those
started before when the constructor of a thread throws, all of them when a document is processed, none otherwise. -/
theorem C112_threads_left {c : Cfg M P R} {q : List Ev} {m : M} {p : Point} {w : Wreck M R c.W}
    (h : Fails c ⟨[], [], q⟩ m p w) :
    match p with
    | .queue k => k < c.n ∧ ∀ i, w.threads i = false
    | .thread j => j < c.W ∧ ∀ i, w.threads i = true ↔ i < j
    | .document k => k < c.n ∧ 0 < c.W ∧ ∀ i, w.threads i = true
    | _ => ∀ i, w.threads i = false := by
  cases h with
  | shuffle => exact fun _ => rfl
  | queue k hk => exact ⟨hk, fun _ => rfl⟩
  | running as t h ht evq m' =>
    obtain ⟨s, hs, h1, h2, h3, h4, _⟩ := call_framed h
    have hb := inv_born s hs
    have hc := inv_cnt s hs
    rw [h4] at ht
    have key : s.main.joined c.W = 0 → ∀ i, joinable t i = true ↔ s.ws i ≠ .unborn := by
      intro hj i
      simp only [joinable, h3, h4, hj]
      cases hw : s.ws i <;> simp_all
    have key2 : s.main.joined c.W = c.W → ∀ i, joinable t i = false := by
      intro hj i
      have := i.isLt
      simp only [joinable, h4, hj, Bool.and_eq_false_iff, decide_eq_false_iff_not]
      right
      omega
    have pos : (∃ k i r, s.main = .got k i r ∨ s.main = .mid k i r) → 0 < c.W := by
      rintro ⟨k, i, r, hm⟩
      refine Nat.pos_of_ne_zero fun hW => ?_
      have := (got_workers hW s hs).2 k i r
      rcases hm with hm | hm
      · exact this.1 hm
      · exact this.2 hm
    cases hm : s.main with
    | spawn j =>
      rw [hm] at hb
      simp only [hm, MPc.point] at ht
      split at ht
      · rename_i hj
        cases ht
        refine ⟨hj, fun i => ?_⟩
        rw [key (by rw [hm]; rfl) i, Ne, ← hb.2 i]
        omega
      · cases ht
    | got k i r =>
      rw [hm] at hb hc ht
      cases ht
      exact ⟨hc.2, pos ⟨k, i, r, .inl hm⟩, fun i => (key (by rw [hm]; rfl) i).2 (hb i)⟩
    | mid k i r =>
      rw [hm] at hb hc ht
      cases ht
      exact ⟨hc.1, pos ⟨k, i, r, .inr hm⟩, fun i => (key (by rw [hm]; rfl) i).2 (hb i)⟩
    | post => rw [hm] at ht; cases ht; exact key2 (by rw [hm]; rfl)
    | epoch => rw [hm] at ht; cases ht; exact key2 (by rw [hm]; rfl)
    | loop k => rw [hm] at ht; cases ht
    | waiting k => rw [hm] at ht; cases ht
    | join k => rw [hm] at ht; cases ht
    | ret => rw [hm] at ht; cases ht

/-- Every other point (while the documents are queued, or when the first thread cannot be created) leaves jobs. -/
theorem C112_jobs_left {c : Cfg M P R} {q : List Ev} {m : M} {p : Point} {w : Wreck M R c.W}
    (h : Fails c ⟨[], [], q⟩ m p w) (hp : ¬ p.Safe) (hp' : ¬ p.Threads) :
    ¬ w.Terminates ∧ w.left.qout = [] ∧
      w.left.qin = List.range (match p with
        | .queue k => k
        | _ => c.n) := by
  cases h with
  | shuffle => exact absurd trivial hp
  | queue k hk => exact ⟨(by rintro ⟨j, hj⟩; cases hj), rfl, rfl⟩
  | running as t h ht evq m' =>
    have hI : ∀ j, t.main = .spawn j → j = 0 → t.qin = List.range c.n ∧ t.qout = [] ∧ ∀ w, t.ws w = .unborn := by
      refine run_induct (fun t => ∀ j, t.main = .spawn j → j = 0 → t.qin = List.range c.n ∧ t.qout = [] ∧
        ∀ w, t.ws w = .unborn) ?_ ?_ as t h
      · intro j _ _
        exact ⟨by simp [start], rfl, fun _ => rfl⟩
      · intro s a s' hI ht j hj hj0
        have born : ∀ w, s.ws w ≠ .unborn → s.main = .spawn j → False := fun w hw hm => hw ((hI j hm hj0).2.2 w)
        cases ht with
        | fetchDone w h hq => exact (born w (by simp [h]) hj).elim
        | fetchJob w i q h hq => exact (born w (by simp [h]) hj).elim
        | work w i h => exact (born w (by simp [h]) hj).elim
        | push w i r h => exact (born w (by simp [h]) hj).elim
        | notify w h =>
          refine (born w (by simp [h]) ?_).elim
          simp only at hj
          cases hm : s.main <;> simp_all [wake]
        | spawn k hk h =>
          simp only [MPc.spawn.injEq] at hj
          omega
        | _ => simp at hj
    cases hm : t.main with
    | spawn j =>
      simp only [hm, MPc.point] at ht
      split at ht
      · rename_i hj
        cases ht
        simp only [Point.Threads, Nat.not_lt, Nat.le_zero] at hp'
        obtain ⟨h1, h2, h3⟩ := hI j hm hp'
        refine ⟨?_, h2, h1⟩
        rintro ⟨w, hw⟩
        simp [joinable, h3] at hw
      · cases ht
    | got k i r => rw [hm] at ht; cases ht; exact absurd trivial hp'
    | mid k i r => rw [hm] at ht; cases ht; exact absurd trivial hp'
    | post => rw [hm] at ht; cases ht; exact absurd trivial hp
    | epoch => rw [hm] at ht; cases ht; exact absurd trivial hp
    | loop k => rw [hm] at ht; cases ht
    | waiting k => rw [hm] at ht; cases ht
    | join k => rw [hm] at ht; cases ht
    | ret => rw [hm] at ht; cases ht

/-! ### Calls after an exception -/

/-- What the listeners may have missed has no influence on anything else: a sequence of calls does the same whatever is
in the queue of the dispatcher. -/
theorem calls_any_events {cs : List (Cfg M P R)} {q : List Ev} {l' : Left R} {m m' : M} {logs : List (List (Obs R))}
    (h : Calls cs ⟨[], [], q⟩ m l' m' logs) (q' : List Ev) :
    ∃ l'' logs', Calls cs ⟨[], [], q'⟩ m l'' m' logs' ∧ logs'.map consumed = logs.map consumed := by
  generalize hl : (⟨[], [], q⟩ : Left R) = l at h
  induction h generalizing q q' with
  | nil l m => exact ⟨_, _, .nil _ _, rfl⟩
  | @cons c cs l l' m m' logs as t hrun hret ht ih =>
    subst hl
    have hev := call_events hrun hret
    rcases (framed_start c q m).run as with ⟨_, e⟩ | ⟨s, t1, e1, e2, hf⟩
    · rw [hrun] at e; cases e
    rw [hrun] at e2
    cases e2
    rcases (framed_start c q' m).run as with ⟨e, _⟩ | ⟨s1, t', e3, e4, hf'⟩
    · rw [e1] at e; cases e
    rw [e1] at e3
    cases e3
    obtain ⟨a1, a2, a3, a4, a5, a6⟩ := hf
    obtain ⟨b1, b2, b3, b4, b5, b6⟩ := hf'
    have hev' := call_events e4 (b4.trans (a4.symm.trans hret))
    obtain ⟨l'', logs', h1, h2⟩ := ih t'.evq (q := t.evq) (by simp [St.left, hev.1, hev.2.1])
    refine ⟨l'', t'.log :: logs', .cons as t' e4 (b4.trans (a4.symm.trans hret)) ?_, ?_⟩
    · have : t'.left = ⟨[], [], t'.evq⟩ := by simp [St.left, hev'.1, hev'.2.1]
      rw [this, b5, ← a5]
      exact h1
    · rw [List.map_cons, List.map_cons, h2]
      congr 1
      have key : ∀ {q evq evq' : List Ev} {log log' : List (Obs R)}, Extra q evq evq' log log' →
          consumed log' = consumed log := by
        intro q evq evq' log log' hx
        exact hx.all.2
      rw [key b6, key a6]

/-- **C112**, after an exception at a safe point.  Whatever later calls do on the object, they could have done on a new
object that was given the same model: they train on the same documents with the same results and end with the same
model. -/
theorem C112_usable_partial {c : Cfg M P R} {q : List Ev} {m : M} {p : Point} {w : Wreck M R c.W}
    (h : Fails c ⟨[], [], q⟩ m p w) (hp : p.Safe) {cs : List (Cfg M P R)} {l' : Left R} {m' : M}
    {logs : List (List (Obs R))} (hc : Calls cs w.left w.model l' m' logs) :
    l'.qin = [] ∧ l'.qout = [] ∧
    ∃ l'' logs', Calls cs .empty w.model l'' m' logs' ∧ logs'.map consumed = logs.map consumed := by
  obtain ⟨_, h1, h2⟩ := C112_safe_partial h hp
  have e : w.left = ⟨[], [], w.left.evq⟩ := by
    obtain ⟨_, ⟨a, b, d⟩, _⟩ := w
    simp only at h1 h2
    rw [h1, h2]
  rw [e] at hc
  obtain ⟨l'', logs', h3, h4⟩ := calls_any_events hc []
  refine ⟨?_, ?_, l'', logs', h3, h4⟩ <;>
  · clear h4 h3
    generalize hl : (⟨[], [], w.left.evq⟩ : Left R) = l at hc
    clear e h2 h1 hp h
    generalize w.left.evq = q' at hl
    generalize w.model = mw at hc
    induction hc generalizing q' with
    | nil l m => rw [← hl]
    | cons as t hrun hret ht ih =>
      subst hl
      have hev := call_events hrun hret
      exact ih t.evq (by simp [St.left, hev.1, hev.2.1])

/-! ### Calls on an object with jobs or results that were left -/

/-- The documents that the members hold. -/
def Left.docs (l : Left R) : List Nat := l.qin ++ l.qout.map Prod.snd

/-- The result that the calling thread has extracted but not handed over. -/
def handed (kd : Kind) : MPc R → List (R × Nat)
  | .got _ i r => [(r, i)]
  | .mid _ i r => match kd with
    | .partialFit => [(r, i)]
    | .transform => []
  | _ => []

/-- Where the documents are, on an object that holds `l` when the call starts. -/
structure StaleInv (c : Cfg M P R) (l : Left R) (s : St M R c.W) : Prop where
  born : BornP c.W s.main s.ws
  cnt : CntP c s.main (consumed s.log).length
  tok : ∀ i, s.qin.count i + (∑ w, wpre i (s.ws w)) + (∑ w, wpost i (s.ws w)) +
    (s.qout.map Prod.snd).count i + mtok c.kind i s.main + ((consumed s.log).map Prod.fst).count i
      = l.docs.count i + if i < c.n then 1 else 0
  fifo : ∃ rest, (consumed s.log).map (fun d => (d.2, d.1)) ++ (handed c.kind s.main ++ s.qout) = l.qout ++ rest

theorem inv_stale {c : Cfg M P R} {l : Left R} {m : M} : ∀ (as : List Act) (s : St M R c.W),
    run c (start c l m) as = some s → StaleInv c l s := by
  refine run_induct _ ⟨?_, ?_, ?_, ?_⟩ ?_
  · simp [BornP, start]
  · simp [CntP, start]
  · intro i
    simp [start, Left.docs, count_range, List.count_append]
    omega
  · exact ⟨[], by simp [start, handed]⟩
  · intro s a s' hI ht
    refine ⟨born_step hI.born ht, cnt_step hI.cnt ht, fun i => tok_step hI.born (hI.tok i) ht, ?_⟩
    obtain ⟨rest, hr⟩ := hI.fifo
    cases ht with
    | push j i r h => exact ⟨rest ++ [(r, i)], by rw [← List.append_assoc l.qout, ← hr]; simp⟩
    | notify j h =>
      refine ⟨rest, ?_⟩
      rw [← hr]
      cases hm : s.main <;> rfl
    | extract k i r q hk h hq => exact ⟨rest, by simpa [h, hq, handed] using hr⟩
    | pfProcess k i r hk h => exact ⟨rest, by simpa [h, hk, handed] using hr⟩
    | trConsume k i r hk h => exact ⟨rest, by simpa [h, hk, handed] using hr⟩
    | pfConsume k i r hk h => exact ⟨rest, by simpa [h, hk, handed] using hr⟩
    | trProcess k i r hk h => exact ⟨rest, by simpa [h, hk, handed] using hr⟩
    | spawn j hj h => exact ⟨rest, by simpa [h, handed] using hr⟩
    | spawned j hj h => exact ⟨rest, by simpa [h, handed] using hr⟩
    | wait k hk h hq => exact ⟨rest, by simpa [h, handed] using hr⟩
    | loopEnd k hk h => exact ⟨rest, by simpa [h, handed] using hr⟩
    | join j hj h hd => exact ⟨rest, by simpa [h, handed] using hr⟩
    | pfJoined j hj hk h => exact ⟨rest, by simpa [h, handed] using hr⟩
    | trJoined j hj hk h => exact ⟨rest, by simpa [h, handed] using hr⟩
    | post h => exact ⟨rest, by simpa [h, handed] using hr⟩
    | epoch h => exact ⟨rest, by simpa [h, handed] using hr⟩
    | spurious k h => exact ⟨rest, by simpa [h, handed] using hr⟩
    | _ => exact ⟨rest, hr⟩

/-- A call on an object that holds jobs or results consumes as many results as its corpus has documents, those that were
there before all others; what it consumes and what it leaves are together what was there and its own documents. -/
theorem C112_stale_call {c : Cfg M P R} {l : Left R} {m : M} {as : List Act} {s : St M R c.W}
    (h : run c (start c l m) as = some s) (hr : s.main = .ret) :
    (consumed s.log).length = c.n ∧
    ((consumed s.log).map Prod.fst ++ s.left.docs).Perm (l.docs ++ List.range c.n) ∧
    ((consumed s.log).map fun d => (d.2, d.1)).take l.qout.length = l.qout.take c.n := by
  have hI := inv_stale as s h
  have hlen : (consumed s.log).length = c.n := by have := hI.cnt; rwa [hr] at this
  have hd : ∀ w, s.ws w = .done := by have := hI.born; rwa [hr] at this
  refine ⟨hlen, ?_, ?_⟩
  · rw [List.perm_iff_count]
    intro i
    have := hI.tok i
    simp only [hd, hr, wpre_done, wpost_done, mtok_ret, Finset.sum_const_zero] at this
    simp only [List.count_append, count_range, Left.docs, St.left] at this ⊢
    omega
  · obtain ⟨rest, e⟩ := hI.fifo
    simp only [hr, handed, List.nil_append] at e
    have h1 := congrArg (fun x => (x.take c.n).take l.qout.length) e
    rw [List.take_left' (by simpa using hlen)] at h1
    rw [h1, List.take_take, Nat.min_comm, ← List.take_take, List.take_left]

/-- **C112**, false in general, the other way: an object with jobs left never recovers.  Whatever calls follow, as many
jobs or results are left after the last of them. -/
theorem C112_never_recovers {cs : List (Cfg M P R)} {l l' : Left R} {m m' : M} {logs : List (List (Obs R))}
    (h : Calls cs l m l' m' logs) : l'.docs.length = l.docs.length := by
  induction h with
  | nil l m => rfl
  | cons as s hrun hret _ ih =>
    have := (C112_stale_call hrun hret).2.1.length_eq
    have h1 := (C112_stale_call hrun hret).1
    simp only [List.length_append, List.length_map, List.length_range] at this
    omega

/-! ### Examples -/

/-- A listener throws while the second document is processed. -/
example : ∃ w, Fails (demo .partialFit true 2 3) .empty (1, []) (.document 1) w ∧ w.Terminates := by
  have h : Fails (demo .partialFit true 2 3) .empty (1, []) (.document 1) _ :=
    .running (demoRun.take 19) _ rfl rfl [] (1, [])
  exact ⟨_, h, C112_terminates h trivial⟩

/-- The M step throws, or a listener of the end of the epoch. -/
example : ∃ w w', Fails (demo .partialFit true 2 3) .empty (1, []) .batch w ∧
    Fails (demo .partialFit true 2 3) .empty (1, []) .epoch w' ∧ ¬ w.Terminates ∧ ¬ w'.Terminates := by
  have h : Fails (demo .partialFit true 2 3) .empty (1, []) .batch _ :=
    .running (demoRun.dropLast.dropLast) _ rfl rfl [] (1, [])
  have h' : Fails (demo .partialFit true 2 3) .empty (1, []) .epoch _ :=
    .running (demoRun.dropLast) _ rfl rfl [] (1, [])
  refine ⟨_, _, h, h', ?_, ?_⟩
  · rintro ⟨j, hj⟩
    rw [(C112_safe_partial h trivial).1 j] at hj
    cases hj
  · rintro ⟨j, hj⟩
    rw [(C112_safe_partial h' trivial).1 j] at hj
    cases hj

/-- One worker that does everything, then the calling thread consumes one document. -/
def staleRun (jobs : Nat) : List Act :=
  [.main, .main] ++ (List.replicate jobs [.worker 0, .worker 0, .worker 0, .worker 0]).flatten ++
    [.worker 0, .main, .main, .main, .main, .main, .main]

/-- The first thread cannot be created in a call on three documents; `transform` of a single document then takes the
result of the first of these and leaves three results, and so does every call that follows. -/
example : ∃ w l' m' logs, Fails (demo .transform true 1 3) .empty (1, []) (.thread 0) w ∧ ¬ w.Terminates ∧
    Calls [demo .transform true 1 1, demo .transform true 1 1] w.left w.model l' m' logs ∧
    logs.map consumed = [[(0, 10)], [(1, 11)]] ∧ l'.docs.length = 3 := by
  have h : Fails (demo .transform true 1 3) .empty (1, []) (.thread 0) _ := .running [] _ rfl rfl [] (1, [])
  refine ⟨_, _, _, _, h, (C112_jobs_left h id (by simp [Point.Threads])).1,
    .cons (staleRun 4) _ rfl rfl (.cons (staleRun 1) _ rfl rfl (.nil _ _)), rfl, rfl⟩

end Verif.Pool
