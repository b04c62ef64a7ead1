import Verif.Model.Object
import Verif.Props.Pool

/-! Properties C104 and C105: sequences of calls by any threads, and moving an LDA object between calls. -/
namespace Verif.Pool

variable {M P R : Type}

/-! ### Specification -/

/-- The calls that a program makes if its object has this many iterations and workers, whatever the names. -/
def callsOf (iterations workers : Nat) : List (Op M P R) → List (Cfg M P R)
  | [] => []
  | .call _ c :: ops => c workers :: callsOf iterations workers ops
  | .fit _ c :: ops => (List.range iterations).map (fun i => c i workers) ++ callsOf iterations workers ops
  | .move _ _ :: ops => callsOf iterations workers ops

/-- A program uses the object `x` until it is moved, then the object it was moved to; a name is not used twice. -/
def Follows : Nat → List (Op M P R) → Prop
  | _, [] => True
  | x, .call z _ :: ops => z = x ∧ Follows x ops
  | x, .fit z _ :: ops => z = x ∧ Follows x ops
  | x, .move z y :: ops => z = x ∧ y ≠ x ∧ Follows y ops

/-! ### What is left in the event queue does not matter -/

/-- The queue and the log are those of another run with the events `q` in addition: still queued in front, nothing having
been delivered, or delivered at one point of the log, before all others. -/
def Extra (q evq evq' : List Ev) (log log' : List (Obs R)) : Prop :=
  (evq' = q ++ evq ∧ log' = log ∧ delivered log = []) ∨
    (evq' = evq ∧ ∃ A B, log = A ++ B ∧ delivered A = [] ∧ log' = A ++ q.map .deliver ++ B)

/-- The same state but for the events `q`. -/
def Framed {W : Nat} (q : List Ev) (s t : St M R W) : Prop :=
  t.qin = s.qin ∧ t.qout = s.qout ∧ t.ws = s.ws ∧ t.main = s.main ∧ t.model = s.model ∧ Extra q s.evq t.evq s.log t.log

theorem Extra.log {q evq evq' : List Ev} {log log' : List (Obs R)} (h : Extra q evq evq' log log') {o : Obs R}
    (ho : delivered [o] = []) : Extra q evq evq' (log ++ [o]) (log' ++ [o]) := by
  rcases h with ⟨h1, h2, h3⟩ | ⟨h1, A, B, h2, h3, h4⟩
  · exact .inl ⟨h1, by rw [h2], by rw [delivered_append, h3, ho]; rfl⟩
  · exact .inr ⟨h1, A, B ++ [o], by rw [h2, List.append_assoc], h3, by rw [h4, List.append_assoc]⟩

theorem Extra.ev {q evq evq' : List Ev} {log log' : List (Obs R)} (h : Extra q evq evq' log log') (e : Ev) :
    Extra q (evq ++ [e]) (evq' ++ [e]) log log' := by
  rcases h with ⟨h1, h2⟩ | ⟨h1, h2⟩
  · exact .inl ⟨by rw [h1, List.append_assoc], h2⟩
  · exact .inr ⟨by rw [h1], h2⟩

theorem Extra.flush {q evq evq' : List Ev} {log log' : List (Obs R)} (h : Extra q evq evq' log log') :
    Extra q [] [] (log ++ evq.map .deliver) (log' ++ evq'.map .deliver) := by
  rcases h with ⟨h1, h2, h3⟩ | ⟨h1, A, B, h2, h3, h4⟩
  · exact .inr ⟨rfl, log, evq.map .deliver, rfl, h3, by rw [h1, h2, List.map_append, List.append_assoc]⟩
  · exact .inr ⟨rfl, A, B ++ evq.map .deliver, by rw [h2, List.append_assoc], h3, by rw [h4, h1, List.append_assoc]⟩

/-- Events are delivered in the order in which they were queued. -/
theorem Extra.all {q evq evq' : List Ev} {log log' : List (Obs R)} (h : Extra q evq evq' log log') :
    delivered log' ++ evq' = q ++ (delivered log ++ evq) ∧ consumed log' = consumed log := by
  rcases h with ⟨h1, h2, h3⟩ | ⟨h1, A, B, h2, h3, h4⟩
  · rw [h1, h2, h3]; simp
  · rw [h1, h2, h4]; simp [h3]

theorem Framed.flush {W : Nat} {q : List Ev} {s t : St M R W} (h : Framed q s t) : Framed q (flush s) (flush t) :=
  ⟨h.1, h.2.1, h.2.2.1, h.2.2.2.1, h.2.2.2.2.1, h.2.2.2.2.2.flush⟩

theorem Framed.dispatch {c : Cfg M P R} {q : List Ev} {s t : St M R c.W} (h : Framed q s t) (e : Ev) :
    Framed q (dispatch c s e) (dispatch c t e) := by
  have h' : Framed q { s with evq := s.evq ++ [e] } { t with evq := t.evq ++ [e] } :=
    ⟨h.1, h.2.1, h.2.2.1, h.2.2.2.1, h.2.2.2.2.1, h.2.2.2.2.2.ev e⟩
  unfold Pool.dispatch
  by_cases ho : c.owner = true
  · simpa [ho] using h'.flush
  · simpa [ho] using h'

theorem Framed.emitM {c : Cfg M P R} {q : List Ev} {s t : St M R c.W} (h : Framed q s t) (k : Nat) :
    Framed q (emitM c s k) (emitM c t k) := by
  induction k generalizing s t with
  | zero => exact h
  | succ k ih => exact ih (h.dispatch .max)

theorem Framed.log {W : Nat} {q : List Ev} {s t : St M R W} (h : Framed q s t) (m : M) {o : Obs R}
    (ho : delivered [o] = []) :
    Framed q { s with model := m, log := s.log ++ [o] } { t with model := m, log := t.log ++ [o] } :=
  ⟨h.1, h.2.1, h.2.2.1, h.2.2.2.1, rfl, h.2.2.2.2.2.log ho⟩

theorem Framed.consume {c : Cfg M P R} {q : List Ev} {s t : St M R c.W} (h : Framed q s t) (i : Nat) (r : R) :
    Framed q (consume c s i r) (consume c t i r) := by
  unfold Pool.consume
  simp only [h.2.2.2.2.1]
  exact (h.log _ rfl).emitM _

theorem Framed.main {W : Nat} {q : List Ev} {s t : St M R W} (h : Framed q s t) (pc : MPc R) :
    Framed q { s with main := pc } { t with main := pc } :=
  ⟨h.1, h.2.1, h.2.2.1, rfl, h.2.2.2.2.1, h.2.2.2.2.2⟩

/-- Both runs can take the same steps. -/
theorem Framed.step {c : Cfg M P R} {q : List Ev} {s t : St M R c.W} (h : Framed q s t) (a : Act) :
    (Pool.step c s a = none ∧ Pool.step c t a = none) ∨
      ∃ s' t', Pool.step c s a = some s' ∧ Pool.step c t a = some t' ∧ Framed q s' t' := by
  obtain ⟨tqin, tqout, tws, tmain, tevq, tmodel, tlog⟩ := t
  have hh := h
  obtain ⟨h1, h2, h3, h4, h5, h6⟩ := h
  simp only at h1 h2 h3 h4 h5 h6
  subst h1 h2 h3 h4 h5
  cases a with
  | main =>
    simp only [Pool.step, mainStep]
    cases hm : s.main with
    | spawn j =>
      by_cases hj : j < c.W
      · simp only [hj, dite_true]
        exact .inr ⟨_, _, rfl, rfl, rfl, rfl, rfl, rfl, rfl, h6⟩
      · simp only [hj, dite_false]
        exact .inr ⟨_, _, rfl, rfl, rfl, rfl, rfl, rfl, rfl, h6⟩
    | loop k =>
      by_cases hk : k < c.n
      · simp only [hk, if_true]
        cases hq : s.qout with
        | nil => exact .inr ⟨_, _, rfl, rfl, rfl, rfl, rfl, rfl, rfl, h6⟩
        | cons p l => exact .inr ⟨_, _, rfl, rfl, rfl, rfl, rfl, rfl, rfl, h6⟩
      · simp only [hk, if_false]
        exact .inr ⟨_, _, rfl, rfl, rfl, rfl, rfl, rfl, rfl, h6⟩
    | waiting k => exact .inl ⟨rfl, rfl⟩
    | got k i r =>
      cases hk : c.kind with
      | partialFit => exact .inr ⟨_, _, rfl, rfl, rfl, rfl, rfl, rfl, rfl, h6.flush⟩
      | transform => exact .inr ⟨_, _, rfl, rfl, (hm ▸ hh.consume i r).main _⟩
    | mid k i r =>
      cases hk : c.kind with
      | partialFit => exact .inr ⟨_, _, rfl, rfl, (hm ▸ hh.consume i r).main _⟩
      | transform => exact .inr ⟨_, _, rfl, rfl, rfl, rfl, rfl, rfl, rfl, h6.flush⟩
    | join j =>
      by_cases hj : j < c.W
      · simp only [hj, dite_true]
        cases hw : s.ws ⟨j, hj⟩ <;>
          first
          | exact .inl ⟨rfl, rfl⟩
          | exact .inr ⟨_, _, rfl, rfl, rfl, rfl, rfl, rfl, rfl, h6⟩
      · simp only [hj, dite_false]
        cases hk : c.kind with
        | partialFit => exact .inr ⟨_, _, rfl, rfl, rfl, rfl, rfl, rfl, rfl, h6⟩
        | transform => exact .inr ⟨_, _, rfl, rfl, rfl, rfl, rfl, rfl, rfl, h6⟩
    | post => exact .inr ⟨_, _, rfl, rfl, (hm ▸ (hh.log _ rfl).emitM _).main _⟩
    | epoch => exact .inr ⟨_, _, rfl, rfl, (hm ▸ hh.dispatch _).main _⟩
    | ret => exact .inl ⟨rfl, rfl⟩
  | worker j =>
    by_cases hj : j < c.W
    · simp only [Pool.step, hj, dite_true, workerStep]
      cases hw : s.ws ⟨j, hj⟩ with
      | unborn => exact .inl ⟨rfl, rfl⟩
      | done => exact .inl ⟨rfl, rfl⟩
      | fetch =>
        cases hq : s.qin with
        | nil => exact .inr ⟨_, _, rfl, rfl, rfl, rfl, rfl, rfl, rfl, h6⟩
        | cons i l => exact .inr ⟨_, _, rfl, rfl, rfl, rfl, rfl, rfl, rfl, h6⟩
      | work i => exact .inr ⟨_, _, rfl, rfl, rfl, rfl, rfl, rfl, rfl, h6.ev _⟩
      | push i r => exact .inr ⟨_, _, rfl, rfl, rfl, rfl, rfl, rfl, rfl, h6⟩
      | notify => exact .inr ⟨_, _, rfl, rfl, rfl, rfl, rfl, rfl, rfl, h6⟩
    · simp only [Pool.step, hj, dite_false]
      exact .inl ⟨trivial, trivial⟩
  | spurious =>
    simp only [Pool.step]
    cases hm : s.main <;>
      first
      | exact .inl ⟨rfl, rfl⟩
      | exact .inr ⟨_, _, rfl, rfl, rfl, rfl, rfl, rfl, rfl, h6⟩

theorem Framed.run {c : Cfg M P R} {q : List Ev} (as : List Act) : ∀ {s t : St M R c.W}, Framed q s t →
    (Pool.run c s as = none ∧ Pool.run c t as = none) ∨
      ∃ s' t', Pool.run c s as = some s' ∧ Pool.run c t as = some t' ∧ Framed q s' t' := by
  induction as with
  | nil => intro s t h; exact .inr ⟨s, t, rfl, rfl, h⟩
  | cons a as ih =>
    intro s t h
    rcases h.step a with ⟨e1, e2⟩ | ⟨s', t', e1, e2, h'⟩
    · exact .inl (by simp [Pool.run, e1, e2])
    · simp only [Pool.run, e1, e2]
      exact ih h'

theorem framed_start (c : Cfg M P R) (q : List Ev) (m : M) : Framed q (init c m) (start c ⟨[], [], q⟩ m) :=
  ⟨rfl, rfl, rfl, rfl, rfl, .inl ⟨by simp [init, start, Left.empty], rfl, rfl⟩⟩

/-- A call that finds events in the queue is a call that finds none, but for those events. -/
theorem call_framed {c : Cfg M P R} {q : List Ev} {m : M} {as : List Act} {t : St M R c.W}
    (h : run c (start c ⟨[], [], q⟩ m) as = some t) : ∃ s, Reachable c m s ∧ Framed q s t := by
  rcases (framed_start c q m).run as with ⟨_, e⟩ | ⟨s, t', e1, e2, hf⟩
  · rw [h] at e; cases e
  · rw [h] at e2
    cases e2
    exact ⟨s, ⟨as, e1⟩, hf⟩

/-! ### C105 -/

/-- The number of epoch events raised so far. -/
def EpochP (k : Kind) (n : Nat) : MPc R → Prop
  | .ret => n = match k with
    | .partialFit => 1
    | .transform => 0
  | .post => k = .partialFit ∧ n = 0
  | .epoch => k = .partialFit ∧ n = 0
  | _ => n = 0

/-- There is one epoch event, raised at the very end of `partial_fit`. -/
theorem inv_epoch {c : Cfg M P R} {m : M} : ∀ s : St M R c.W, Reachable c m s →
    EpochP c.kind ((delivered s.log ++ s.evq).count .epoch) s.main := by
  apply reachable_induct
  · simp [init, start, Left.empty, EpochP]
  · intro s a s' hr hI ht
    cases ht with
    | notify j h => cases hm : s.main <;> simp only [hm, EpochP, wake] at hI ⊢ <;> exact hI
    | work j i h =>
      have : (delivered s.log ++ (s.evq ++ [Ev.exp i])).count .epoch = (delivered s.log ++ s.evq).count .epoch := by
        simp
      simpa only [this] using hI
    | fetchDone j h hq => exact hI
    | fetchJob j i q h hq => exact hI
    | push j i r h => exact hI
    | pfProcess k i r hk h => simpa [h, EpochP] using hI
    | trProcess k i r hk h => simpa [h, EpochP] using hI
    | trConsume k i r hk h =>
      simp only [h, EpochP] at hI ⊢
      rw [allEv_consume, List.count_append, hI]
      simp [List.count_replicate]
    | pfConsume k i r hk h =>
      simp only [h, EpochP] at hI ⊢
      rw [allEv_consume, List.count_append, hI]
      simp [List.count_replicate]
    | post h =>
      simp only [h, EpochP] at hI ⊢
      refine ⟨hI.1, ?_⟩
      rw [allEv_emitM, List.count_append]
      simpa [List.count_replicate] using hI.2
    | epoch h =>
      simp only [h, EpochP] at hI ⊢
      rw [allEv_dispatch, List.count_append, hI.2, hI.1]
      rfl
    | trJoined j hj hk h => simpa [h, hk, EpochP] using hI
    | pfJoined j hj hk h => simpa [h, hk, EpochP] using hI
    | spawn j hj h => simpa [h, EpochP] using hI
    | spawned j hj h => simpa [h, EpochP] using hI
    | wait k hk h hq => simpa [h, EpochP] using hI
    | extract k i r q hk h hq => simpa [h, EpochP] using hI
    | loopEnd k hk h => simpa [h, EpochP] using hI
    | join j hj h hd => simpa [h, EpochP] using hI
    | spurious k h => simpa [h, EpochP] using hI

/-- If the loop body of `transform` raises no events, no event but those of the E step is raised. -/
theorem inv_no_max {c : Cfg M P R} {m : M} (hk : c.kind = .transform) (hd : ∀ i r m, (c.docStep i r m).2 = 0) :
    ∀ s : St M R c.W, Reachable c m s → s.main ≠ .post ∧ s.main ≠ .epoch ∧
      (delivered s.log ++ s.evq).count .max = 0 := by
  apply reachable_induct
  · simp [init, start, Left.empty]
  · intro s a s' hr hI ht
    obtain ⟨h1, h2, h3⟩ := hI
    cases ht with
    | notify j h => cases hm : s.main <;> simp_all [wake]
    | work j i h => exact ⟨h1, h2, by simpa using h3⟩
    | pfProcess k i r hk' h => rw [hk] at hk'; cases hk'
    | pfConsume k i r hk' h => rw [hk] at hk'; cases hk'
    | pfJoined j hj hk' h => rw [hk] at hk'; cases hk'
    | trProcess k i r hk h => exact ⟨by simp, by simp, by simpa using h3⟩
    | trConsume k i r hk h =>
      refine ⟨by simp, by simp, ?_⟩
      simp only
      rw [allEv_consume, hd, List.replicate_zero, List.append_nil]
      exact h3
    | post h => exact absurd h h1
    | epoch h => exact absurd h h2
    | _ => first | exact ⟨h1, h2, h3⟩ | exact ⟨by simp, by simp, h3⟩

/-- What a call does that finds the events `q` in the queue. -/
theorem call_events {c : Cfg M P R} {q : List Ev} {m : M} {as : List Act} {t : St M R c.W}
    (h : run c (start c ⟨[], [], q⟩ m) as = some t) (hr : t.main = .ret) :
    t.qin = [] ∧ t.qout = [] ∧
    (∀ i, (delivered t.log ++ t.evq).count (.exp i) = q.count (.exp i) + if i < c.n then 1 else 0) ∧
    (delivered t.log ++ t.evq).count .epoch = q.count .epoch + (match c.kind with
      | .partialFit => 1
      | .transform => 0) ∧
    (c.kind = .partialFit → c.owner = true → t.evq = []) ∧
    (0 < c.n → ∀ i, Ev.exp i ∉ t.evq) ∧
    (0 < c.n → c.kind = .transform → (∀ i r m, (c.docStep i r m).2 = 0) → t.evq = []) ∧
    (∃ rest, delivered t.log ++ t.evq = q ++ rest) ∧
    ((∀ i, Ev.exp i ∉ q) → ∀ i, Ev.exp i ∉ t.evq) := by
  obtain ⟨s, hs, h1, h2, h3, h4, h5, h6⟩ := call_framed h
  have hr' : s.main = .ret := h4 ▸ hr
  have hq := C06_nothing_left hs hr'
  have hc := inv_cnt s hs
  rw [hr'] at hc
  have hexp := exp_delivered hs hc (by simp [hr'])
  have hno := no_exp_queued hs hc (by simp [hr'])
  have hep := inv_epoch s hs
  simp only [hr', EpochP] at hep
  have hlog := inv_log s hs
  simp only [hr', LogInv] at hlog
  have hne : 0 < c.n → t.evq = s.evq := by
    intro hn
    rcases h6 with ⟨_, _, e⟩ | ⟨e, _⟩
    · have := hexp 0
      rw [e, if_pos hn] at this
      cases this
    · exact e
  refine ⟨h1.trans hq.1, h2.trans hq.2.1, fun i => ?_, ?_, fun hk ho => ?_, fun hn i => ?_, fun hn hk hd => ?_,
    ⟨_, h6.all.1⟩, fun hqe i => ?_⟩
  · rw [h6.all.1, List.count_append, List.count_append, hexp, List.count_eq_zero.2 (hno i)]
    rfl
  · rw [h6.all.1, List.count_append, hep]
  · have hl : s.evq = [] := hq.2.2.2 ho
    rcases h6 with ⟨_, _, e⟩ | ⟨e, _⟩
    · rw [hk] at hep
      rw [e, hl] at hep
      cases hep
    · rw [e, hl]
  · rw [hne hn]
    exact hno i
  · rw [hne hn]
    have hmax := (inv_no_max hk hd s hs).2.2
    rw [hk] at hlog
    refine List.eq_nil_iff_forall_not_mem.2 fun e he => ?_
    cases e with
    | exp i => exact hno i he
    | max =>
      rw [List.count_append] at hmax
      have := List.count_pos_iff.2 he
      omega
    | epoch => exact hlog.2.1 he
  · rcases h6 with ⟨e, _⟩ | ⟨e, _⟩
    · rw [e, List.mem_append, not_or]
      exact ⟨hqe i, hno i⟩
    · rw [e]
      exact hno i

/-- Number of calls that evaluate a document with this index. -/
def evaluations (cs : List (Cfg M P R)) (i : Nat) : Nat := cs.countP fun c => i < c.n

/-- Number of epochs trained. -/
def epochs (cs : List (Cfg M P R)) : Nat := cs.countP fun c => c.kind = .partialFit

/-- **C105**: over any sequence of calls, each made by any thread, the queues of documents and results are empty after
every call, and every expectation event and every epoch event has been delivered exactly once or is still queued. -/
theorem C105_conserved {cs : List (Cfg M P R)} {l l' : Left R} {m m' : M} {logs : List (List (Obs R))}
    (h : Calls cs l m l' m' logs) (hl : l.qin = [] ∧ l.qout = []) :
    l'.qin = [] ∧ l'.qout = [] ∧ logs.length = cs.length ∧
    (∀ i, (delivered logs.flatten ++ l'.evq).count (.exp i) = l.evq.count (.exp i) + evaluations cs i) ∧
    (delivered logs.flatten ++ l'.evq).count .epoch = l.evq.count .epoch + epochs cs := by
  induction h with
  | nil l m => exact ⟨hl.1, hl.2, rfl, by simp [evaluations], by simp [epochs]⟩
  | @cons c cs l l' m m' logs as s hrun hret ht ih =>
    obtain ⟨lq, lo, le⟩ := l
    simp only at hl
    obtain ⟨rfl, rfl⟩ := hl
    obtain ⟨a1, a2, a3, a4, _⟩ := call_events hrun hret
    obtain ⟨b1, b2, b3, b4, b5⟩ := ih ⟨a1, a2⟩
    refine ⟨b1, b2, by simp [b3], fun i => ?_, ?_⟩
    · have h1 := a3 i
      have h2 := b4 i
      simp only [evaluations, List.countP_cons, St.left, List.flatten_cons, delivered_append, List.count_append] at h1 h2 ⊢
      by_cases hi : i < c.n <;> simp [hi] at h1 ⊢ <;> omega
    · have h1 := a4
      have h2 := b5
      simp only [epochs, List.countP_cons, St.left, List.flatten_cons, delivered_append, List.count_append] at h1 h2 ⊢
      cases hk : c.kind <;> simp [hk] at h1 ⊢ <;> omega

/-- **C105**: what a later call finds queued is delivered before everything that it raises itself. -/
theorem C105_order {cs : List (Cfg M P R)} {l l' : Left R} {m m' : M} {logs : List (List (Obs R))}
    (h : Calls cs l m l' m' logs) (hl : l.qin = [] ∧ l.qout = []) :
    ∃ rest, delivered logs.flatten ++ l'.evq = l.evq ++ rest := by
  induction h with
  | nil l m => exact ⟨[], by simp⟩
  | @cons c cs l l' m m' logs as s hrun hret ht ih =>
    obtain ⟨lq, lo, le⟩ := l
    simp only at hl
    obtain ⟨rfl, rfl⟩ := hl
    obtain ⟨a1, a2, _, _, _, _, _, ⟨r1, a8⟩, _⟩ := call_events hrun hret
    obtain ⟨r2, b⟩ := ih ⟨a1, a2⟩
    refine ⟨r1 ++ r2, ?_⟩
    simp only [List.flatten_cons, delivered_append, List.append_assoc, St.left] at b ⊢
    rw [b, ← List.append_assoc, ← List.append_assoc, a8]

/-- **C105**: whichever threads make the calls, each call delivers the event of the E step of each of its own documents,
once, before it returns. -/
theorem C105_own_events {cs : List (Cfg M P R)} {l l' : Left R} {m m' : M} {logs : List (List (Obs R))}
    (h : Calls cs l m l' m' logs) (hl : l.qin = [] ∧ l.qout = [] ∧ ∀ i, Ev.exp i ∉ l.evq) :
    List.Forall₂ (fun c log => ∀ i, (delivered log).count (.exp i) = if i < c.n then 1 else 0) cs logs ∧
      ∀ i, Ev.exp i ∉ l'.evq := by
  induction h with
  | nil l m => exact ⟨.nil, hl.2.2⟩
  | @cons c cs l l' m m' logs as s hrun hret ht ih =>
    obtain ⟨lq, lo, le⟩ := l
    simp only at hl
    obtain ⟨rfl, rfl, he⟩ := hl
    obtain ⟨a1, a2, a3, _, _, _, _, _, a9⟩ := call_events hrun hret
    obtain ⟨b1, b2⟩ := ih ⟨a1, a2, a9 he⟩
    refine ⟨.cons (fun i => ?_) b1, b2⟩
    have := a3 i
    rw [List.count_append, List.count_eq_zero.2 (a9 he i), List.count_eq_zero.2 (he i)] at this
    simpa using this

/-- **C105**: when `partial_fit` returns to the thread that built the object, no event is left, not even one of an
earlier call by another thread; the same is true of `transform` of at least one document, on any thread. -/
theorem C105_flushed {cs : List (Cfg M P R)} {c : Cfg M P R} {l' : Left R} {m m' : M} {logs : List (List (Obs R))}
    (h : Calls (cs ++ [c]) .empty m l' m' logs)
    (hc : (c.kind = .partialFit ∧ c.owner = true) ∨
      (c.kind = .transform ∧ 0 < c.n ∧ ∀ i r m, (c.docStep i r m).2 = 0)) : l'.evq = [] := by
  have key : ∀ (cs : List (Cfg M P R)) (l : Left R) (m : M) (logs : List (List (Obs R))), l.qin = [] ∧ l.qout = [] →
      Calls (cs ++ [c]) l m l' m' logs → l'.evq = [] := by
    intro cs
    induction cs with
    | nil =>
      intro l m logs hl h
      cases h with
      | cons as s hrun hret ht =>
        obtain ⟨lq, lo, le⟩ := l
        simp only at hl
        obtain ⟨rfl, rfl⟩ := hl
        obtain ⟨_, _, _, _, a5, _, a7, _⟩ := call_events hrun hret
        cases ht
        rcases hc with ⟨hk, ho⟩ | ⟨hk, hn, hd⟩
        · exact a5 hk ho
        · exact a7 hn hk hd
    | cons d cs ih =>
      intro l m logs hl h
      cases h with
      | cons as s hrun hret ht =>
        obtain ⟨lq, lo, le⟩ := l
        simp only at hl
        obtain ⟨rfl, rfl⟩ := hl
        obtain ⟨a1, a2, _⟩ := call_events hrun hret
        exact ih _ _ _ ⟨a1, a2⟩ ht
  exact key cs _ m logs ⟨rfl, rfl⟩ h

/-! ### C104 -/

theorem calls_append {cs1 cs2 : List (Cfg M P R)} {l l' : Left R} {m m' : M} {logs : List (List (Obs R))} :
    Calls (cs1 ++ cs2) l m l' m' logs ↔ ∃ l1 m1 logs1 logs2, logs = logs1 ++ logs2 ∧ Calls cs1 l m l1 m1 logs1 ∧
      Calls cs2 l1 m1 l' m' logs2 := by
  induction cs1 generalizing l m logs with
  | nil =>
    constructor
    · intro h
      exact ⟨l, m, [], logs, rfl, .nil _ _, h⟩
    · rintro ⟨l1, m1, logs1, logs2, rfl, h1, h2⟩
      cases h1
      exact h2
  | cons c cs1 ih =>
    constructor
    · intro h
      cases h with
      | cons as s hrun hret ht =>
        obtain ⟨l1, m1, logs1, logs2, rfl, h1, h2⟩ := ih.1 ht
        exact ⟨l1, m1, s.log :: logs1, logs2, rfl, .cons as s hrun hret h1, h2⟩
    · rintro ⟨l1, m1, logs1, logs2, rfl, h1, h2⟩
      cases h1 with
      | cons as s hrun hret ht => exact .cons as s hrun hret (ih.2 ⟨_, _, _, _, rfl, ht, h2⟩)

/-- Only the object `x` exists. -/
def only (x : Nat) (o : Obj R) : Heap R := fun z => if z = x then some o else none

theorem only_self (x : Nat) (o : Obj R) : only x o x = some o := if_pos rfl

theorem only_some {x z : Nat} {o o' : Obj R} (h : only x o z = some o') : z = x ∧ o' = o := by
  unfold only at h
  split at h
  · exact ⟨by assumption, (Option.some_injective _ h).symm⟩
  · cases h

theorem only_set (x : Nat) (o o' : Obj R) : (only x o).set x (some o') = only x o' := by
  funext z
  unfold Heap.set only
  split <;> rfl

theorem only_move {x y : Nat} (o o' : Obj R) (h : y ≠ x) : ((only x o).set x none).set y (some o') = only y o' := by
  funext z
  unfold Heap.set only
  by_cases hz : z = y
  · simp [hz]
  · by_cases hx : z = x <;> simp [hz, hx]

/-- The name of the object in the end. -/
def lastName : Nat → List (Op M P R) → Nat
  | x, [] => x
  | _, .move _ y :: ops => lastName y ops
  | x, _ :: ops => lastName x ops

/-- **C104**: a program that builds an LDA object and moves it between calls, any number of times, behaves in every
respect (events, calls of the M step, model parameters) as without the moves; it has undefined behaviour exactly when it
calls an object that has been moved from. -/
theorem C104_moves {ops : List (Op M P R)} {x iterations workers : Nat} {m m' : M} {h' : Heap R}
    {logs : List (List (Obs R))} :
    Life ops (only x (.new iterations workers)) m h' m' logs ↔
      Follows x ops ∧ ∃ l', Calls (callsOf iterations workers ops) .empty m l' m' logs ∧
        h' = only (lastName x ops) ⟨iterations, workers, l'⟩ := by
  have key : ∀ (ops : List (Op M P R)) (x : Nat) (l : Left R) (m : M) (logs : List (List (Obs R))),
      l.qin = [] ∧ l.qout = [] → (Life ops (only x ⟨iterations, workers, l⟩) m h' m' logs ↔
      Follows x ops ∧ ∃ l', Calls (callsOf iterations workers ops) l m l' m' logs ∧
        h' = only (lastName x ops) ⟨iterations, workers, l'⟩) := by
    intro ops
    induction ops with
    | nil =>
      intro x l m logs hl
      constructor
      · intro h
        cases h
        exact ⟨trivial, l, .nil _ _, rfl⟩
      · rintro ⟨_, l', h, rfl⟩
        cases h
        exact .nil _ _
    | cons op ops ih =>
      intro x l m logs hl
      cases op with
      | call z c =>
        constructor
        · intro h
          cases h with
          | call ho hc ht =>
            obtain ⟨rfl, rfl⟩ := only_some ho
            rw [only_set] at ht
            obtain ⟨hq1, hq2, _⟩ := C105_conserved hc hl
            obtain ⟨hf, l', h1, h2⟩ := (ih _ _ _ _ ⟨hq1, hq2⟩).1 ht
            exact ⟨⟨rfl, hf⟩, l', calls_append.2 ⟨_, _, _, _, rfl, hc, h1⟩, h2⟩
        · rintro ⟨⟨rfl, hf⟩, l', h1, h2⟩
          obtain ⟨l1, m1, logs1, logs2, rfl, hc, h3⟩ := (calls_append (cs1 := [c workers])).1 h1
          obtain ⟨hq1, hq2, _⟩ := C105_conserved hc hl
          refine .call (only_self _ _) hc ?_
          rw [only_set]
          exact (ih _ _ _ _ ⟨hq1, hq2⟩).2 ⟨hf, l', h3, h2⟩
      | fit z c =>
        constructor
        · intro h
          cases h with
          | fit ho hc ht =>
            obtain ⟨rfl, rfl⟩ := only_some ho
            rw [only_set] at ht
            obtain ⟨hq1, hq2, _⟩ := C105_conserved hc hl
            obtain ⟨hf, l', h1, h2⟩ := (ih _ _ _ _ ⟨hq1, hq2⟩).1 ht
            exact ⟨⟨rfl, hf⟩, l', calls_append.2 ⟨_, _, _, _, rfl, hc, h1⟩, h2⟩
        · rintro ⟨⟨rfl, hf⟩, l', h1, h2⟩
          obtain ⟨l1, m1, logs1, logs2, rfl, hc, h3⟩ := calls_append.1 h1
          obtain ⟨hq1, hq2, _⟩ := C105_conserved hc hl
          refine .fit (only_self _ _) hc ?_
          rw [only_set]
          exact (ih _ _ _ _ ⟨hq1, hq2⟩).2 ⟨hf, l', h3, h2⟩
      | move z y =>
        have hmoved : (Obj.moved ⟨iterations, workers, l⟩ : Obj R) = ⟨iterations, workers, l⟩ := by
          obtain ⟨lq, lo, le⟩ := l
          simp only at hl
          rw [Obj.moved, hl.1, hl.2]
        constructor
        · intro h
          cases h with
          | move ho hy ht =>
            obtain ⟨rfl, rfl⟩ := only_some ho
            have hne : y ≠ z := by
              rintro rfl
              rw [ho] at hy
              cases hy
            rw [only_move _ _ hne, hmoved] at ht
            obtain ⟨hf, h1⟩ := (ih _ _ _ _ hl).1 ht
            exact ⟨⟨rfl, hne, hf⟩, h1⟩
        · rintro ⟨⟨rfl, hne, hf⟩, h1⟩
          refine .move (only_self _ _) (if_neg hne) ?_
          rw [only_move _ _ hne, hmoved]
          exact (ih _ _ _ _ hl).2 ⟨hf, h1⟩
  exact key ops x .empty m logs ⟨rfl, rfl⟩

/-! ### Instances -/

/-- A `partial_fit` by another thread, then a `transform` by the thread that built the object: the epoch event of the
first is delivered in the second. -/
example : ∃ l' m' logs1 logs2, Calls [demo .partialFit false 2 3, demo .transform true 2 3] .empty (1, []) l' m'
    [logs1, logs2] ∧ Ev.epoch ∉ delivered logs1 ∧ Ev.epoch ∈ delivered logs2 ∧ l'.evq = [] :=
  ⟨_, _, _, _, .cons demoRun _ rfl rfl (.cons demoRun.dropLast.dropLast _ rfl rfl (.nil _ _)), by decide, by decide, rfl⟩

example : ((demo .partialFit false 2 3).kind = .partialFit ∧ (demo .partialFit true 2 3).owner = true) ∧
    (demo .transform true 2 3).kind = .transform ∧ 0 < (demo .transform true 2 3).n ∧
    ∀ i r m, ((demo .transform true 2 3).docStep i r m).2 = 0 := ⟨⟨rfl, rfl⟩, rfl, by decide, fun _ _ _ => rfl⟩

/-- Two epochs of `fit` on an object that is then moved, with its queued events, and used under its new name. -/
example : ∃ h' m' logs, Life [.fit 0 fun _ W => demo .partialFit false W 3, .move 0 7, .call 7 fun W => demo .transform true W 3]
    (only 0 (.new 2 2)) (1, []) h' m' logs ∧ logs.length = 3 := by
  have h : ∃ l' m' logs, Calls [demo .partialFit false 2 3, demo .partialFit false 2 3, demo .transform true 2 3]
      .empty (1, []) l' m' logs ∧ logs.length = 3 :=
    ⟨_, _, _, .cons demoRun _ rfl rfl (.cons demoRun _ rfl rfl
      (.cons demoRun.dropLast.dropLast _ rfl rfl (.nil _ _))), rfl⟩
  obtain ⟨l', m', logs, h1, h2⟩ := h
  exact ⟨_, m', logs, C104_moves.2 ⟨⟨rfl, rfl, by decide, rfl, trivial⟩, l', h1, rfl⟩, h2⟩

/-- A call on the object that was moved from has no defined run. -/
example {h' : Heap Nat} {m' : DemoM} {logs : List (List (Obs Nat))} :
    ¬ Life [.move 0 7, .call 0 fun W => demo .transform true W 3] (only 0 (.new 2 2)) (1, []) h' m' logs :=
  fun h => absurd (C104_moves.1 h).1.2.2.1 (by decide)

end Verif.Pool
