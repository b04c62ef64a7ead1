import Verif.Model.Nested
import Verif.Props.Failure

/-! Property C133: listeners that use the model whose events they handle. -/
namespace Verif.Pool

variable {M P R : Type}

theorem anyJoinable_iff {W : Nat} {s : St M R W} : anyJoinable s = true ↔ ∃ j, joinable s j = true := by
  simp [anyJoinable]

/-- The events of the thread that made the object are delivered when it is past the loop. -/
theorem evq_late {c : Cfg M P R} {m : M} {s : St M R c.W} (hr : Reachable c m s) (ho : c.owner = true)
    (h : s.main = .post ∨ s.main = .epoch) : s.evq = [] := by
  have hI := inv_log s hr
  rcases h with h | h
  · have hn := no_exp_queued hr (by simpa [h, CntP] using inv_cnt s hr) (by simp [h])
    simp only [h, LogInv] at hI
    apply List.eq_nil_iff_forall_not_mem.2
    intro e he
    cases e with
    | exp i => exact hn i he
    | max => exact hI.2.2 ho he
    | epoch => exact hI.2.1 he
  · simp only [h, LogInv] at hI
    exact (hI ho).1

/-- No thread is left when the batch part of an epoch begins, and all queues are empty. -/
theorem late_clean {c : Cfg M P R} {m : M} {s : St M R c.W} (hr : Reachable c m s)
    (h : s.main = .post ∨ s.main = .epoch) : anyJoinable s = false ∧ s.qin = [] ∧ s.qout = [] := by
  have hc := inv_cnt s hr
  have hq : s.qin = [] ∧ s.qout = [] := by
    rcases h with h | h <;> rw [h] at hc <;> exact queues_empty hr hc
  refine ⟨?_, hq⟩
  rw [Bool.eq_false_iff]
  intro hj
  obtain ⟨j, hj⟩ := anyJoinable_iff.1 hj
  have hj' := j.isLt
  have : s.main.joined c.W = c.W := by rcases h with h | h <;> rw [h] <;> rfl
  simp only [joinable, this, Bool.and_eq_true, decide_eq_true_eq] at hj
  omega

/-- When a listener of a call can be running while documents are processed, the threads are joinable. -/
theorem document_busy {c : Cfg M P R} {m : M} {s : St M R c.W} (hr : Reachable c m s) {k : Nat}
    (h : speaks c s = some (.document k)) : anyJoinable s = true := by
  have hb := inv_born s hr
  have key : (∃ k i r, s.main = .got k i r ∨ s.main = .mid k i r) → anyJoinable s = true := by
    rintro ⟨k, i, r, hm⟩
    have hW : c.W ≠ 0 := fun hW => by
      have := (got_workers hW s hr).2 k i r
      rcases hm with hm | hm
      · exact this.1 hm
      · exact this.2 hm
    have hborn : ∀ w, s.ws w ≠ .unborn := by rcases hm with hm | hm <;> rw [hm] at hb <;> exact hb
    have hj : s.main.joined c.W = 0 := by rcases hm with hm | hm <;> rw [hm] <;> rfl
    refine anyJoinable_iff.2 ⟨⟨0, Nat.pos_of_ne_zero hW⟩, ?_⟩
    have := hborn ⟨0, Nat.pos_of_ne_zero hW⟩
    simp only [joinable, hj]
    cases hw : s.ws ⟨0, Nat.pos_of_ne_zero hW⟩ <;> simp_all
  unfold speaks at h
  cases hm : s.main with
  | got k i r => exact key ⟨k, i, r, .inl hm⟩
  | mid k i r => exact key ⟨k, i, r, .inr hm⟩
  | post => rw [hm] at h; simp only at h; split at h <;> cases h
  | epoch => rw [hm] at h; simp only at h; split at h <;> cases h
  | _ => rw [hm] at h; cases h

theorem speaks_late {c : Cfg M P R} {s : St M R c.W} {pt : Point} (h : speaks c s = some pt)
    (hp : ∀ k, pt ≠ .document k) :
    c.owner = true ∧ (s.main = .post ∧ pt = .batch ∨ s.main = .epoch ∧ pt = .epoch) := by
  unfold speaks at h
  cases hm : s.main with
  | got k i r =>
    rw [hm] at h
    simp only at h
    split at h
    · cases h; exact absurd rfl (hp k)
    · cases h
  | mid k i r =>
    rw [hm] at h
    simp only at h
    split at h
    · split at h
      · cases h; exact absurd rfl (hp k)
      · cases h
    · cases h; exact absurd rfl (hp k)
  | post => rw [hm] at h; simp only at h; split at h <;> cases h; exact ⟨by assumption, .inl ⟨rfl, rfl⟩⟩
  | epoch => rw [hm] at h; simp only at h; split at h <;> cases h; exact ⟨by assumption, .inr ⟨rfl, rfl⟩⟩
  | _ => rw [hm] at h; cases h

/-! ### The invariant -/

/-- What is true of an answer given during a call whose model is now `m`, at program counter `pc`. -/
def AnswerOk (c : Cfg M P R) (s : St M R c.W) (a : Answer P R) : Prop :=
  (∀ i, a.columns i = if i < a.query.n then some (a.query.eval a.params i) else none) ∧
    (a.point = .batch ∨ a.point = .epoch ∧ (s.main = .epoch ∨ s.main = .ret) ∧ a.params = c.params s.model)

/-- What is true of a nested call. -/
def InnerOk (c : Cfg M P R) (s : St M R c.W) (i : Inner P R c.W c.owner) : Prop :=
  c.owner = true ∧ Reachable (transformCfg c.W i.query.n c.owner i.query.eval) (i.params, fun _ => none) i.st ∧
    (s.main = .post ∧ i.point = .batch ∨ s.main = .epoch ∧ i.point = .epoch ∧ i.params = c.params s.model)

def SysOk (c : Cfg M P R) (m : M) : Sys c → Prop
  | .dead => True
  | .live s inner as => Reachable c m s ∧ (∀ a ∈ as, AnswerOk c s a) ∧ ∀ i, inner = some i → InnerOk c s i

theorem model_late {c : Cfg M P R} {s s' : St M R c.W} {a : Act} (hdone : ∀ w, s.ws w = .done)
    (h : step c s a = some s') (hm : s.main = .epoch ∨ s.main = .ret) :
    (s'.main = .epoch ∨ s'.main = .ret) ∧ s'.model = s.model := by
  cases a with
  | main =>
    simp only [step, mainStep] at h
    rcases hm with hm | hm
    · rw [hm] at h
      simp only [Option.some.injEq] at h
      subst h
      refine ⟨.inr rfl, ?_⟩
      simp only [dispatch]
      split <;> rfl
    · rw [hm] at h; cases h
  | worker j =>
    simp only [step] at h
    split at h
    · simp only [workerStep, hdone] at h; cases h
    · cases h
  | spurious =>
    simp only [step] at h
    rcases hm with hm | hm <;> rw [hm] at h <;> cases h

theorem sys_step {c : Cfg M P R} {m : M} {t t' : Sys c} {a : NAct P R} (hI : SysOk c m t) (h : nstep c t a = some t') :
    SysOk c m t' := by
  cases t with
  | dead => cases a <;> simp [nstep] at h
  | live s inner as =>
    obtain ⟨h1, h2, h3⟩ := hI
    cases inner with
    | none =>
      cases a with
      | outer a =>
        simp only [nstep, Option.map_eq_some_iff] at h
        obtain ⟨s', hs, rfl⟩ := h
        refine ⟨h1.step hs, fun a ha => ⟨(h2 a ha).1, ?_⟩, fun i hi => by cases hi⟩
        rcases (h2 a ha).2 with hb | ⟨hb, hm, hp⟩
        · exact .inl hb
        · have hborn := inv_born s h1
          have hdone : ∀ w, s.ws w = .done := by rcases hm with hm | hm <;> rw [hm] at hborn <;> exact hborn
          obtain ⟨g1, g2⟩ := model_late hdone hs hm
          exact .inr ⟨hb, g1, by rw [g2]; exact hp⟩
      | ask q half =>
        simp only [nstep] at h
        cases hsp : speaks c s with
        | none => rw [hsp] at h; cases h
        | some pt =>
          rw [hsp] at h
          simp only at h
          split at h
          · cases h; trivial
          · rename_i hj
            cases h
            have hnd : ∀ k, pt ≠ .document k := fun k hk => by
              subst hk
              exact hj (document_busy h1 hsp)
            obtain ⟨ho, hpc⟩ := speaks_late hsp hnd
            have hpc' : s.main = .post ∨ s.main = .epoch := hpc.imp And.left And.left
            obtain ⟨_, hq1, hq2⟩ := late_clean h1 hpc'
            have hl : s.left = Left.empty := by simp [St.left, hq1, hq2, evq_late h1 ho hpc', Left.empty]
            refine ⟨h1, h2, fun i hi => ?_⟩
            cases hi
            refine ⟨ho, ?_, ?_⟩
            · simp only [hl]
              exact Reachable.init _ _
            · rcases hpc with ⟨hm, rfl⟩ | ⟨hm, rfl⟩
              · exact .inl ⟨hm, rfl⟩
              · exact .inr ⟨hm, rfl, by simp⟩
      | inner a => simp [nstep] at h
      | askAgain => simp [nstep] at h
      | reply => simp [nstep] at h
    | some i =>
      obtain ⟨ho, hi1, hi2⟩ := h3 i rfl
      cases a with
      | outer a => simp [nstep] at h
      | ask q half => simp [nstep] at h
      | inner a =>
        simp only [nstep, Option.map_eq_some_iff] at h
        obtain ⟨st, hs, rfl⟩ := h
        refine ⟨h1, h2, fun i' hi' => ?_⟩
        cases hi'
        exact ⟨ho, hi1.step hs, hi2⟩
      | askAgain =>
        simp only [nstep] at h
        split at h
        · cases h
        · split at h
          · cases h; trivial
          · cases h
      | reply =>
        simp only [nstep] at h
        split at h
        · rename_i hret
          cases h
          have hcol := C02_transform_columns hi1 hret
          have hleft := C06_nothing_left hi1 hret
          have hpc' : s.main = .post ∨ s.main = .epoch := hi2.imp And.left And.left
          obtain ⟨_, hq1, hq2⟩ := late_clean h1 hpc'
          have he : ({ s with qin := i.st.qin, qout := i.st.qout, evq := i.st.evq } : St M R c.W) = s := by
            rw [hleft.1, hleft.2.1, hleft.2.2.2 ho, ← hq1, ← hq2]
            have := evq_late h1 ho hpc'
            cases s
            simp_all
          rw [he]
          refine ⟨h1, fun a ha => ?_, fun i hi => by cases hi⟩
          rcases List.mem_append.1 ha with ha | ha
          · exact h2 a ha
          · rw [List.mem_singleton] at ha
            subst ha
            refine ⟨hcol.2.1, ?_⟩
            rcases hi2 with ⟨hm, hb⟩ | ⟨hm, hb, hp⟩
            · exact .inl hb
            · exact .inr ⟨hb, .inl hm, hp⟩
        · cases h

theorem sys_run {c : Cfg M P R} {m : M} (as : List (NAct P R)) {t t' : Sys c} (hI : SysOk c m t)
    (h : nrun c t as = some t') : SysOk c m t' := by
  induction as generalizing t with
  | nil => cases h; exact hI
  | cons a as ih =>
    simp only [nrun] at h
    split at h
    · cases h
    · rename_i t1 h1
      exact ih (sys_step hI h1) h

theorem ninit_ok (c : Cfg M P R) (m : M) : SysOk c m (ninit c m) :=
  ⟨Reachable.init c m, by simp, by simp⟩

/-! ### C133 -/

/-- **C133**, what holds.  As long as the program is not terminated, a call whose listeners make nested calls is, apart
from those, an execution of the call without them; every nested call returns the result of the E step for every one of
its documents, in their order; and if it was made by a listener of the event that ends an epoch, for the parameters with
which the epoch ended.  Missing: that the program is never terminated, which is false (`C133_terminates`). -/
theorem C133_answers_partial {c : Cfg M P R} {m : M} {as : List (NAct P R)} {s : St M R c.W}
    {inner : Option (Inner P R c.W c.owner)} {answers : List (Answer P R)}
    (h : nrun c (ninit c m) as = some (.live s inner answers)) :
    Reachable c m s ∧ ∀ a ∈ answers,
      (∀ i, a.columns i = if i < a.query.n then some (a.query.eval a.params i) else none) ∧
      (a.point = .epoch → a.params = c.params s.model) := by
  obtain ⟨h1, h2, _⟩ := sys_run as (ninit_ok c m) h
  refine ⟨h1, fun a ha => ⟨(h2 a ha).1, fun hp => ?_⟩⟩
  rcases (h2 a ha).2 with hb | ⟨_, _, h3⟩
  · rw [hb] at hp; cases hp
  · exact h3

/-- **C133**, training is not disturbed: with a batch M step whose documents commute (C08), a call with nested calls that
returns leaves the model that every call without nested calls leaves. -/
theorem C133_training_partial {c : Cfg M P R} {m : M} {as : List (NAct P R)} {s : St M R c.W}
    {answers : List (Answer P R)} (h : nrun c (ninit c m) as = some (.live s none answers)) (hr : s.main = .ret)
    (hk : c.kind = .partialFit) (hb : BatchM c) (hc : CommuteM c) {s' : St M R c.W} (h' : Reachable c m s') (hr' : s'.main = .ret) :
    s.model = s'.model := by
  obtain ⟨h1, _⟩ := C133_answers_partial h
  exact (C08_schedule_independent hk hb hc h1 hr).trans (C08_schedule_independent hk hb hc h' hr').symm

/-- **C133**, where nested calls are possible: a listener of the events of `m_step` and of the event that ends an epoch
can always make one; it reads the parameters as they are at that moment. -/
theorem C133_late_partial {c : Cfg M P R} {m : M} {as : List (NAct P R)} {s : St M R c.W} {answers : List (Answer P R)}
    (h : nrun c (ninit c m) as = some (.live s none answers)) {pt : Point} (hs : speaks c s = some pt)
    (hp : pt = .batch ∨ pt = .epoch) (q : Query P R) (half : P) :
    ∃ i, nstep c (.live s none answers) (.ask q half) = some (.live s (some i) answers) ∧ i.query = q ∧
      (pt = .batch → i.params = half) ∧ (pt = .epoch → i.params = c.params s.model) := by
  obtain ⟨h1, _⟩ := C133_answers_partial h
  have hnd : ∀ k, pt ≠ .document k := fun k hk => by rcases hp with hp | hp <;> rw [hp] at hk <;> cases hk
  obtain ⟨_, hpc⟩ := speaks_late hs hnd
  obtain ⟨hj, _⟩ := late_clean h1 (hpc.imp And.left And.left)
  simp only [nstep, hs, hj, Bool.false_eq_true, if_false, Option.some.injEq, Sys.live.injEq, true_and, and_true]
  exact ⟨_, rfl, rfl, fun h => by simp only [h, if_true], fun h => by simp [h]⟩

/-- **C133**, such a nested call returns, if there are workers: it is never stuck (and makes a bounded number of
steps, `C133_bounded_partial`). -/
theorem C133_returns_partial {c : Cfg M P R} {m : M} {as : List (NAct P R)} {s : St M R c.W} {answers : List (Answer P R)}
    {i : Inner P R c.W c.owner} (h : nrun c (ninit c m) as = some (.live s (some i) answers))
    (hW : 0 < c.W ∨ i.query.n = 0) :
    (∃ a, (∃ t, nstep c (.live s (some i) answers) (.inner a) = some t)) ∨
      ∃ t, nstep c (.live s (some i) answers) .reply = some t := by
  obtain ⟨_, _, h3⟩ := sys_run as (ninit_ok c m) h
  obtain ⟨_, hi, _⟩ := h3 i rfl
  by_cases hr : i.st.main = .ret
  · right
    simp only [nstep, hr]
    exact ⟨_, rfl⟩
  · left
    obtain ⟨a, _, st, hst⟩ := progress hi hW hr
    refine ⟨a, ?_⟩
    simp only [nstep, hst]
    exact ⟨_, rfl⟩

theorem nrun_inner {c : Cfg M P R} {s : St M R c.W} {answers : List (Answer P R)} (bs : List Act)
    {i : Inner P R c.W c.owner} {t : Sys c} (h : nrun c (.live s (some i) answers) (bs.map .inner) = some t) :
    ∃ st, run (transformCfg c.W i.query.n c.owner i.query.eval) i.st bs = some st := by
  induction bs generalizing i with
  | nil => exact ⟨_, rfl⟩
  | cons b bs ih =>
    simp only [List.map_cons, nrun, nstep] at h
    cases hst : step (transformCfg c.W i.query.n c.owner i.query.eval) i.st b with
    | none => rw [hst] at h; cases h
    | some st =>
      rw [hst] at h
      obtain ⟨st', h'⟩ := ih h
      exact ⟨st', by simp only [run, hst]; exact h'⟩

/-- **C133**, the number of steps of a nested call is bounded, but for spurious wake-ups. -/
theorem C133_bounded_partial {c : Cfg M P R} {m : M} {as : List (NAct P R)} {s : St M R c.W} {answers : List (Answer P R)}
    (h : nrun c (ninit c m) as = some (.live s none answers)) {q : Query P R} {half : P} {t t' : Sys c} (ht : t ≠ .dead)
    (ha : nstep c (.live s none answers) (.ask q half) = some t) {bs : List Act} (hb : nrun c t (bs.map .inner) = some t') :
    bs.length ≤ 9 * q.n + 4 * c.W + 6 + 2 * bs.count .spurious := by
  obtain ⟨h1, _⟩ := C133_answers_partial h
  simp only [nstep] at ha
  cases hsp : speaks c s with
  | none => rw [hsp] at ha; cases ha
  | some pt =>
    rw [hsp] at ha
    simp only at ha
    split at ha
    · cases ha; exact absurd rfl ht
    · rename_i hj
      have hnd : ∀ k, pt ≠ .document k := fun k hk => by
        subst hk
        exact hj (document_busy h1 hsp)
      obtain ⟨ho, hpc⟩ := speaks_late hsp hnd
      have hpc' : s.main = .post ∨ s.main = .epoch := hpc.imp And.left And.left
      obtain ⟨_, hq1, hq2⟩ := late_clean h1 hpc'
      have hl : s.left = Left.empty := by simp [St.left, hq1, hq2, evq_late h1 ho hpc', Left.empty]
      cases ha
      obtain ⟨st, hst⟩ := nrun_inner bs hb
      simp only [hl] at hst
      exact C04_bounded hst

/-- **C133** fails: a nested call made by a listener while documents are processed, i.e. of the events of the E step and
of those of an online M step, terminates the program, always. -/
theorem C133_terminates {c : Cfg M P R} {m : M} {as : List (NAct P R)} {s : St M R c.W} {answers : List (Answer P R)}
    (h : nrun c (ninit c m) as = some (.live s none answers)) {k : Nat} (hs : speaks c s = some (.document k))
    (q : Query P R) (half : P) : nstep c (.live s none answers) (.ask q half) = some .dead := by
  obtain ⟨h1, _⟩ := C133_answers_partial h
  simp only [nstep, hs, document_busy h1 hs, if_true]

/-- **C133** fails too for a listener of the events of a nested call: a nested call in a nested call terminates the
program. -/
theorem C133_nested_twice {c : Cfg M P R} {m : M} {as : List (NAct P R)} {s : St M R c.W} {answers : List (Answer P R)}
    {i : Inner P R c.W c.owner} (h : nrun c (ninit c m) as = some (.live s (some i) answers)) {pt : Point}
    (hs : speaks (transformCfg c.W i.query.n c.owner i.query.eval) i.st = some pt) :
    nstep c (.live s (some i) answers) .askAgain = some .dead := by
  obtain ⟨_, _, h3⟩ := sys_run as (ninit_ok c m) h
  obtain ⟨_, hi, _⟩ := h3 i rfl
  have hd : ∃ k, pt = .document k := by
    by_contra hcon
    push Not at hcon
    obtain ⟨_, hm⟩ := speaks_late hs hcon
    have hk : ∀ st, Reachable (transformCfg c.W i.query.n c.owner i.query.eval) (i.params, fun _ => none) st →
        st.main ≠ .post ∧ st.main ≠ .epoch := by
      refine reachable_induct _ ?_ ?_
      · exact ⟨by simp [init, start], by simp [init, start]⟩
      · intro s a s' _ ⟨g1, g2⟩ ht
        cases ht with
        | notify j h => constructor <;> cases hm : s.main <;> simp_all [wake]
        | post h => exact absurd h g1
        | epoch h => exact absurd h g2
        | pfJoined _ _ hk => cases hk
        | fetchDone => exact ⟨g1, g2⟩
        | fetchJob => exact ⟨g1, g2⟩
        | work => exact ⟨g1, g2⟩
        | push => exact ⟨g1, g2⟩
        | _ => exact ⟨by simp, by simp⟩
    have := hk i.st hi
    rcases hm with ⟨hm, _⟩ | ⟨hm, _⟩
    · exact this.1 hm
    · exact this.2 hm
  obtain ⟨k, rfl⟩ := hd
  simp only [nstep, hs, document_busy hi hs, if_true]

/-- **C133**, the only ways in which nested calls terminate the program. -/
theorem C133_dead_only {c : Cfg M P R} {m : M} {as : List (NAct P R)} {t : Sys c} {a : NAct P R}
    (h : nrun c (ninit c m) as = some t) (hd : nstep c t a = some .dead) :
    (∃ s answers k, t = .live s none answers ∧ speaks c s = some (.document k)) ∨
      ∃ s i answers k, t = .live s (some i) answers ∧
        speaks (transformCfg c.W i.query.n c.owner i.query.eval) i.st = some (.document k) := by
  have hI := sys_run as (ninit_ok c m) h
  cases t with
  | dead => cases a <;> simp [nstep] at hd
  | live s inner answers =>
    cases inner with
    | none =>
      left
      cases a with
      | ask q half =>
        simp only [nstep] at hd
        cases hsp : speaks c s with
        | none => rw [hsp] at hd; cases hd
        | some pt =>
          by_cases hdoc : ∃ k, pt = .document k
          · obtain ⟨k, rfl⟩ := hdoc
            exact ⟨s, answers, k, rfl, hsp⟩
          · push Not at hdoc
            obtain ⟨_, hpc⟩ := speaks_late hsp hdoc
            obtain ⟨hj, _⟩ := late_clean hI.1 (hpc.imp And.left And.left)
            rw [hsp] at hd
            simp [hj] at hd
      | outer a => simp [nstep] at hd
      | inner a => simp [nstep] at hd
      | askAgain => simp [nstep] at hd
      | reply => simp [nstep] at hd
    | some i =>
      right
      cases a with
      | askAgain =>
        simp only [nstep] at hd
        cases hsp : speaks (transformCfg c.W i.query.n c.owner i.query.eval) i.st with
        | none => rw [hsp] at hd; cases hd
        | some pt =>
          by_cases hdoc : ∃ k, pt = .document k
          · obtain ⟨k, rfl⟩ := hdoc
            exact ⟨s, i, answers, k, rfl, hsp⟩
          · push Not at hdoc
            obtain ⟨_, hpc⟩ := speaks_late hsp hdoc
            obtain ⟨_, hi, _⟩ := hI.2.2 i rfl
            obtain ⟨hj, _⟩ := late_clean hi (hpc.imp And.left And.left)
            rw [hsp] at hd
            simp [hj] at hd
      | outer a => simp [nstep] at hd
      | ask q half => simp [nstep] at hd
      | inner a => simp [nstep] at hd
      | reply =>
        simp only [nstep] at hd
        split at hd <;> cases hd

/-- When a call on an object made by another thread survives `create_worker_pool`: between the creation of the first
worker and the end of the last `join` it does not. -/
theorem C133_other_thread {c : Cfg M P R} {m : M} {s : St M R c.W} (h : Reachable c m s) (hW : 0 < c.W) :
    (∃ j, joinable s j = true) ↔ s.main ≠ .spawn 0 ∧ s.main ≠ .join c.W ∧ s.main ≠ .post ∧ s.main ≠ .epoch ∧
      s.main ≠ .ret := by
  have hb := inv_born s h
  have none' : c.W ≤ s.main.joined c.W → ¬ ∃ j, joinable s j = true := by
    rintro hj ⟨j, hh⟩
    have := j.isLt
    simp only [joinable, Bool.and_eq_true, decide_eq_true_eq] at hh
    omega
  have some' : ∀ j : Fin c.W, s.ws j ≠ .unborn → s.main.joined c.W ≤ j → ∃ j, joinable s j = true := by
    intro j hu hj
    refine ⟨j, ?_⟩
    simp only [joinable, hj, decide_true, Bool.and_true]
  cases hm : s.main with
  | spawn j =>
    rw [hm] at hb
    rcases Nat.eq_zero_or_pos j with rfl | hj
    · simp only [ne_eq, not_true_eq_false, false_and, iff_false]
      rintro ⟨w, hw⟩
      have := (hb.2 w).1 (Nat.zero_le _)
      simp [joinable, this] at hw
    · refine iff_of_true (some' ⟨0, hW⟩ (fun hu => ?_) (by rw [hm]; simp [MPc.joined])) ?_
      · have := (hb.2 ⟨0, hW⟩).2 hu
        simp only at this
        omega
      · simp only [ne_eq, MPc.spawn.injEq, reduceCtorEq, not_false_eq_true, and_self, and_true]
        omega
  | join j =>
    rw [hm] at hb
    by_cases hj : j = c.W
    · subst hj
      refine iff_of_false (none' (by rw [hm]; simp [MPc.joined])) (by simp)
    · have hlt : j < c.W := lt_of_le_of_ne hb.1 hj
      refine iff_of_true (some' ⟨j, hlt⟩ (hb.2.1 _) (by rw [hm]; simp [MPc.joined])) ?_
      simp [hj]
  | post => exact iff_of_false (none' (by rw [hm]; simp [MPc.joined])) (by simp)
  | epoch => exact iff_of_false (none' (by rw [hm]; simp [MPc.joined])) (by simp)
  | ret => exact iff_of_false (none' (by rw [hm]; simp [MPc.joined])) (by simp)
  | loop k =>
    rw [hm] at hb
    exact iff_of_true (some' ⟨0, hW⟩ (hb _) (by rw [hm]; simp [MPc.joined])) (by simp)
  | waiting k =>
    rw [hm] at hb
    exact iff_of_true (some' ⟨0, hW⟩ (hb _) (by rw [hm]; simp [MPc.joined])) (by simp)
  | got k i r =>
    rw [hm] at hb
    exact iff_of_true (some' ⟨0, hW⟩ (hb _) (by rw [hm]; simp [MPc.joined])) (by simp)
  | mid k i r =>
    rw [hm] at hb
    exact iff_of_true (some' ⟨0, hW⟩ (hb _) (by rw [hm]; simp [MPc.joined])) (by simp)

/-! ### Non-vacuity -/

/-- Two documents, for an E step that multiplies. -/
def demoQuery : Query Nat Nat := ⟨2, fun p i => p * (i + 5)⟩

/-- An epoch with two workers (`demoRun`), up to the event that ends it. -/
def demoEpoch : List (NAct Nat Nat) := demoRun.dropLast.map .outer

/-- The nested call: one worker does everything. -/
def demoAsk : List (NAct Nat Nat) :=
  [.ask demoQuery 7] ++
    ([.main, .main, .main, .worker 0, .worker 0, .worker 0, .worker 0, .worker 0, .worker 0, .worker 0, .worker 0, .worker 0,
      .worker 1, .main, .main, .main, .main, .main, .main, .main, .main, .main, .main] : List Act).map .inner ++
    [.reply, .outer .main]

/-- A listener of the event that ends the epoch asks; it is answered with the new parameter, which is 34, and the epoch
ends as it does without the question. -/
example : ∃ s a, nrun (demoSum 2) (ninit (demoSum 2) (1, 0)) (demoEpoch ++ demoAsk) = some (.live s none [a]) ∧
    s.main = .ret ∧ s.model = (34, 0) ∧ a.point = .epoch ∧ a.params = 34 ∧ a.columns 0 = some 170 ∧ a.columns 1 = some 204 ∧
    a.columns 2 = none :=
  ⟨_, _, rfl, rfl, rfl, rfl, rfl, rfl, rfl, rfl⟩

/-- A listener of the event of the first document asks: the program is terminated. -/
example : nrun (demoSum 2) (ninit (demoSum 2) (1, 0)) ((demoRun.take 10).map .outer ++ [.ask demoQuery 7]) = some .dead := rfl

/-- A listener of the first event of the nested call asks: the program is terminated. -/
example : nrun (demoSum 2) (ninit (demoSum 2) (1, 0)) (demoEpoch ++ demoAsk.take 16 ++ [.askAgain]) = some .dead := rfl

end Verif.Pool
