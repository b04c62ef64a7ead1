import Verif.Lemmas.PoolInv
import Mathlib.Data.List.Perm.Basic

/-! Properties C01–C08 and C10 of the worker pool (see /verif/properties.jsonl). -/
namespace Verif.Pool

variable {M P R : Type}

/-! ### A concrete call used to show that the hypotheses below can be met

Three documents, two workers, a batch M step that collects what it is given and then adds the sum
to the parameter.  `demoRun` is a full schedule in which the results arrive out of order. -/

/-- State of the demo M step: (parameter, results collected so far). -/
abbrev DemoM := Nat × List (Nat × Nat)

def demo (kind : Kind) (owner : Bool) (W n : Nat) : Cfg DemoM Nat Nat where
  W := W
  n := n
  kind := kind
  owner := owner
  params := Prod.fst
  eval p i := 10 * p + i
  docStep i r m := ((m.1, m.2 ++ [(i, r)]), 0)
  batch m := ((m.1 + (m.2.map Prod.snd).sum, []), 1)

/-- worker 1 finishes document 1 before worker 0 finishes document 0; the caller blocks once. -/
def demoRun : List Act :=
  [.main, .main, .main, .main,               -- spawn two workers, enter the loop, block
   .worker 0, .worker 1, .worker 1, .worker 1, .worker 1,
   .main, .main, .main,                      -- consume document 1
   .main, .spurious, .main,                  -- block, wake up spuriously, block
   .worker 0, .worker 0, .worker 0,
   .main, .main, .main,                      -- consume document 0
   .worker 1, .worker 1, .worker 1, .worker 1, .worker 1, .worker 0,
   .main, .main, .main,                      -- consume document 2
   .main, .main, .main, .main, .main, .main]

example : ∃ s, Reachable (demo .partialFit true 2 3) (1, []) s ∧ Returned s ∧
    consumed s.log = [(1, 11), (0, 10), (2, 12)] ∧ s.model = (34, []) :=
  ⟨_, ⟨demoRun, rfl⟩, rfl, rfl, rfl⟩

/-! ### C01 -/

/-- **C01**.  When `partial_fit` returns, the documents given to the M step are exactly the
documents of the corpus, each once; and the `t`-th of them came with the result that the E step
computes for that same document, from the model as it was after some `j ≤ t` of the earlier
documents had been given to the M step. -/
theorem C01_each_document_once {c : Cfg M P R} {m : M} {s : St M R c.W}
    (h : Reachable c m s) (hr : Returned s) :
    ((consumed s.log).map Prod.fst).Perm (List.range c.n) ∧
    ∀ t i r, (consumed s.log)[t]? = some (i, r) →
      ∃ j ≤ t, r = c.eval (c.params (seqDocs c m ((consumed s.log).take j))) i := by
  have hc := inv_cnt s h
  rw [Returned] at hr
  rw [hr] at hc
  exact ⟨consumed_perm_of_len h hc, (inv_val s h).log⟩

/-- A batch M step: `doc_m_step` does not touch what the E step reads. -/
def BatchM (c : Cfg M P R) : Prop := ∀ i r m, c.params (c.docStep i r m).1 = c.params m

theorem params_seqDocs {c : Cfg M P R} (hb : BatchM c) (m : M) (ds : List (Nat × R)) :
    c.params (seqDocs c m ds) = c.params m := by
  induction ds using List.reverseRecOn with
  | nil => rfl
  | append_singleton ds d ih => obtain ⟨i, r⟩ := d; rw [seqDocs_snoc, hb, ih]

/-- **C01**, batch M steps: the result given with document `i` is the E-step result of document
`i` for the parameters at the start of the call, at every moment of every execution. -/
theorem C01_result_of_same_document {c : Cfg M P R} {m : M} {s : St M R c.W}
    (hb : BatchM c) (h : Reachable c m s) :
    ∀ d ∈ consumed s.log, d.1 < c.n ∧ d.2 = c.eval (c.params m) d.1 := by
  rintro ⟨i, r⟩ hd
  constructor
  · have h1 := inv_tok s h i
    have h2 : 0 < ((consumed s.log).map Prod.fst).count i :=
      List.count_pos_iff.2 (List.mem_map.2 ⟨_, hd, rfl⟩)
    by_contra hn
    simp only [hn, if_false] at h1
    omega
  · obtain ⟨t, ht⟩ := List.mem_iff_getElem?.1 hd
    obtain ⟨j, _, hr⟩ := (inv_val s h).log t i r ht
    rw [params_seqDocs hb] at hr
    exact hr

example : BatchM (demo .partialFit true 2 3) := fun _ _ _ => rfl

/-! ### C02 -/

/-- `LDA::transform` (LDA.cpp:138-176) as a pool call: the model is only read, and consuming the
result of document `i` writes column `i` of the (initially uninitialised, LDA.cpp:146) matrix. -/
def transformCfg (W n : Nat) (owner : Bool) (eval : P → Nat → R) :
    Cfg (P × (Nat → Option R)) P R where
  W := W
  n := n
  kind := .transform
  owner := owner
  params := Prod.fst
  eval := eval
  docStep i r m := ((m.1, fun x => if x = i then some r else m.2 x), 0)
  batch m := (m, 0)

theorem transform_cols {W n : Nat} {owner : Bool} {eval : P → Nat → R} {p : P}
    (ds : List (Nat × R)) :
    (seqDocs (transformCfg W n owner eval) (p, fun _ => none) ds).1 = p ∧
    ∀ i, (seqDocs (transformCfg W n owner eval) (p, fun _ => none) ds).2 i = none ↔
      i ∉ ds.map Prod.fst := by
  induction ds using List.reverseRecOn with
  | nil => simp [seqDocs]
  | append_singleton ds d ih =>
    obtain ⟨i, r⟩ := d
    rw [seqDocs_snoc]
    refine ⟨ih.1, fun x => ?_⟩
    by_cases hx : x = i
    · simp [transformCfg, hx]
    · have := ih.2 x
      simp only [transformCfg] at this ⊢
      simp [hx, this]

theorem transform_vals {W n : Nat} {owner : Bool} {eval : P → Nat → R} {p : P}
    (ds : List (Nat × R)) (h : ∀ d ∈ ds, d.2 = eval p d.1) (i : Nat) (r : R)
    (hr : (seqDocs (transformCfg W n owner eval) (p, fun _ => none) ds).2 i = some r) :
    r = eval p i := by
  induction ds using List.reverseRecOn generalizing r with
  | nil => simp [seqDocs] at hr
  | append_singleton ds d ih =>
    obtain ⟨i', r'⟩ := d
    rw [seqDocs_snoc] at hr
    by_cases hx : i = i'
    · subst hx
      simp [transformCfg] at hr
      subst hr
      exact h (i, r') (by simp)
    · apply ih (fun d hd => h d (List.mem_append_left _ hd))
      simpa [transformCfg, hx] using hr

/-- **C02**.  When `transform` returns, column `i` of the result holds the E-step result of column
`i` of the input for the current model, every column of the input has been written exactly once,
nothing else has been written, and the model is unchanged. -/
theorem C02_transform_columns {W n : Nat} {owner : Bool} {eval : P → Nat → R} {p : P}
    {s : St (P × (Nat → Option R)) R (transformCfg W n owner eval).W}
    (h : Reachable (transformCfg W n owner eval) (p, fun _ => none) s)
    (hr : Returned (c := transformCfg W n owner eval) s) :
    s.model.1 = p ∧ (∀ i, s.model.2 i = if i < n then some (eval p i) else none) ∧
    ∀ i, ((consumed s.log).map Prod.fst).count i = if i < n then 1 else 0 := by
  have hm := inv_model s h
  have hr' : s.main = .ret := hr
  have hd := C01_each_document_once h hr
  have hv := C01_result_of_same_document (fun _ _ _ => rfl) h
  simp only [hr', ModelP] at hm
  change s.model = _ at hm
  have hcnt : ∀ i, ((consumed s.log).map Prod.fst).count i = if i < n then 1 else 0 := by
    intro i
    rw [hd.1.count_eq, count_range]
    rfl
  refine ⟨by rw [hm]; exact (transform_cols _).1, fun i => ?_, hcnt⟩
  rw [hm]
  by_cases hi : i < n
  · rw [if_pos hi]
    cases hx : (seqDocs (transformCfg W n owner eval) (p, fun _ => none) (consumed s.log)).2 i with
    | none =>
      have h1 := ((transform_cols _).2 i).1 hx
      have h2 := hcnt i
      rw [if_pos hi] at h2
      rw [List.count_eq_zero.2 h1] at h2
      cases h2
    | some r =>
      rw [transform_vals _ (fun d hd => (hv d hd).2) i r hx]
      rfl
  · rw [if_neg hi]
    refine ((transform_cols _).2 i).2 ?_
    apply List.count_eq_zero.1
    rw [hcnt i, if_neg hi]

example : ∃ s, Reachable (transformCfg 2 3 true (fun p i => 10 * p + i)) (1, fun _ => none) s ∧
    Returned (c := transformCfg 2 3 true (fun p i => 10 * p + i)) s ∧
    (s.model.2 0, s.model.2 2, s.model.2 3) = (some 10, some 12, none) :=
  ⟨_, ⟨demoRun.dropLast.dropLast, rfl⟩, rfl, rfl⟩

/-! ### C03 -/

/-- **C03**.  With a worker, as long as the call has not returned some thread can take a step,
without the help of a spurious wake-up. -/
theorem C03_no_deadlock {c : Cfg M P R} {m : M} {s : St M R c.W} (hW : 0 < c.W)
    (h : Reachable c m s) (hr : ¬ Returned s) :
    ∃ a, a ≠ .spurious ∧ (step c s a).isSome := by
  obtain ⟨a, ha, s', hs⟩ := progress h (Or.inl hW) hr
  exact ⟨a, ha, by rw [hs]; rfl⟩

/-- **C03**.  The caller is never blocked with a result queued and no notification pending. -/
theorem C03_no_lost_wakeup {c : Cfg M P R} {m : M} {s : St M R c.W}
    (h : Reachable c m s) (k : Nat) (hm : s.main = .waiting k) (hq : s.qout ≠ []) :
    ∃ w s', s.ws w = .notify ∧ step c s (.worker w) = some s' ∧ s'.main = .loop k := by
  obtain ⟨w, hw⟩ := inv_wake s h k hm hq
  refine ⟨w, { s with ws := setW s.ws w .fetch, main := .loop k }, hw, ?_, rfl⟩
  simp [step, w.2, workerStep, hw, hm, wake]

example : ∃ s, Reachable (demo .partialFit true 2 3) (1, []) s ∧
    s.main = .waiting 0 ∧ s.qout = [(11, 1)] ∧ ¬ Returned s :=
  ⟨_, ⟨demoRun.take 8, rfl⟩, rfl, rfl, by intro h; cases h⟩

/-! ### C04 -/

/-- **C04**.  The number of steps of every execution of a call is bounded linearly in the numbers
of documents and workers, plus two per spurious wake-up. -/
theorem C04_bounded {c : Cfg M P R} {m : M} {s : St M R c.W} {as : List Act}
    (h : run c (init c m) as = some s) :
    as.length ≤ 9 * c.n + 4 * c.W + 6 + 2 * as.count .spurious := by
  have := weight_run as _ _ (Reachable.init c m) h
  rw [weight_init] at this
  omega

/-- **C04**.  There is no infinite execution with finitely many spurious wake-ups. -/
theorem C04_no_infinite {c : Cfg M P R} {m : M} (σ : Nat → Act) (st : Nat → St M R c.W)
    (h0 : st 0 = init c m) (hs : ∀ k, step c (st k) (σ k) = some (st (k + 1))) :
    ∀ N, ∃ k, N ≤ k ∧ σ k = .spurious := by
  have hrun : ∀ k, run c (init c m) ((List.range k).map σ) = some (st k) := by
    intro k
    induction k with
    | zero => simp [run, h0]
    | succ k ih =>
      rw [List.range_succ, List.map_append, run_append, ih]
      simp [run, hs]
  intro N
  by_contra hcon
  push Not at hcon
  have hcount : ∀ k, ((List.range k).map σ).count .spurious ≤ N := by
    intro k
    induction k with
    | zero => simp
    | succ k ih =>
      rw [List.range_succ, List.map_append, List.count_append]
      by_cases hk : N ≤ k
      · have : σ k ≠ .spurious := hcon k hk
        have h0 : List.count Act.spurious (List.map σ [k]) = 0 := by
          simp [this]
        omega
      · have h1 : ((List.range k).map σ).count .spurious ≤ k :=
          (List.count_le_length).trans (by simp)
        have h2 : (List.map σ [k]).count .spurious ≤ 1 :=
          (List.count_le_length).trans (by simp)
        omega
  have h1 := C04_bounded (hrun (9 * c.n + 4 * c.W + 6 + 2 * N + 1))
  have h2 := hcount (9 * c.n + 4 * c.W + 6 + 2 * N + 1)
  simp only [List.length_map, List.length_range] at h1
  omega

/-- **C04**.  An execution in which no thread can go on has returned. -/
theorem C04_maximal_returned {c : Cfg M P R} {m : M} {s : St M R c.W} (hW : 0 < c.W)
    (h : Reachable c m s) (hmax : ∀ a, a ≠ .spurious → step c s a = none) : Returned s := by
  by_contra hr
  obtain ⟨a, ha, hs⟩ := C03_no_deadlock hW h hr
  rw [hmax a ha] at hs
  cases hs

/-! ### C05 -/

/-- From every reachable state the call can be driven to its end. -/
theorem can_return {c : Cfg M P R} {m : M} (hW : 0 < c.W ∨ c.n = 0) :
    ∀ (k : Nat) (s : St M R c.W), Reachable c m s → weight c s ≤ k →
      ∃ as s', run c s as = some s' ∧ Returned s' := by
  intro k
  induction k with
  | zero =>
    intro s h hk
    by_cases hr : s.main = .ret
    · exact ⟨[], s, rfl, hr⟩
    · obtain ⟨a, ha, s', hs⟩ := progress h hW hr
      have := weight_step h hs
      simp [ha] at this
      omega
  | succ k ih =>
    intro s h hk
    by_cases hr : s.main = .ret
    · exact ⟨[], s, rfl, hr⟩
    · obtain ⟨a, ha, s', hs⟩ := progress h hW hr
      have := weight_step h hs
      simp [ha] at this
      obtain ⟨as, s'', h1, h2⟩ := ih s' (h.step hs) (by omega)
      exact ⟨a :: as, s'', by simp [run, hs, h1], h2⟩

/-- **C05** (partial: at least one worker, or nothing to do).  Every execution stops, and when it
stops without further possible step it has returned; from every reachable state the call can
return.  Missing: zero workers, for which the claim is false
(`C05_zero_workers_never_return`). -/
theorem C05_returns_partial {c : Cfg M P R} {m : M} (hW : 0 < c.W ∨ c.n = 0) {s : St M R c.W}
    (h : Reachable c m s) :
    (∃ as s', run c s as = some s' ∧ Returned s') ∧
    ((∀ a, a ≠ .spurious → step c s a = none) → Returned s) := by
  refine ⟨can_return hW _ s h (Nat.le_refl _), fun hmax => ?_⟩
  by_contra hr
  obtain ⟨a, ha, s', hs⟩ := progress h hW hr
  rw [hmax a ha] at hs
  cases hs

/-- **C05 is false**: with zero workers, which `LDA` and `LDABuilder::set_workers` accept, and a
nonempty corpus, no execution returns. -/
theorem C05_zero_workers_never_return {c : Cfg M P R} {m : M} (hW : c.W = 0) (hn : 0 < c.n)
    {s : St M R c.W} (h : Reachable c m s) : ¬ Returned s := by
  have key : ∀ s : St M R c.W, Reachable c m s →
      s.qout = [] ∧ (s.main = .spawn 0 ∨ s.main = .loop 0 ∨ s.main = .waiting 0) := by
    apply reachable_induct
    · exact ⟨rfl, Or.inl rfl⟩
    · rintro s a s' _ ⟨hq, hm⟩ ht
      cases ht with
      | fetchDone j => exact absurd j.2 (by omega)
      | fetchJob j => exact absurd j.2 (by omega)
      | work j => exact absurd j.2 (by omega)
      | push j => exact absurd j.2 (by omega)
      | notify j => exact absurd j.2 (by omega)
      | spawn j hj h => omega
      | spawned j hj h => exact ⟨hq, Or.inr (Or.inl rfl)⟩
      | wait k hk h hq' =>
        simp [h] at hm
        subst hm
        exact ⟨hq, Or.inr (Or.inr rfl)⟩
      | extract k i r q hk h hq' => rw [hq] at hq'; cases hq'
      | spurious k h =>
        simp [h] at hm
        subst hm
        exact ⟨hq, Or.inr (Or.inl rfl)⟩
      | loopEnd k hk h =>
        simp [h] at hm
        omega
      | _ => simp_all
  intro hr
  rw [Returned] at hr
  have := (key s h).2
  simp [hr] at this

/-- The zero-worker call really hangs: it gets to a state where no thread can move. -/
theorem C05_zero_workers_stuck {c : Cfg M P R} {m : M} (hW : c.W = 0) (hn : 0 < c.n) :
    ∃ s, Reachable c m s ∧ ¬ Returned s ∧ ∀ a, a ≠ .spurious → step c s a = none := by
  refine ⟨{ init c m with main := .waiting 0 }, ⟨[.main, .main], ?_⟩, by simp [Returned], ?_⟩
  · simp [run, step, mainStep, init, start, Left.empty, hW, hn]
  · intro a ha
    cases a with
    | main => rfl
    | worker j => simp [step, hW]
    | spurious => exact absurd rfl ha

example : (demo .partialFit true 0 3).W = 0 ∧ 0 < (demo .partialFit true 0 3).n := by decide

/-! ### C06 -/

/-- **C06**.  On return both queues are empty and every worker has terminated; nothing is left in
the event dispatcher either when the caller is the thread that built the object. -/
theorem C06_nothing_left {c : Cfg M P R} {m : M} {s : St M R c.W}
    (h : Reachable c m s) (hr : Returned s) :
    s.qin = [] ∧ s.qout = [] ∧ (∀ w, s.ws w = .done) ∧ (c.owner = true → s.evq = []) := by
  have hr' : s.main = .ret := hr
  have hc := inv_cnt s h
  have hb := inv_born s h
  rw [hr'] at hc hb
  have := queues_empty h hc
  exact ⟨this.1, this.2, hb, fun ho => evq_empty h ho hr'⟩

/-- **C06**.  In any sequence of calls on one object (made by its own thread), every call starts
from clean queues: it is an execution of that call alone. -/
theorem C06_calls_independent {cs : List (Cfg M P R)} {l' : Left R} {m m' : M}
    {logs : List (List (Obs R))} (h : Calls cs .empty m l' m' logs)
    (ho : ∀ c ∈ cs, c.owner = true) :
    l' = .empty ∧ logs.length = cs.length ∧
    ∀ (k : Nat) (c : Cfg M P R), cs[k]? = some c → ∃ (mk : M) (s : St M R c.W),
      Reachable c mk s ∧ Returned s ∧ logs[k]? = some s.log := by
  generalize hl : (Left.empty : Left R) = l at h
  induction h with
  | nil l m => subst hl; exact ⟨rfl, rfl, by simp⟩
  | @cons c cs l l' m m' logs as s hrun hret ht ih =>
    subst hl
    have hR : Reachable c m s := ⟨as, hrun⟩
    have hclean := C06_nothing_left hR hret
    have hleft : s.left = .empty := by
      simp [St.left, Left.empty, hclean.1, hclean.2.1, hclean.2.2.2 (ho c (by simp))]
    obtain ⟨h1, h2, h3⟩ := ih (fun c hc => ho c (List.mem_cons_of_mem _ hc)) hleft.symm
    refine ⟨h1.trans hleft, by simp [h2], ?_⟩
    intro k c' hk
    cases k with
    | zero =>
      simp only [List.getElem?_cons_zero, Option.some.injEq] at hk
      subst hk
      exact ⟨m, s, hR, hret, rfl⟩
    | succ k =>
      simp only [List.getElem?_cons_succ] at hk
      obtain ⟨mk, s', a, b, e⟩ := h3 k c' hk
      exact ⟨mk, s', a, b, by simpa using e⟩

example : ∃ l' m' logs, Calls [demo .partialFit true 2 3, demo .transform true 2 3]
    .empty (1, []) l' m' logs ∧ logs.length = 2 :=
  ⟨_, _, _, .cons demoRun _ rfl rfl (.cons demoRun.dropLast.dropLast _ rfl rfl (.nil _ _)), rfl⟩

/-! ### C07 -/

/-- **C07** (partial: the call is made by the thread that built the LDA object).  The trace of a
`partial_fit` that returned is a prefix with neither batch step nor epoch event, the batch step,
the events of the batch step, and then one epoch event; the prefix contains exactly one E-step
event per document of the corpus; nothing else is delivered later.
Missing: calls from another thread, for which the claim is false
(`C07_foreign_thread_no_epoch_event`). -/
theorem C07_event_order_partial {c : Cfg M P R} {m : M} {s : St M R c.W}
    (hk : c.kind = .partialFit) (ho : c.owner = true) (h : Reachable c m s) (hr : Returned s) :
    ∃ A k, s.log = A ++ .batch :: (List.replicate k (.deliver .max) ++ [.deliver .epoch]) ∧
      Obs.batch ∉ A ∧ Ev.epoch ∉ delivered A ∧
      (∀ i, (delivered A).count (.exp i) = if i < c.n then 1 else 0) ∧ s.evq = [] := by
  have hr' : s.main = .ret := hr
  have hl := inv_log s h
  simp only [hr', LogInv, hk] at hl
  obtain ⟨hq, A, k, hA, hlog⟩ := hl ho
  refine ⟨A, k, hlog, hA.1, ?_, ?_, hq⟩
  · intro hmem
    apply hA.2
    simp only [delivered, List.mem_filterMap] at hmem
    obtain ⟨o, ho, he⟩ := hmem
    cases o <;> simp at he
    subst he
    exact ho
  · intro i
    have hc := inv_cnt s h
    rw [hr'] at hc
    have hd := exp_delivered h hc (by simp [hr']) i
    rw [← hd, hlog]
    have hrep : ∀ k, (delivered (List.replicate k (Obs.deliver (R := R) .max))).count (.exp i) = 0 := by
      intro k
      induction k with
      | zero => rfl
      | succ k ih => rw [List.replicate_succ]; simpa [delivered] using ih
    have hcons : ∀ l : List (Obs R), delivered (.batch :: l) = delivered l := fun l => rfl
    have hep : delivered [Obs.deliver (R := R) .epoch] = [.epoch] := rfl
    rw [delivered_append, hcons, delivered_append, List.count_append, List.count_append, hrep, hep]
    simp

/-- Every document in the trace is preceded by its E-step event. -/
def EvFirst (l : List (Obs R)) : Prop :=
  ∀ A B i r, l = A ++ .consume i r :: B → Ev.exp i ∈ delivered A

theorem EvFirst.snoc {l : List (Obs R)} (h : EvFirst l) (o : Obs R)
    (ho : ∀ i r, o = .consume i r → Ev.exp i ∈ delivered l) : EvFirst (l ++ [o]) := by
  intro A B i r e
  rcases List.eq_nil_or_concat B with rfl | ⟨B', o', rfl⟩
  · have := List.append_inj' e rfl
    obtain ⟨rfl, h2⟩ := this
    simp only [List.cons.injEq, and_true] at h2
    exact ho i r h2
  · rw [List.concat_eq_append, ← List.cons_append, ← List.append_assoc] at e
    have := List.append_inj' e rfl
    exact h A B' i r this.1

theorem EvFirst.delivers {l : List (Obs R)} (h : EvFirst l) (es : List Ev) :
    EvFirst (l ++ es.map .deliver) := by
  induction es generalizing l with
  | nil => simpa using h
  | cons e es ih =>
    have := ih (h.snoc (.deliver e) (by simp))
    simpa using this

theorem EvFirst.consume {c : Cfg M P R} {s : St M R c.W} (h : EvFirst s.log) (i : Nat) (r : R)
    (hi : Ev.exp i ∈ delivered s.log) : EvFirst (Pool.consume c s i r).log := by
  obtain ⟨es, h1, _⟩ := consume_evs c s i r
  rw [h1]
  have h2 : EvFirst (s.log ++ [.consume i r]) := by
    refine h.snoc _ ?_
    intro i' r' e
    cases e
    exact hi
  have := h2.delivers es
  simpa using this

/-- **C07**.  In `partial_fit`, on whatever thread, the E-step event of a document has been
delivered before the document reaches the M step. -/
theorem C07_event_before_consume {c : Cfg M P R} {m : M} (hk : c.kind = .partialFit) :
    ∀ s : St M R c.W, Reachable c m s →
      ∀ A B i r, s.log = A ++ .consume i r :: B → Ev.exp i ∈ delivered A := by
  apply reachable_induct (I := fun s => EvFirst s.log)
  · intro A B i r e
    simp [init, start] at e
  · intro s a s' hr hI ht
    cases ht with
    | pfProcess k i r hk h => exact hI.delivers _
    | trConsume k i r hk' h => rw [hk] at hk'; cases hk'
    | pfConsume k i r hk' h =>
      refine EvFirst.consume hI i r ?_
      have h1 := inv_tok s hr i
      have h2 := inv_ev s hr i
      have h3 := inv_evloc s hr i
      simp only [h, hk, mtok_mid_partialFit, mev_mid_partialFit, if_true, List.count_append] at h1 h2 h3
      apply List.count_pos_iff.1
      by_cases hi : i < c.n
      · simp only [hi, if_true] at h1 h2; omega
      · simp only [hi, if_false] at h1; omega
    | trProcess k i r hk' h => exact hI.delivers _
    | post h =>
      obtain ⟨es, h1, _⟩ := emitM_evs c
        { s with model := (c.batch s.model).1, log := s.log ++ [.batch] } (c.batch s.model).2
      simp only
      rw [h1]
      exact (hI.snoc .batch (by simp)).delivers es
    | epoch h =>
      obtain ⟨es, h1, _⟩ := dispatch_evs c s .epoch
      simp only
      rw [h1]
      exact hI.delivers es
    | _ => exact hI

/-- **C07 is false** when the call is made by another thread than the one that built the object:
the call returns and the listeners never saw the epoch event. -/
theorem C07_foreign_thread_no_epoch_event :
    ∃ s, Reachable (demo .partialFit false 2 3) (1, []) s ∧ Returned s ∧
      Ev.epoch ∉ delivered s.log ∧ s.evq = [.max, .epoch] :=
  ⟨_, ⟨demoRun, rfl⟩, rfl, by decide, rfl⟩

/-! ### C08 -/

/-- `doc_m_step` of two documents in either order gives the same state. -/
def CommuteM (c : Cfg M P R) : Prop :=
  ∀ i r i' r' m, (c.docStep i r (c.docStep i' r' m).1).1 = (c.docStep i' r' (c.docStep i r m).1).1

theorem seqDocs_perm {c : Cfg M P R} (hc : CommuteM c) {ds es : List (Nat × R)} (h : ds.Perm es)
    (m : M) : seqDocs c m ds = seqDocs c m es := by
  unfold seqDocs
  refine List.Perm.foldl_eq' h ?_ m
  intro x _ y _ z
  exact hc _ _ _ _ _

/-- What an epoch computes when nothing runs concurrently: E step of every document for the
parameters at the start, `doc_m_step` in index order, then the batch step. -/
def seqEpoch (n : Nat) (params : M → P) (eval : P → Nat → R) (docStep : Nat → R → M → M)
    (batch : M → M) (m : M) : M :=
  batch ((List.range n).foldl (fun x i => docStep i (eval (params m) i) x) m)

/-- **C08**.  For a batch M step whose per-document updates commute, whatever the schedule and
the number of workers, the model after `partial_fit` is the one the sequential epoch computes. -/
theorem C08_schedule_independent {c : Cfg M P R} {m : M} {s : St M R c.W}
    (hk : c.kind = .partialFit) (hb : BatchM c) (hc : CommuteM c)
    (h : Reachable c m s) (hr : Returned s) :
    s.model = seqEpoch c.n c.params c.eval (fun i r x => (c.docStep i r x).1)
      (fun x => (c.batch x).1) m := by
  have hr' : s.main = .ret := hr
  have hm := inv_model s h
  simp only [hr', ModelP, hk] at hm
  rw [hm]
  have hperm : (consumed s.log).Perm
      ((List.range c.n).map fun i => (i, c.eval (c.params m) i)) := by
    have h1 : consumed s.log =
        ((consumed s.log).map Prod.fst).map fun i => (i, c.eval (c.params m) i) := by
      rw [List.map_map]
      conv_lhs => rw [← List.map_id (consumed s.log)]
      apply List.map_congr_left
      intro d hd
      have := (C01_result_of_same_document hb h d hd).2
      simp [← this]
    rw [h1]
    exact (C01_each_document_once h hr).1.map _
  rw [seqDocs_perm hc hperm]
  simp [seqDocs, seqEpoch, List.foldl_map]

/-- A commuting variant of the demo: the M step adds the results. -/
def demoSum (W : Nat) : Cfg (Nat × Nat) Nat Nat where
  W := W
  n := 3
  kind := .partialFit
  owner := true
  params := Prod.fst
  eval p i := 10 * p + i
  docStep _ r m := ((m.1, m.2 + r), 0)
  batch m := ((m.1 + m.2, 0), 1)

example : BatchM (demoSum 2) ∧ CommuteM (demoSum 2) ∧ (demoSum 2).kind = .partialFit ∧
    ∃ s, Reachable (demoSum 2) (1, 0) s ∧ Returned s ∧ s.model = (34, 0) := by
  refine ⟨fun _ _ _ => rfl, ?_, rfl, ⟨_, ⟨demoRun, rfl⟩, rfl, rfl⟩⟩
  intro i r i' r' m
  simp only [demoSum, Prod.mk.injEq, true_and]
  omega

/-! ### C71 -/

/-- **C71** (partial: batch M steps).  Whenever a step changes what the E step reads, no worker is
executing an E step; in fact every worker has terminated.  Missing: M steps whose `doc_m_step`
writes the model, for which the claim is false (`C71_online_race`). -/
theorem C71_no_write_during_e_step_partial {c : Cfg M P R} {m : M} {s s' : St M R c.W} {a : Act}
    (hb : BatchM c) (h : Reachable c m s) (hs : step c s a = some s')
    (hw : c.params s'.model ≠ c.params s.model) : ∀ w, s.ws w = .done := by
  have hborn := inv_born s h
  cases trans_of_step hs with
  | post hm => rw [hm] at hborn; exact hborn
  | trConsume k i r hk hm => exact absurd (by simp [hb i r s.model]) hw
  | pfConsume k i r hk hm => exact absurd (by simp [hb i r s.model]) hw
  | epoch hm => exact absurd (by simp) hw
  | _ => exact absurd rfl hw

/-- A call with an M step that updates the parameters after every document, as
`FastOnlineSupervisedMStep::doc_m_step` with minibatches of one document. -/
def demoOnline : Cfg Nat Nat Nat where
  W := 2
  n := 3
  kind := .partialFit
  owner := true
  params := id
  eval p i := 10 * p + i
  docStep _ r m := (m + r, 1)
  batch m := (m, 0)

/-- **C71 is false** for an M step that updates the parameters per document: the caller's next step
changes the parameters while worker 1 is in the E step of document 1. -/
theorem C71_online_race :
    ∃ s s', Reachable demoOnline 1 s ∧ step demoOnline s .main = some s' ∧
      s.ws ⟨1, by decide⟩ = .work 1 ∧ demoOnline.params s'.model ≠ demoOnline.params s.model :=
  ⟨_, _, ⟨[.main, .main, .main, .worker 0, .worker 0, .worker 0, .worker 0, .worker 1, .main, .main],
    rfl⟩, rfl, rfl, by decide⟩

example : ∃ s s', Reachable (demo .partialFit true 2 3) (1, []) s ∧
    step (demo .partialFit true 2 3) s .main = some s' ∧
    (demo .partialFit true 2 3).params s'.model ≠ (demo .partialFit true 2 3).params s.model :=
  ⟨_, _, ⟨demoRun.dropLast.dropLast, rfl⟩, rfl, by decide⟩

end Verif.Pool
