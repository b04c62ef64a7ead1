import Verif.Props.Pool

/-! Property C10: `fit` is `iterations` epochs over the whole corpus. -/
namespace Verif.Pool

variable {M P R : Type}

/-- The `partial_fit` call of one epoch of `fit` (LDA.cpp:64-81, 90-135) over a fixed corpus whose
index vector was shuffled to `order` (Document.cpp:62-64): the document at index `i` of the call is
document `order i` of the data. -/
def epochCfg (W n : Nat) (params : M → P) (eval : P → Nat → R) (docStep : Nat → R → M → M × Nat)
    (batch : M → M × Nat) (order : Nat → Nat) : Cfg M P R where
  W := W
  n := n
  kind := .partialFit
  owner := true
  params := params
  eval p i := eval p (order i)
  docStep i := docStep (order i)
  batch := batch

/-- `LDA::fit` (LDA.cpp:64-81): `iterations` calls of `partial_fit` on one corpus object, which is
shuffled again at the start of each. -/
def fitCfgs (iterations W n : Nat) (params : M → P) (eval : P → Nat → R)
    (docStep : Nat → R → M → M × Nat) (batch : M → M × Nat) (order : Nat → Nat → Nat) :
    List (Cfg M P R) :=
  (List.range iterations).map fun k => epochCfg W n params eval docStep batch (order k)

theorem seqEpoch_shuffle {n : Nat} {params : M → P} {eval : P → Nat → R}
    {docStep : Nat → R → M → M × Nat} {batch : M → M × Nat} {order : Nat → Nat}
    (hc : ∀ i r i' r' m, (docStep i r (docStep i' r' m).1).1 = (docStep i' r' (docStep i r m).1).1)
    (ho : ((List.range n).map order).Perm (List.range n)) (m : M) :
    seqEpoch n params (fun p i => eval p (order i)) (fun i r x => (docStep (order i) r x).1)
      (fun x => (batch x).1) m =
    seqEpoch n params eval (fun i r x => (docStep i r x).1) (fun x => (batch x).1) m := by
  unfold seqEpoch
  congr 1
  rw [← List.foldl_map (f := order)
    (g := fun x i => (docStep i (eval (params m) i) x).1) (l := List.range n) (init := m)]
  refine List.Perm.foldl_eq' ho ?_ m
  intro x _ y _ z
  exact hc _ _ _ _ _

theorem fit_from {W n : Nat} {params : M → P} {eval : P → Nat → R}
    {docStep : Nat → R → M → M × Nat} {batch : M → M × Nat}
    (hb : ∀ i r m, params (docStep i r m).1 = params m)
    (hc : ∀ i r i' r' m, (docStep i r (docStep i' r' m).1).1 = (docStep i' r' (docStep i r m).1).1)
    (orders : List (Nat → Nat)) (ho : ∀ o ∈ orders, ((List.range n).map o).Perm (List.range n)) :
    ∀ (m m' : M) (l' : Left R) (logs : List (List (Obs R))),
    Calls (orders.map (epochCfg W n params eval docStep batch)) .empty m l' m' logs →
    m' = (seqEpoch n params eval (fun i r x => (docStep i r x).1) (fun x => (batch x).1))^[orders.length] m ∧
    l' = .empty ∧ logs.length = orders.length ∧
    ∀ log ∈ logs, (delivered log).count .epoch = 1 ∧
      ((consumed log).map Prod.fst).Perm (List.range n) := by
  induction orders with
  | nil =>
    intro m m' l' logs h
    cases h
    exact ⟨rfl, rfl, rfl, by simp⟩
  | cons o orders ih =>
    intro m m' l' logs h
    rw [List.map_cons] at h
    cases h with
    | cons as s hrun hret ht =>
      have hR : Reachable (epochCfg W n params eval docStep batch o) m s := ⟨as, hrun⟩
      have hclean := C06_nothing_left hR hret
      have hleft : s.left = .empty := by
        simp [St.left, Left.empty, hclean.1, hclean.2.1, hclean.2.2.2 rfl]
      rw [hleft] at ht
      obtain ⟨h1, h2, h3, h4⟩ := ih (fun o ho' => ho o (List.mem_cons_of_mem _ ho')) _ _ _ _ ht
      have hm := C08_schedule_independent (c := epochCfg W n params eval docStep batch o) rfl
        (fun i r m => hb _ r m) (fun i r i' r' m => hc _ r _ r' m) hR hret
      have hs := seqEpoch_shuffle (params := params) (eval := eval) (batch := batch) hc
        (ho o List.mem_cons_self) m
      refine ⟨?_, h2, by simp [h3], ?_⟩
      · rw [h1, List.length_cons, Function.iterate_succ_apply]
        congr 1
        rw [hm]
        exact hs
      · intro log hlog
        rcases List.mem_cons.1 hlog with rfl | hlog
        · refine ⟨?_, (C01_each_document_once hR hret).1⟩
          obtain ⟨A, k, hl, -, hA, -⟩ := C07_event_order_partial
            (c := epochCfg W n params eval docStep batch o) rfl rfl hR hret
          rw [hl]
          have hrep : ∀ k, (delivered (List.replicate k (Obs.deliver (R := R) .max))).count .epoch = 0 := by
            intro k
            induction k with
            | zero => rfl
            | succ k ih => rw [List.replicate_succ]; simpa [delivered] using ih
          have hcons : ∀ l : List (Obs R), delivered (.batch :: l) = delivered l := fun l => rfl
          have hep : delivered [Obs.deliver (R := R) .epoch] = [.epoch] := rfl
          rw [delivered_append, hcons, delivered_append, List.count_append, List.count_append,
            hrep, hep, List.count_eq_zero.2 hA]
          rfl
        · exact h4 log hlog

theorem epochs_from {W n : Nat} {params : M → P} {eval : P → Nat → R}
    {docStep : Nat → R → M → M × Nat} {batch : M → M × Nat} (orders : List (Nat → Nat)) :
    ∀ (m m' : M) (l' : Left R) (logs : List (List (Obs R))),
    Calls (orders.map (epochCfg W n params eval docStep batch)) .empty m l' m' logs →
    l' = .empty ∧ logs.length = orders.length ∧
    (orders = [] → m' = m) ∧
    ∀ log ∈ logs, (delivered log).count .epoch = 1 ∧ (∃ A B, log = A ++ .batch :: B ∧ Obs.batch ∉ A ∧ Obs.batch ∉ B) ∧
      (∀ i, (delivered log).count (.exp i) = if i < n then 1 else 0) ∧
      ((consumed log).map Prod.fst).Perm (List.range n) := by
  induction orders with
  | nil =>
    intro m m' l' logs h
    cases h
    exact ⟨rfl, rfl, fun _ => rfl, by simp⟩
  | cons o orders ih =>
    intro m m' l' logs h
    rw [List.map_cons] at h
    cases h with
    | cons as s hrun hret ht =>
      have hR : Reachable (epochCfg W n params eval docStep batch o) m s := ⟨as, hrun⟩
      have hclean := C06_nothing_left hR hret
      have hleft : s.left = .empty := by
        simp [St.left, Left.empty, hclean.1, hclean.2.1, hclean.2.2.2 rfl]
      rw [hleft] at ht
      obtain ⟨h2, h3, -, h4⟩ := ih _ _ _ _ ht
      refine ⟨h2, by simp [h3], by simp, ?_⟩
      intro log hlog
      rcases List.mem_cons.1 hlog with rfl | hlog
      · obtain ⟨A, k, hl, hb, hA, hexp, -⟩ := C07_event_order_partial
          (c := epochCfg W n params eval docStep batch o) rfl rfl hR hret
        have hcons : ∀ l : List (Obs R), delivered (.batch :: l) = delivered l := fun l => rfl
        have hep : delivered [Obs.deliver (R := R) .epoch] = [.epoch] := rfl
        have hmax : ∀ k, delivered (List.replicate k (Obs.deliver (R := R) .max)) = List.replicate k .max := by
          intro k
          induction k with
          | zero => rfl
          | succ k ih => rw [List.replicate_succ, List.replicate_succ, ← ih]; rfl
        refine ⟨?_, ?_, fun i => ?_, (C01_each_document_once hR hret).1⟩
        · rw [hl, delivered_append, hcons, delivered_append, List.count_append, List.count_append,
            hmax, hep, List.count_eq_zero.2 hA]
          simp [List.count_replicate]
        · exact ⟨A, _, hl, hb, by simp [List.mem_replicate]⟩
        · rw [hl, delivered_append, hcons, delivered_append, List.count_append, List.count_append, hmax, hep, hexp i]
          have : (epochCfg W n params eval docStep batch o).n = n := rfl
          rw [this]
          simp [List.count_replicate]
      · exact h4 log hlog

/-- **C10**, every M step (the online one among them): for every schedule of every epoch, when `fit` returns it has run
exactly `iterations` epochs.  In each there is one epoch event, one batch maximisation, one expectation event for each
document, and every document is given to the M step once; without iterations the model is unchanged. -/
theorem C10_epochs {iterations W n : Nat} {params : M → P} {eval : P → Nat → R}
    {docStep : Nat → R → M → M × Nat} {batch : M → M × Nat} {order : Nat → Nat → Nat}
    {m m' : M} {l' : Left R} {logs : List (List (Obs R))}
    (h : Calls (fitCfgs iterations W n params eval docStep batch order) .empty m l' m' logs) :
    l' = .empty ∧ logs.length = iterations ∧ (iterations = 0 → m' = m) ∧
    ∀ log ∈ logs, (delivered log).count .epoch = 1 ∧ (∃ A B, log = A ++ .batch :: B ∧ Obs.batch ∉ A ∧ Obs.batch ∉ B) ∧
      (∀ i, (delivered log).count (.exp i) = if i < n then 1 else 0) ∧
      ((consumed log).map Prod.fst).Perm (List.range n) := by
  have := epochs_from (W := W) (n := n) ((List.range iterations).map order) m m' l' logs (by
      simpa [fitCfgs, List.map_map, Function.comp_def] using h)
  simpa using this

/-- **C10**.  `fit` with a batch M step whose per-document updates commute: for every schedule of
every epoch, every number of workers and every way the corpus is shuffled, when it returns it has
run exactly `iterations` epochs (one epoch event each, every document given to the M step once in
each), and the model is the one obtained by applying the sequential, unshuffled epoch `iterations`
times. -/
theorem C10_fit_is_iterated_epoch {iterations W n : Nat} {params : M → P} {eval : P → Nat → R}
    {docStep : Nat → R → M → M × Nat} {batch : M → M × Nat} {order : Nat → Nat → Nat}
    (hb : ∀ i r m, params (docStep i r m).1 = params m)
    (hc : ∀ i r i' r' m, (docStep i r (docStep i' r' m).1).1 = (docStep i' r' (docStep i r m).1).1)
    (ho : ∀ k < iterations, ((List.range n).map (order k)).Perm (List.range n))
    {m m' : M} {l' : Left R} {logs : List (List (Obs R))}
    (h : Calls (fitCfgs iterations W n params eval docStep batch order) .empty m l' m' logs) :
    m' = (seqEpoch n params eval (fun i r x => (docStep i r x).1) (fun x => (batch x).1))^[iterations] m ∧
    l' = .empty ∧ logs.length = iterations ∧
    ∀ log ∈ logs, (delivered log).count .epoch = 1 ∧
      ((consumed log).map Prod.fst).Perm (List.range n) := by
  have := fit_from (W := W) (n := n) hb hc ((List.range iterations).map order) (by
      intro o ho'
      obtain ⟨k, hk, rfl⟩ := List.mem_map.1 ho'
      exact ho k (List.mem_range.1 hk)) m m' l' logs (by
      simpa [fitCfgs, List.map_map, Function.comp_def] using h)
  simpa using this

example : ∃ l' m' logs, Calls (fitCfgs 2 2 3 (demoSum 2).params (demoSum 2).eval
    (demoSum 2).docStep (demoSum 2).batch (fun k i => (i + k) % 3)) .empty (1, 0) l' m' logs ∧
    m' = (34 + 1023, 0) :=
  ⟨_, _, _, .cons demoRun _ rfl rfl (.cons demoRun _ rfl rfl (.nil _ _)), rfl⟩

end Verif.Pool
