import Verif.Props.SemiTraining

/-! Property C155: semi-supervised training of a corpus in which every document has a class. -/
namespace Verif.Train

open MathUtils EStep MStep Optim Pool Finset

variable {K V C n : ℕ} {corpus : ℕ → Doc V} {P : Prims} {cfg ucfg : EStep.Cfg}

/-- The sequential epochs are the same. -/
theorem routed_epoch (mcfg : SupCfg) (hcls : ∀ i < n, 0 ≤ (corpus i).cls) (any : VP K V) :
    epoch (semiSupervised (C := C) mcfg corpus) EStep.FastState.eStep (libResults (semiResult P cfg ucfg) any corpus) n =
    epoch (fastSupervised (C := C) mcfg corpus) EStep.FastState.eStep
      (libResults (fun (t : EStep.FastState) X y m => fastRun P cfg t.weight X y m) any corpus) n := by
  funext m
  simp only [epoch, seqEpoch]
  have : (List.range n).foldl (fun x i => (trainDoc (semiSupervised (C := C) mcfg corpus) i
        (libResults (semiResult P cfg ucfg) any corpus (trainParams m) i) x).1) m =
      (List.range n).foldl (fun x i => (trainDoc (fastSupervised (C := C) mcfg corpus) i
        (libResults (fun (t : EStep.FastState) X y m => fastRun P cfg t.weight X y m) any corpus (trainParams m) i) x).1) m := by
    refine List.foldl_ext _ _ _ fun x i hi => ?_
    have h0 : ¬ (corpus i).cls < 0 := not_lt.2 (hcls i (List.mem_range.1 hi))
    simp only [trainDoc, semiSupervised, fastSupervised, libResults, semiResult, semiDoc, h0, if_false]
  rw [this]
  rfl

/-- **C155**: `fit` with the semi-supervised steps on documents that all have a class, and `fit` with the fast supervised
steps, each with any number of workers, any schedule and any order of the documents, end with the same model after the
same number of iterations, and one is undefined if and only if the other is. -/
theorem C155_labelled (mcfg : SupCfg) (hcls : ∀ i < n, 0 ≤ (corpus i).cls) (any : VP K V) {q : Params K V C}
    {t : EStep.FastState} {W W' : ℕ} {orders orders' : List (ℕ → ℕ)} (hlen : orders.length = orders'.length)
    (ho : ∀ p ∈ orders, ((List.range n).map p).Perm (List.range n))
    (ho' : ∀ p ∈ orders', ((List.range n).map p).Perm (List.range n))
    {m m' : Params K V C × EStep.FastState × Option (MStep.FastState K V)} {l l' : Left (VP K V)}
    {logs logs' : List (List (Obs (VP K V)))}
    (h : Calls (fitCalls (semiSupervised mcfg corpus) EStep.FastState.eStep
      (libResults (semiResult P cfg ucfg) any corpus) W n orders) .empty (q, t, some .init) l m logs)
    (h' : Calls (fitCalls (fastSupervised mcfg corpus) EStep.FastState.eStep
      (libResults (fun (t : EStep.FastState) X y m => fastRun P cfg t.weight X y m) any corpus) W' n orders')
      .empty (q, t, some .init) l' m' logs') :
    m.1 = m'.1 ∧ (m.2.2 = none ↔ m'.2.2 = none) := by
  obtain ⟨a1, a2⟩ := (C08_semi_supervised (C := C) (h := []) mcfg corpus rfl).2 _ _ _ q t W n orders m l logs ho h
  obtain ⟨b1, b2⟩ := (C08_fast_supervised (C := C) (h := []) mcfg corpus rfl).2 _ _ _ q t W' n orders' m' l' logs' ho' h'
  rw [routed_epoch mcfg hcls any, hlen] at a1 a2
  exact ⟨a1.trans b1.symm, a2.trans b2.symm⟩

/-- An epoch that was undefined stays so. -/
theorem epoch_none {Q R S T : Type} (b : BatchStep Q R S) (next : T → T) (eval : Q × T → ℕ → R) (n : ℕ)
    {m : Q × T × Option S} (hm : m.2.2 = none) : (epoch b next eval n m).2.2 = none := by
  have : ∀ (l : List ℕ) (p : Q × T) (x : Q × T × Option S), x.2.2 = none →
      (l.foldl (fun x i => (trainDoc b i (eval p i) x).1) x).2.2 = none := by
    intro l p
    induction l with
    | nil => exact fun x hx => hx
    | cons i l ih => exact fun x hx => ih _ (by simp [trainDoc, hx])
  simp only [epoch, seqEpoch, trainBatch, this _ _ m hm, Option.bind_none]

/-- **C155**, the other extreme: without any class the result is not that of LDA; `fit` is undefined for every E step from
the first iteration on, as the number of classes is the greatest of no labels. -/
theorem C155_unlabelled_false {T : Type} (mcfg : SupCfg) (hcls : ∀ i < n, (corpus i).cls < 0) {next : T → T}
    {eval : Params K V C × T → ℕ → VP K V} {q : Params K V C} {t : T} {W : ℕ} {orders : List (ℕ → ℕ)}
    (ho : ∀ p ∈ orders, ((List.range n).map p).Perm (List.range n)) (hne : orders ≠ [])
    {m : Params K V C × T × Option (MStep.FastState K V)} {l : Left (VP K V)} {logs : List (List (Obs (VP K V)))}
    (h : Calls (fitCalls (semiSupervised mcfg corpus) next eval W n orders) .empty (q, t, some .init) l m logs) :
    m.2.2 = none := by
  rw [((C08_semi_supervised (C := C) (h := []) mcfg corpus rfl).2 _ _ _ q t W n orders m l logs ho h).2]
  obtain ⟨p, orders, rfl⟩ := List.exists_cons_of_ne_nil hne
  rw [List.length_cons, Function.iterate_succ_apply]
  have h1 : (epoch (semiSupervised (C := C) mcfg corpus) next eval n (q, t, some .init)).2.2 = none := by
    have key : ∀ (l : List ℕ), (∀ i ∈ l, i < n) → ∀ x : Params K V C × T × Option (MStep.FastState K V),
        (∃ b, x.2.2 = some ⟨b, 0, [], []⟩) → ∃ b, (l.foldl (fun x i => (trainDoc (semiSupervised (C := C) mcfg corpus) i
          (eval (q, t) i) x).1) x).2.2 = some ⟨b, 0, [], []⟩ := by
      intro l
      induction l with
      | nil => exact fun _ x hx => hx
      | cons i l ih =>
        rintro hl x ⟨b, hb⟩
        refine ih (fun j hj => hl j (List.mem_cons_of_mem _ hj)) _ ?_
        have h0 := hcls i (hl i List.mem_cons_self)
        simp only [trainDoc, semiSupervised, semiDoc, h0, if_true, hb, Option.bind_some]
        exact ⟨_, rfl⟩
    obtain ⟨b, hb⟩ := key (List.range n) (fun i hi => List.mem_range.1 hi) (q, t, some .init) ⟨none, rfl⟩
    simp only [epoch, seqEpoch, trainParams, trainBatch, hb, Option.bind_some]
    simp [semiSupervised, fastSupervised, fastM, resize, readAll, logisticDefault, defaultWeights, numClasses]
  generalize epoch (semiSupervised (C := C) mcfg corpus) next eval n (q, t, some .init) = x at h1
  induction orders.length generalizing x with
  | zero => exact h1
  | succ k ih =>
    rw [Function.iterate_succ_apply]
    exact ih _ (epoch_none _ _ _ _ h1)

/-- The hypotheses of `C155_labelled` can be met: three documents, three workers with the semi-supervised steps, one with
the fast supervised ones. -/
example (any : VP 2 4) : ∃ (m m' : Params 2 4 3 × EStep.FastState × Option (MStep.FastState 2 4))
    (logs logs' : List (List (Obs (VP 2 4)))),
    Calls (fitCalls (semiSupervised ⟨10, 1 / 100, 1 / 100⟩ twoOfThree) EStep.FastState.eStep
      (libResults (semiResult fastPrims demoCfg demoCfg) any twoOfThree) 3 3 [id, fun i => 2 - i]) .empty
      (⟨fun _ => 1, .matrix fun k w => .fin (twoOfFour k w), fun _ _ => 0⟩, ⟨1, .constant, 0⟩, some .init) .empty m logs ∧
    Calls (fitCalls (fastSupervised ⟨10, 1 / 100, 1 / 100⟩ twoOfThree) EStep.FastState.eStep
      (libResults (fun (t : EStep.FastState) X y m => fastRun fastPrims demoCfg t.weight X y m) any twoOfThree) 1 3 [id, id]) .empty
      (⟨fun _ => 1, .matrix fun k w => .fin (twoOfFour k w), fun _ _ => 0⟩, ⟨1, .constant, 0⟩, some .init) .empty m' logs' ∧
    m.1 = m'.1 := by
  obtain ⟨m, logs, hc⟩ := calls_exist (semiSupervised (C := 3) ⟨10, 1 / 100, 1 / 100⟩ twoOfThree) EStep.FastState.eStep
    (libResults (semiResult fastPrims demoCfg demoCfg) any twoOfThree) (W := 3) (by norm_num) 3 [id, fun i => 2 - i]
    (⟨fun _ => 1, .matrix fun k w => .fin (twoOfFour k w), fun _ _ => 0⟩, ⟨1, .constant, 0⟩, some .init)
  obtain ⟨m', logs', hc'⟩ := calls_exist (fastSupervised (C := 3) ⟨10, 1 / 100, 1 / 100⟩ twoOfThree) EStep.FastState.eStep
    (libResults (fun (t : EStep.FastState) X y m => fastRun fastPrims demoCfg t.weight X y m) any twoOfThree) (W := 1)
    (by norm_num) 3 [id, id]
    (⟨fun _ => 1, .matrix fun k w => .fin (twoOfFour k w), fun _ _ => 0⟩, ⟨1, .constant, 0⟩, some .init)
  refine ⟨m, m', logs, logs', hc, hc', (C155_labelled (C := 3) (P := fastPrims) (cfg := demoCfg) (ucfg := demoCfg)
    (corpus := twoOfThree) (n := 3) (orders := [id, fun i => 2 - i]) (orders' := [id, id]) ⟨10, 1 / 100, 1 / 100⟩ (fun i _ => by simp only [twoOfThree]; split_ifs <;> simp) any
    rfl ?_ ?_ hc hc').1⟩
  · intro p hp
    rcases List.mem_pair.1 hp with rfl | rfl
    · simp
    · decide
  · intro p hp
    rcases List.mem_pair.1 hp with rfl | rfl <;> simp

/-- The hypotheses of `C155_unlabelled_false` can be met. -/
example (eval : Params 2 4 3 × Unit → ℕ → VP 2 4) (q : Params 2 4 3) : ∃ (m : Params 2 4 3 × Unit × Option (MStep.FastState 2 4))
    (logs : List (List (Obs (VP 2 4)))),
    Calls (fitCalls (semiSupervised ⟨10, 1 / 100, 1 / 100⟩ fun i => ⟨(threeDocs i).words, -1⟩) id eval 3 3 [id]) .empty
      (q, (), some .init) .empty m logs ∧ m.2.2 = none := by
  obtain ⟨m, logs, hc⟩ := calls_exist (semiSupervised (C := 3) ⟨10, 1 / 100, 1 / 100⟩ fun i => ⟨(threeDocs i).words, -1⟩) id
    eval (W := 3) (by norm_num) 3 [id] (q, (), some .init)
  exact ⟨m, logs, hc, C155_unlabelled_false _ (fun i _ => by simp) (by simp) (by simp) hc⟩

end Verif.Train
