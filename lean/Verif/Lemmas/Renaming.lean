import Verif.Props.Schedule

/-! Training commutes with a renaming of the parameters with which the E step and the M step commute. -/
namespace Verif.Train

open MathUtils EStep MStep Pool Finset

variable {Q R S Q' R' S' T D D' : Type}

/-- The renamed state of training. -/
def rename (Tq : Q → Q') (Ts : S → S') (m : Q × T × Option S) : Q' × T × Option S' :=
  (Tq m.1, m.2.1, m.2.2.map Ts)

/-- Between two epochs. -/
def OrderFree.Resting {b : BatchStep Q R S} (o : OrderFree b D) (m : Q × T × Option S) : Prop :=
  ∀ s, m.2.2 = some s → ∃ f, o.Is s [] f

/-- `b'`, with the E step `eval'`, is `b`, with the E step `eval`, after renaming: on every document, and in
`m_step` after an epoch of `n` documents. -/
structure Renames {b : BatchStep Q R S} (o : OrderFree b D) (b' : BatchStep Q' R' S') (n : ℕ)
    (eval : Q × T → ℕ → R) (eval' : Q' × T → ℕ → R') (Tq : Q → Q') (Tr : R → R') (Ts : S → S') : Prop where
  doc : ∀ q i r s, i < n → b'.doc (Tq q) i (Tr r) (Ts s) = (b.doc q i r s).map Ts
  results : ∀ q t i, i < n → eval' (Tq q, t) i = Tr (eval (q, t) i)
  step : ∀ q t s f, o.Is s ((List.range n).map fun i => o.item q i (eval (q, t) i)) f →
    b'.step (Tq q) (Ts s) = (b.step q s).map fun r => (Tq r.1, Ts r.2.1, r.2.2)

theorem Renames.docs {b : BatchStep Q R S} {o : OrderFree b D} {b' : BatchStep Q' R' S'} {n : ℕ}
    {eval : Q × T → ℕ → R} {eval' : Q' × T → ℕ → R'} {Tq : Q → Q'} {Tr : R → R'} {Ts : S → S'}
    (h : Renames o b' n eval eval' Tq Tr Ts) (l : List (ℕ × R)) (hl : ∀ d ∈ l, d.1 < n) (m : Q × T × Option S) :
    OrderFree.docs b' (rename Tq Ts m) (l.map fun d => (d.1, Tr d.2)) =
      rename Tq Ts (OrderFree.docs b m l) := by
  induction l generalizing m with
  | nil => rfl
  | cons a l ih =>
    have e : (trainDoc b' a.1 (Tr a.2) (rename Tq Ts m)).1 = rename Tq Ts (trainDoc b a.1 a.2 m).1 := by
      obtain ⟨q, t, x⟩ := m
      cases x with
      | none => rfl
      | some s => simp [trainDoc, rename, h.doc q a.1 a.2 s (hl a List.mem_cons_self)]
    have := ih (fun d hd => hl d (List.mem_cons_of_mem _ hd)) (trainDoc b a.1 a.2 m).1
    rw [← e] at this
    exact this

/-- One epoch. -/
theorem Renames.epoch {b : BatchStep Q R S} {o : OrderFree b D} {b' : BatchStep Q' R' S'} {n : ℕ}
    {eval : Q × T → ℕ → R} {eval' : Q' × T → ℕ → R'} {Tq : Q → Q'} {Tr : R → R'} {Ts : S → S'}
    (h : Renames o b' n eval eval' Tq Tr Ts) (next : T → T) {m : Q × T × Option S} (hm : o.Resting m) :
    Train.epoch b' next eval' n (rename Tq Ts m) = rename Tq Ts (Train.epoch b next eval n m) ∧
      o.Resting (Train.epoch b next eval n m) := by
  obtain ⟨q, t, x⟩ := m
  have e1 : Train.epoch b next eval n (q, t, x) = (trainBatch b next
      (OrderFree.docs b (q, t, x) ((List.range n).map fun i => (i, eval (q, t) i)))).1 := by
    rw [Train.epoch, seqEpoch, OrderFree.docs, List.foldl_map]
    rfl
  have e2 : Train.epoch b' next eval' n (rename Tq Ts (q, t, x)) = (trainBatch b' next
      (OrderFree.docs b' (rename Tq Ts (q, t, x)) ((List.range n).map fun i => (i, eval' (Tq q, t) i)))).1 := by
    rw [Train.epoch, seqEpoch, OrderFree.docs, List.foldl_map]
    rfl
  have e3 : ((List.range n).map fun i => (i, eval' (Tq q, t) i)) =
      ((List.range n).map fun i => (i, eval (q, t) i)).map fun d => (d.1, Tr d.2) := by
    rw [List.map_map]
    exact List.map_congr_left fun i hi => by simp [h.results q t i (List.mem_range.1 hi)]
  rw [e1, e2, e3, h.docs _ (by simp)]
  cases x with
  | none =>
    rw [OrderFree.docs_none]
    exact ⟨rfl, by simp [OrderFree.Resting, trainBatch]⟩
  | some s =>
    obtain ⟨f, hf⟩ := hm s rfl
    rcases o.docs_state q t ((List.range n).map fun i => (i, eval (q, t) i)) s [] f hf with ⟨_, e⟩ | ⟨_, s', e, hI⟩
    · rw [e]
      exact ⟨rfl, by simp [OrderFree.Resting, trainBatch]⟩
    · rw [List.nil_append, List.map_map] at hI
      have hst := h.step q t s' _ hI
      rw [e]
      rcases o.step (q := q) hI hI (List.Perm.refl _) with ⟨e4, _⟩ | ⟨q', u, u', k, e4, _, hu, _⟩
      · rw [e4] at hst
        constructor
        · simp [trainBatch, rename, hst, e4]
        · simp [OrderFree.Resting, trainBatch, e4]
      · rw [e4] at hst
        constructor
        · simp [trainBatch, rename, hst, e4]
        · intro s1 hs1
          simp only [trainBatch, Option.bind_some, e4, Option.some.injEq] at hs1
          subst hs1
          exact ⟨_, hu⟩

/-- Any number of epochs. -/
theorem Renames.epochs {b : BatchStep Q R S} {o : OrderFree b D} {b' : BatchStep Q' R' S'} {n : ℕ}
    {eval : Q × T → ℕ → R} {eval' : Q' × T → ℕ → R'} {Tq : Q → Q'} {Tr : R → R'} {Ts : S → S'}
    (h : Renames o b' n eval eval' Tq Tr Ts) (next : T → T) (k : ℕ) {m : Q × T × Option S} (hm : o.Resting m) :
    (Train.epoch b' next eval' n)^[k] (rename Tq Ts m) = rename Tq Ts ((Train.epoch b next eval n)^[k] m) := by
  induction k generalizing m with
  | zero => rfl
  | succ k ih =>
    rw [Function.iterate_succ_apply, Function.iterate_succ_apply, (h.epoch next hm).1]
    exact ih (h.epoch next hm).2

/-- `fit` on both sides, with any schedules, numbers of workers and shuffles. -/
theorem Renames.fit {b : BatchStep Q R S} {o : OrderFree b D} {b' : BatchStep Q' R' S'} (o' : OrderFree b' D')
    {n : ℕ} {eval : Q × T → ℕ → R} {eval' : Q' × T → ℕ → R'} {Tq : Q → Q'} {Tr : R → R'} {Ts : S → S'}
    (h : Renames o b' n eval eval' Tq Tr Ts) {next : T → T} {s0 : S} {f f' : Bool} (h0 : o.Is s0 [] f)
    (h0' : o'.Is (Ts s0) [] f') {q : Q} {t : T} {W W' : ℕ} {orders orders' : List (ℕ → ℕ)}
    (hlen : orders.length = orders'.length)
    (ho : ∀ p ∈ orders, ((List.range n).map p).Perm (List.range n))
    (ho' : ∀ p ∈ orders', ((List.range n).map p).Perm (List.range n))
    {m : Q × T × Option S} {l : Left R} {logs : List (List (Obs R))}
    {m' : Q' × T × Option S'} {l' : Left R'} {logs' : List (List (Obs R'))}
    (hc : Calls (fitCalls b next eval W n orders) .empty (q, t, some s0) l m logs)
    (hc' : Calls (fitCalls b' next eval' W' n orders') .empty (Tq q, t, some (Ts s0)) l' m' logs') :
    m'.1 = Tq m.1 ∧ (m'.2.2 = none ↔ m.2.2 = none) := by
  obtain ⟨e1, e2⟩ := C08_fit o h0 ho hc
  obtain ⟨e3, e4⟩ := C08_fit o' h0' ho' hc'
  have e5 := h.epochs next orders.length (m := (q, t, some s0)) (by
    intro s hs
    simp only [Option.some.injEq] at hs
    subst hs
    exact ⟨f, h0⟩)
  have e6 : rename Tq Ts (q, t, some s0) = (Tq q, t, some (Ts s0)) := rfl
  rw [e6] at e5
  rw [e3, e4, e1, e2, ← hlen, e5]
  exact ⟨rfl, by simp [rename]⟩

end Verif.Train
