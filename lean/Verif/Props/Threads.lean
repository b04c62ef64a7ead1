import Verif.Model.Threads
import Mathlib.Data.List.Nodup
import Mathlib.Data.List.Basic

/-!
C120: the thread on which listeners run.
-/
namespace Verif.Threads

/-! ### Specification -/

/-- The serial numbers of the workers in a history in which `n` threads exist already: threads are numbered in the order
they are created. -/
def workersOf (n : ℕ) : List Act → List ℕ
  | [] => []
  | .start _ :: as => workersOf (n + 1) as
  | .call _ is :: as => List.range' n is.length ++ workersOf (n + is.length) as
  | _ :: as => workersOf n as

/-- The threads that call `partial_fit` or `transform` in a history. -/
def callersOf (as : List Act) : List ℕ :=
  as.filterMap fun | .call t _ => some t | _ => none

/-- The identifiers the system gives out in a history. -/
def idsOf (as : List Act) : List ℕ :=
  as.flatMap fun | .start i => [i] | .call _ is => is | _ => []

/-! ### Invariant -/

/-- The identifiers that one happening gives out. -/
def newIds : Act → List ℕ
  | .start i => [i]
  | .call _ is => is
  | _ => []

theorem number_map_snd (k : ℕ) (is : List ℕ) : (number k is).map Prod.snd = is := by
  induction is generalizing k with
  | nil => rfl
  | cons i is ih => simp [number, ih]

theorem number_map_fst (k : ℕ) (is : List ℕ) : (number k is).map Prod.fst = List.range' k is.length := by
  induction is generalizing k with
  | nil => rfl
  | cons i is ih => simp [number, ih, List.range'_succ]

theorem user_mem {w : World} {t : ℕ} {u : ℕ × ℕ} (h : w.user t = some u) : u ∈ w.users ∧ u.1 = t := by
  have h1 := List.mem_of_find?_eq_some h
  have h2 := List.find?_some h
  exact ⟨h1, by simpa using h2⟩

/-- The state after a history: `K` are the workers so far, `C` the callers. -/
structure Inv (w : World) (K C : List ℕ) : Prop where
  ids : w.ids.Nodup
  users_lt : ∀ u ∈ w.users, u.1 < w.next
  users_K : ∀ u ∈ w.users, u.1 ∉ K
  workers_K : ∀ u ∈ w.workers, u.1 ∈ K
  K_lt : ∀ x ∈ K, x < w.next
  caller : ∀ u, w.caller = some u → u ∈ w.users ∧ u.1 ∈ C
  noCall : w.caller = none → w.workers = []
  /-- Only the thread that constructed the object has its identifier. -/
  maker : ∀ m, w.maker = some m → ∀ u ∈ w.users ++ w.workers, u.2 = m.2 → u.1 = m.1
  maker_lt : ∀ m, w.maker = some m → m.1 < w.next ∧ m.1 ∉ K
  log : ∀ x ∈ w.log, x < w.next ∧ x ∉ K ∧ ((∃ m, w.maker = some m ∧ x = m.1) ∨ x ∈ C)

/-- Which workers and callers one happening adds. -/
def addK (n : ℕ) : Act → List ℕ
  | .call _ is => List.range' n is.length
  | _ => []

def addC : Act → List ℕ
  | .call t _ => [t]
  | _ => []

theorem Inv.dispatch {w : World} {K C : List ℕ} (h : Inv w K C) {t : ℕ × ℕ} (ht : t ∈ w.users ++ w.workers) :
    Inv (w.dispatch t) K C := by
  unfold World.dispatch
  split
  · rename_i m hm
    split
    · rename_i he
      have h1 : t.1 = m.1 := h.maker m hm t ht he
      refine ⟨h.ids, h.users_lt, h.users_K, h.workers_K, h.K_lt, h.caller, h.noCall, h.maker, h.maker_lt, ?_⟩
      intro x hx
      rcases List.mem_append.1 hx with hx | hx
      · exact h.log x hx
      · rw [List.mem_singleton] at hx
        subst hx
        rw [h1]
        exact ⟨(h.maker_lt m hm).1, (h.maker_lt m hm).2, Or.inl ⟨m, hm, rfl⟩⟩
    · exact h
  · exact h

theorem inv_step {w w' : World} {K C : List ℕ} {a : Act} (h : Inv w K C) (hs : w.step a = some w')
    (hn : ∀ m, w.maker = some m → m.2 ∉ newIds a) : Inv w' (K ++ addK w.next a) (C ++ addC a) := by
  cases a with
  | start i =>
    simp only [World.step] at hs
    split at hs
    · cases hs
    · rename_i hi
      cases hs
      simp only [addK, addC, List.append_nil]
      refine ⟨?_, ?_, ?_, h.workers_K, fun x hx => Nat.lt_succ_of_lt (h.K_lt x hx), ?_, h.noCall, ?_, ?_, ?_⟩
      · have h0 := h.ids
        simp only [World.ids, List.map_append, List.mem_append, not_or] at h0 hi ⊢
        simp only [List.map_cons, List.map_nil]
        rw [List.append_assoc]
        refine (List.nodup_middle).2 ?_
        refine List.nodup_cons.2 ⟨?_, h0⟩
        simp only [List.mem_append, not_or]
        exact hi
      · intro u hu
        rcases List.mem_append.1 hu with hu | hu
        · exact Nat.lt_succ_of_lt (h.users_lt u hu)
        · rw [List.mem_singleton.1 hu]; exact Nat.lt_succ_self _
      · intro u hu
        rcases List.mem_append.1 hu with hu | hu
        · exact h.users_K u hu
        · rw [List.mem_singleton.1 hu]
          exact fun hk => Nat.lt_irrefl _ (h.K_lt _ hk)
      · intro u hu
        exact ⟨List.mem_append_left _ (h.caller u hu).1, (h.caller u hu).2⟩
      · intro m hm u hu he
        have hne : m.2 ≠ i := fun e => hn m hm (by simp [newIds, e])
        simp only [List.mem_append, List.mem_singleton] at hu
        rcases hu with (hu | hu) | hu
        · exact h.maker m hm u (List.mem_append_left _ hu) he
        · subst hu; exact absurd he.symm hne
        · exact h.maker m hm u (List.mem_append_right _ hu) he
      · intro m hm
        exact ⟨Nat.lt_succ_of_lt (h.maker_lt m hm).1, (h.maker_lt m hm).2⟩
      · intro x hx
        obtain ⟨h1, h2⟩ := h.log x hx
        exact ⟨Nat.lt_succ_of_lt h1, h2⟩
  | finish t =>
    simp only [World.step] at hs
    split at hs
    · cases hs
    · rename_i hc
      obtain ⟨u0, _, rfl⟩ := Option.map_eq_some_iff.1 hs
      simp only [addK, addC, List.append_nil]
      have hsub : ∀ u ∈ w.users.filter (fun u => u.1 != t), u ∈ w.users := fun u hu => (List.mem_filter.1 hu).1
      refine ⟨?_, fun u hu => h.users_lt u (hsub u hu), fun u hu => h.users_K u (hsub u hu), h.workers_K, h.K_lt, ?_,
        h.noCall, ?_, h.maker_lt, h.log⟩
      · refine h.ids.sublist ?_
        exact ((List.filter_sublist (p := fun u : ℕ × ℕ => u.1 != t)).append (List.Sublist.refl _)).map _
      · intro u hu
        refine ⟨List.mem_filter.2 ⟨(h.caller u hu).1, ?_⟩, (h.caller u hu).2⟩
        simp only [bne_iff_ne, ne_eq]
        intro e
        refine hc ?_
        have hu' : w.caller = some u := hu
        rw [hu']
        simp [e]
      · intro m hm u hu he
        refine h.maker m hm u ?_ he
        rcases List.mem_append.1 hu with hu | hu
        · exact List.mem_append_left _ (hsub u hu)
        · exact List.mem_append_right _ hu
  | construct t =>
    simp only [World.step] at hs
    split at hs
    · cases hs
    · rename_i hmk
      obtain ⟨u0, hu0, rfl⟩ := Option.map_eq_some_iff.1 hs
      obtain ⟨hu1, hu2⟩ := user_mem hu0
      have hnone : w.maker = none := by
        cases hm : w.maker with
        | none => rfl
        | some m => rw [hm] at hmk; exact absurd rfl hmk
      simp only [addK, addC, List.append_nil]
      refine ⟨h.ids, h.users_lt, h.users_K, h.workers_K, h.K_lt, h.caller, h.noCall, ?_, ?_, ?_⟩
      · intro m hm u hu he
        cases hm
        have hinj := List.inj_on_of_nodup_map h.ids hu (List.mem_append_left _ hu1) he
        rw [hinj]
      · intro m hm
        cases hm
        exact ⟨h.users_lt _ hu1, h.users_K _ hu1⟩
      · intro x hx
        obtain ⟨h1, h2, h3⟩ := h.log x hx
        refine ⟨h1, h2, ?_⟩
        rcases h3 with ⟨m, hm, _⟩ | h3
        · rw [hnone] at hm; cases hm
        · exact Or.inr h3
  | call t is =>
    simp only [World.step] at hs
    split at hs
    · cases hs
    · rename_i hc
      push Not at hc
      obtain ⟨hc1, hc2, hc3⟩ := hc
      obtain ⟨u0, hu0, rfl⟩ := Option.map_eq_some_iff.1 hs
      obtain ⟨hu1, hu2⟩ := user_mem hu0
      have hcn : w.caller = none := by
        cases hm : w.caller with
        | none => rfl
        | some m => rw [hm] at hc1; exact absurd rfl hc1
      have hw := h.noCall hcn
      have hfst : ∀ u ∈ number w.next is, u.1 ∈ List.range' w.next is.length := by
        intro u hu
        rw [← number_map_fst]
        exact List.mem_map_of_mem hu
      have hge : ∀ x ∈ List.range' w.next is.length, w.next ≤ x ∧ x < w.next + is.length := by
        intro x hx
        exact List.mem_range'_1.1 hx
      simp only [addK, addC]
      refine ⟨?_, ?_, ?_, ?_, ?_, ?_, ?_, ?_, ?_, ?_⟩
      · simp only [World.ids, List.map_append, number_map_snd] at hc3 ⊢
        rw [hw] at hc3
        simpa using hc3
      · intro u hu
        exact Nat.lt_of_lt_of_le (h.users_lt u hu) (Nat.le_add_right _ _)
      · intro u hu hk
        rcases List.mem_append.1 hk with hk | hk
        · exact h.users_K u hu hk
        · exact absurd (h.users_lt u hu) (Nat.not_lt.2 (hge _ hk).1)
      · intro u hu
        exact List.mem_append_right _ (hfst u hu)
      · intro x hx
        rcases List.mem_append.1 hx with hx | hx
        · exact Nat.lt_of_lt_of_le (h.K_lt x hx) (Nat.le_add_right _ _)
        · exact (hge _ hx).2
      · intro u hu
        cases hu
        exact ⟨hu1, List.mem_append_right _ (by simp [hu2])⟩
      · intro hh
        cases hh
      · intro m hm u hu he
        rcases List.mem_append.1 hu with hu | hu
        · exact h.maker m hm u (List.mem_append_left _ hu) he
        · exfalso
          refine hn m hm ?_
          simp only [newIds]
          have h2 : u.2 ∈ (number w.next is).map Prod.snd := List.mem_map_of_mem hu
          rw [number_map_snd, he] at h2
          exact h2
      · intro m hm
        obtain ⟨h1, h2⟩ := h.maker_lt m hm
        refine ⟨Nat.lt_of_lt_of_le h1 (Nat.le_add_right _ _), fun hk => ?_⟩
        rcases List.mem_append.1 hk with hk | hk
        · exact h2 hk
        · exact absurd h1 (Nat.not_lt.2 (hge _ hk).1)
      · intro x hx
        obtain ⟨h1, h2, h3⟩ := h.log x hx
        refine ⟨Nat.lt_of_lt_of_le h1 (Nat.le_add_right _ _), fun hk => ?_, ?_⟩
        · rcases List.mem_append.1 hk with hk | hk
          · exact h2 hk
          · exact absurd h1 (Nat.not_lt.2 (hge _ hk).1)
        · rcases h3 with h3 | h3
          · exact Or.inl h3
          · exact Or.inr (List.mem_append_left _ h3)
  | workerEvent j =>
    simp only [World.step] at hs
    obtain ⟨u0, hu0, rfl⟩ := Option.map_eq_some_iff.1 hs
    simp only [addK, addC, List.append_nil]
    exact h.dispatch (List.mem_append_right _ (List.mem_of_getElem? hu0))
  | consume =>
    simp only [World.step] at hs
    obtain ⟨u0, hu0, rfl⟩ := Option.map_eq_some_iff.1 hs
    simp only [addK, addC, List.append_nil]
    refine ⟨h.ids, h.users_lt, h.users_K, h.workers_K, h.K_lt, h.caller, h.noCall, h.maker, h.maker_lt, ?_⟩
    intro x hx
    rcases List.mem_append.1 hx with hx | hx
    · exact h.log x hx
    · rw [List.mem_singleton] at hx
      subst hx
      obtain ⟨h1, h2⟩ := h.caller _ hu0
      exact ⟨h.users_lt _ h1, h.users_K _ h1, Or.inr h2⟩
  | callerEvent =>
    simp only [World.step] at hs
    obtain ⟨u0, hu0, rfl⟩ := Option.map_eq_some_iff.1 hs
    simp only [addK, addC, List.append_nil]
    exact h.dispatch (List.mem_append_left _ (h.caller _ hu0).1)
  | userEvent t =>
    simp only [World.step] at hs
    split at hs
    · cases hs
    · obtain ⟨u0, hu0, rfl⟩ := Option.map_eq_some_iff.1 hs
      simp only [addK, addC, List.append_nil]
      exact h.dispatch (List.mem_append_left _ (user_mem hu0).1)
  | «return» =>
    simp only [World.step] at hs
    obtain ⟨u0, hu0, rfl⟩ := Option.map_eq_some_iff.1 hs
    simp only [addK, addC, List.append_nil]
    refine ⟨?_, h.users_lt, h.users_K, (fun u hu => by cases hu), h.K_lt, (fun u hu => by cases hu), fun _ => rfl, ?_,
      h.maker_lt, h.log⟩
    · refine h.ids.sublist ?_
      exact ((List.Sublist.refl _).append (List.nil_sublist _)).map _
    · intro m hm u hu he
      refine h.maker m hm u ?_ he
      simp only [List.append_nil] at hu
      exact List.mem_append_left _ hu

theorem step_next {w w' : World} {a : Act} (hs : w.step a = some w') : w'.next = w.next + (newIds a).length := by
  have hd : ∀ t, (w.dispatch t).next = w.next := by
    intro t; unfold World.dispatch; split
    · split <;> rfl
    · rfl
  cases a <;> simp only [World.step] at hs <;> (try split at hs) <;>
    first
    | (cases hs; done)
    | (obtain ⟨u0, hu0, rfl⟩ := Option.map_eq_some_iff.1 hs; simp [newIds, hd])
    | (cases hs; simp [newIds])

theorem step_maker {w w' : World} {a : Act} (hs : w.step a = some w') (m : ℕ × ℕ) (hm : w'.maker = some m) :
    w.maker = some m ∨ (a = .construct m.1 ∧ m ∈ w.users) := by
  have hd : ∀ t, (w.dispatch t).maker = w.maker := by
    intro t; unfold World.dispatch; split
    · rename_i h; split <;> simp [h]
    · rename_i h; simp [h]
  cases a with
  | construct t =>
    simp only [World.step] at hs
    split at hs
    · cases hs
    · obtain ⟨u0, hu0, rfl⟩ := Option.map_eq_some_iff.1 hs
      obtain ⟨h1, h2⟩ := user_mem hu0
      cases hm
      exact Or.inr ⟨by rw [h2], h1⟩
  | _ =>
    left
    simp only [World.step] at hs
    (try split at hs) <;>
    first
    | (cases hs; done)
    | (obtain ⟨u0, hu0, rfl⟩ := Option.map_eq_some_iff.1 hs; simpa [hd] using hm)
    | (cases hs; simpa using hm)

theorem step_user {w w' : World} {a : Act} (hs : w.step a = some w') (m : ℕ × ℕ) (hm : m ∈ w.users)
    (ha : a ≠ .finish m.1) : m ∈ w'.users := by
  have hd : ∀ t, (w.dispatch t).users = w.users := by
    intro t; unfold World.dispatch; split
    · split <;> rfl
    · rfl
  cases a with
  | finish t =>
    simp only [World.step] at hs
    split at hs
    · cases hs
    · obtain ⟨u0, hu0, rfl⟩ := Option.map_eq_some_iff.1 hs
      refine List.mem_filter.2 ⟨hm, ?_⟩
      simp only [bne_iff_ne, ne_eq]
      intro e
      exact ha (by rw [e])
  | _ =>
    simp only [World.step] at hs
    (try split at hs) <;>
    first
    | (cases hs; done)
    | (obtain ⟨u0, hu0, rfl⟩ := Option.map_eq_some_iff.1 hs; simpa [hd] using hm)
    | (cases hs; simp [hm])

theorem step_fresh {w w' : World} {a : Act} (hs : w.step a = some w') (i : ℕ) (hi : i ∈ newIds a) : i ∉ w.ids := by
  cases a with
  | start j =>
    simp only [World.step] at hs
    split at hs
    · cases hs
    · rename_i h
      simp only [newIds, List.mem_singleton] at hi
      rw [hi]; exact h
  | call t is =>
    simp only [World.step] at hs
    split at hs
    · cases hs
    · rename_i hc
      push Not at hc
      intro h1
      exact (List.nodup_append.1 hc.2.2).2.2 i h1 i hi rfl
  | _ => simp [newIds] at hi

theorem workersOf_cons (n : ℕ) (a : Act) (as : List Act) :
    workersOf n (a :: as) = addK n a ++ workersOf (n + (newIds a).length) as := by
  cases a <;> simp [workersOf, addK, newIds]

theorem callersOf_cons (a : Act) (as : List Act) : callersOf (a :: as) = addC a ++ callersOf as := by
  cases a <;> simp [callersOf, addC]

theorem idsOf_cons (a : Act) (as : List Act) : idsOf (a :: as) = newIds a ++ idsOf as := by
  cases a <;> simp [idsOf, newIds]

theorem inv_init (i : ℕ) : Inv (World.init i) [] [] := by
  refine ⟨?_, ?_, ?_, ?_, ?_, ?_, ?_, ?_, ?_, ?_⟩ <;> simp [World.init, World.ids]

/-- While the thread that constructed the object has not ended. -/
theorem inv_run_alive {as : List Act} : ∀ {w w' : World} {K C : List ℕ}, Inv w K C → w.run as = some w' →
    (∀ m, w.maker = some m → m ∈ w.users) → (∀ m, w'.maker = some m → Act.finish m.1 ∉ as) →
    (∀ m, w.maker = some m → Act.finish m.1 ∉ as) →
    Inv w' (K ++ workersOf w.next as) (C ++ callersOf as) := by
  induction as with
  | nil =>
    intro w w' K C h hr _ _ _
    cases hr
    simpa [workersOf, callersOf] using h
  | cons a as ih =>
    intro w w' K C h hr hmu hf hf0
    simp only [World.run] at hr
    obtain ⟨w1, hs, hr⟩ := Option.bind_eq_some_iff.1 hr
    have h1 : Inv w1 (K ++ addK w.next a) (C ++ addC a) := by
      refine inv_step h hs ?_
      intro m hm hi
      refine step_fresh hs _ hi ?_
      exact List.mem_map_of_mem (List.mem_append_left _ (hmu m hm))
    have hmono : ∀ {as : List Act} {w w' : World} (m), w.run as = some w' → w.maker = some m → w'.maker = some m := by
      intro as
      induction as with
      | nil => intro w w' m hr hm; cases hr; exact hm
      | cons b bs ihb =>
        intro w w' m hr hm
        simp only [World.run] at hr
        obtain ⟨w2, hs2, hr2⟩ := Option.bind_eq_some_iff.1 hr
        refine ihb m hr2 ?_
        have hd : ∀ t, (w.dispatch t).maker = w.maker := by
          intro t; unfold World.dispatch; split
          · rename_i h; split <;> simp [h]
          · rename_i h; simp [h]
        cases b <;> simp only [World.step] at hs2 <;> (try split at hs2) <;>
        first
        | (cases hs2; done)
        | (obtain ⟨u0, hu0, rfl⟩ := Option.map_eq_some_iff.1 hs2; simp_all)
        | (cases hs2; simpa using hm)
    have h2 := ih h1 hr (by
      intro m hm
      rcases step_maker hs m hm with h3 | ⟨h3, h4⟩
      · refine step_user hs m (hmu m h3) ?_
        intro e
        exact hf0 m h3 (by rw [e]; exact List.mem_cons_self)
      · refine step_user hs m h4 ?_
        rw [h3]; intro e; cases e)
      (fun m hm hfin => hf m hm (List.mem_cons_of_mem _ hfin))
      (fun m hm hfin => hf m (hmono m hr hm) (List.mem_cons_of_mem _ hfin))
    rw [step_next hs] at h2
    rw [workersOf_cons, callersOf_cons, ← List.append_assoc, ← List.append_assoc]
    exact h2

/-- When the system gives no identifier twice; `U` are those given out so far. -/
theorem inv_run_fresh {as : List Act} : ∀ {w w' : World} {K C U : List ℕ}, Inv w K C → w.run as = some w' →
    (∀ m, w.maker = some m → m.2 ∈ U) → (∀ u ∈ w.users, u.2 ∈ U) → (U ++ idsOf as).Nodup →
    Inv w' (K ++ workersOf w.next as) (C ++ callersOf as) := by
  induction as with
  | nil =>
    intro w w' K C U h hr _ _ _
    cases hr
    simpa [workersOf, callersOf] using h
  | cons a as ih =>
    intro w w' K C U h hr hm hu hnd
    simp only [World.run] at hr
    obtain ⟨w1, hs, hr⟩ := Option.bind_eq_some_iff.1 hr
    rw [idsOf_cons, ← List.append_assoc] at hnd
    have hnd1 := (List.nodup_append.1 (List.nodup_append.1 hnd).1).2.2
    have h1 : Inv w1 (K ++ addK w.next a) (C ++ addC a) := by
      refine inv_step h hs ?_
      intro m hm' hi
      exact hnd1 _ (hm m hm') _ hi rfl
    have hd : ∀ t, (w.dispatch t).users = w.users := by
      intro t; unfold World.dispatch; split
      · split <;> rfl
      · rfl
    have hu1 : ∀ u ∈ w1.users, u.2 ∈ U ++ newIds a := by
      intro u huu
      cases a with
      | start i =>
        simp only [World.step] at hs
        split at hs
        · cases hs
        · cases hs
          rcases List.mem_append.1 huu with h3 | h3
          · exact List.mem_append_left _ (hu u h3)
          · rw [List.mem_singleton.1 h3]; simp [newIds]
      | finish t =>
        simp only [World.step] at hs
        split at hs
        · cases hs
        · obtain ⟨u0, hu0, rfl⟩ := Option.map_eq_some_iff.1 hs
          exact List.mem_append_left _ (hu u (List.mem_filter.1 huu).1)
      | _ =>
        refine List.mem_append_left _ (hu u ?_)
        simp only [World.step] at hs
        (try split at hs) <;>
        first
        | (cases hs)
        | (obtain ⟨u0, hu0, rfl⟩ := Option.map_eq_some_iff.1 hs; simpa [hd] using huu)
    have h2 := ih (U := U ++ newIds a) h1 hr (by
      intro m hm1
      rcases step_maker hs m hm1 with h3 | ⟨h3, h4⟩
      · exact List.mem_append_left _ (hm m h3)
      · exact List.mem_append_left _ (hu m h4)) hu1 hnd
    rw [step_next hs] at h2
    rw [workersOf_cons, callersOf_cons, ← List.append_assoc, ← List.append_assoc]
    exact h2

/-! ### Theorems -/

/-- **C120** (partial): as long as the thread that constructed the LDA object has not ended, listeners are
never run on a worker, but only on the thread that constructed the object and on threads that call `partial_fit` or
`transform`.  For every history of threads and calls and every choice of identifiers the system may make.  The full statement, without
the condition, is false: `C120_reused_identifier`. -/
theorem C120_listeners_not_on_workers_partial (i : ℕ) (as : List Act) (w : World) (m : ℕ × ℕ)
    (hr : (World.init i).run as = some w) (hm : w.maker = some m) (hf : Act.finish m.1 ∉ as) :
    ∀ x ∈ w.log, x ∉ workersOf 1 as ∧ (x = m.1 ∨ x ∈ callersOf as) := by
  have h := inv_run_alive (inv_init i) hr (by simp [World.init])
    (by intro m' h'; rw [hm] at h'; cases h'; exact hf) (by simp [World.init])
  intro x hx
  obtain ⟨_, h2, h3⟩ := h.log x hx
  refine ⟨by simpa [World.init] using h2, ?_⟩
  rcases h3 with ⟨m', hm', rfl⟩ | h3
  · rw [hm] at hm'; cases hm'; exact Or.inl rfl
  · exact Or.inr (by simpa using h3)

/-- **C120** (partial): the same when threads may end but the system never gives an identifier a second time. -/
theorem C120_fresh_identifiers_partial (i : ℕ) (as : List Act) (w : World) (m : ℕ × ℕ)
    (hr : (World.init i).run as = some w) (hm : w.maker = some m) (hf : (i :: idsOf as).Nodup) :
    ∀ x ∈ w.log, x ∉ workersOf 1 as ∧ (x = m.1 ∨ x ∈ callersOf as) := by
  have h := inv_run_fresh (U := [i]) (inv_init i) hr (by simp [World.init]) (by simp [World.init]) hf
  intro x hx
  obtain ⟨_, h2, h3⟩ := h.log x hx
  refine ⟨by simpa [World.init] using h2, ?_⟩
  rcases h3 with ⟨m', hm', rfl⟩ | h3
  · rw [hm] at hm'; cases hm'; exact Or.inl rfl
  · exact Or.inr (by simpa using h3)

/-- **C120**: when in addition all calls are made on the constructing thread, listeners run on that thread only, as
events/Events.hpp says. -/
theorem C120_one_thread (i : ℕ) (as : List Act) (w : World) (m : ℕ × ℕ)
    (hr : (World.init i).run as = some w) (hm : w.maker = some m) (hf : Act.finish m.1 ∉ as)
    (hc : ∀ t ∈ callersOf as, t = m.1) : ∀ x ∈ w.log, x = m.1 := by
  intro x hx
  rcases (C120_listeners_not_on_workers_partial i as w m hr hm hf x hx).2 with h | h
  · exact h
  · exact hc x h

/-- A history: a helper thread constructs the object and ends; the main thread trains with two workers, of which the
first gets the identifier of the helper. -/
def reused : List Act :=
  [.start 7, .construct 1, .finish 1, .call 0 [7, 8], .workerEvent 1, .workerEvent 0, .consume, .return]

/-- **C120**: the negation of the full statement: when the thread that constructed the object has ended, its
identifier can be given to a worker, and then that worker runs the listeners. -/
theorem C120_reused_identifier :
    ∃ w, (World.init 5).run reused = some w ∧ ∃ x ∈ w.log, x ∈ workersOf 1 reused :=
  ⟨_, rfl, 2, by decide, by decide⟩

/-- A history: the main thread constructs the object and another thread trains with it. -/
def elsewhere : List Act := [.construct 0, .start 7, .call 1 [8], .workerEvent 0, .consume, .return]

theorem run_append (w : World) (as bs : List Act) : w.run (as ++ bs) = (w.run as).bind fun w' => w'.run bs := by
  induction as generalizing w with
  | nil => rfl
  | cons a as ih =>
    simp only [List.cons_append, World.run]
    cases w.step a with
    | none => rfl
    | some w1 => exact ih w1

/-- **C120**: contrary to what events/Events.hpp says, `process_events` is not restricted to the thread that created
the dispatcher: whichever thread calls `partial_fit` or `transform`, at any time, runs the listeners as soon as the first result is
there, whatever the workers do before that. -/
theorem C120_caller_runs_listeners (i : ℕ) (as : List Act) (t : ℕ) (is js : List ℕ) (w : World)
    (hr : (World.init i).run (as ++ (.call t is :: (js.map Act.workerEvent ++ [.consume]))) = some w) :
    t ∈ w.log := by
  rw [run_append] at hr
  obtain ⟨w1, _, hr⟩ := Option.bind_eq_some_iff.1 hr
  simp only [World.run] at hr
  obtain ⟨w2, hs, hr⟩ := Option.bind_eq_some_iff.1 hr
  have hc : w2.caller.map Prod.fst = some t := by
    simp only [World.step] at hs
    split at hs
    · cases hs
    · obtain ⟨u0, hu0, rfl⟩ := Option.map_eq_some_iff.1 hs
      simp [(user_mem hu0).2]
  have hw : ∀ (js : List ℕ) (v v' : World), v.run (js.map Act.workerEvent) = some v' → v'.caller = v.caller := by
    intro js
    induction js with
    | nil => intro v v' h; cases h; rfl
    | cons j js ih =>
      intro v v' h
      simp only [List.map_cons, World.run] at h
      obtain ⟨v1, h1, h2⟩ := Option.bind_eq_some_iff.1 h
      rw [ih v1 v' h2]
      simp only [World.step] at h1
      obtain ⟨u0, hu0, rfl⟩ := Option.map_eq_some_iff.1 h1
      unfold World.dispatch
      split
      · split <;> rfl
      · rfl
  rw [run_append] at hr
  obtain ⟨w3, h3, hr⟩ := Option.bind_eq_some_iff.1 hr
  rw [← hw js w2 w3 h3] at hc
  simp only [World.run, World.step] at hr
  obtain ⟨w4, h4, hr⟩ := Option.bind_eq_some_iff.1 hr
  cases hr
  obtain ⟨u0, hu0, rfl⟩ := Option.map_eq_some_iff.1 h4
  rw [hu0] at hc
  cases hc
  exact List.mem_append_right _ (List.mem_singleton.2 rfl)

/-- The hypothesis of `C120_caller_runs_listeners` is met, by a thread that did not construct the object. -/
example : ∃ w, (World.init 5).run ([.construct 0, .start 7] ++ (.call 1 [8] :: ([0].map Act.workerEvent ++ [.consume]))) = some w :=
  ⟨_, rfl⟩

/-- The hypotheses of the theorems are met. -/
example : ∃ w, (World.init 5).run elsewhere = some w ∧ w.maker = some (0, 5) ∧ Act.finish 0 ∉ elsewhere ∧
    (5 :: idsOf elsewhere).Nodup ∧ w.log = [1] :=
  ⟨_, rfl, rfl, by decide, by decide, rfl⟩

/-- One in which the maker itself trains, and dispatches. -/
example : ∃ w, (World.init 5).run
      [.start 9, .construct 0, .call 0 [8, 7], .workerEvent 1, .userEvent 1, .consume, .callerEvent, .return, .finish 1] = some w ∧
    w.maker = some (0, 5) ∧ w.log = [0, 0] :=
  ⟨_, rfl, rfl, rfl⟩

end Verif.Threads
