import Verif.Props.Events

/-! Property C70: listeners that call back into the dispatcher that notifies them. -/
namespace Verif.Events

set_option linter.unusedSectionVars false

variable {L E : Type} [DecidableEq L] [DecidableEq E]

theorem mem_eraseNode {ns : List (Nat × L)} {x : Nat × L} {l : L} (hx : x ∈ ns) (hl : x.2 ≠ l) :
    x ∈ eraseNode ns l := by
  induction ns with
  | nil => cases hx
  | cons y ns ih =>
    unfold eraseNode
    by_cases hy : y.2 = l
    · rw [if_pos hy]
      rcases List.mem_cons.1 hx with rfl | h
      · exact absurd hy hl
      · exact h
    · rw [if_neg hy]
      rcases List.mem_cons.1 hx with rfl | h
      · exact List.mem_cons_self
      · exact List.mem_cons_of_mem _ (ih h)

theorem mem_ops {x : Nat × L} (ops : List (Op L)) (h : Op.remove x.2 ∉ ops) :
    ∀ s : NodeList L, x ∈ s.nodes → x ∈ (ops.foldl NodeList.op s).nodes := by
  induction ops with
  | nil => intro s hx; exact hx
  | cons o ops ih =>
    intro s hx
    simp only [List.mem_cons, not_or] at h
    refine ih h.2 (s.op o) ?_
    cases o with
    | add l => exact List.mem_append_left _ hx
    | remove l => exact mem_eraseNode hx (fun e => h.1 (by rw [e]))

theorem nodesAfter_mem {ns : List (Nat × L)} {x : Nat × L} (hx : x ∈ ns) :
    ∃ rest, nodesAfter ns x.1 = some rest ∧ ∀ y ∈ rest, y ∈ ns := by
  induction ns with
  | nil => cases hx
  | cons y ns ih =>
    unfold nodesAfter
    by_cases hy : y.1 = x.1
    · exact ⟨ns, by rw [if_pos hy], fun z hz => List.mem_cons_of_mem _ hz⟩
    · rw [if_neg hy]
      rcases List.mem_cons.1 hx with rfl | h
      · exact absurd rfl hy
      · obtain ⟨rest, h1, h2⟩ := ih h
        exact ⟨rest, h1, fun z hz => List.mem_cons_of_mem _ (h2 z hz)⟩

/-- **C70** (partial).  With the simple dispatcher, listeners may add listeners and remove listeners
other than themselves while they are being notified: the notification loop has no undefined
behaviour.  Missing: a listener that removes itself (`C70_self_removal_ub`). -/
theorem C70_simple_no_ub_partial (cb : L → List (Op L)) (hcb : ∀ l, Op.remove l ∉ cb l) (e : E) :
    ∀ (fuel : Nat) (s : NodeList L) (pos : Option (Nat × L)) (out : List (E × L)),
      (∀ x, pos = some x → x ∈ s.nodes) → reDispatch cb e fuel s pos out ≠ none := by
  intro fuel
  induction fuel with
  | zero => intro s pos out _; cases pos <;> simp [reDispatch]
  | succ fuel ih =>
    intro s pos out hpos
    cases pos with
    | none => simp [reDispatch]
    | some x =>
      obtain ⟨id, l⟩ := x
      have h1 := mem_ops (x := (id, l)) (cb l) (hcb l) s (hpos _ rfl)
      obtain ⟨rest, h2, h3⟩ := nodesAfter_mem h1
      simp only at h2
      simp only [reDispatch, h2]
      apply ih
      intro y hy
      exact h3 y (List.mem_of_head? hy)

example : (∀ l : Nat, Op.remove l ∉ (if l = 1 then [Op.remove 2, .add 3] else [])) ∧
    ∃ s, reDispatch (fun l => if l = 1 then [Op.remove 2, .add 3] else []) 7 9
      ⟨[(0, 1), (1, 2)], 2⟩ (some (0, 1)) [] = some (.inl (s, [(7, 1), (7, 3)])) := by
  refine ⟨fun l => ?_, _, rfl⟩
  split <;> simp_all

/-! ### Who is notified -/

/-- The nodes of a `std::list` to which elements are only added at the end: in the order of their creation. -/
def NodeList.Ok (s : NodeList L) : Prop := s.nodes.Pairwise (fun a b => a.1 < b.1) ∧ ∀ x ∈ s.nodes, x.1 < s.fresh

theorem eraseNode_sublist (ns : List (Nat × L)) (l : L) : (eraseNode ns l).Sublist ns := by
  induction ns with
  | nil => exact List.Sublist.refl _
  | cons y ns ih =>
    unfold eraseNode
    split_ifs
    · exact List.sublist_cons_self _ _
    · exact ih.cons_cons _

theorem ok_op {s : NodeList L} (h : s.Ok) (o : Op L) :
    (s.op o).Ok ∧ s.fresh ≤ (s.op o).fresh ∧
      ∀ x ∈ (s.op o).nodes, x ∈ s.nodes ∨ s.fresh ≤ x.1 ∧ o = .add x.2 := by
  cases o with
  | add l =>
    refine ⟨⟨?_, ?_⟩, Nat.le_succ _, ?_⟩
    · refine List.pairwise_append.2 ⟨h.1, List.pairwise_singleton _ _, fun a ha b hb => ?_⟩
      rw [List.mem_singleton.1 hb]
      exact h.2 a ha
    · intro x hx
      rcases List.mem_append.1 hx with hx | hx
      · exact Nat.lt_succ_of_lt (h.2 x hx)
      · rw [List.mem_singleton.1 hx]
        exact Nat.lt_succ_self _
    · intro x hx
      rcases List.mem_append.1 hx with hx | hx
      · exact .inl hx
      · rw [List.mem_singleton.1 hx]
        exact .inr ⟨Nat.le_refl _, rfl⟩
  | remove l =>
    have hs := eraseNode_sublist s.nodes l
    exact ⟨⟨h.1.sublist hs, fun x hx => h.2 x (hs.mem hx)⟩, Nat.le_refl _, fun x hx => .inl (hs.mem hx)⟩

theorem ok_ops (ops : List (Op L)) : ∀ {s : NodeList L}, s.Ok →
    (ops.foldl NodeList.op s).Ok ∧ s.fresh ≤ (ops.foldl NodeList.op s).fresh ∧
      ∀ x ∈ (ops.foldl NodeList.op s).nodes, x ∈ s.nodes ∨ s.fresh ≤ x.1 ∧ Op.add x.2 ∈ ops := by
  induction ops with
  | nil => exact fun h => ⟨h, Nat.le_refl _, fun x hx => .inl hx⟩
  | cons o ops ih =>
    intro s h
    obtain ⟨h1, h2, h3⟩ := ok_op h o
    obtain ⟨h4, h5, h6⟩ := ih h1
    refine ⟨h4, h2.trans h5, fun x hx => ?_⟩
    rcases h6 x hx with h7 | ⟨h7, h8⟩
    · rcases h3 x h7 with h9 | ⟨h9, h10⟩
      · exact .inl h9
      · exact .inr ⟨h9, by rw [h10]; exact List.mem_cons_self⟩
    · exact .inr ⟨h2.trans h7, List.mem_cons_of_mem _ h8⟩

theorem nodesAfter_eq {ns rest : List (Nat × L)} {id : Nat} (h : nodesAfter ns id = some rest) :
    ∃ front l, ns = front ++ (id, l) :: rest := by
  induction ns with
  | nil => cases h
  | cons y ns ih =>
    unfold nodesAfter at h
    by_cases hy : y.1 = id
    · rw [if_pos hy] at h
      cases h
      exact ⟨[], y.2, by rw [← hy]; rfl⟩
    · rw [if_neg hy] at h
      obtain ⟨front, l, e⟩ := ih h
      exact ⟨y :: front, l, by rw [e]; rfl⟩

theorem node_unique {ns : List (Nat × L)} (h : ns.Pairwise (fun a b => a.1 < b.1)) {x y : Nat × L} (hx : x ∈ ns)
    (hy : y ∈ ns) (he : x.1 = y.1) : x = y := by
  induction ns with
  | nil => cases hx
  | cons z ns ih =>
    obtain ⟨h1, h2⟩ := List.pairwise_cons.1 h
    rcases List.mem_cons.1 hx with hx' | hx'
    · rcases List.mem_cons.1 hy with hy' | hy'
      · rw [hx', hy']
      · have := h1 y hy'
        rw [hx'] at he
        omega
    · rcases List.mem_cons.1 hy with hy' | hy'
      · have := h1 x hx'
        rw [hy'] at he
        omega
      · exact ih h2 hx' hy'

theorem dispatch_inv (cb : L → List (Op L)) (e : E) (init : NodeList L) :
    ∀ (fuel : Nat) (s s' : NodeList L) (pos : Option (Nat × L)) (out out' : List (E × L)) (ns : List (Nat × L)),
    s.Ok → init.fresh ≤ s.fresh → (∀ x, pos = some x → x ∈ s.nodes) →
    out = ns.map (fun x => (e, x.2)) → ns.Pairwise (fun a b => a.1 < b.1) →
    (∀ x ∈ ns, x.1 < s.fresh ∧ ∀ y, pos = some y → x.1 < y.1) →
    (∀ x ∈ s.nodes, (∀ y, pos = some y → x.1 < y.1) → x ∈ ns) →
    (∀ x, x ∈ ns ∨ x ∈ s.nodes → x ∈ init.nodes ∨ init.fresh ≤ x.1 ∧ ∃ y ∈ ns, Op.add x.2 ∈ cb y.2) →
    reDispatch cb e fuel s pos out = some (.inl (s', out')) →
    ∃ ns' : List (Nat × L), out' = ns'.map (fun x => (e, x.2)) ∧ ns'.Pairwise (fun a b => a.1 < b.1) ∧ (∀ x ∈ s'.nodes, x ∈ ns') ∧
      ∀ x ∈ ns', x ∈ init.nodes ∨ init.fresh ≤ x.1 ∧ ∃ y ∈ ns', Op.add x.2 ∈ cb y.2 := by
  intro fuel
  induction fuel with
  | zero =>
    intro s s' pos out out' ns hok hf hpos hout hns hlt hall hsrc h
    cases pos with
    | some x => simp [reDispatch] at h
    | none =>
      simp only [reDispatch, Option.some.injEq, Sum.inl.injEq, Prod.mk.injEq] at h
      obtain ⟨rfl, rfl⟩ := h
      exact ⟨ns, hout, hns, fun x hx => hall x hx (by simp), fun x hx => hsrc x (.inl hx)⟩
  | succ fuel ih =>
    intro s s' pos out out' ns hok hf hpos hout hns hlt hall hsrc h
    cases pos with
    | none =>
      simp only [reDispatch, Option.some.injEq, Sum.inl.injEq, Prod.mk.injEq] at h
      obtain ⟨rfl, rfl⟩ := h
      exact ⟨ns, hout, hns, fun x hx => hall x hx (by simp), fun x hx => hsrc x (.inl hx)⟩
    | some x =>
      obtain ⟨id, l⟩ := x
      have hx := hpos _ rfl
      obtain ⟨h1, h2, h3⟩ := ok_ops (cb l) hok
      simp only [reDispatch] at h
      cases hr : nodesAfter ((cb l).foldl NodeList.op s).nodes id with
      | none => rw [hr] at h; cases h
      | some rest =>
        rw [hr] at h
        obtain ⟨front, l', e1⟩ := nodesAfter_eq hr
        generalize hs1 : (cb l).foldl NodeList.op s = s1 at *
        have hid := hok.2 _ hx
        have hsort := h1.1
        rw [e1] at hsort
        obtain ⟨p1, p2, p3⟩ := List.pairwise_append.1 hsort
        obtain ⟨p4, p5⟩ := List.pairwise_cons.1 p2
        have hl : l' = l := by
          rcases h3 (id, l') (by rw [e1]; simp) with h4 | ⟨h4, _⟩
          · exact (Prod.mk.inj (node_unique hok.1 h4 hx rfl)).2
          · simp only at h4; omega
        subst hl
        refine ih s1 s' rest.head? _ out' (ns ++ [(id, l')]) h1 (hf.trans h2) ?_ ?_ ?_ ?_ ?_ ?_ h
        · intro y hy
          rw [e1]
          exact List.mem_append_right _ (List.mem_cons_of_mem _ (List.mem_of_head? hy))
        · rw [hout]; simp
        · refine List.pairwise_append.2 ⟨hns, List.pairwise_singleton _ _, fun a ha b hb => ?_⟩
          rw [List.mem_singleton.1 hb]
          exact (hlt a ha).2 _ rfl
        · intro y hy
          have hy' : y.1 ≤ id := by
            rcases List.mem_append.1 hy with hy | hy
            · exact ((hlt y hy).2 _ rfl).le
            · rw [List.mem_singleton.1 hy]
          refine ⟨by omega, fun z hz => ?_⟩
          have := p4 z (List.mem_of_head? hz)
          simp only at this
          omega
        · intro y hy hlty
          rw [e1] at hy
          rcases List.mem_append.1 hy with hy1 | hy1
          · have h5 : y.1 < id := p3 y hy1 (id, l') List.mem_cons_self
            refine List.mem_append_left _ (hall y ?_ fun z hz => by cases hz; exact h5)
            rcases h3 y (by rw [e1]; exact hy) with h6 | ⟨h6, _⟩
            · exact h6
            · omega
          · rcases List.mem_cons.1 hy1 with rfl | hy2
            · exact List.mem_append_right _ (List.mem_singleton_self _)
            · exfalso
              cases rest with
              | nil => cases hy2
              | cons z zs =>
                have h5 := hlty z rfl
                rcases List.mem_cons.1 hy2 with rfl | hy3
                · omega
                · have := (List.pairwise_cons.1 p5).1 y hy3
                  omega
        · intro y hy
          have old : y ∈ ns ∨ y ∈ s.nodes → y ∈ init.nodes ∨
              init.fresh ≤ y.1 ∧ ∃ z ∈ ns ++ [(id, l')], Op.add y.2 ∈ cb z.2 := by
            intro hy
            rcases hsrc y hy with h5 | ⟨h5, z, h6, h7⟩
            · exact .inl h5
            · exact .inr ⟨h5, z, List.mem_append_left _ h6, h7⟩
          rcases hy with hy | hy
          · rcases List.mem_append.1 hy with hy | hy
            · exact old (.inl hy)
            · rw [List.mem_singleton.1 hy] at old ⊢
              exact old (.inr hx)
          · rcases h3 y hy with h5 | ⟨h5, h6⟩
            · exact old (.inr h5)
            · exact .inr ⟨hf.trans h5, (id, l'), List.mem_append_right _ (List.mem_singleton_self _), h6⟩

/-- **C70**, who is notified by the simple dispatcher when the listeners call it meanwhile: the registrations are notified
one after the other in the order in which they were made, each at most once; those that are in force at the end all
were; and only those made before or by a listener that was notified. -/
theorem C70_simple_each_once (cb : L → List (Op L)) (e : E) (fuel : Nat) (s s' : NodeList L) (hs : s.Ok)
    (out : List (E × L)) (h : reDispatch cb e fuel s s.nodes.head? [] = some (.inl (s', out))) :
    ∃ ns : List (Nat × L), out = ns.map (fun x => (e, x.2)) ∧ ns.Pairwise (fun a b => a.1 < b.1) ∧
      (∀ x ∈ s'.nodes, x ∈ ns) ∧
      ∀ x ∈ ns, x ∈ s.nodes ∨ s.fresh ≤ x.1 ∧ ∃ y ∈ ns, Op.add x.2 ∈ cb y.2 := by
  refine dispatch_inv cb e s fuel s s' _ _ out [] hs (Nat.le_refl _) (fun x hx => List.mem_of_head? hx) rfl
    List.Pairwise.nil (by simp) ?_ (by simp) h
  intro x hx hlt
  exfalso
  cases hn : s.nodes with
  | nil => rw [hn] at hx; cases hx
  | cons y ys =>
    have h1 := hlt y (by rw [hn]; rfl)
    rw [hn] at hx
    rcases List.mem_cons.1 hx with rfl | hx
    · omega
    · have h2 := hs.1
      rw [hn] at h2
      have := (List.pairwise_cons.1 h2).1 x hx
      omega

/-- A listener that adds another twice. -/
example : (⟨[(0, 1), (1, 2)], 2⟩ : NodeList Nat).Ok ∧
    ∃ s, reDispatch (fun l => if l = 1 then [Op.add 3, .add 3, .remove 2] else []) 7 9
      ⟨[(0, 1), (1, 2)], 2⟩ (some (0, 1)) [] = some (.inl (s, [(7, 1), (7, 3), (7, 3)])) :=
  ⟨⟨by decide, by decide⟩, _, rfl⟩

/-- **C70 is false** for the simple dispatcher: a listener that unregisters itself from inside
`on_event` makes the loop increment an erased iterator. -/
theorem C70_self_removal_ub (l : L) (e : E) (fuel : Nat) (hf : 0 < fuel) :
    reDispatch (fun x => if x = l then [Op.remove l] else []) e fuel ⟨[(0, l)], 1⟩ (some (0, l)) [] =
      none := by
  obtain ⟨k, rfl⟩ : ∃ k, fuel = k + 1 := ⟨fuel - 1, by omega⟩
  simp [reDispatch, NodeList.op, eraseNode, nodesAfter]

/-- **C70**, thread-safe dispatchers: what call `p` of `process_events` will still notify does not
change when a listener (or another thread) adds or removes listeners or dispatches events
meanwhile. -/
theorem C70_threadsafe_unaffected {it : Iter} {s s' : Sys L E} {p : Nat} {a : SAct L E}
    (ha : a ≠ .proc p) (h : sysStep it s a = some s') : s'.procs p = s.procs p := by
  cases a with
  | add l => simp only [sysStep, Option.some.injEq] at h; subst h; rfl
  | remove l => simp only [sysStep, Option.some.injEq] at h; subst h; rfl
  | dispatch e => simp only [sysStep, Option.some.injEq] at h; subst h; rfl
  | proc q =>
    have hq : p ≠ q := fun e => ha (by rw [e])
    simp only [sysStep, procStep] at h
    split at h
    · cases hd : s.disp.purge it with
      | none => simp [hd] at h
      | some d =>
        simp only [hd, Option.some.injEq] at h
        subst h
        exact setP_ne _ _ hq
    all_goals
      simp only [Option.some.injEq] at h
      subst h
      first
        | exact setP_ne _ _ hq
        | rfl

example : ∃ s s', sysRun .strict (.init : Sys Nat Nat)
      [.add 1, .add 2, .dispatch 7, .proc 0, .proc 0, .proc 0, .proc 0] = some s ∧
    sysStep .strict s (.remove 2) = some s' ∧ (∃ t, s'.procs 0 = .delivering (t :: [])) :=
  ⟨_, _, rfl, rfl, _, rfl⟩

end Verif.Events
