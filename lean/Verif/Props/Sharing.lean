import Verif.Model.Sharing
import Verif.Props.Builder

/-! Property C64: what LDAs built from builders share. -/
namespace Verif.Build

open MathUtils MStep

variable {ES MS : Type}

/-- The histories that start with nothing. -/
def Reachable (w : World ES MS) : Prop := ∃ e m ops, steps (World.init e m) ops = some w

/-- The operation is about builder `b` or an LDA built from it. -/
def Op.About (w : World ES MS) (b : ℕ) : Op ES MS → Prop
  | .call i _ => i = b
  | .topicsFromModel i _ => i = b
  | .etaFromModel i _ => i = b
  | .build i => i = b
  | .train i _ => ∃ l, w.ldas[i]? = some l ∧ l.src = b
  | _ => False

/-- A history without operations about builder `b`. -/
def Foreign (b : ℕ) : World ES MS → List (Op ES MS) → Prop
  | _, [] => True
  | w, o :: os => ¬ o.About w b ∧ ∀ w', step w o = some w' → Foreign b w' os

/-! ### Invariants -/

/-- Which model parameters belong to whom. -/
structure Inv (w : World ES MS) : Prop where
  builders_lt : ∀ o ∈ w.builders, o.model < w.next
  users_lt : ∀ a ∈ w.userModels, a < w.next
  distinct : ∀ (i j : ℕ) (o o' : BuilderObj), w.builders[i]? = some o → w.builders[j]? = some o' → o.model = o'.model → i = j
  users : ∀ o ∈ w.builders, o.model ∉ w.userModels
  ldas : ∀ l ∈ w.ldas, ∃ o, w.builders[l.src]? = some o ∧ o.model = l.model

theorem inv_init (e : ℕ → ES) (m : ℕ → MS) : Inv (World.init e m) := by
  constructor <;> simp [World.init]

theorem orNew_next (n : ℕ) (p : Option EPtr) (k : EKind) : n ≤ (orNew n p k).2 := by
  cases p <;> simp [orNew]

theorem getE_next (n : ℕ) (s : ESpec) : n ≤ (getE n s).2 := by
  cases s with
  | semi p q =>
    have h1 := orNew_next n p fastDefault
    have h2 := orNew_next (orNew n p fastDefault).2 q classicDefault
    simp only [getE]
    omega
  | _ => simp [getE]

theorem constEta_fst (b : Builder) (c : ℕ) (v : ℝ) :
    (constEta b c v).1.next = b.next ∧ (constEta b c v).1.e = b.e ∧ (constEta b c v).1.m = b.m := by
  unfold constEta
  split_ifs <;> simp [setEta]

theorem call_next {b b' : Builder} {c : Call} {t : Option Throw} (h : call b c = some (b', t)) :
    b.next ≤ b'.next := by
  cases c with
  | setEStep s =>
    simp only [call, Option.some.injEq, Prod.mk.injEq] at h
    rw [← h.1]
    exact getE_next b.next s
  | setMStep s =>
    simp only [call, Option.some.injEq, Prod.mk.injEq] at h
    rw [← h.1]
    simp [setMStep, setM, getM]
  | topicsSeeded d k n p =>
    simp only [call, Option.map_eq_some_iff, Prod.mk.injEq] at h
    obtain ⟨_, _, h, _⟩ := h
    rw [← h]
    simp [setTopics]
  | etaZeros n =>
    simp only [call, Option.some.injEq] at h
    have := (constEta_fst b n 0).1
    rw [h] at this
    exact this.ge
  | etaUniform n =>
    simp only [call, Option.some.injEq] at h
    have := (constEta_fst b n (1 / n)).1
    rw [h] at this
    exact this.ge
  | _ =>
    simp only [call, Option.some.injEq, Prod.mk.injEq] at h
    obtain ⟨rfl, _⟩ := h
    exact le_refl _

theorem callOn_eq {i : ℕ} {c : Call} {w w' : World ES MS} (h : callOn i c w = some w') :
    ∃ o r t, w.builders[i]? = some o ∧ call (o.load w) c = some (r, t) ∧
      w' = { w with
        next := r.next
        models := Function.update w.models o.model r.params
        builders := w.builders.set i (o.store r) } ∧ w.next ≤ r.next := by
  simp only [callOn, Option.bind_eq_some_iff, Option.map_eq_some_iff] at h
  obtain ⟨o, h1, ⟨r, t⟩, h2, h3⟩ := h
  exact ⟨o, r, t, h1, h2, h3.symm, call_next h2⟩

theorem inv_callOn {i : ℕ} {c : Call} {w w' : World ES MS} (hi : Inv w) (h : callOn i c w = some w') : Inv w' := by
  obtain ⟨o, r, t, h1, h2, rfl, hn⟩ := callOn_eq h
  have hget : ∀ (j : ℕ) (o' : BuilderObj), (w.builders.set i (o.store r))[j]? = some o' →
      ∃ o'' : BuilderObj, w.builders[j]? = some o'' ∧ o''.model = o'.model := by
    intro j o' hj
    rw [List.getElem?_set] at hj
    split_ifs at hj with e1 e2
    · subst e1
      cases hj
      exact ⟨o, h1, rfl⟩
    · exact ⟨o', hj, rfl⟩
  have hmem : ∀ o' ∈ w.builders.set i (o.store r), ∃ o'' ∈ w.builders, o''.model = o'.model := by
    intro o' ho
    obtain ⟨j, hj⟩ := List.mem_iff_getElem?.1 ho
    obtain ⟨o'', h3, h4⟩ := hget j o' hj
    exact ⟨o'', List.mem_iff_getElem?.2 ⟨j, h3⟩, h4⟩
  constructor
  · intro o' ho
    obtain ⟨o'', h3, h4⟩ := hmem o' ho
    rw [← h4]
    exact lt_of_lt_of_le (hi.builders_lt o'' h3) hn
  · exact fun a ha => lt_of_lt_of_le (hi.users_lt a ha) hn
  · intro a b x y hx hy hxy
    obtain ⟨x', h3, h4⟩ := hget a x hx
    obtain ⟨y', h5, h6⟩ := hget b y hy
    exact hi.distinct a b x' y' h3 h5 (by rw [h4, h6, hxy])
  · intro o' ho
    obtain ⟨o'', h3, h4⟩ := hmem o' ho
    rw [← h4]
    exact hi.users o'' h3
  · intro l hl
    obtain ⟨x, h3, h4⟩ := hi.ldas l hl
    by_cases e : i = l.src
    · refine ⟨o.store r, ?_, ?_⟩
      · simp only
        rw [← e, List.getElem?_set_self', h1]
        rfl
      · rw [← e, h1] at h3
        cases h3
        exact h4
    · exact ⟨x, by simp only; rw [List.getElem?_set_ne e]; exact h3, h4⟩

theorem buildOn_eq {i : ℕ} {w w' : World ES MS} (h : buildOn i w = some w') :
    ∃ o, w.builders[i]? = some o ∧ (w' = w ∨ ∃ l, (o.load w).build = .ok l ∧ l.e = o.e ∧ l.m = o.m ∧
      w' = { w with
        dispatcher := fun a => if a = o.e.id ∨ a = o.m.id then some w.ldas.length else w.dispatcher a
        ldas := w.ldas ++ [⟨i, o.model, o.e, o.m, l.iterations, l.workers⟩] }) := by
  simp only [buildOn, Option.map_eq_some_iff] at h
  obtain ⟨o, h1, h2⟩ := h
  refine ⟨o, h1, ?_⟩
  cases hb : (o.load w).build with
  | error _ => rw [hb] at h2; exact .inl h2.symm
  | ok l =>
    rw [hb] at h2
    have he : l.e = o.e ∧ l.m = o.m := by
      unfold Builder.build at hb
      split_ifs at hb
      cases hb
      exact ⟨rfl, rfl⟩
    refine .inr ⟨l, rfl, he.1, he.2, ?_⟩
    simp only at h2
    rw [← h2, he.1, he.2]

theorem inv_step {w w' : World ES MS} {o : Op ES MS} (hi : Inv w) (h : step w o = some w') : Inv w' := by
  cases o with
  | newSteps n =>
    simp only [step, Option.some.injEq] at h
    subst h
    exact ⟨fun o ho => Nat.lt_add_right n (hi.builders_lt o ho), fun a ha => Nat.lt_add_right n (hi.users_lt a ha),
      hi.distinct, hi.users, hi.ldas⟩
  | newBuilder hc =>
    simp only [step, Option.some.injEq] at h
    subst h
    have hlt : ∀ a, a < w.next → a < w.next + 3 := fun a h => by omega
    constructor
    · intro o ho
      simp only [newBuilder, List.mem_append, List.mem_singleton, Builder.new] at ho ⊢
      rcases ho with ho | rfl
      · exact hlt _ (hi.builders_lt o ho)
      · simp
    · exact fun a ha => hlt a (hi.users_lt a ha)
    · intro a b x y hx hy hxy
      simp only [newBuilder, Builder.new] at hx hy
      have hout : ∀ {k : ℕ} {z : BuilderObj} {v : BuilderObj}, (w.builders ++ [v])[k]? = some z →
          w.builders[k]? = some z ∨ (k = w.builders.length ∧ z = v) := by
        intro k z v hk
        rcases lt_trichotomy k w.builders.length with h | h | h
        · left; rwa [List.getElem?_append_left h] at hk
        · right; subst h; simp at hk; exact ⟨rfl, hk.symm⟩
        · rw [List.getElem?_eq_none (by simp; omega)] at hk; cases hk
      rcases hout hx with hx | ⟨rfl, rfl⟩ <;> rcases hout hy with hy | ⟨rfl, rfl⟩
      · exact hi.distinct a b x y hx hy hxy
      · have := hi.builders_lt x (List.mem_iff_getElem?.2 ⟨a, hx⟩)
        simp only at hxy
        omega
      · have := hi.builders_lt y (List.mem_iff_getElem?.2 ⟨b, hy⟩)
        simp only at hxy
        omega
      · rfl
    · intro o ho
      simp only [newBuilder, List.mem_append, List.mem_singleton, Builder.new] at ho ⊢
      rcases ho with ho | rfl
      · exact hi.users o ho
      · intro hu
        have := hi.users_lt _ hu
        simp at this
    · intro l hl
      obtain ⟨x, h1, h2⟩ := hi.ldas l hl
      refine ⟨x, ?_, h2⟩
      have := (List.getElem?_eq_some_iff.1 h1).1
      simp only [newBuilder]
      rw [List.getElem?_append_left this]
      exact h1
  | newModel p =>
    simp only [step, Option.some.injEq] at h
    subst h
    constructor
    · exact fun o ho => Nat.lt_succ_of_lt (hi.builders_lt o ho)
    · intro a ha
      rcases List.mem_cons.1 ha with rfl | ha
      · exact Nat.lt_succ_self _
      · exact Nat.lt_succ_of_lt (hi.users_lt a ha)
    · exact hi.distinct
    · intro o ho hu
      rcases List.mem_cons.1 hu with hu | hu
      · have := hi.builders_lt o ho
        omega
      · exact hi.users o ho hu
    · exact hi.ldas
  | writeModel i p =>
    simp only [step] at h
    split_ifs at h
    cases h
    exact ⟨hi.builders_lt, hi.users_lt, hi.distinct, hi.users, hi.ldas⟩
  | call b c =>
    simp only [step] at h
    split_ifs at h
    exact inv_callOn hi h
  | topicsFromModel b i =>
    simp only [step] at h
    split_ifs at h
    exact inv_callOn hi h
  | etaFromModel b i =>
    simp only [step] at h
    split_ifs at h
    exact inv_callOn hi h
  | build b =>
    obtain ⟨o, h1, rfl | ⟨l, _, _, _, rfl⟩⟩ := buildOn_eq h
    · exact hi
    · refine ⟨hi.builders_lt, hi.users_lt, hi.distinct, hi.users, fun x hx => ?_⟩
      simp only [List.mem_append, List.mem_singleton] at hx
      rcases hx with hx | rfl
      · exact hi.ldas x hx
      · exact ⟨o, h1, rfl⟩
  | train i f =>
    simp only [step, trainOn, Option.map_eq_some_iff] at h
    obtain ⟨l, _, rfl⟩ := h
    exact ⟨hi.builders_lt, hi.users_lt, hi.distinct, hi.users, hi.ldas⟩

theorem steps_snoc (w : World ES MS) (os : List (Op ES MS)) (o : Op ES MS) :
    steps w (os ++ [o]) = (steps w os).bind fun w' => step w' o := by
  induction os generalizing w with
  | nil => cases h : step w o <;> simp [steps, h]
  | cons x os ih => cases h : step w x <;> simp [steps, h, ih]

theorem inv_steps {w w' : World ES MS} {os : List (Op ES MS)} (hi : Inv w) (h : steps w os = some w') : Inv w' := by
  induction os generalizing w with
  | nil => simp only [steps, Option.some.injEq] at h; rw [← h]; exact hi
  | cons o os ih =>
    simp only [steps, Option.bind_eq_some_iff] at h
    obtain ⟨w1, h1, h2⟩ := h
    exact ih (inv_step hi h1) h2

theorem inv_reachable {w : World ES MS} (h : Reachable w) : Inv w := by
  obtain ⟨e, m, os, h⟩ := h
  exact inv_steps (inv_init e m) h

/-! ### C64 -/

/-- **C64 is false**: two LDAs built from the same builder have the same parameters at all times; so whatever training
does to the parameters of one it does to those of the other. -/
theorem C64_same_builder {w : World ES MS} (h : Reachable w) {i j : ℕ} {l l' : LdaObj}
    (hi : w.ldas[i]? = some l) (hj : w.ldas[j]? = some l') (hs : l.src = l'.src) :
    l.model = l'.model ∧ ∀ f w', step w (.train i f) = some w' →
      w'.models l'.model = (f (w.models l.model) (fun a => if a ∈ l.e.ids then some (w.eState a) else none)
        (w.mState l.m.id)).1 := by
  have hv := inv_reachable h
  obtain ⟨o, h1, h2⟩ := hv.ldas l (List.mem_iff_getElem?.2 ⟨i, hi⟩)
  obtain ⟨o', h3, h4⟩ := hv.ldas l' (List.mem_iff_getElem?.2 ⟨j, hj⟩)
  have e : l.model = l'.model := by
    rw [hs, h3] at h1
    cases h1
    rw [← h2, h4]
  refine ⟨e, fun f w' hw => ?_⟩
  simp only [step, trainOn, hi, Option.map_some, Option.some.injEq] at hw
  subst hw
  rw [← e]
  simp

/-- **C64 is false**: calling `initialize_topics_from_model` on a builder replaces the topics of the LDAs that were
built from it before. -/
theorem C64_builder_reused {w w' : World ES MS} (h : Reachable w) {j : ℕ} {l : LdaObj} (hj : w.ldas[j]? = some l)
    {p : Params} (hw : step w (.call l.src (.topicsFromModel p)) = some w') :
    w'.ldas[j]? = some l ∧ (w'.models l.model).beta = p.beta := by
  obtain ⟨o, h1, h2⟩ := (inv_reachable h).ldas l (List.mem_iff_getElem?.2 ⟨j, hj⟩)
  simp only [step] at hw
  split_ifs at hw
  obtain ⟨o', r, t, h3, h4, rfl, _⟩ := callOn_eq hw
  rw [h1] at h3
  cases h3
  simp only [call, Option.some.injEq, Prod.mk.injEq] at h4
  refine ⟨hj, ?_⟩
  rw [← h2, ← h4.1]
  simp [setTopics]

/-- **C64 is false**: two LDAs built one after the other from a builder share the steps too, and the steps send
their events to the listeners of the second. -/
theorem C64_events {w w' : World ES MS} {b : ℕ} {o : BuilderObj} {l : Built} (ho : w.builders[b]? = some o)
    (hl : (o.load w).build = .ok l) (h : steps w [.build b, .build b] = some w') :
    ∃ x y, w'.ldas[w.ldas.length]? = some x ∧ w'.ldas[w.ldas.length + 1]? = some y ∧
      x.e = y.e ∧ x.m = y.m ∧ x.model = y.model ∧
      w'.dispatcher x.e.id = some (w.ldas.length + 1) ∧ w'.dispatcher x.m.id = some (w.ldas.length + 1) := by
  simp only [steps, step, Option.bind_eq_some_iff, Option.some.injEq] at h
  obtain ⟨w1, h1, w2, h2, rfl⟩ := h
  obtain ⟨o1, e1, rfl | ⟨l1, _, _, _, rfl⟩⟩ := buildOn_eq h1
  · exfalso
    simp only [buildOn, ho, Option.map_some, hl, Option.some.injEq] at h1
    have := congrArg (fun w => w.ldas.length) h1
    simp at this
  · obtain ⟨o2, e2, rfl | ⟨l2, _, _, _, rfl⟩⟩ := buildOn_eq h2
    · exfalso
      have hl' : (o.load { w with
          dispatcher := fun a => if a = o1.e.id ∨ a = o1.m.id then some w.ldas.length else w.dispatcher a
          ldas := w.ldas ++ [⟨b, o1.model, o1.e, o1.m, l1.iterations, l1.workers⟩] }).build = .ok l := hl
      simp only [buildOn, ho, Option.map_some, Option.some.injEq, hl'] at h2
      have := congrArg (fun w => w.ldas.length) h2
      simp at this
    · rw [ho] at e1
      cases e1
      simp only [ho, Option.some.injEq] at e2
      subst e2
      refine ⟨⟨b, o.model, o.e, o.m, l1.iterations, l1.workers⟩,
        ⟨b, o.model, o.e, o.m, l2.iterations, l2.workers⟩, ?_, ?_, rfl, rfl, rfl, ?_, ?_⟩
      · simp
      · rw [List.getElem?_append_right (by simp)]
        simp
      · simp
      · simp

/-- **C64**, the part that holds: LDAs built from different builders have different parameters, so training one leaves
those of the other unchanged.  Missing: LDAs built from the same builder (`C64_same_builder`). -/
theorem C64_params_partial {w w' : World ES MS} (h : Reachable w) {i j : ℕ} {l l' : LdaObj}
    (hi : w.ldas[i]? = some l) (hj : w.ldas[j]? = some l') (hs : l.src ≠ l'.src) {f : Training ES MS}
    (hw : step w (.train i f) = some w') :
    w'.ldas[j]? = some l' ∧ w'.models l'.model = w.models l'.model := by
  have hv := inv_reachable h
  obtain ⟨o, h1, h2⟩ := hv.ldas l (List.mem_iff_getElem?.2 ⟨i, hi⟩)
  obtain ⟨o', h3, h4⟩ := hv.ldas l' (List.mem_iff_getElem?.2 ⟨j, hj⟩)
  simp only [step, trainOn, hi, Option.map_some, Option.some.injEq] at hw
  subst hw
  refine ⟨hj, Function.update_of_ne ?_ _ _⟩
  intro e
  exact hs (hv.distinct _ _ _ _ h1 h3 (by rw [h2, h4, e]))

/-- **C64** for models passed to `initialize_topics_from_model` and `initialize_eta_from_model`: they are copied.
No operation other than the user's own assignment changes them, and that assignment changes no LDA. -/
theorem C64_model_copied {w w' : World ES MS} (h : Reachable w) {a : ℕ} (ha : a ∈ w.userModels) {o : Op ES MS}
    (hw : step w o = some w') :
    ((∀ p, o ≠ .writeModel a p) → w'.models a = w.models a) ∧
    (∀ p, o = .writeModel a p → ∀ l ∈ w.ldas, w'.models l.model = w.models l.model) := by
  have hv := inv_reachable h
  have hb : ∀ {i c}, callOn i c w = some w' → w'.models a = w.models a := by
    intro i c hc
    obtain ⟨o, r, t, h1, _, rfl, _⟩ := callOn_eq hc
    refine Function.update_of_ne ?_ _ _
    rintro rfl
    exact hv.users o (List.mem_iff_getElem?.2 ⟨i, h1⟩) ha
  refine ⟨fun hne => ?_, ?_⟩
  · cases o with
    | newSteps n => simp only [step, Option.some.injEq] at hw; rw [← hw]
    | newBuilder hc =>
      simp only [step, Option.some.injEq] at hw
      rw [← hw]
      refine Function.update_of_ne ?_ _ _
      have := hv.users_lt a ha
      simp [Builder.new]
      omega
    | newModel p =>
      simp only [step, Option.some.injEq] at hw
      rw [← hw]
      exact Function.update_of_ne (hv.users_lt a ha).ne _ _
    | writeModel i p =>
      simp only [step] at hw
      split_ifs at hw
      cases hw
      refine Function.update_of_ne ?_ _ _
      rintro rfl
      exact hne p rfl
    | call b c =>
      simp only [step] at hw
      split_ifs at hw
      exact hb hw
    | topicsFromModel b i =>
      simp only [step] at hw
      split_ifs at hw
      exact hb hw
    | etaFromModel b i =>
      simp only [step] at hw
      split_ifs at hw
      exact hb hw
    | build b =>
      obtain ⟨o, h1, rfl | ⟨l, _, _, _, rfl⟩⟩ := buildOn_eq hw
      · rfl
      · rfl
    | train i f =>
      simp only [step, trainOn, Option.map_eq_some_iff] at hw
      obtain ⟨l, hl, rfl⟩ := hw
      refine Function.update_of_ne ?_ _ _
      rintro rfl
      obtain ⟨o, h1, h2⟩ := hv.ldas l (List.mem_iff_getElem?.2 ⟨i, hl⟩)
      exact hv.users o (List.mem_iff_getElem?.2 ⟨_, h1⟩) (by rw [h2]; exact ha)
  · rintro p rfl l hl
    simp only [step] at hw
    split_ifs at hw
    cases hw
    refine Function.update_of_ne ?_ _ _
    obtain ⟨o, h1, h2⟩ := hv.ldas l hl
    intro e
    exact hv.users o (List.mem_iff_getElem?.2 ⟨_, h1⟩) (by rw [h2, e]; exact ha)

/-- **C64**, what is copied: `initialize_topics_from_model` and `initialize_eta_from_model` accept every model of the
user, and the builder then has the values that the model has at that moment. -/
theorem C64_copied_values {w : World ES MS} {a b : ℕ} (ha : a ∈ w.userModels) {o : BuilderObj}
    (ho : w.builders[b]? = some o) :
    (∃ w', step w (.topicsFromModel b a) = some w' ∧ (w'.models o.model).alpha = (w.models a).alpha ∧
      (w'.models o.model).beta = (w.models a).beta ∧ (w'.models o.model).eta = (w.models o.model).eta) ∧
    (∃ w', step w (.etaFromModel b a) = some w' ∧ (w'.models o.model).alpha = (w.models o.model).alpha ∧
      (w'.models o.model).beta = (w.models o.model).beta ∧ (w'.models o.model).eta = (w.models a).eta) := by
  constructor
  · refine ⟨_, by simp only [step, if_pos ha, callOn, ho, Option.bind_some, Build.call, Option.map_some]; rfl, ?_, ?_, ?_⟩ <;>
      simp [setTopics, BuilderObj.load]
  · refine ⟨_, by simp only [step, if_pos ha, callOn, ho, Option.bind_some, Build.call, Option.map_some]; rfl, ?_, ?_, ?_⟩ <;>
      simp [setEta, BuilderObj.load]

example : ∃ (w : World Unit Unit) (o : BuilderObj), Reachable w ∧ 3 ∈ w.userModels ∧ w.builders[0]? = some o :=
  ⟨_, _, ⟨fun _ => (), fun _ => (), [.newBuilder 1, .newModel .empty], rfl⟩, List.mem_cons_self, rfl⟩

/-! ### Builders that share nothing -/

/-- A history in which no step is passed to a builder by the user. -/
def NoPointers (os : List (Op ES MS)) : Prop := ∀ b c, Op.call b c ∈ os → c.pointers = []

/-- All that an LDA uses: its parameters, the states of its steps and where their events go. -/
def view (w : World ES MS) (l : LdaObj) : Params × (ℕ → Option ES) × MS × Option ℕ × Option ℕ :=
  (w.models l.model, fun a => if a ∈ l.e.ids then some (w.eState a) else none, w.mState l.m.id,
    w.dispatcher l.e.id, w.dispatcher l.m.id)

/-- Each step belongs to one builder. -/
def Owned (w : World ES MS) : Prop :=
  ∃ own : ℕ → ℕ,
    (∀ i o, w.builders[i]? = some o → ∀ a ∈ o.m.id :: o.e.ids, own a = i ∧ a < w.next) ∧
    ∀ l ∈ w.ldas, ∀ a ∈ l.m.id :: l.e.ids, own a = l.src ∧ a < w.next

theorem EPtr.id_mem (p : EPtr) : p.id ∈ p.ids := by
  cases p <;> simp [EPtr.id, EPtr.ids]

/-- The steps after a call without pointers are the old ones or new ones. -/
theorem call_steps {b b' : Builder} {c : Call} {t : Option Throw} (hp : c.pointers = [])
    (h : call b c = some (b', t)) :
    (b'.e = b.e ∨ ∀ a ∈ b'.e.ids, b.next ≤ a ∧ a < b'.next) ∧
    (b'.m = b.m ∨ (b.next ≤ b'.m.id ∧ b'.m.id < b'.next)) := by
  cases c with
  | setEStep s =>
    simp only [call, Option.some.injEq, Prod.mk.injEq] at h
    obtain ⟨rfl, _⟩ := h
    refine ⟨.inr ?_, .inl rfl⟩
    have key : ∀ a ∈ (getE b.next s).1.ids, b.next ≤ a ∧ a < (getE b.next s).2 := by
      cases s with
      | semi p q =>
        cases p with
        | some p =>
          have : p.id ∈ (Call.setEStep (.semi (some p) q)).pointers := by
            simp [Call.pointers, EPtr.id_mem]
          rw [hp] at this
          simp at this
        | none =>
          cases q with
          | some q =>
            have : q.id ∈ (Call.setEStep (.semi none (some q))).pointers := by
              simp [Call.pointers, EPtr.id_mem]
            rw [hp] at this
            simp at this
          | none =>
            intro a ha
            simp only [getE, orNew, EPtr.ids, List.mem_cons, List.mem_append, List.not_mem_nil, or_false] at ha ⊢
            omega
      | _ =>
        intro a ha
        simp only [getE, EPtr.ids, List.mem_singleton] at ha ⊢
        omega
    exact key
  | setE p =>
    have : p.id ∈ (Call.setE p).pointers := p.id_mem
    rw [hp] at this
    simp at this
  | setMStep s =>
    simp only [call, Option.some.injEq, Prod.mk.injEq] at h
    obtain ⟨rfl, _⟩ := h
    refine ⟨.inl rfl, .inr ?_⟩
    simp [setMStep, setM, getM]
  | setM p => simp [Call.pointers] at hp
  | topicsSeeded d k n p =>
    simp only [call, Option.map_eq_some_iff, Prod.mk.injEq] at h
    obtain ⟨_, _, rfl, _⟩ := h
    exact ⟨.inl rfl, .inl rfl⟩
  | etaZeros n =>
    simp only [call, Option.some.injEq] at h
    have := constEta_fst b n 0
    rw [h] at this
    exact ⟨.inl this.2.1, .inl this.2.2⟩
  | etaUniform n =>
    simp only [call, Option.some.injEq] at h
    have := constEta_fst b n (1 / n)
    rw [h] at this
    exact ⟨.inl this.2.1, .inl this.2.2⟩
  | _ =>
    simp only [call, Option.some.injEq, Prod.mk.injEq] at h
    obtain ⟨rfl, _⟩ := h
    exact ⟨.inl rfl, .inl rfl⟩

theorem owned_callOn {i : ℕ} {c : Call} {w w' : World ES MS} (hi : Owned w) (hp : c.pointers = [])
    (h : callOn i c w = some w') : Owned w' := by
  obtain ⟨own, h1, h2⟩ := hi
  obtain ⟨o, r, t, ho, hc, rfl, hn⟩ := callOn_eq h
  have hs := call_steps hp hc
  refine ⟨fun a => if a < w.next then own a else i, ?_, ?_⟩
  · intro j o' hj a ha
    simp only at hj ⊢
    have old : ∀ {k : ℕ} {x : BuilderObj}, w.builders[k]? = some x → a ∈ x.m.id :: x.e.ids →
        (if a < w.next then own a else i) = k ∧ a < r.next := by
      intro k x hk hm
      obtain ⟨h3, h4⟩ := h1 k x hk a hm
      rw [if_pos h4]
      exact ⟨h3, lt_of_lt_of_le h4 hn⟩
    by_cases e : i = j
    · subst e
      rw [List.getElem?_set_self', ho] at hj
      cases hj
      have new : w.next ≤ a ∧ a < r.next → (if a < w.next then own a else i) = i ∧ a < r.next := fun h =>
        ⟨if_neg (by omega), h.2⟩
      rcases List.mem_cons.1 ha with ha | ha
      · rcases hs.2 with hs | hs
        · refine old ho ?_
          rw [ha]
          change r.m.id ∈ _
          rw [hs]
          exact List.mem_cons_self
        · refine new ?_
          rw [ha]
          exact hs
      · rcases hs.1 with hs | hs
        · refine old ho ?_
          change a ∈ r.e.ids at ha
          rw [hs] at ha
          exact List.mem_cons_of_mem _ ha
        · exact new (hs a ha)
    · rw [List.getElem?_set_ne e] at hj
      exact old hj ha
  · intro l hl a ha
    obtain ⟨h3, h4⟩ := h2 l hl a ha
    simp only [if_pos h4]
    exact ⟨h3, lt_of_lt_of_le h4 hn⟩

theorem owned_step {w w' : World ES MS} {o : Op ES MS} (hi : Owned w)
    (hp : ∀ b c, o = .call b c → c.pointers = []) (h : step w o = some w') : Owned w' := by
  have mono : ∀ {n : ℕ} {v : World ES MS}, v.next = w.next + n → v.builders = w.builders → v.ldas = w.ldas →
      Owned v := by
    intro n v e1 e2 e3
    obtain ⟨own, h1, h2⟩ := hi
    refine ⟨own, fun i o ho a ha => ?_, fun l hl a ha => ?_⟩
    · rw [e2] at ho
      have := h1 i o ho a ha
      exact ⟨this.1, by rw [e1]; omega⟩
    · rw [e3] at hl
      have := h2 l hl a ha
      exact ⟨this.1, by rw [e1]; omega⟩
  cases o with
  | newSteps n =>
    simp only [step, Option.some.injEq] at h
    subst h
    exact mono (n := n) rfl rfl rfl
  | newBuilder hc =>
    simp only [step, Option.some.injEq] at h
    subst h
    obtain ⟨own, h1, h2⟩ := hi
    refine ⟨fun a => if a < w.next then own a else w.builders.length, ?_, ?_⟩
    · intro j o hj a ha
      simp only [newBuilder, Builder.new] at hj ⊢
      rcases lt_trichotomy j w.builders.length with h | h | h
      · rw [List.getElem?_append_left h] at hj
        obtain ⟨h3, h4⟩ := h1 j o hj a ha
        rw [if_pos h4]
        exact ⟨h3, by omega⟩
      · subst h
        simp only [List.getElem?_concat_length, Option.some.injEq] at hj
        subst hj
        simp only [EPtr.ids, List.mem_cons, List.not_mem_nil, or_false] at ha
        rw [if_neg (by omega)]
        exact ⟨rfl, by omega⟩
      · rw [List.getElem?_eq_none (by simp; omega)] at hj
        cases hj
    · intro l hl a ha
      obtain ⟨h3, h4⟩ := h2 l hl a ha
      simp only [if_pos h4, newBuilder, Builder.new]
      exact ⟨h3, by omega⟩
  | newModel p =>
    simp only [step, Option.some.injEq] at h
    subst h
    exact mono (n := 1) rfl rfl rfl
  | writeModel i p =>
    simp only [step] at h
    split_ifs at h
    cases h
    exact mono (n := 0) rfl rfl rfl
  | call b c =>
    simp only [step] at h
    split_ifs at h
    exact owned_callOn hi (hp b c rfl) h
  | topicsFromModel b i =>
    simp only [step] at h
    split_ifs at h
    exact owned_callOn hi rfl h
  | etaFromModel b i =>
    simp only [step] at h
    split_ifs at h
    exact owned_callOn hi rfl h
  | build b =>
    obtain ⟨o, h1, rfl | ⟨l, _, _, _, rfl⟩⟩ := buildOn_eq h
    · exact hi
    · obtain ⟨own, h2, h3⟩ := hi
      refine ⟨own, h2, fun x hx a ha => ?_⟩
      simp only [List.mem_append, List.mem_singleton] at hx
      rcases hx with hx | rfl
      · exact h3 x hx a ha
      · exact h2 b o h1 a ha
  | train i f =>
    simp only [step, trainOn, Option.map_eq_some_iff] at h
    obtain ⟨l, _, rfl⟩ := h
    exact mono (n := 0) rfl rfl rfl

/-- An operation about something else than builder `l.src` and the LDAs built from it leaves all that `l` uses
unchanged. -/
theorem view_step {w w' : World ES MS} {o : Op ES MS} (hi : Inv w) (ho : Owned w) {j : ℕ} {l : LdaObj}
    (hj : w.ldas[j]? = some l) (ha : ¬ o.About w l.src) (h : step w o = some w') :
    w'.ldas[j]? = some l ∧ view w' l = view w l := by
  have hl : l ∈ w.ldas := List.mem_iff_getElem?.2 ⟨j, hj⟩
  obtain ⟨ob, hb1, hb2⟩ := hi.ldas l hl
  have hlt : l.model < w.next := hb2 ▸ hi.builders_lt ob (List.mem_iff_getElem?.2 ⟨_, hb1⟩)
  have hne : ∀ {i : ℕ} {x : BuilderObj}, w.builders[i]? = some x → i ≠ l.src → l.model ≠ x.model := by
    intro i x hx hn e
    exact hn (hi.distinct i l.src x ob hx hb1 (by rw [hb2, e]))
  have hcall : ∀ {i : ℕ} {c : Call}, i ≠ l.src → callOn i c w = some w' →
      w'.ldas[j]? = some l ∧ view w' l = view w l := by
    intro i c hn hc
    obtain ⟨x, r, t, h1, _, rfl, _⟩ := callOn_eq hc
    refine ⟨hj, ?_⟩
    simp only [view]
    rw [Function.update_of_ne (hne h1 hn)]
  cases o with
  | newSteps n =>
    simp only [step, Option.some.injEq] at h
    subst h
    exact ⟨hj, rfl⟩
  | newBuilder hc =>
    simp only [step, Option.some.injEq] at h
    subst h
    refine ⟨hj, ?_⟩
    simp only [view, newBuilder, Builder.new]
    rw [Function.update_of_ne (by omega)]
  | newModel p =>
    simp only [step, Option.some.injEq] at h
    subst h
    refine ⟨hj, ?_⟩
    simp only [view]
    rw [Function.update_of_ne (by omega)]
  | writeModel i p =>
    simp only [step] at h
    split_ifs at h with hu
    cases h
    refine ⟨hj, ?_⟩
    simp only [view]
    rw [Function.update_of_ne]
    rintro rfl
    exact hi.users ob (List.mem_iff_getElem?.2 ⟨_, hb1⟩) (hb2 ▸ hu)
  | call b c =>
    simp only [step] at h
    split_ifs at h
    exact hcall ha h
  | topicsFromModel b i =>
    simp only [step] at h
    split_ifs at h
    exact hcall ha h
  | etaFromModel b i =>
    simp only [step] at h
    split_ifs at h
    exact hcall ha h
  | build b =>
    obtain ⟨x, h1, rfl | ⟨y, _, _, _, rfl⟩⟩ := buildOn_eq h
    · exact ⟨hj, rfl⟩
    · refine ⟨by simp only; rw [List.getElem?_append_left (List.getElem?_eq_some_iff.1 hj).1]; exact hj, ?_⟩
      obtain ⟨own, h2, h3⟩ := ho
      have hd : ∀ a ∈ l.m.id :: l.e.ids, ¬ (a = x.e.id ∨ a = x.m.id) := by
        intro a hm he
        have e1 := (h3 l hl a hm).1
        have e2 : own a = b := by
          rcases he with rfl | rfl
          · exact (h2 b x h1 _ (List.mem_cons_of_mem _ x.e.id_mem)).1
          · exact (h2 b x h1 _ List.mem_cons_self).1
        exact ha (e2.symm.trans e1)
      simp only [view]
      rw [if_neg (hd _ (List.mem_cons_of_mem _ l.e.id_mem)), if_neg (hd _ List.mem_cons_self)]
  | train i f =>
    simp only [step, trainOn, Option.map_eq_some_iff] at h
    obtain ⟨x, hx, rfl⟩ := h
    refine ⟨hj, ?_⟩
    have hxs : x.src ≠ l.src := fun e => ha ⟨x, hx, e⟩
    have hxl : x ∈ w.ldas := List.mem_iff_getElem?.2 ⟨i, hx⟩
    obtain ⟨ox, hx1, hx2⟩ := hi.ldas x hxl
    obtain ⟨own, h2, h3⟩ := ho
    have hdis : ∀ a, a ∈ l.m.id :: l.e.ids → a ∉ x.m.id :: x.e.ids := fun a h4 h5 =>
      hxs ((h3 x hxl a h5).1.symm.trans (h3 l hl a h4).1)
    simp only [view]
    rw [Function.update_of_ne (hx2 ▸ hne hx1 hxs), Function.update_of_ne]
    · refine Prod.ext rfl (Prod.ext ?_ rfl)
      funext a
      by_cases hm : a ∈ l.e.ids
      · have := hdis a (List.mem_cons_of_mem _ hm)
        simp only [List.mem_cons, not_or] at this
        simp [hm, this.2]
      · simp [hm]
    · intro e
      exact hdis _ List.mem_cons_self (by rw [e]; exact List.mem_cons_self)

/-- **C64**, the part that holds, for whole histories: if no steps are passed to the builders by the user, nothing that
is done with other builders and the LDAs built from them, training included, changes anything that an LDA uses: its
parameters, the states of its steps and where its events go. -/
theorem C64_independent_partial {e : ℕ → ES} {m : ℕ → MS} {os os' : List (Op ES MS)} {w w' : World ES MS}
    (h : steps (World.init e m) os = some w) (hp : NoPointers os) {j : ℕ} {l : LdaObj} (hj : w.ldas[j]? = some l)
    (h' : steps w os' = some w') (hp' : NoPointers os') (hf : Foreign l.src w os') :
    w'.ldas[j]? = some l ∧ view w' l = view w l := by
  have ho : Owned w := by
    have key : ∀ (os : List (Op ES MS)) (v : World ES MS), Owned v → NoPointers os → steps v os = some w →
        Owned w := by
      intro os
      induction os with
      | nil => intro v hv _ h; simp only [steps, Option.some.injEq] at h; rw [← h]; exact hv
      | cons o os ih =>
        intro v hv hp h
        simp only [steps, Option.bind_eq_some_iff] at h
        obtain ⟨v1, h1, h2⟩ := h
        exact ih v1 (owned_step hv (fun b c e => hp b c (by simp [e])) h1)
          (fun b c hm => hp b c (List.mem_cons_of_mem _ hm)) h2
    exact key os _ ⟨fun _ => 0, by simp [World.init], by simp [World.init]⟩ hp h
  have hi : Inv w := inv_reachable ⟨e, m, os, h⟩
  clear h hp
  induction os' generalizing w with
  | nil =>
    simp only [steps, Option.some.injEq] at h'
    rw [← h']
    exact ⟨hj, rfl⟩
  | cons o os' ih =>
    simp only [steps, Option.bind_eq_some_iff] at h'
    obtain ⟨w1, h1, h2⟩ := h'
    obtain ⟨e1, e2⟩ := view_step hi ho hj hf.1 h1
    have := ih e1 h2 (fun b c hm => hp' b c (List.mem_cons_of_mem _ hm)) (hf.2 w1 h1)
      (owned_step ho (fun b c e => hp' b c (by simp [e])) h1) (inv_step hi h1)
    exact ⟨this.1, this.2.trans e2⟩

/-! ### A concrete history -/

/-- The topics after an epoch of the classic steps with one topic and a document with the first of two words. -/
noncomputable def trainedBeta : Mat 1 2 ℝ := fun _ n => if n = 0 then 1 else 0

/-- What `UnsupervisedMStep` computes for that document. -/
theorem trainedBeta_real :
    (uM (uDoc (fun n : Fin 2 => if n = 0 then 1 else 0) (fun (_ : Fin 1) _ => 1) none)).1.IsReal trainedBeta := by
  simp only [uM, uDoc, Buf.add, uBeta, Beta.IsReal, scaled]
  congr 1
  funext k n
  simp only [quot, Fin.sum_univ_two, trainedBeta]
  fin_cases n <;> simp

/-- Training with that document. -/
noncomputable def train1 : Training Unit Unit := fun p _ m => ({ p with beta := ⟨1, 2, trainedBeta⟩ }, fun _ => (), m)

/-- **C64 is false**, concretely: a builder with random topics, two LDAs built from it.  Training the first for an epoch
on one document changes the topics of the second. -/
theorem C64_train_other :
    ∃ w w' : World Unit Unit, Reachable w ∧
      ∃ l l', w.ldas[0]? = some l ∧ w.ldas[1]? = some l' ∧ step w (.train 0 train1) = some w' ∧
        (w'.models l'.model).beta ≠ (w.models l'.model).beta := by
  have hb : ∀ b : Builder, b.params.beta.rows = 1 → b.eReq = false → b.mReq = false →
      b.build = .ok ⟨b.iterations, b.workers, b.e, b.m, b.params⟩ := fun b h1 h2 h3 =>
    build_ok (by omega) (by simp [h2, h3])
  have hrows : (randomTopics 2 1 fun _ _ => (1 : ℝ)).2 = ⟨1, 2, fun _ _ => 1 / 2⟩ := by
    simp only [randomTopics]
    congr 1
    funext k n
    rw [normalizeRows_apply]
    norm_num
  obtain ⟨w0, h0⟩ : ∃ w, steps (World.init (ES := Unit) (MS := Unit) (fun _ => ()) fun _ => ())
      [.newBuilder 1, .call 0 (.topicsRandom 2 1 fun _ _ => 1)] = some w := ⟨_, rfl⟩
  have hw0 : ∃ o, w0.builders = [o] ∧ o.eReq = false ∧ o.mReq = false ∧ w0.ldas = [] ∧
      (w0.models o.model).beta = ⟨1, 2, fun _ _ => 1 / 2⟩ := by
    simp only [steps, step, newBuilder, callOn, call, Option.bind_some, World.init, List.nil_append, Call.pointers,
      List.not_mem_nil, false_imp_iff, implies_true, if_true, List.getElem?_cons_zero, Option.map_some,
      Option.some.injEq] at h0
    subst h0
    refine ⟨_, rfl, rfl, rfl, rfl, ?_⟩
    rw [← hrows]
    simp [BuilderObj.store, setTopics]
  obtain ⟨o, e1, e2, e3, e4, e5⟩ := hw0
  have hbuild : ∀ v : World Unit Unit, v.builders = [o] → v.models = w0.models →
      (o.load v).build = .ok ⟨o.iterations, o.workers, o.e, o.m, w0.models o.model⟩ := by
    intro v h1 h2
    rw [hb]
    · simp [BuilderObj.load, h2]
    · simp [BuilderObj.load, h2, e5]
    · exact e2
    · exact e3
  obtain ⟨w1, h1⟩ : ∃ w1, buildOn 0 w0 = some w1 := by simp [buildOn, e1]
  have a1 : w1.builders = [o] ∧ w1.models = w0.models ∧
      w1.ldas = [⟨0, o.model, o.e, o.m, o.iterations, o.workers⟩] := by
    simp only [buildOn, e1, List.getElem?_cons_zero, Option.map_some, hbuild w0 e1 rfl, Option.some.injEq] at h1
    subst h1
    simp [e1, e4]
  obtain ⟨w2, h2⟩ : ∃ w2, buildOn 0 w1 = some w2 := by simp [buildOn, a1.1]
  have a2 : w2.models = w0.models ∧
      w2.ldas = [⟨0, o.model, o.e, o.m, o.iterations, o.workers⟩, ⟨0, o.model, o.e, o.m, o.iterations, o.workers⟩] := by
    simp only [buildOn, a1.1, List.getElem?_cons_zero, Option.map_some, hbuild w1 a1.1 a1.2.1,
      Option.some.injEq] at h2
    subst h2
    simp [a1]
  have hr : Reachable w2 := by
    refine ⟨fun _ => (), fun _ => (),
      [.newBuilder 1, .call 0 (.topicsRandom 2 1 fun _ _ => 1)] ++ [.build 0] ++ [.build 0], ?_⟩
    rw [steps_snoc, steps_snoc, h0]
    simp [step, h1, h2]
  have hl0 : w2.ldas[0]? = some ⟨0, o.model, o.e, o.m, o.iterations, o.workers⟩ := by rw [a2.2]; rfl
  have hl1 : w2.ldas[1]? = some ⟨0, o.model, o.e, o.m, o.iterations, o.workers⟩ := by rw [a2.2]; rfl
  obtain ⟨w3, h3⟩ : ∃ w3, step w2 (.train 0 train1) = some w3 := by simp [step, trainOn, hl0]
  refine ⟨w2, w3, hr, _, _, hl0, hl1, h3, ?_⟩
  have key := (C64_same_builder hr hl0 hl1 rfl).2 train1 w3 h3
  rw [key, a2.1, e5]
  intro hc
  simp only [train1, DMat.mk.injEq, heq_eq_eq, true_and] at hc
  have := congrFun (congrFun hc 0) 0
  simp only [trainedBeta, if_true] at this
  norm_num at this

/-- Two builders and an LDA from each: the hypotheses of `C64_independent_partial` hold of the second LDA while the
first one is trained and its builder is used again. -/
example : ∃ (w w' : World Unit Unit) (l : LdaObj), l.src = 1 ∧
    steps (World.init (fun _ => ()) fun _ => ()) [.newBuilder 1, .newBuilder 1, .call 0 (.topicsFromModel oneTopic),
      .call 1 (.topicsFromModel oneTopic), .build 0, .build 1] = some w ∧
    w.ldas[1]? = some l ∧
    steps w [.train 0 train1, .call 0 (.setMStep .classic), .build 0] = some w' ∧
    Foreign 1 w [.train 0 train1, .call 0 (.setMStep .classic), .build 0] := by
  refine ⟨_, _, ⟨1, 5, .leaf 3 classicDefault, ⟨4, .classic⟩, 20, 1⟩, rfl, rfl, rfl, rfl, ?_⟩
  refine ⟨?_, fun _ _ => ⟨?_, fun _ _ => ⟨?_, fun _ _ => trivial⟩⟩⟩
  · rintro ⟨l, h1, h2⟩
    have : l.src = 0 := by cases h1; rfl
    omega
  · simp [Op.About]
  · simp [Op.About]

end Verif.Build
