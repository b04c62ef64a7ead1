import Verif.Model.View
import Verif.Props.Corpus

/-
C128: a corpus shows the matrix and the labels as they are now, a document keeps what it was made from, and nothing is
used after its end.
-/
namespace Verif.View

variable {D : Type} {m m1 m2 : Mem D} {c x y i d : ℕ} {o : CorpusObj}

/-! ### The rules for the caller -/

/-- The caller has a pointer to the corpus. -/
def Held (m : Mem D) (c : ℕ) : Prop := ∃ o, m.corpora c = some o ∧ o.held = true

/-- The rules.  Objects are used between their construction and their end; the matrix and the labels outlive the corpora
that refer to them, including those in the queue, and keep their sizes meanwhile; the labels that a corpus is constructed
from are not negative, and there is one for every document; a document's corpus is used only while somebody owns it. -/
def Careful (m : Mem D) : Op D → Prop
  | .newMat x _ => m.mats x = .fresh
  | .setMat x cols => ∃ X, m.mats x = .live X ∧ ∀ c o, m.corpus c = some o → o.x = x → cols.length = X.length
  | .endMat x => (∃ X, m.mats x = .live X) ∧ ∀ c o, m.corpus c = some o → o.x ≠ x
  | .newLab y _ => m.labs y = .fresh
  | .setLab y ls => ∃ ls', m.labs y = .live ls' ∧ ∀ c o, m.corpus c = some o → o.y = some y → ls'.length ≤ ls.length
  | .endLab y => (∃ ls, m.labs y = .live ls) ∧ ∀ c o, m.corpus c = some o → o.y ≠ some y
  | .newCorpus c x y => m.corpora c = none ∧ ∃ X, m.mats x = .live X ∧ ∀ y', y = some y' →
      ∃ ls, m.labs y' = .live ls ∧ X.length ≤ ls.length ∧ ls ≠ [] ∧ ∀ l ∈ ls, 0 ≤ l
  | .shuffle c _ => Held m c
  | .size c => Held m c
  | .at c i d => m.docs d = none ∧ ∃ o X, m.corpora c = some o ∧ o.held = true ∧ m.mats o.x = .live X ∧ i < X.length
  | .release c => Held m c
  | .words d => m.docs d ≠ none
  | .cls d => ∃ o, m.docs d = some o ∧ o.label ≠ none
  | .prior d l => ∃ o c co, m.docs d = some o ∧ o.corpus = some c ∧ m.corpus c = some co ∧ 0 ≤ l ∧
      l < co.priors.length
  | .docSize d => ∃ o c, m.docs d = some o ∧ o.corpus = some c ∧ m.corpus c ≠ none
  | .fit c _ => Held m c
  | .fitThrow c _ k => ∃ o X, m.corpora c = some o ∧ o.held = true ∧ m.mats o.x = .live X ∧ k ≤ X.length

/-- The rules are followed in every step of a history. -/
def CarefulRun (m : Mem D) : List (Op D) → Prop
  | [] => True
  | op :: ops => Careful m op ∧ ∀ m' ob, step m op = some (m', ob) → CarefulRun m' ops

/-! ### The memory of a careful caller -/

structure Inv (m : Mem D) : Prop where
  corp : ∀ c o, m.corpus c = some o → ∃ X, m.mats o.x = .live X ∧ o.indices.Perm (List.range X.length) ∧
    ∀ y, o.y = some y → ∃ ls, m.labs y = .live ls ∧ X.length ≤ ls.length
  jobs : ∀ j ∈ m.jobs, ∃ o X, m.corpora j.1 = some o ∧ m.mats o.x = .live X ∧ j.2 < X.length

theorem corpus_some {o : CorpusObj} : m.corpus c = some o ↔
    m.corpora c = some o ∧ (o.held = true ∨ ∃ j ∈ m.jobs, j.1 = c) := by
  unfold Mem.corpus
  cases h : m.corpora c with
  | none => simp
  | some o' =>
    by_cases hh : (o'.held || m.jobs.any fun j => j.1 == c) = true
    · simp only [hh, if_true, Option.some.injEq]
      constructor
      · rintro rfl
        simp only [Bool.or_eq_true, List.any_eq_true, beq_iff_eq] at hh
        exact ⟨rfl, hh⟩
      · exact fun h => h.1
    · dsimp only
      rw [if_neg hh]
      constructor
      · intro h; cases h
      · rintro ⟨h1, h2⟩
        cases h1
        refine absurd ?_ hh
        simpa only [Bool.or_eq_true, List.any_eq_true, beq_iff_eq] using h2

theorem Held.corpus (h : Held m c) : ∃ o, m.corpus c = some o ∧ o.held = true := by
  obtain ⟨o, h1, h2⟩ := h
  exact ⟨o, corpus_some.2 ⟨h1, Or.inl h2⟩, h2⟩

theorem Inv.empty : Inv (Mem.empty (D := D)) :=
  ⟨fun c o h => (by rw [corpus_some] at h; exact nomatch h.1), fun j h => (by cases h)⟩

/-- A document of a corpus. -/
theorem at_some (h : Inv m) {X : List D} (hc : m.corpus c = some o) (hX : m.mats o.x = .live X) (hi : i < X.length) :
    ∃ j w l, o.indices[i]? = some j ∧ X[j]? = some w ∧ m.at c i = some ⟨w, l, o.y.map fun _ => c⟩ ∧
      (o.y = none → l = none) ∧ ∀ y ls, o.y = some y → m.labs y = .live ls → ∃ a, ls[j]? = some a ∧ l = some a := by
  obtain ⟨X', h1, h2, h3⟩ := h.corp c o hc
  rw [hX] at h1
  cases h1
  have hlen : o.indices.length = X.length := by rw [h2.length_eq, List.length_range]
  have hi' : i < o.indices.length := by omega
  have hj : o.indices[i] < X.length := List.mem_range.1 (h2.mem_iff.1 (List.getElem_mem hi'))
  have e1 := List.getElem?_eq_getElem hi'
  have e2 := List.getElem?_eq_getElem hj
  cases hy : o.y with
  | none =>
    refine ⟨_, _, none, e1, e2, ?_, fun _ => rfl, fun y ls h => by cases h⟩
    unfold Mem.at
    rw [hc]
    simp only [e1, hX, Var.read, e2, hy]
    rfl
  | some y =>
    obtain ⟨ls, h4, h5⟩ := h3 y hy
    have e3 := List.getElem?_eq_getElem (lt_of_lt_of_le hj h5)
    refine ⟨_, _, some (ls[o.indices[i]]'(lt_of_lt_of_le hj h5)), e1, e2, ?_, (fun h => by cases h), fun y' ls' h h' => ?_⟩
    · unfold Mem.at
      rw [hc]
      simp only [e1, hX, Var.read, e2, hy, h4, e3]
      rfl
    · cases h
      rw [h4] at h'
      cases h'
      exact ⟨_, e3, rfl⟩

/-- A corpus is replaced by one with the same references and a permuted index vector. -/
theorem Inv.permuted (h : Inv m) (hc : m.corpus c = some o) {a : List ℕ} (ha : a.Perm o.indices) :
    Inv (m.setCorpus c { o with indices := a }) := by
  have hs : m.corpora c = some o := (corpus_some.1 hc).1
  refine ⟨fun c' o' h' => ?_, fun j hj => ?_⟩
  · rw [corpus_some] at h'
    by_cases hcc : c' = c
    · subst hcc
      have e : o' = { o with indices := a } := by
        have := h'.1
        unfold Mem.setCorpus at this
        dsimp only at this
        rw [Function.update_self] at this
        cases this; rfl
      subst e
      obtain ⟨X, h1, h2, h3⟩ := h.corp c' o hc
      exact ⟨X, h1, ha.trans h2, h3⟩
    · have e : m.corpora c' = some o' := by
        have := h'.1
        unfold Mem.setCorpus at this
        dsimp only at this
        rwa [Function.update_of_ne hcc] at this
      exact h.corp c' o' (corpus_some.2 ⟨e, h'.2⟩)
  · obtain ⟨o', X, h1, h2, h3⟩ := h.jobs j hj
    by_cases hcc : j.1 = c
    · rw [hcc, hs] at h1
      cases h1
      refine ⟨{ o with indices := a }, X, ?_, h2, h3⟩
      unfold Mem.setCorpus
      dsimp only
      rw [hcc, Function.update_self]
    · refine ⟨o', X, ?_, h2, h3⟩
      unfold Mem.setCorpus
      dsimp only
      rw [Function.update_of_ne hcc]
      exact h1

/-- `shuffle` of a corpus that exists. -/
theorem shuffle_some (h : Inv m) (hc : m.corpus c = some o) (draw : ℕ → ℕ) :
    ∃ a m', m.shuffle c draw = some m' ∧ m' = m.setCorpus c { o with indices := a } ∧ Inv m' ∧
      m'.corpus c = some { o with indices := a } := by
  obtain ⟨a, h1, h2⟩ := Corpus.shuffle_perm draw o.indices
  refine ⟨a, _, ?_, rfl, h.permuted hc h2, ?_⟩
  · unfold Mem.shuffle
    rw [hc]
    simp only [h1]
    rfl
  · rw [corpus_some] at hc ⊢
    refine ⟨?_, hc.2⟩
    unfold Mem.setCorpus
    dsimp only
    rw [Function.update_self]

/-- Jobs are added to the queue. -/
theorem Inv.queued (h : Inv m) (hc : m.corpus c = some o) {X : List D} (hX : m.mats o.x = .live X) {k : ℕ}
    (hk : k ≤ X.length) : Inv (m.queue c k) := by
  have hs := (corpus_some.1 hc).1
  refine ⟨fun c' o' h' => ?_, fun j hj => ?_⟩
  · by_cases hcc : c' = c
    · subst hcc
      have := (corpus_some.1 h').1
      have e : m.corpora c' = some o' := this
      rw [hs] at e
      cases e
      exact h.corp c' _ hc
    · rw [corpus_some] at h'
      obtain ⟨h1, h2⟩ := h'
      refine h.corp c' o' (corpus_some.2 ⟨h1, h2.imp_right ?_⟩)
      rintro ⟨j, hj, rfl⟩
      unfold Mem.queue at hj
      simp only [List.mem_append, List.mem_map] at hj
      rcases hj with hj | ⟨i, _, rfl⟩
      · exact ⟨j, hj, rfl⟩
      · exact absurd rfl hcc
  · unfold Mem.queue at hj
    simp only [List.mem_append, List.mem_map, List.mem_range] at hj
    rcases hj with hj | ⟨i, hi, rfl⟩
    · exact h.jobs j hj
    · exact ⟨o, X, hs, hX, lt_of_lt_of_le hi hk⟩

/-- Every job finds its document. -/
theorem work_some (h : Inv m) : ∃ l, m.work = some l := by
  have : ∀ js : List (ℕ × ℕ), (∀ j ∈ js, j ∈ m.jobs) → ∃ l, js.mapM (fun j => m.at j.1 j.2) = some l := by
    intro js
    induction js with
    | nil => intro _; exact ⟨[], rfl⟩
    | cons j js ih =>
      intro hj
      obtain ⟨l, hl⟩ := ih fun j' h' => hj j' (List.mem_cons_of_mem _ h')
      obtain ⟨o, X, h1, h2, h3⟩ := h.jobs j (hj j List.mem_cons_self)
      have hc : m.corpus j.1 = some o := corpus_some.2 ⟨h1, Or.inr ⟨j, hj j List.mem_cons_self, rfl⟩⟩
      obtain ⟨_, w, a, _, _, h4, _⟩ := at_some h hc h2 h3
      refine ⟨⟨w, a, o.y.map fun _ => j.1⟩ :: l, ?_⟩
      rw [List.mapM_cons, h4, hl]
      rfl
  obtain ⟨l, hl⟩ := this m.jobs fun _ h => h
  exact ⟨l.map fun d => (d.words, d.label), by unfold Mem.work; rw [hl]; rfl⟩

/-- The queue has been emptied. -/
theorem Inv.drained (h : Inv m) : Inv { m with jobs := [] } := by
  refine ⟨fun c o h' => ?_, fun j hj => by cases hj⟩
  rw [corpus_some] at h'
  refine h.corp c o (corpus_some.2 ⟨h'.1, h'.2.imp_right ?_⟩)
  rintro ⟨j, hj, _⟩
  cases hj

/-- One step of a careful caller. -/
theorem step_some (h : Inv m) (op : Op D) (hop : Careful m op) : ∃ m' ob, step m op = some (m', ob) ∧ Inv m' := by
  cases op with
  | newMat x cols =>
    have hx : m.mats x = .fresh := hop
    refine ⟨{ m with mats := Function.update m.mats x (.live cols) }, .done, (by simp only [step, hx]), fun c o hc => ?_, fun j hj => ?_⟩
    · obtain ⟨X, h1, h2⟩ := h.corp c o hc
      have : o.x ≠ x := by rintro e; rw [e, hx] at h1; cases h1
      exact ⟨X, by dsimp only; rw [Function.update_of_ne this]; exact h1, h2⟩
    · obtain ⟨o, X, h1, h2, h3⟩ := h.jobs j hj
      have : o.x ≠ x := by rintro e; rw [e, hx] at h2; cases h2
      exact ⟨o, X, h1, by dsimp only; rw [Function.update_of_ne this]; exact h2, h3⟩
  | setMat x cols =>
    obtain ⟨X0, hx, hl⟩ := hop
    refine ⟨{ m with mats := Function.update m.mats x (.live cols) }, .done, (by simp only [step, hx]), fun c o hc => ?_, fun j hj => ?_⟩
    · obtain ⟨X, h1, h2, h3⟩ := h.corp c o hc
      by_cases e : o.x = x
      · rw [e, hx] at h1
        cases h1
        have hlen := hl c o hc e
        exact ⟨cols, by dsimp only; rw [e, Function.update_self], by rw [hlen]; exact h2, fun y hy => by
          rw [hlen]; exact h3 y hy⟩
      · exact ⟨X, by dsimp only; rw [Function.update_of_ne e]; exact h1, h2, h3⟩
    · obtain ⟨o, X, h1, h2, h3⟩ := h.jobs j hj
      by_cases e : o.x = x
      · rw [e, hx] at h2
        cases h2
        have hlen := hl j.1 o (corpus_some.2 ⟨h1, Or.inr ⟨j, hj, rfl⟩⟩) e
        exact ⟨o, cols, h1, by dsimp only; rw [e, Function.update_self], by omega⟩
      · exact ⟨o, X, h1, by dsimp only; rw [Function.update_of_ne e]; exact h2, h3⟩
  | endMat x =>
    obtain ⟨⟨X0, hx⟩, hl⟩ := hop
    refine ⟨{ m with mats := Function.update m.mats x .dead }, .done, (by simp only [step, hx]), fun c o hc => ?_, fun j hj => ?_⟩
    · obtain ⟨X, h1, h2⟩ := h.corp c o hc
      exact ⟨X, by dsimp only; rw [Function.update_of_ne (hl c o hc)]; exact h1, h2⟩
    · obtain ⟨o, X, h1, h2, h3⟩ := h.jobs j hj
      have := hl j.1 o (corpus_some.2 ⟨h1, Or.inr ⟨j, hj, rfl⟩⟩)
      exact ⟨o, X, h1, by dsimp only; rw [Function.update_of_ne this]; exact h2, h3⟩
  | newLab y ls =>
    have hy : m.labs y = .fresh := hop
    refine ⟨{ m with labs := Function.update m.labs y (.live ls) }, .done, (by simp only [step, hy]), fun c o hc => ?_, fun j hj => h.jobs j hj⟩
    obtain ⟨X, h1, h2, h3⟩ := h.corp c o hc
    refine ⟨X, h1, h2, fun y' hy' => ?_⟩
    obtain ⟨ls', h4, h5⟩ := h3 y' hy'
    have : y' ≠ y := by rintro rfl; rw [hy] at h4; cases h4
    exact ⟨ls', by dsimp only; rw [Function.update_of_ne this]; exact h4, h5⟩
  | setLab y ls =>
    obtain ⟨ls0, hy, hl⟩ := hop
    refine ⟨{ m with labs := Function.update m.labs y (.live ls) }, .done, (by simp only [step, hy]), fun c o hc => ?_, fun j hj => h.jobs j hj⟩
    obtain ⟨X, h1, h2, h3⟩ := h.corp c o hc
    refine ⟨X, h1, h2, fun y' hy' => ?_⟩
    obtain ⟨ls', h4, h5⟩ := h3 y' hy'
    by_cases e : y' = y
    · subst e
      rw [hy] at h4
      cases h4
      exact ⟨ls, by dsimp only; rw [Function.update_self], h5.trans (hl c o hc hy')⟩
    · exact ⟨ls', by dsimp only; rw [Function.update_of_ne e]; exact h4, h5⟩
  | endLab y =>
    obtain ⟨⟨ls0, hy⟩, hl⟩ := hop
    refine ⟨{ m with labs := Function.update m.labs y .dead }, .done, (by simp only [step, hy]), fun c o hc => ?_, fun j hj => h.jobs j hj⟩
    obtain ⟨X, h1, h2, h3⟩ := h.corp c o hc
    refine ⟨X, h1, h2, fun y' hy' => ?_⟩
    obtain ⟨ls', h4, h5⟩ := h3 y' hy'
    have : y' ≠ y := by rintro rfl; exact hl c o hc hy'
    exact ⟨ls', by dsimp only; rw [Function.update_of_ne this]; exact h4, h5⟩
  | newCorpus c x y =>
    obtain ⟨hc, X, hX, hy⟩ := hop
    have hcon : ∃ o, m.construct x y = some o ∧ o.x = x ∧ o.y = y ∧ o.indices = List.range X.length := by
      unfold Mem.construct
      rw [hX]
      cases y with
      | none => exact ⟨_, rfl, rfl, rfl, rfl⟩
      | some y =>
        obtain ⟨ls, h1, _, h3, h4⟩ := hy y rfl
        obtain ⟨p, _, hp, _⟩ := Corpus.C18_priors ls h3 h4
        simp only [Var.read, h1, hp]
        exact ⟨_, rfl, rfl, rfl, rfl⟩
    obtain ⟨o, h1, h2, h3, h4⟩ := hcon
    refine ⟨m.setCorpus c o, .done, (by simp only [step, hc, h1]; rfl), fun c' o' hc' => ?_, fun j hj => ?_⟩
    · rw [corpus_some] at hc'
      obtain ⟨e, hh⟩ := hc'
      unfold Mem.setCorpus at e
      dsimp only at e
      by_cases hcc : c' = c
      · subst hcc
        rw [Function.update_self] at e
        cases e
        refine ⟨X, by rw [h2]; exact hX, by rw [h4], fun y' hy' => ?_⟩
        rw [h3] at hy'
        obtain ⟨ls, h5, h6, _⟩ := hy y' hy'
        exact ⟨ls, h5, h6⟩
      · rw [Function.update_of_ne hcc] at e
        exact h.corp c' o' (corpus_some.2 ⟨e, hh⟩)
    · obtain ⟨o', X', h5, h6⟩ := h.jobs j hj
      have : j.1 ≠ c := by rintro e; rw [e, hc] at h5; cases h5
      refine ⟨o', X', ?_, h6⟩
      unfold Mem.setCorpus
      dsimp only
      rw [Function.update_of_ne this]
      exact h5
  | shuffle c draw =>
    obtain ⟨o, hc, _⟩ := Held.corpus hop
    obtain ⟨a, m', h1, _, h3, _⟩ := shuffle_some h hc draw
    exact ⟨m', .done, (by simp only [step, h1]; rfl), h3⟩
  | size c =>
    obtain ⟨o, hc, _⟩ := Held.corpus hop
    obtain ⟨X, h1, _⟩ := h.corp c o hc
    refine ⟨m, .num X.length, ?_, h⟩
    simp only [step, Mem.size, hc, Option.bind_some, h1, Var.read]
    rfl
  | «at» c i d =>
    obtain ⟨hd, o, X, h1, h2, h3, h4⟩ := hop
    obtain ⟨_, w, l, _, _, h5, _⟩ := at_some h (corpus_some.2 ⟨h1, Or.inl h2⟩) h3 h4
    refine ⟨{ m with docs := Function.update m.docs d (some ⟨w, l, o.y.map fun _ => c⟩) }, .done, ?_, ⟨h.corp, h.jobs⟩⟩
    simp only [step, hd, h5]
    rfl
  | release c =>
    obtain ⟨o, h1, h2⟩ := hop
    refine ⟨m.setCorpus c { o with held := false }, .done, ?_, fun c' o' hc' => ?_, fun j hj => ?_⟩
    · simp only [step, h1, h2, if_true]
    · rw [corpus_some] at hc'
      obtain ⟨e, hh⟩ := hc'
      unfold Mem.setCorpus at e
      dsimp only at e
      by_cases hcc : c' = c
      · subst hcc
        rw [Function.update_self] at e
        cases e
        exact h.corp c' o (corpus_some.2 ⟨h1, Or.inl h2⟩)
      · rw [Function.update_of_ne hcc] at e
        exact h.corp c' o' (corpus_some.2 ⟨e, hh⟩)
    · obtain ⟨o', X', h5, h6⟩ := h.jobs j hj
      by_cases hcc : j.1 = c
      · rw [hcc, h1] at h5
        cases h5
        refine ⟨{ o with held := false }, X', ?_, h6⟩
        unfold Mem.setCorpus
        dsimp only
        rw [hcc, Function.update_self]
      · refine ⟨o', X', ?_, h6⟩
        unfold Mem.setCorpus
        dsimp only
        rw [Function.update_of_ne hcc]
        exact h5
  | words d =>
    obtain ⟨o, ho⟩ := Option.ne_none_iff_exists'.1 hop
    exact ⟨m, .words o.words, (by simp only [step, ho]; rfl), h⟩
  | cls d =>
    obtain ⟨o, ho, hl⟩ := hop
    obtain ⟨l, hl⟩ := Option.ne_none_iff_exists'.1 hl
    exact ⟨m, .cls l, (by simp only [step, ho, Option.bind_some, hl]; rfl), h⟩
  | prior d l =>
    obtain ⟨o, c, co, h1, h2, h3, h4, h5⟩ := hop
    have hl : l.toNat < co.priors.length := by omega
    refine ⟨m, .prior co.priors[l.toNat], ?_, h⟩
    simp only [step, Corpus.getPrior, h1, Option.bind_some, h2, h3, if_neg (not_lt.2 h4), List.getElem?_eq_getElem hl]
    rfl
  | docSize d =>
    obtain ⟨o, c, h1, h2, h3⟩ := hop
    obtain ⟨co, h3⟩ := Option.ne_none_iff_exists'.1 h3
    obtain ⟨X, h4, _⟩ := h.corp c co h3
    refine ⟨m, .num X.length, ?_, h⟩
    simp only [step, Mem.size, h1, Option.bind_some, h2, h3, h4, Var.read]
    rfl
  | fit c draw =>
    obtain ⟨o, hc, _⟩ := Held.corpus hop
    obtain ⟨a, m', h1, _, h3, h4⟩ := shuffle_some h hc draw
    obtain ⟨X, h5, _⟩ := h3.corp c _ h4
    obtain ⟨l, hl⟩ := work_some (h3.queued h4 h5 le_rfl)
    refine ⟨{ m' with jobs := [] }, .docs l, ?_, h3.drained⟩
    simp only [step, Mem.size, h1, Option.bind_some, h4, h5, Var.read, Option.map_some, hl]
  | fitThrow c draw k =>
    obtain ⟨o, X, h0, h0', hX, hk⟩ := hop
    obtain ⟨a, m', h1, h2, h3, h4⟩ := shuffle_some h (corpus_some.2 ⟨h0, Or.inl h0'⟩) draw
    have h5 : m'.mats o.x = .live X := by rw [h2]; exact hX
    refine ⟨m'.queue c k, .done, ?_, h3.queued h4 h5 hk⟩
    simp only [step, Mem.size, h1, Option.bind_some, h4, h5, Var.read, Option.map_some, hk, if_true]

/-- A careful caller has no undefined behaviour. -/
theorem run_some : ∀ (ops : List (Op D)) (m : Mem D), Inv m → CarefulRun m ops →
    ∃ m' obs, run m ops = some (m', obs) ∧ Inv m' := by
  intro ops
  induction ops with
  | nil => intro m h _; exact ⟨m, [], rfl, h⟩
  | cons op ops ih =>
    intro m h hc
    obtain ⟨m1, ob, h1, h2⟩ := step_some h op hc.1
    obtain ⟨m2, obs, h3, h4⟩ := ih m1 h2 (hc.2 m1 ob h1)
    refine ⟨m2, ob :: obs, ?_, h4⟩
    unfold run
    rw [h1, Option.bind_some, h3]
    rfl

/-- C128, for a caller that follows the rules: whatever they do, for as long as they like, nothing is used after its end
and no index is outside its array. -/
theorem C128_safe_partial (ops : List (Op D)) (h : CarefulRun Mem.empty ops) : ∃ m obs, run Mem.empty ops = some (m, obs) := by
  obtain ⟨m, obs, h1, _⟩ := run_some ops _ Inv.empty h
  exact ⟨m, obs, h1⟩

/-! ### What the expectation step gets -/

/-- The documents of a matrix and, if there are any, labels. -/
def content (X : List D) : Option (List ℤ) → List (D × Option ℤ)
  | none => X.map fun w => (w, none)
  | some ls => (X.zip ls).map fun p => (p.1, some p.2)

/-- The queue stays empty in a history without exceptions. -/
theorem jobs_empty : ∀ (ops : List (Op D)) (m m' : Mem D) (obs : List (Obs D)), m.jobs = [] →
    (∀ c draw k, Op.fitThrow c draw k ∉ ops) → run m ops = some (m', obs) → m'.jobs = [] := by
  intro ops
  induction ops with
  | nil => intro m m' obs h _ hr; cases hr; exact h
  | cons op ops ih =>
    intro m m' obs h hno hr
    unfold run at hr
    obtain ⟨⟨m1, ob⟩, h1, h2⟩ := Option.bind_eq_some_iff.1 hr
    obtain ⟨⟨m2, obs'⟩, h3, h4⟩ := Option.map_eq_some_iff.1 h2
    cases h4
    refine ih m1 _ obs' ?_ (fun c draw k hk => hno c draw k (List.mem_cons_of_mem _ hk)) h3
    have hsh : ∀ c draw (m2 : Mem D), m.shuffle c draw = some m2 → m2.jobs = [] := by
      intro c draw m2 hs
      unfold Mem.shuffle at hs
      split at hs
      · cases hs
      · obtain ⟨a, _, rfl⟩ := Option.map_eq_some_iff.1 hs
        exact h
    cases op with
    | newMat | setMat | endMat | newLab | setLab | endLab =>
      simp only [step] at h1
      split at h1 <;> cases h1
      exact h
    | newCorpus c x y =>
      simp only [step] at h1
      split at h1
      · cases h1
      · obtain ⟨o, _, e⟩ := Option.map_eq_some_iff.1 h1
        cases e
        exact h
    | shuffle c draw =>
      obtain ⟨m2, h5, e⟩ := Option.map_eq_some_iff.1 h1
      cases e
      exact hsh c draw _ h5
    | size c =>
      obtain ⟨o, _, h5⟩ := Option.bind_eq_some_iff.1 h1
      obtain ⟨n, _, e⟩ := Option.map_eq_some_iff.1 h5
      cases e
      exact h
    | «at» c i d =>
      simp only [step] at h1
      split at h1
      · cases h1
      · obtain ⟨o, _, e⟩ := Option.map_eq_some_iff.1 h1
        cases e
        exact h
    | release c =>
      simp only [step] at h1
      split at h1
      · cases h1
      · split_ifs at h1
        cases h1
        exact h
    | words d =>
      obtain ⟨o, _, e⟩ := Option.map_eq_some_iff.1 h1
      cases e
      exact h
    | cls d =>
      obtain ⟨o, _, h5⟩ := Option.bind_eq_some_iff.1 h1
      obtain ⟨n, _, e⟩ := Option.map_eq_some_iff.1 h5
      cases e
      exact h
    | prior d l =>
      obtain ⟨o, _, h5⟩ := Option.bind_eq_some_iff.1 h1
      obtain ⟨c, _, h6⟩ := Option.bind_eq_some_iff.1 h5
      obtain ⟨o', _, h7⟩ := Option.bind_eq_some_iff.1 h6
      obtain ⟨n, _, e⟩ := Option.map_eq_some_iff.1 h7
      cases e
      exact h
    | docSize d =>
      obtain ⟨o, _, h5⟩ := Option.bind_eq_some_iff.1 h1
      obtain ⟨c, _, h6⟩ := Option.bind_eq_some_iff.1 h5
      obtain ⟨o', _, h7⟩ := Option.bind_eq_some_iff.1 h6
      obtain ⟨n, _, e⟩ := Option.map_eq_some_iff.1 h7
      cases e
      exact h
    | fit c draw =>
      obtain ⟨m2, _, h5⟩ := Option.bind_eq_some_iff.1 h1
      obtain ⟨o, _, h6⟩ := Option.bind_eq_some_iff.1 h5
      obtain ⟨n, _, h7⟩ := Option.bind_eq_some_iff.1 h6
      obtain ⟨l, _, e⟩ := Option.map_eq_some_iff.1 h7
      cases e
      rfl
    | fitThrow c draw k => exact absurd List.mem_cons_self (hno c draw k)

theorem filterMap_range {A : Type} (l : List A) : (List.range l.length).filterMap (fun i => l[i]?) = l := by
  have hall : ∀ n ≤ l.length, (List.range n).filterMap (fun i => l[i]?) = l.take n := by
    intro n
    induction n with
    | zero => intro _; rfl
    | succ n ih =>
      intro hn
      rw [List.range_succ, List.filterMap_append, ih (by omega), ← List.take_append_getElem (show n < l.length by omega)]
      simp [List.getElem?_eq_getElem (show n < l.length by omega)]
  rw [hall _ le_rfl, List.take_length]

/-- Reading all documents through the index vector. -/
theorem read_all {A B : Type} {f : ℕ → Option A} {g : A → B} {Z : List B} {idx : List ℕ} (hp : idx.Perm (List.range Z.length))
    (h : ∀ i j, idx[i]? = some j → j < Z.length → ∃ a, f i = some a ∧ Z[j]? = some (g a)) :
    ∃ l, (List.range Z.length).mapM f = some l ∧ (l.map g).Perm Z := by
  have hlen : idx.length = Z.length := by simpa using hp.length_eq
  have key : ∀ k, k ≤ Z.length → ∃ l, (List.range k).mapM f = some l ∧ l.map g = (idx.take k).filterMap fun j => Z[j]? := by
    intro k
    induction k with
    | zero => intro _; exact ⟨[], rfl, rfl⟩
    | succ k ih =>
      intro hk
      obtain ⟨l, h1, h2⟩ := ih (by omega)
      have hk' : k < idx.length := by omega
      have hj : idx[k] < Z.length := List.mem_range.1 (hp.subset (List.getElem_mem hk'))
      obtain ⟨a, h3, h4⟩ := h k idx[k] (List.getElem?_eq_getElem hk') hj
      refine ⟨l ++ [a], ?_, ?_⟩
      · rw [List.range_succ, List.mapM_append, h1]
        simp [h3]
      · rw [← List.take_append_getElem hk', List.filterMap_append, List.map_append, h2]
        simp [h4]
  obtain ⟨l, h1, h2⟩ := key Z.length le_rfl
  refine ⟨l, h1, ?_⟩
  rw [h2, ← hlen, List.take_length]
  refine (hp.filterMap _).trans ?_
  rw [filterMap_range]

/-- C128: for a caller that follows the rules and whose calls return, `partial_fit` gives every document to the
expectation step exactly once, with the words and the label that the caller's matrix and labels have at the time of the
call, whatever they were when the corpus was constructed. -/
theorem C128_fit_partial (ops : List (Op D)) (h : CarefulRun Mem.empty ops) (hno : ∀ c draw k, Op.fitThrow c draw k ∉ ops)
    {m : Mem D} {obs : List (Obs D)} (hr : run Mem.empty ops = some (m, obs)) {c : ℕ} {o : CorpusObj}
    (hc : m.corpora c = some o) (hh : o.held = true) {X : List D} (hX : m.mats o.x = .live X) {ls : Option (List ℤ)}
    (hls : o.y.map m.labs = ls.map .live) (draw : ℕ → ℕ) :
    ∃ m' l, step m (.fit c draw) = some (m', .docs l) ∧ l.Perm (content X ls) := by
  obtain ⟨m', obs', hr', hI⟩ := run_some ops _ Inv.empty h
  rw [hr] at hr'
  cases hr'
  have hj := jobs_empty ops _ _ _ rfl hno hr
  obtain ⟨a, m1, h1, h2, h3, h4⟩ := shuffle_some hI (corpus_some.2 ⟨hc, Or.inl hh⟩) draw
  have hX1 : m1.mats o.x = .live X := by rw [h2]; exact hX
  have hj1 : m1.jobs = [] := by rw [h2]; exact hj
  have hl1 : m1.labs = m.labs := by rw [h2]; rfl
  obtain ⟨X', hX', hperm, hlab⟩ := h3.corp c _ h4
  have hXX : m1.mats o.x = .live X' := hX'
  rw [hX1] at hXX
  cases hXX
  have hI2 : Inv (m1.queue c X.length) := h3.queued h4 hX1 le_rfl
  have hc2 : (m1.queue c X.length).corpus c = some { o with indices := a } := by
    rw [corpus_some] at h4 ⊢
    exact ⟨h4.1, Or.inl hh⟩
  have hZ : (content X ls).length = X.length := by
    cases ls with
    | none => simp [content]
    | some ls =>
      cases hy : o.y with
      | none => rw [hy] at hls; cases hls
      | some y =>
        rw [hy] at hls
        obtain ⟨ls', h5, h6⟩ := hlab y hy
        rw [hl1] at h5
        have : m.labs y = .live ls := Option.some.inj hls
        rw [this] at h5
        cases h5
        simp only [content, List.length_map, List.length_zip]
        omega
  have hall := read_all (f := fun i => (m1.queue c X.length).at c i) (g := fun d : DocObj D => (d.words, d.label))
    (Z := content X ls) (idx := a) (by rw [hZ]; exact hperm) (by
      intro i j hij hj
      rw [hZ] at hj
      have hi : i < X.length := by
        have := (List.getElem?_eq_some_iff.1 hij).1
        rw [hperm.length_eq, List.length_range] at this
        exact this
      obtain ⟨j', w, l, h5, h6, h7, h8, h9⟩ := at_some hI2 hc2 hX1 hi
      have hjj : j' = j := by
        have : a[i]? = some j' := h5
        rw [hij] at this
        cases this; rfl
      subst hjj
      refine ⟨_, h7, ?_⟩
      dsimp only
      cases hy : o.y with
      | none =>
        rw [hy] at hls
        cases ls with
        | some ls => cases hls
        | none => rw [content, List.getElem?_map, h6, h8 hy]; rfl
      | some y =>
        rw [hy] at hls
        cases ls with
        | none => cases hls
        | some ls =>
          have e : m.labs y = .live ls := Option.some.inj hls
          obtain ⟨b, h10, h11⟩ := h9 y ls hy (by show m1.labs y = _; rw [hl1]; exact e)
          rw [content, List.getElem?_map, List.getElem?_zip_eq_some (z := (w, b)).2 ⟨h6, h10⟩, h11]
          rfl)
  obtain ⟨L, hL1, hL2⟩ := hall
  rw [hZ] at hL1
  refine ⟨{ m1 with jobs := [] }, L.map fun d => (d.words, d.label), ?_, hL2⟩
  have hw : (m1.queue c X.length).work = some (L.map fun d => (d.words, d.label)) := by
    unfold Mem.work
    have : (m1.queue c X.length).jobs = (List.range X.length).map fun i => (c, i) := by
      unfold Mem.queue
      dsimp only
      rw [hj1, List.nil_append]
    rw [this, List.mapM_map]
    have e : ((fun j : ℕ × ℕ => (m1.queue c X.length).at j.1 j.2) ∘ fun i => (c, i)) =
        fun i => (m1.queue c X.length).at c i := rfl
    rw [e, hL1]
    rfl
  simp only [step, Mem.size, h1, Option.bind_some, h4, hX1, Var.read, Option.map_some, hw]

/-! ### Documents are copies -/

/-- What no operation changes. -/
structure Frame (m m' : Mem D) : Prop where
  docs : ∀ d o, m.docs d = some o → m'.docs d = some o
  corp : ∀ c o, m.corpora c = some o → ∃ o', m'.corpora c = some o' ∧ o'.priors = o.priors ∧ o'.x = o.x ∧ o'.y = o.y
  gone : ∀ c, m.corpora c ≠ none → m.corpus c = none → m'.corpus c = none
  dead : ∀ x, m.mats x = .dead → m'.mats x = .dead

theorem Frame.refl (m : Mem D) : Frame m m :=
  ⟨fun _ _ h => h, fun _ o h => ⟨o, h, rfl, rfl, rfl⟩, fun _ _ h => h, fun _ h => h⟩

theorem Frame.trans (h1 : Frame m m1) (h2 : Frame m1 m2) : Frame m m2 := by
  refine ⟨fun d o h => h2.docs d o (h1.docs d o h), fun c o h => ?_, fun c h h' => ?_, fun x h => h2.dead x (h1.dead x h)⟩
  · obtain ⟨o1, e1, p1, x1, y1⟩ := h1.corp c o h
    obtain ⟨o2, e2, p2, x2, y2⟩ := h2.corp c o1 e1
    exact ⟨o2, e2, p2.trans p1, x2.trans x1, y2.trans y1⟩
  · obtain ⟨o, ho⟩ := Option.ne_none_iff_exists'.1 h
    obtain ⟨o1, e1, _⟩ := h1.corp c o ho
    exact h2.gone c (by rw [e1]; exact fun h => by cases h) (h1.gone c h h')

theorem frame_mats {v : Var (List D)} (h : m.mats x ≠ .dead) : Frame m { m with mats := Function.update m.mats x v } := by
  refine ⟨fun _ _ h => h, fun _ o h => ⟨o, h, rfl, rfl, rfl⟩, fun _ _ h => h, fun x' h' => ?_⟩
  have : x' ≠ x := by rintro rfl; exact h h'
  dsimp only
  rw [Function.update_of_ne this]
  exact h'

theorem frame_labs {f : ℕ → Var (List ℤ)} : Frame m { m with labs := f } :=
  ⟨fun _ _ h => h, fun _ o h => ⟨o, h, rfl, rfl, rfl⟩, fun _ _ h => h, fun _ h => h⟩

theorem frame_setCorpus {o' : CorpusObj} (hc : m.corpus c = some o) (h1 : o'.priors = o.priors) (h2 : o'.x = o.x)
    (h3 : o'.y = o.y) : Frame m (m.setCorpus c o') := by
  have hs := (corpus_some.1 hc).1
  refine ⟨fun _ _ h => h, fun c' o1 h => ?_, fun c' _ h' => ?_, fun _ h => h⟩
  · by_cases e : c' = c
    · subst e
      rw [hs] at h
      cases h
      refine ⟨o', ?_, h1, h2, h3⟩
      unfold Mem.setCorpus
      dsimp only
      rw [Function.update_self]
    · refine ⟨o1, ?_, rfl, rfl, rfl⟩
      unfold Mem.setCorpus
      dsimp only
      rw [Function.update_of_ne e]
      exact h
  · by_contra hcon
    obtain ⟨o1, ho1⟩ := Option.ne_none_iff_exists'.1 hcon
    rw [corpus_some] at ho1
    obtain ⟨e1, e2⟩ := ho1
    by_cases e : c' = c
    · subst e
      rw [hc] at h'
      cases h'
    · unfold Mem.setCorpus at e1
      dsimp only at e1
      rw [Function.update_of_ne e] at e1
      rw [corpus_some.2 ⟨e1, e2⟩] at h'
      cases h'

theorem frame_new {o' : CorpusObj} (hc : m.corpora c = none) : Frame m (m.setCorpus c o') := by
  refine ⟨fun _ _ h => h, fun c' o1 h => ?_, fun c' hne h' => ?_, fun _ h => h⟩
  · have e : c' ≠ c := by rintro rfl; rw [hc] at h; cases h
    refine ⟨o1, ?_, rfl, rfl, rfl⟩
    unfold Mem.setCorpus
    dsimp only
    rw [Function.update_of_ne e]
    exact h
  · have e : c' ≠ c := by rintro rfl; exact hne hc
    by_contra hcon
    obtain ⟨o1, ho1⟩ := Option.ne_none_iff_exists'.1 hcon
    rw [corpus_some] at ho1
    obtain ⟨e1, e2⟩ := ho1
    unfold Mem.setCorpus at e1
    dsimp only at e1
    rw [Function.update_of_ne e] at e1
    rw [corpus_some.2 ⟨e1, e2⟩] at h'
    cases h'

theorem frame_jobs {js : List (ℕ × ℕ)} (h : ∀ j ∈ js, j ∈ m.jobs ∨ m.corpus j.1 ≠ none) : Frame m { m with jobs := js } := by
  refine ⟨fun _ _ h => h, fun _ o h => ⟨o, h, rfl, rfl, rfl⟩, fun c _ h' => ?_, fun _ h => h⟩
  by_contra hcon
  obtain ⟨o1, ho1⟩ := Option.ne_none_iff_exists'.1 hcon
  rw [corpus_some] at ho1
  obtain ⟨e1, e2 | ⟨j, hj, e⟩⟩ := ho1
  · rw [(corpus_some (m := m)).2 ⟨e1, Or.inl e2⟩] at h'
    cases h'
  · rcases h j hj with h1 | h1
    · rw [(corpus_some (m := m)).2 ⟨e1, Or.inr ⟨j, h1, e⟩⟩] at h'
      cases h'
    · rw [e] at h1
      exact h1 h'

theorem frame_shuffle {draw : ℕ → ℕ} (h : m.shuffle c draw = some m1) : Frame m m1 := by
  unfold Mem.shuffle at h
  cases hc : m.corpus c with
  | none => rw [hc] at h; cases h
  | some o =>
    rw [hc] at h
    obtain ⟨a, _, rfl⟩ := Option.map_eq_some_iff.1 h
    exact frame_setCorpus hc rfl rfl rfl

theorem frame_step {op : Op D} {ob : Obs D} (h : step m op = some (m1, ob)) : Frame m m1 := by
  cases op with
  | newMat | setMat | endMat =>
    simp only [step] at h
    split at h
    · rename_i h'
      cases h
      exact frame_mats (by rw [h']; exact fun h => by cases h)
    · cases h
  | newLab | setLab | endLab =>
    simp only [step] at h
    split at h
    · cases h
      exact frame_labs
    · cases h
  | newCorpus c x y =>
    simp only [step] at h
    split at h
    · cases h
    · rename_i hc
      obtain ⟨o, _, e⟩ := Option.map_eq_some_iff.1 h
      cases e
      exact frame_new hc
  | shuffle c draw =>
    obtain ⟨m2, h5, e⟩ := Option.map_eq_some_iff.1 h
    cases e
    exact frame_shuffle h5
  | size c =>
    obtain ⟨o, _, h5⟩ := Option.bind_eq_some_iff.1 h
    obtain ⟨n, _, e⟩ := Option.map_eq_some_iff.1 h5
    cases e
    exact Frame.refl m
  | «at» c i d =>
    simp only [step] at h
    split at h
    · cases h
    · rename_i hd
      obtain ⟨o, _, e⟩ := Option.map_eq_some_iff.1 h
      cases e
      refine ⟨fun d' o' h' => ?_, fun _ o h => ⟨o, h, rfl, rfl, rfl⟩, fun _ _ h => h, fun _ h => h⟩
      have : d' ≠ d := by rintro rfl; rw [hd] at h'; cases h'
      dsimp only
      rw [Function.update_of_ne this]
      exact h'
  | release c =>
    simp only [step] at h
    split at h
    · cases h
    · rename_i o hc
      split_ifs at h with hh
      cases h
      exact frame_setCorpus (corpus_some.2 ⟨hc, Or.inl hh⟩) rfl rfl rfl
  | words d =>
    obtain ⟨o, _, e⟩ := Option.map_eq_some_iff.1 h
    cases e
    exact Frame.refl m
  | cls d =>
    obtain ⟨o, _, h5⟩ := Option.bind_eq_some_iff.1 h
    obtain ⟨n, _, e⟩ := Option.map_eq_some_iff.1 h5
    cases e
    exact Frame.refl m
  | prior d l =>
    obtain ⟨o, _, h5⟩ := Option.bind_eq_some_iff.1 h
    obtain ⟨c, _, h6⟩ := Option.bind_eq_some_iff.1 h5
    obtain ⟨o', _, h7⟩ := Option.bind_eq_some_iff.1 h6
    obtain ⟨n, _, e⟩ := Option.map_eq_some_iff.1 h7
    cases e
    exact Frame.refl m
  | docSize d =>
    obtain ⟨o, _, h5⟩ := Option.bind_eq_some_iff.1 h
    obtain ⟨c, _, h6⟩ := Option.bind_eq_some_iff.1 h5
    obtain ⟨o', _, h7⟩ := Option.bind_eq_some_iff.1 h6
    obtain ⟨n, _, e⟩ := Option.map_eq_some_iff.1 h7
    cases e
    exact Frame.refl m
  | fit c draw =>
    obtain ⟨m2, h4, h5⟩ := Option.bind_eq_some_iff.1 h
    obtain ⟨o, _, h6⟩ := Option.bind_eq_some_iff.1 h5
    obtain ⟨n, _, h7⟩ := Option.bind_eq_some_iff.1 h6
    obtain ⟨l, _, e⟩ := Option.map_eq_some_iff.1 h7
    cases e
    exact (frame_shuffle h4).trans (frame_jobs fun j hj => by cases hj)
  | fitThrow c draw k =>
    obtain ⟨m2, h4, h5⟩ := Option.bind_eq_some_iff.1 h
    obtain ⟨o, h8, h6⟩ := Option.bind_eq_some_iff.1 h5
    obtain ⟨n, _, h7⟩ := Option.bind_eq_some_iff.1 h6
    split_ifs at h7
    cases h7
    refine (frame_shuffle h4).trans (frame_jobs fun j hj => ?_)
    simp only [List.mem_append, List.mem_map] at hj
    rcases hj with hj | ⟨i, _, rfl⟩
    · exact Or.inl hj
    · exact Or.inr (by rw [h8]; exact fun h => by cases h)

theorem frame_run : ∀ (ops : List (Op D)) (m m' : Mem D) (obs : List (Obs D)), run m ops = some (m', obs) → Frame m m' := by
  intro ops
  induction ops with
  | nil => intro m m' obs h; cases h; exact Frame.refl m
  | cons op ops ih =>
    intro m m' obs h
    unfold run at h
    obtain ⟨⟨m1, ob⟩, h1, h2⟩ := Option.bind_eq_some_iff.1 h
    obtain ⟨⟨m2, obs'⟩, h3, h4⟩ := Option.map_eq_some_iff.1 h2
    cases h4
    exact (frame_step h1).trans (ih m1 _ obs' h3)

/-- C128: a document keeps its words and its label, whatever the caller does afterwards to the matrix, the labels and
the corpus: they are those that the matrix and the labels had when the document was asked for. -/
theorem C128_document {ob : Obs D} (h : step m (.at c i d) = some (m1, ob)) {ops : List (Op D)} {obs : List (Obs D)}
    (hr : run m1 ops = some (m2, obs)) : ∃ o X j w, m.corpora c = some o ∧ o.indices[i]? = some j ∧ m.mats o.x = .live X ∧
      X[j]? = some w ∧ step m2 (.words d) = some (m2, .words w) ∧
      ∀ y, o.y = some y → ∃ ls l, m.labs y = .live ls ∧ ls[j]? = some l ∧ step m2 (.cls d) = some (m2, .cls l) := by
  have hread : ∀ {A : Type} {v : Var A} {a : A}, v.read = some a → v = .live a := by
    intro A v a hv
    cases v <;> cases hv
    rfl
  simp only [step] at h
  split at h
  · cases h
  · obtain ⟨q, hq, e⟩ := Option.map_eq_some_iff.1 h
    cases e
    have hd := (frame_run ops _ _ _ hr).docs d q (by dsimp only; rw [Function.update_self])
    unfold Mem.at at hq
    cases hc : m.corpus c with
    | none => rw [hc] at hq; cases hq
    | some o =>
      rw [hc] at hq
      dsimp only at hq
      split at hq
      · rename_i j X hj hX
        split at hq
        · rename_i w hw hy
          cases hq
          exact ⟨o, X, j, w, (corpus_some.1 hc).1, hj, hread hX, hw, by simp only [step, hd]; rfl, fun y h => by
            rw [hy] at h; cases h⟩
        · rename_i w y hw hy
          split at hq
          · cases hq
          · rename_i ls hls
            obtain ⟨l, hl, e⟩ := Option.map_eq_some_iff.1 hq
            cases e
            refine ⟨o, X, j, w, (corpus_some.1 hc).1, hj, hread hX, hw, by simp only [step, hd]; rfl, fun y' h => ?_⟩
            rw [hy] at h
            cases h
            exact ⟨ls, l, hread hls, hl, by simp only [step, hd]; rfl⟩
        · cases hq
      · cases hq

/-- The priors of a corpus are those of the labels that it was constructed from, whatever the labels are afterwards. -/
theorem C128_priors {ls : List ℤ} (hls : m.labs y = .live ls) {ob : Obs D} (h : step m (.newCorpus c x (some y)) = some (m1, ob))
    {ops : List (Op D)} {obs : List (Obs D)} (hr : run m1 ops = some (m2, obs)) {q : DocObj D} (hd : m2.docs d = some q)
    (hq : q.corpus = some c) {l : ℤ} {m3 : Mem D} {ob' : Obs D} (hp : step m2 (.prior d l) = some (m3, ob')) :
    ob' = .prior ((ls.count l : ℚ) / (ls.length : ℚ)) := by
  simp only [step] at h
  split at h
  · cases h
  · obtain ⟨o, ho, e⟩ := Option.map_eq_some_iff.1 h
    cases e
    have hpri : Corpus.priors ls = some o.priors := by
      unfold Mem.construct at ho
      split at ho
      · cases ho
      · dsimp only at ho
        rw [hls] at ho
        dsimp only [Var.read] at ho
        obtain ⟨p, h1, e⟩ := Option.map_eq_some_iff.1 ho
        cases e
        exact h1
    obtain ⟨o', h1, h2, _⟩ := (frame_run ops _ _ _ hr).corp c o (by unfold Mem.setCorpus; dsimp only; rw [Function.update_self])
    simp only [step, hd, Option.bind_some, hq] at hp
    obtain ⟨o2, h3, h4⟩ := Option.bind_eq_some_iff.1 hp
    have := (corpus_some.1 h3).1
    rw [h1] at this
    cases this
    obtain ⟨p, h5, e⟩ := Option.map_eq_some_iff.1 h4
    cases e
    rw [h2] at h5
    have hne : ls ≠ [] ∧ ∀ l ∈ ls, 0 ≤ l := by
      have := (not_congr (Corpus.C18_undefined ls)).1 (by rw [hpri]; exact fun h => by cases h)
      push Not at this
      exact this
    obtain ⟨p', mx, h6, _, _, h7, _⟩ := Corpus.C18_priors ls hne.1 hne.2
    rw [hpri] at h6
    cases h6
    rw [h7] at h5
    split_ifs at h5
    cases h5
    rfl

/-! ### Where the rules are needed -/

/-- C128 fails: a document's `shared_ptr` to its corpus does not keep the corpus.  Once nobody else has the corpus, every
use of it through a document is undefined, whatever happens in between. -/
theorem C128_orphan {ob : Obs D} (h : step m (.release c) = some (m1, ob)) (hj : ∀ j ∈ m.jobs, j.1 ≠ c) {ops : List (Op D)}
    {obs : List (Obs D)} (hr : run m1 ops = some (m2, obs)) {q : DocObj D} (hd : m2.docs d = some q) (hq : q.corpus = some c)
    (l : ℤ) : step m2 (.prior d l) = none ∧ step m2 (.docSize d) = none := by
  have hgone : m2.corpus c = none := by
    simp only [step] at h
    split at h
    · cases h
    · rename_i o hc
      split_ifs at h with hh
      cases h
      refine (frame_run ops _ _ _ hr).gone c ?_ ?_
      · unfold Mem.setCorpus
        dsimp only
        rw [Function.update_self]
        exact fun h => by cases h
      · by_contra hcon
        obtain ⟨o1, ho1⟩ := Option.ne_none_iff_exists'.1 hcon
        rw [corpus_some] at ho1
        obtain ⟨e1, e2 | ⟨j, hj', e⟩⟩ := ho1
        · unfold Mem.setCorpus at e1
          dsimp only at e1
          rw [Function.update_self] at e1
          cases e1
          cases e2
        · exact hj j hj' e
  simp only [step, hd, Option.bind_some, hq, hgone]
  exact ⟨rfl, rfl⟩

theorem mapM_none {A B : Type} {f : A → Option B} {a : A} {l : List A} (h : a ∈ l) (hf : f a = none) : l.mapM f = none := by
  induction l with
  | nil => cases h
  | cons b l ih =>
    rw [List.mapM_cons]
    rcases List.mem_cons.1 h with rfl | h
    · rw [hf]; rfl
    · rw [ih h]
      cases f b <;> rfl

/-- C128 fails: a call that is left by an exception leaves jobs behind that refer to the caller's matrix.  If the
matrix ends, the next call, with whatever corpus, is undefined. -/
theorem C128_leftover {j : ℕ × ℕ} (hj : j ∈ m.jobs) (hc : m.corpora j.1 = some o) (hd : m.mats o.x = .dead) (c : ℕ)
    (draw : ℕ → ℕ) : step m (.fit c draw) = none := by
  by_contra hcon
  obtain ⟨r, hr⟩ := Option.ne_none_iff_exists'.1 hcon
  obtain ⟨m2, h4, h5⟩ := Option.bind_eq_some_iff.1 hr
  obtain ⟨o1, _, h6⟩ := Option.bind_eq_some_iff.1 h5
  obtain ⟨n, _, h7⟩ := Option.bind_eq_some_iff.1 h6
  obtain ⟨l, hl, _⟩ := Option.map_eq_some_iff.1 h7
  have hF := frame_shuffle h4
  obtain ⟨o', e1, _, e2, _⟩ := hF.corp _ _ hc
  have hd2 : m2.mats o'.x = .dead := by rw [e2]; exact hF.dead _ hd
  have hj2 : j ∈ (m2.queue c n).jobs := by
    have : m2.jobs = m.jobs := by
      unfold Mem.shuffle at h4
      split at h4
      · cases h4
      · obtain ⟨a, _, rfl⟩ := Option.map_eq_some_iff.1 h4
        rfl
    unfold Mem.queue
    dsimp only
    rw [this]
    exact List.mem_append_left _ hj
  have hat : (m2.queue c n).at j.1 j.2 = none := by
    unfold Mem.at
    have : (m2.queue c n).corpus j.1 = some o' := corpus_some.2 ⟨e1, Or.inr ⟨j, hj2, rfl⟩⟩
    rw [this]
    have e3 : ((m2.queue c n).mats o'.x).read = none := by
      show (m2.mats o'.x).read = none
      rw [hd2]; rfl
    simp only [e3]
    split
    · rename_i h
      cases h
    · rfl
  unfold Mem.work at hl
  rw [mapM_none hj2 hat] at hl
  cases hl

/-- C128 fails: a corpus whose matrix has got more columns than it was constructed with cannot be used for training. -/
theorem C128_grown {X : List D} (hc : m.corpora c = some o) (hX : m.mats o.x = .live X) (hlen : o.indices.length < X.length)
    (draw : ℕ → ℕ) : step m (.fit c draw) = none := by
  by_contra hcon
  obtain ⟨r, hr⟩ := Option.ne_none_iff_exists'.1 hcon
  obtain ⟨m2, h4, h5⟩ := Option.bind_eq_some_iff.1 hr
  obtain ⟨o1, h8, h6⟩ := Option.bind_eq_some_iff.1 h5
  obtain ⟨n, hn, h7⟩ := Option.bind_eq_some_iff.1 h6
  obtain ⟨l, hl, _⟩ := Option.map_eq_some_iff.1 h7
  have hs : ∃ a, a.Perm o.indices ∧ m2 = m.setCorpus c { o with indices := a } := by
    unfold Mem.shuffle at h4
    cases e : m.corpus c with
    | none => rw [e] at h4; cases h4
    | some o' =>
      have := (corpus_some.1 e).1
      rw [hc] at this
      cases this
      rw [e] at h4
      obtain ⟨a, ha, rfl⟩ := Option.map_eq_some_iff.1 h4
      obtain ⟨b, hb, hp⟩ := Corpus.shuffle_perm draw o.indices
      rw [ha] at hb
      cases hb
      exact ⟨a, hp, rfl⟩
  obtain ⟨a, ha, rfl⟩ := hs
  have ho : o1 = { o with indices := a } := by
    have := (corpus_some.1 h8).1
    unfold Mem.setCorpus at this
    dsimp only at this
    rw [Function.update_self] at this
    cases this
    rfl
  subst ho
  have hn' : n = X.length := by
    have : (m.mats o.x).read.map List.length = some n := hn
    rw [hX] at this
    cases this
    rfl
  subst hn'
  have hmem : (c, a.length) ∈ ((m.setCorpus c { o with indices := a }).queue c X.length).jobs := by
    unfold Mem.queue
    dsimp only
    refine List.mem_append_right _ (List.mem_map.2 ⟨a.length, List.mem_range.2 ?_, rfl⟩)
    rw [ha.length_eq]
    exact hlen
  have hat : ((m.setCorpus c { o with indices := a }).queue c X.length).at c a.length = none := by
    unfold Mem.at
    have : ((m.setCorpus c { o with indices := a }).queue c X.length).corpus c = some { o with indices := a } :=
      corpus_some.2 ⟨(corpus_some.1 h8).1, Or.inr ⟨_, hmem, rfl⟩⟩
    rw [this]
    simp only [List.getElem?_eq_none (le_refl a.length)]
  unfold Mem.work at hl
  rw [mapM_none hmem hat] at hl
  cases hl

/-! ### Examples -/

/-- Two documents, of class 1 and 0, which change between two calls. -/
def changing : List (Op String) :=
  [.newMat 0 ["a", "b"], .newLab 0 [1, 0], .newCorpus 0 0 (some 0), .at 0 1 0, .setMat 0 ["c", "d"], .setLab 0 [1, 1],
    .fit 0 (fun _ => 0), .words 0, .cls 0, .prior 0 1, .release 0, .endMat 0, .words 0]

/-- What is seen: the call gets the new documents, the document keeps the old ones, the prior is that of the old labels. -/
example : (run Mem.empty changing).map Prod.snd = some [.done, .done, .done, .done, .done, .done,
    .docs [("d", some 1), ("c", some 1)], .words "b", .cls 0, .prior (1 / 2), .done, .done, .words "b"] := by
  decide +kernel

/-- A history that follows the rules, without labels. -/
example : CarefulRun (D := String) Mem.empty [.newMat 0 ["a", "b"], .newCorpus 0 0 none, .at 0 1 0, .setMat 0 ["c", "d"],
    .fit 0 (fun _ => 0), .words 0, .release 0, .endMat 0, .words 0] := by
  refine ⟨rfl, fun m ob h => ?_⟩
  cases h
  refine ⟨⟨rfl, _, rfl, fun y hy => by cases hy⟩, fun m ob h => ?_⟩
  cases h
  refine ⟨⟨rfl, _, _, rfl, rfl, rfl, by decide⟩, fun m ob h => ?_⟩
  cases h
  refine ⟨⟨_, rfl, fun _ _ _ _ => rfl⟩, fun m ob h => ?_⟩
  cases h
  refine ⟨⟨_, rfl, rfl⟩, fun m ob h => ?_⟩
  cases h
  refine ⟨(fun h => by cases h), fun m ob h => ?_⟩
  cases h
  refine ⟨⟨_, rfl, rfl⟩, fun m ob h => ?_⟩
  cases h
  refine ⟨⟨⟨_, rfl⟩, fun c o hc => ?_⟩, fun m ob h => ?_⟩
  · rw [corpus_some] at hc
    obtain ⟨e1, e2 | ⟨j, hj, _⟩⟩ := hc
    · by_cases h0 : c = 0
      · subst h0
        cases e1
        cases e2
      · cases c with
        | zero => exact absurd rfl h0
        | succ c => cases e1
    · cases hj
  cases h
  exact ⟨(fun h => by cases h), fun _ _ _ => trivial⟩

/-- And one with labels. -/
example : CarefulRun (D := String) Mem.empty [.newMat 0 ["a", "b"], .newLab 0 [1, 0], .newCorpus 0 0 (some 0)] := by
  refine ⟨rfl, fun m ob h => ?_⟩
  cases h
  refine ⟨rfl, fun m ob h => ?_⟩
  cases h
  refine ⟨⟨rfl, _, rfl, fun y hy => ?_⟩, fun _ _ _ => trivial⟩
  cases hy
  exact ⟨[1, 0], rfl, le_rfl, by decide, by decide⟩

/-- A document whose corpus is gone. -/
example : run (D := String) Mem.empty [.newMat 0 ["a", "b"], .newLab 0 [1, 0], .newCorpus 0 0 (some 0), .at 0 1 0,
    .release 0] ≠ none ∧ run (D := String) Mem.empty [.newMat 0 ["a", "b"], .newLab 0 [1, 0], .newCorpus 0 0 (some 0),
      .at 0 1 0, .release 0, .docSize 0] = none := by
  refine ⟨fun h => ?_, ?_⟩
  · have : (run (D := String) Mem.empty [.newMat 0 ["a", "b"], .newLab 0 [1, 0], .newCorpus 0 0 (some 0), .at 0 1 0,
      .release 0]).isSome = true := by decide +kernel
    rw [h] at this
    cases this
  · have : (run (D := String) Mem.empty [.newMat 0 ["a", "b"], .newLab 0 [1, 0], .newCorpus 0 0 (some 0), .at 0 1 0,
      .release 0, .docSize 0]).isNone = true := by decide +kernel
    exact Option.isNone_iff_eq_none.1 this

/-- A call that fails, after which its matrix ends, and a call with another matrix. -/
example : (run (D := String) Mem.empty [.newMat 0 ["a", "b"], .newCorpus 0 0 none, .fitThrow 0 (fun _ => 0) 1, .release 0,
      .endMat 0, .newMat 1 ["c"], .newCorpus 1 1 none]).isSome = true ∧
    (run (D := String) Mem.empty [.newMat 0 ["a", "b"], .newCorpus 0 0 none, .fitThrow 0 (fun _ => 0) 1, .release 0,
      .endMat 0, .newMat 1 ["c"], .newCorpus 1 1 none, .fit 1 (fun _ => 0)]).isNone = true := by
  decide +kernel

/-- A matrix that has got another column. -/
example : (run (D := String) Mem.empty [.newMat 0 ["a"], .newCorpus 0 0 none, .setMat 0 ["a", "b"], .size 0]).isSome = true ∧
    (run (D := String) Mem.empty [.newMat 0 ["a"], .newCorpus 0 0 none, .setMat 0 ["a", "b"],
      .fit 0 (fun _ => 0)]).isNone = true := by
  decide +kernel

end Verif.View
