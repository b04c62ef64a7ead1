import Verif.Model.Tower
import Verif.Props.Nested
import Verif.Props.Object

/-! Property C133 for listeners that call `partial_fit`. -/
namespace Verif.Pool

variable {M P R : Type}

/-- A call that is past the work of its epoch: only the event that ends it is left. -/
def Late (f : Frame M P R) : Prop :=
  f.c.owner = true ∧ (∀ w, f.s.ws w = .done) ∧ (f.s.main = .epoch ∨ f.s.main = .ret)

/-- Either the innermost call is an execution of it that began when the calls made before it had returned, or it has
already been followed by others. -/
def TowerOk (m : M) : Tower M P R → Prop
  | .dead => True
  | .live cs f fs => (∀ g ∈ fs, Late g ∧ g.s.main = .epoch) ∧ (fs ≠ [] → f.c.owner = true) ∧
      ((∃ cs0 m0 logs, cs = cs0 ++ [f.c] ∧ Calls cs0 .empty m .empty m0 logs ∧ Reachable f.c m0 f.s) ∨
        (∃ logs, Late f ∧ Calls cs .empty m .empty f.s.model logs ∧ f.s.left = .empty))

theorem calls_after {cs : List (Cfg M P R)} {c : Cfg M P R} {l : Left R} {m m0 : M} {logs : List (List (Obs R))}
    (h : Calls cs l m .empty m0 logs) {s : St M R c.W} (hr : Reachable c m0 s) (hm : s.main = .ret) :
    Calls (cs ++ [c]) l m s.left s.model (logs ++ [s.log]) := by
  obtain ⟨as, has⟩ := hr
  exact calls_append.2 ⟨_, _, _, _, rfl, h, .cons as s has hm (.nil _ _)⟩

theorem epoch_returns {c : Cfg M P R} {m : M} {s : St M R c.W} (hr : Reachable c m s) (ho : c.owner = true)
    (h : s.main = .epoch) : s.left = .empty ∧ (∀ w, s.ws w = .done) ∧
      ∃ s', Reachable c m s' ∧ s'.main = .ret ∧ s'.model = s.model ∧ s'.left = .empty := by
  obtain ⟨-, h1, h2⟩ := late_clean hr (.inr h)
  have h3 := evq_late hr ho (.inr h)
  have hb := inv_born s hr
  rw [h] at hb
  have hs : step c s .main = some { dispatch c s .epoch with main := .ret } := by
    simp only [step, mainStep, h]
  refine ⟨by simp [St.left, h1, h2, h3, Left.empty], hb, _, hr.step hs, rfl, ?_, ?_⟩
  · simp only [dispatch, ho, if_true, flush]
  · simp only [dispatch, ho, if_true, flush, St.left, h1, h2, Left.empty]

theorem ret_left {c : Cfg M P R} {m : M} {s : St M R c.W} (hr : Reachable c m s) (ho : c.owner = true)
    (h : s.main = .ret) : s.left = .empty := by
  have := C06_nothing_left hr h
  simp [St.left, Left.empty, this.1, this.2.1, this.2.2.2 ho]

theorem tower_ok_step {m : M} {t t' : Tower M P R} {a : TAct M P R} (hI : TowerOk m t) (h : towerStep t a = some t') :
    TowerOk m t' := by
  cases t with
  | dead => cases a <;> simp [towerStep] at h
  | live cs f fs =>
    obtain ⟨h1, h2, h3⟩ := hI
    obtain ⟨c, s⟩ := f
    cases a with
    | go a =>
      simp only [towerStep, Option.map_eq_some_iff] at h
      obtain ⟨s', hs, rfl⟩ := h
      refine ⟨h1, h2, ?_⟩
      rcases h3 with ⟨cs0, m0, logs, e, hc, hr⟩ | ⟨logs, ⟨ho, hd, hm⟩, hc, hl⟩
      · exact .inl ⟨cs0, m0, logs, e, hc, hr.step hs⟩
      · right
        obtain ⟨g1, g2⟩ := model_late hd hs hm
        refine ⟨logs, ⟨ho, ?_, g1⟩, by rw [g2]; exact hc, ?_⟩ <;>
        · simp only at hs hd hm ho hl
          cases a with
          | main =>
            rcases hm with hm | hm
            · simp only [step, mainStep, hm, Option.some.injEq] at hs
              subst hs
              simp only [St.left, Left.empty, Left.mk.injEq] at hl
              simp [dispatch, ho, flush, hd, St.left, Left.empty, hl]
            · simp [step, mainStep, hm] at hs
          | worker j =>
            simp only [step] at hs
            split at hs
            · simp only [workerStep, hd] at hs; cases hs
            · cases hs
          | spurious =>
            simp only [step] at hs
            rcases hm with hm | hm <;> rw [hm] at hs <;> cases hs
    | nest c' =>
      simp only [towerStep] at h
      split at h
      · rename_i hc'
        cases hsp : speaks c s with
        | none => simp [hsp] at h
        | some pt =>
          rw [hsp] at h
          cases pt with
          | batch => cases h
          | shuffle => rcases (speaks_late hsp (fun k hk => by cases hk)).2 with ⟨_, hb⟩ | ⟨_, hb⟩ <;> cases hb
          | queue => rcases (speaks_late hsp (fun k hk => by cases hk)).2 with ⟨_, hb⟩ | ⟨_, hb⟩ <;> cases hb
          | thread => rcases (speaks_late hsp (fun k hk => by cases hk)).2 with ⟨_, hb⟩ | ⟨_, hb⟩ <;> cases hb
          | document k =>
            simp only at h
            split at h
            · cases h; trivial
            · rename_i hj
              rcases h3 with ⟨cs0, m0, logs, e, hc, hr⟩ | ⟨logs, ⟨ho, hd, hm⟩, hc, hl⟩
              · exact absurd (document_busy hr hsp) hj
              · unfold speaks at hsp
                simp only at hm
                rcases hm with hm | hm <;> rw [hm] at hsp <;> simp at hsp
          | epoch =>
            simp only at h
            split at h
            · cases h; trivial
            · cases h
              obtain ⟨ho, hpc⟩ := speaks_late hsp (fun k hk => by cases hk)
              have hm : s.main = .epoch := by
                rcases hpc with ⟨_, hb⟩ | ⟨hm, _⟩
                · cases hb
                · exact hm
              have main : ∃ logs, s.left = .empty ∧ (∀ w, s.ws w = .done) ∧ Calls cs .empty m .empty s.model logs := by
                rcases h3 with ⟨cs0, m0, logs, e, hc, hr⟩ | ⟨logs, ⟨ho, hd, _⟩, hc, hl⟩
                · obtain ⟨g1, g2, s', g3, g4, g5, g6⟩ := epoch_returns hr ho hm
                  have := calls_after hc g3 g4
                  rw [g5, g6] at this
                  rw [e]
                  exact ⟨_, g1, g2, this⟩
                · exact ⟨logs, hl, hd, hc⟩
              obtain ⟨logs, hl, hd, hc⟩ := main
              refine ⟨fun g hg => ?_, fun _ => hc'.2.1.trans ho, .inl ⟨cs, s.model, logs, rfl, hc, ?_⟩⟩
              · rcases List.mem_cons.1 hg with rfl | hg
                · exact ⟨⟨ho, hd, .inl hm⟩, hm⟩
                · exact h1 g hg
              · simp only [hl]
                exact Reachable.init _ _
      · cases h
    | back =>
      cases fs with
      | nil => simp [towerStep] at h
      | cons g fs =>
        simp only [towerStep] at h
        split at h
        · rename_i hm
          cases h
          have ho : c.owner = true := h2 (by simp)
          have main : ∃ logs, s.left = .empty ∧ Calls cs .empty m .empty s.model logs := by
            rcases h3 with ⟨cs0, m0, logs, e, hc, hr⟩ | ⟨logs, ⟨_, hd, _⟩, hc, hl⟩
            · have hl := ret_left hr ho hm
              have := calls_after hc hr hm
              simp only [hl] at this
              rw [e]
              exact ⟨_, hl, this⟩
            · exact ⟨logs, hl, hc⟩
          obtain ⟨logs, hl, hc⟩ := main
          obtain ⟨⟨g1, g2, g3⟩, g4⟩ := h1 g (by simp)
          exact ⟨fun x hx => h1 x (by simp [hx]), fun _ => g1, .inr ⟨logs, ⟨g1, g2, .inl g4⟩, hc, hl⟩⟩
        · cases h

theorem tower_ok_run {m : M} (as : List (TAct M P R)) {t t' : Tower M P R} (hI : TowerOk m t)
    (h : towerRun t as = some t') : TowerOk m t' := by
  induction as generalizing t with
  | nil => cases h; exact hI
  | cons a as ih =>
    simp only [towerRun, Option.bind_eq_some_iff] at h
    obtain ⟨t1, h1, h2⟩ := h
    exact ih (tower_ok_step hI h1) h2

theorem tower_ok_init (c : Cfg M P R) (m : M) : TowerOk m (towerInit c m) :=
  ⟨by simp, by simp, .inl ⟨[], m, [], rfl, .nil _ _, Reachable.init c m⟩⟩

/-- **C133**, nested training.  When the outermost call returns, whatever calls of `partial_fit` were made by listeners of
the events that end an epoch, how often and how deep, the model is one that the same calls made one after the other, in
the order in which they were begun, can leave. -/
theorem C133_continued_partial {c : Cfg M P R} {m : M} {as : List (TAct M P R)} {cs : List (Cfg M P R)} {f : Frame M P R}
    (h : towerRun (towerInit c m) as = some (.live cs f [])) (hr : f.s.main = .ret) :
    ∃ logs, Calls cs .empty m f.s.left f.s.model logs := by
  obtain ⟨-, -, h3⟩ := tower_ok_run as (tower_ok_init c m) h
  rcases h3 with ⟨cs0, m0, logs, e, hc, hr'⟩ | ⟨logs, _, hc, hl⟩
  · rw [e]
    exact ⟨_, calls_after hc hr' hr⟩
  · rw [hl]
    exact ⟨logs, hc⟩

/-- **C133**, what the listeners of such an event see: the model that all the calls begun so far leave.  So a listener that
is called after one that has trained on sees the event of an epoch with the parameters of a later one. -/
theorem C133_seen {c : Cfg M P R} {m : M} {as : List (TAct M P R)} {cs : List (Cfg M P R)} {f : Frame M P R}
    {fs : List (Frame M P R)} (h : towerRun (towerInit c m) as = some (.live cs f fs)) (hs : speaks f.c f.s = some .epoch) :
    ∃ logs, Calls cs .empty m .empty f.s.model logs := by
  obtain ⟨-, -, h3⟩ := tower_ok_run as (tower_ok_init c m) h
  obtain ⟨ho, hpc⟩ := speaks_late hs (fun k hk => by cases hk)
  have hm : f.s.main = .epoch := by
    rcases hpc with ⟨_, hb⟩ | ⟨hm, _⟩
    · cases hb
    · exact hm
  rcases h3 with ⟨cs0, m0, logs, e, hc, hr⟩ | ⟨logs, _, hc, _⟩
  · obtain ⟨_, _, s', g3, g4, g5, g6⟩ := epoch_returns hr ho hm
    have := calls_after hc g3 g4
    rw [g5, g6] at this
    rw [e]
    exact ⟨_, this⟩
  · exact ⟨logs, hc⟩

/-- **C133**, when a nested call of `partial_fit` survives: always for a listener of the event that ends an epoch, never for
a listener of an event raised while documents are processed. -/
theorem C133_nest {c c' : Cfg M P R} {m : M} {as : List (TAct M P R)} {cs : List (Cfg M P R)} {f : Frame M P R}
    {fs : List (Frame M P R)} (h : towerRun (towerInit c m) as = some (.live cs f fs)) (hW : c'.W = f.c.W)
    (ho : c'.owner = f.c.owner) (hk : c'.kind = .partialFit) :
    (speaks f.c f.s = some .epoch →
      towerStep (.live cs f fs) (.nest c') = some (.live (cs ++ [c']) ⟨c', start c' .empty f.s.model⟩ (f :: fs))) ∧
    ∀ k, speaks f.c f.s = some (.document k) → towerStep (.live cs f fs) (.nest c') = some .dead := by
  obtain ⟨-, -, h3⟩ := tower_ok_run as (tower_ok_init c m) h
  constructor
  · intro hs
    obtain ⟨ho', hpc⟩ := speaks_late hs (fun k hk => by cases hk)
    have hm : f.s.main = .epoch := by
      rcases hpc with ⟨_, hb⟩ | ⟨hm, _⟩
      · cases hb
      · exact hm
    have main : anyJoinable f.s = false ∧ f.s.left = .empty := by
      rcases h3 with ⟨cs0, m0, logs, e, hc, hr⟩ | ⟨logs, ⟨_, hd, _⟩, hc, hl⟩
      · exact ⟨(late_clean hr (.inr hm)).1, (epoch_returns hr ho' hm).1⟩
      · refine ⟨?_, hl⟩
        rw [Bool.eq_false_iff]
        intro hj
        obtain ⟨j, hj⟩ := anyJoinable_iff.1 hj
        have := j.isLt
        simp only [joinable, hm, MPc.joined, Bool.and_eq_true, decide_eq_true_eq] at hj
        omega
    simp only [towerStep, hW, ho, hk, and_self, if_true, hs, main.1, Bool.false_eq_true, if_false, main.2]
  · intro k hs
    have hj : anyJoinable f.s = true := by
      rcases h3 with ⟨cs0, m0, logs, e, hc, hr⟩ | ⟨logs, ⟨_, _, hm⟩, _, _⟩
      · exact document_busy hr hs
      · unfold speaks at hs
        rcases hm with hm | hm <;> rw [hm] at hs <;> simp at hs
    simp only [towerStep, hW, ho, hk, and_self, if_true, hs, hj]

/-! ### The hypotheses can be met -/

/-- One worker and one document; the model counts documents and epochs. -/
def towerCfg : Cfg (Nat × Nat) (Nat × Nat) Nat := ⟨1, 1, .partialFit, true, id, fun p i => p.1 + i, fun _ _ m => ((m.1 + 1, m.2), 0),
  fun m => ((m.1, m.2 + 1), 0)⟩

/-- A call up to the event that ends the epoch. -/
def towerActs : List (TAct (Nat × Nat) (Nat × Nat) Nat) :=
  [.go .main, .go .main] ++ List.replicate 5 (.go (.worker 0)) ++ List.replicate 7 (.go .main)

/-- A listener trains for another epoch, during which a listener trains for yet another one. -/
example : ∃ (cs : List (Cfg (Nat × Nat) (Nat × Nat) Nat)) (f : Frame (Nat × Nat) (Nat × Nat) Nat),
    towerRun (towerInit towerCfg (0, 0)) (towerActs ++ [.nest towerCfg] ++ towerActs ++ [.nest towerCfg] ++ towerActs ++
      [.go .main, .back, .go .main, .back, .go .main]) = some (.live cs f []) ∧ f.s.main = .ret ∧ f.s.model = (3, 3) ∧ cs.length = 3 :=
  ⟨_, _, rfl, rfl, rfl, rfl⟩

/-- A listener of the event that ends an epoch can be running after another listener has trained. -/
example : ∃ (cs : List (Cfg (Nat × Nat) (Nat × Nat) Nat)) (f : Frame (Nat × Nat) (Nat × Nat) Nat),
    towerRun (towerInit towerCfg (0, 0)) (towerActs ++ [.nest towerCfg] ++ towerActs ++ [.go .main, .back]) =
      some (.live cs f []) ∧ speaks f.c f.s = some .epoch ∧ f.s.model = (2, 2) :=
  ⟨_, _, rfl, rfl, rfl⟩

end Verif.Pool
