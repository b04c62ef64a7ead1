import Verif.Model.Fine
import Verif.Props.Pool

/-
C122.  The small-step machine of `Model/Fine` and the machine of `Model/Pool`, in which a critical section is one step and
the E step reads the model once, have the same outcomes.
-/
namespace Verif.Fine

open Pool (Cfg Kind Ev Obs Left BatchM)

variable {M P R : Type}

/-- The value of the E step is that of `Pool` when all the reads see the same parameters. -/
def Faithful (c : Cfg M P R) (d : Reads P R) : Prop :=
  ∀ i p, d.value i (List.replicate (d.count i) p) = c.eval p i

/-- The M step for one document dispatches no event (all but the online M step). -/
def Silent (c : Cfg M P R) : Prop := ∀ i r m, (c.docStep i r m).2 = 0

/-! ### The relation -/

def absW : WPc P R → Pool.WPc R
  | .unborn => .unborn
  | .start => .fetch
  | .look => .fetch
  | .pop _ => .fetch
  | .leaveIn i => .work i
  | .quit => .done
  | .reads i _ => .work i
  | .ev0 i _ => .work i
  | .ev1 i _ => .work i
  | .ev2 i _ _ => .work i
  | .ev3 i r => .push i r
  | .out0 i r => .push i r
  | .out1 i r => .push i r
  | .out2 i r _ => .push i r
  | .out3 => .notify
  | .sig => .notify
  | .done => .done

def holdsIn : WPc P R → Prop
  | .look => True
  | .pop _ => True
  | .leaveIn _ => True
  | .quit => True
  | _ => False

def holdsOut : WPc P R → Prop
  | .out1 _ _ => True
  | .out2 _ _ _ => True
  | .out3 => True
  | _ => False

def holdsEv : WPc P R → Prop
  | .ev1 _ _ => True
  | .ev2 _ _ _ => True
  | .ev3 _ _ => True
  | _ => False

/-- What a worker remembers is still so. -/
def WOk (c : Cfg M P R) (d : Reads P R) (qin : List Nat) (qout : List (R × Nat)) (evq : List Ev) (p : P) :
    WPc P R → Prop
  | .pop i => ∃ q, qin = i :: q
  | .reads i ps => ps = List.replicate ps.length p ∧ ps.length ≤ d.count i
  | .ev0 i r => r = c.eval p i
  | .ev1 i r => r = c.eval p i
  | .ev2 i r q => r = c.eval p i ∧ evq = q
  | .out2 _ _ q => qout = q
  | _ => True

/-- The calling thread has not yet cleared the queue of events. -/
def Pre {W : Nat} (todo : List MI) (f : St M P R W) : Prop :=
  todo = [.lockEv, .copy] ∨ (todo = [.copy] ∧ f.evM = some .main) ∨
    (todo = [.clear f.evq] ∧ f.evM = some .main)

/-- It has, and `es` are still to be delivered. -/
def Post {W : Nat} (todo : List MI) (es : List Ev) (f : St M P R W) : Prop :=
  (todo = .unlockEv :: es.map .deliver ∧ f.evM = some .main) ∨ todo = es.map .deliver

/-- What is left to do, done at once. -/
def fin : List MI → List Ev → List (Obs R) → List Ev × List (Obs R)
  | [], q, l => (q, l)
  | .lockEv :: t, q, l => fin t q l
  | .unlockEv :: t, q, l => fin t q l
  | .copy :: t, q, l => fin t [] (l ++ q.map .deliver)
  | .clear es :: t, _, l => fin t [] (l ++ es.map .deliver)
  | .deliver e :: t, q, l => fin t q (l ++ [.deliver e])
  | .load e :: t, q, l => fin t (q ++ [e]) l
  | .store e q' :: t, _, l => fin t (q' ++ [e]) l

def MOk (c : Cfg M P R) (f : St M P R c.W) (s : Pool.St M R c.W) : Prop :=
  match f.main with
  | .spawn j => s.main = .spawn j ∧ s.evq = f.evq ∧ s.log = f.log
  | .loop k => s.main = .loop k ∧ s.evq = f.evq ∧ s.log = f.log
  | .test k => s.main = .loop k ∧ s.evq = f.evq ∧ s.log = f.log ∧ k < c.n ∧ f.outM = some .main
  | .rel k => s.main = .loop k ∧ s.evq = f.evq ∧ s.log = f.log ∧ k < c.n ∧ f.outM = some .main ∧ f.qout = []
  | .wait k => s.main = .waiting k ∧ s.evq = f.evq ∧ s.log = f.log
  | .pop k i r => s.main = .loop k ∧ s.evq = f.evq ∧ s.log = f.log ∧ k < c.n ∧ f.outM = some .main ∧
      ∃ q, f.qout = (r, i) :: q
  | .leaveOut k i r => s.main = .got k i r ∧ s.evq = f.evq ∧ s.log = f.log ∧ f.outM = some .main
  | .col k i r => s.main = .got k i r ∧ s.evq = f.evq ∧ s.log = f.log ∧ c.kind = .transform
  | .busy todo (.doc k i r) => c.kind = .partialFit ∧ s.evq = f.evq ∧
      ((s.main = .got k i r ∧ Pre todo f ∧ s.log = f.log) ∨
       (s.main = .mid k i r ∧ ∃ es, Post todo es f ∧ s.log = f.log ++ es.map .deliver))
  | .busy todo (.loop k) => s.evq = f.evq ∧
      ((s.main = .loop k ∧ ∃ es, Post todo es f ∧ s.log = f.log ++ es.map .deliver) ∨
       (∃ k' i r, k = k' + 1 ∧ c.kind = .transform ∧ s.main = .mid k' i r ∧ Pre todo f ∧ s.log = f.log))
  | .join j => s.main = .join j ∧ s.evq = f.evq ∧ s.log = f.log ∧ ∀ x : Fin c.W, x.val < j → f.ws x = .done
  | .post => s.main = .post ∧ s.evq = f.evq ∧ s.log = f.log ∧ ∀ x, f.ws x = .done
  | .busy todo .epoch => s.main = .epoch ∧ fin todo f.evq f.log = (s.evq, s.log) ∧ ∀ x, f.ws x = .done
  | .busy todo .ret => s.main = .ret ∧ fin todo f.evq f.log = (s.evq, s.log) ∧ ∀ x, f.ws x = .done
  | .ret => s.main = .ret ∧ s.evq = f.evq ∧ s.log = f.log

structure Sim (c : Cfg M P R) (d : Reads P R) (f : St M P R c.W) (s : Pool.St M R c.W) : Prop where
  qin : s.qin = f.qin
  qout : s.qout = f.qout
  model : s.model = f.model
  ws : ∀ j, s.ws j = absW (f.ws j)
  win : ∀ j, holdsIn (f.ws j) → f.inM = some (.worker j)
  wout : ∀ j, holdsOut (f.ws j) → f.outM = some (.worker j)
  wev : ∀ j, holdsEv (f.ws j) → f.evM = some (.worker j)
  wok : ∀ j, WOk c d f.qin f.qout f.evq (c.params f.model) (f.ws j)
  main : MOk c f s

theorem sim_start (c : Cfg M P R) (d : Reads P R) (l : Left R) (m : M) :
    Sim c d (start c l m) (Pool.start c l m) where
  qin := rfl
  qout := rfl
  model := rfl
  ws := fun _ => rfl
  win := fun _ h => h.elim
  wout := fun _ h => h.elim
  wev := fun _ h => h.elim
  wok := fun _ => trivial
  main := ⟨rfl, rfl, rfl⟩

theorem WOk.frame {c : Cfg M P R} {d : Reads P R} {qin qin' : List Nat} {qout qout' : List (R × Nat)}
    {evq evq' : List Ev} {p : P} {w : WPc P R} (h : WOk c d qin qout evq p w)
    (h1 : holdsIn w → qin' = qin) (h2 : holdsOut w → qout' = qout) (h3 : holdsEv w → evq' = evq) :
    WOk c d qin' qout' evq' p w := by
  cases w with
  | pop i => rw [WOk, h1 trivial]; exact h
  | ev2 i r q => rw [WOk, h3 trivial]; exact h
  | out2 i r q => rw [WOk, h2 trivial]; exact h
  | _ => exact h

theorem MOk.frame {c : Cfg M P R} {f f' : St M P R c.W} {s s' : Pool.St M R c.W} (h : MOk c f s)
    (hm : f'.main = f.main) (hm' : s'.main = s.main) (hl : f'.log = f.log) (hl' : s'.log = s.log)
    (he : s.evq = f.evq → s'.evq = f'.evq)
    (ho : f.outM = some .main → f'.outM = some .main ∧ f'.qout = f.qout)
    (hv : f.evM = some .main → f'.evM = some .main ∧ f'.evq = f.evq)
    (hd : ∀ x, f.ws x = .done → f'.ws x = .done)
    (ha : ¬ ∀ x, f.ws x = .done) : MOk c f' s' := by
  have pre : ∀ todo, Pre todo f → Pre todo f' := by
    rintro todo (h | ⟨h, h'⟩ | ⟨h, h'⟩)
    · exact .inl h
    · exact .inr (.inl ⟨h, (hv h').1⟩)
    · exact .inr (.inr ⟨by rw [(hv h').2]; exact h, (hv h').1⟩)
  have post : ∀ todo es, Post todo es f → Post todo es f' := by
    rintro todo es (⟨h, h'⟩ | h)
    · exact .inl ⟨h, (hv h').1⟩
    · exact .inr h
  unfold MOk at h ⊢
  rw [hm, hm', hl, hl']
  split at h
  · exact ⟨h.1, he h.2.1, h.2.2⟩
  · exact ⟨h.1, he h.2.1, h.2.2⟩
  · exact ⟨h.1, he h.2.1, h.2.2.1, h.2.2.2.1, (ho h.2.2.2.2).1⟩
  · have := ho h.2.2.2.2.1
    exact ⟨h.1, he h.2.1, h.2.2.1, h.2.2.2.1, this.1, by rw [this.2]; exact h.2.2.2.2.2⟩
  · exact ⟨h.1, he h.2.1, h.2.2⟩
  · have := ho h.2.2.2.2.1
    exact ⟨h.1, he h.2.1, h.2.2.1, h.2.2.2.1, this.1, by rw [this.2]; exact h.2.2.2.2.2⟩
  · exact ⟨h.1, he h.2.1, h.2.2.1, (ho h.2.2.2).1⟩
  · exact ⟨h.1, he h.2.1, h.2.2⟩
  · refine ⟨h.1, he h.2.1, h.2.2.imp ?_ ?_⟩
    · exact fun ⟨a, b, e⟩ => ⟨a, pre _ b, e⟩
    · exact fun ⟨a, es, b, e⟩ => ⟨a, es, post _ _ b, e⟩
  · refine ⟨he h.1, h.2.imp ?_ ?_⟩
    · exact fun ⟨a, es, b, e⟩ => ⟨a, es, post _ _ b, e⟩
    · exact fun ⟨k', i, r, a, b, e, g, g'⟩ => ⟨k', i, r, a, b, e, pre _ g, g'⟩
  · exact ⟨h.1, he h.2.1, h.2.2.1, fun x hx => hd x (h.2.2.2 x hx)⟩
  · exact absurd h.2.2.2 ha
  · exact absurd h.2.2 ha
  · exact absurd h.2.2 ha
  · exact ⟨h.1, he h.2.1, h.2.2⟩

/-! ### Steps of the workers -/

theorem Sim.move {c : Cfg M P R} {d : Reads P R} {f f' : St M P R c.W} {s s' : Pool.St M R c.W} (h : Sim c d f s)
    (j : Fin c.W) (v : WPc P R) (hj : f.ws j ≠ .done)
    (hws : f'.ws = fun x => if x = j then v else f.ws x)
    (hws' : ∀ x, s'.ws x = if x = j then absW v else s.ws x)
    (hm : f'.main = f.main) (hm' : s'.main = s.main) (hl : f'.log = f.log) (hl' : s'.log = s.log)
    (hmo : f'.model = f.model) (hmo' : s'.model = s.model)
    (hqi : s'.qin = f'.qin) (hqo : s'.qout = f'.qout) (he : s.evq = f.evq → s'.evq = f'.evq)
    (vin : holdsIn v → f'.inM = some (.worker j)) (vout : holdsOut v → f'.outM = some (.worker j))
    (vev : holdsEv v → f'.evM = some (.worker j))
    (oin : ∀ w, w ≠ .worker j → f.inM = some w → f'.inM = some w ∧ f'.qin = f.qin)
    (oout : ∀ w, w ≠ .worker j → f.outM = some w → f'.outM = some w ∧ f'.qout = f.qout)
    (oev : ∀ w, w ≠ .worker j → f.evM = some w → f'.evM = some w ∧ f'.evq = f.evq)
    (hv : WOk c d f'.qin f'.qout f'.evq (c.params f'.model) v) : Sim c d f' s' where
  qin := hqi
  qout := hqo
  model := by rw [hmo, hmo', h.model]
  ws := by
    intro x
    rw [hws', hws]
    by_cases e : x = j
    · simp [e]
    · simp [e, h.ws x]
  win := by
    intro x hx
    rw [hws] at hx
    by_cases e : x = j
    · subst e; simp only [if_true] at hx; exact vin hx
    · simp only [e, if_false] at hx
      exact (oin _ (fun hh => e (by injection hh)) (h.win x hx)).1
  wout := by
    intro x hx
    rw [hws] at hx
    by_cases e : x = j
    · subst e; simp only [if_true] at hx; exact vout hx
    · simp only [e, if_false] at hx
      exact (oout _ (fun hh => e (by injection hh)) (h.wout x hx)).1
  wev := by
    intro x hx
    rw [hws] at hx
    by_cases e : x = j
    · subst e; simp only [if_true] at hx; exact vev hx
    · simp only [e, if_false] at hx
      exact (oev _ (fun hh => e (by injection hh)) (h.wev x hx)).1
  wok := by
    intro x
    rw [hws]
    by_cases e : x = j
    · simp only [e, if_true]; exact hv
    · simp only [e, if_false]
      have hk := h.wok x
      rw [← hmo] at hk
      exact hk.frame (fun hh => (oin _ (fun hh => e (by injection hh)) (h.win x hh)).2)
        (fun hh => (oout _ (fun hh => e (by injection hh)) (h.wout x hh)).2)
        (fun hh => (oev _ (fun hh => e (by injection hh)) (h.wev x hh)).2)
  main := by
    refine h.main.frame hm hm' hl hl' he (fun hh => oout _ (by simp) hh) (fun hh => oev _ (by simp) hh) ?_
      (fun ha => hj (ha j))
    intro x hx
    rw [hws]
    by_cases e : x = j
    · subst e; exact absurd hx hj
    · simp only [e, if_false]; exact hx

theorem MOk.wake {c : Cfg M P R} {f : St M P R c.W} {s : Pool.St M R c.W} (h : MOk c f s) :
    MOk c { f with main := wake f.main } { s with main := Pool.wake s.main } := by
  obtain ⟨fqin, fqout, fevq, fmodel, flog, fws, fmain, finM, foutM, fevM⟩ := f
  obtain ⟨sqin, sqout, sws, smain, sevq, smodel, slog⟩ := s
  cases fmain with
  | wait k =>
    obtain ⟨h1, h2, h3⟩ := h
    dsimp only at h1
    subst h1
    exact ⟨rfl, h2, h3⟩
  | busy todo a =>
    cases a with
    | doc k i r =>
      obtain ⟨h1, h2, h3 | h3⟩ := h
      · obtain ⟨h3, h4, h5⟩ := h3
        dsimp only at h3
        subst h3
        exact ⟨h1, h2, .inl ⟨rfl, h4, h5⟩⟩
      · obtain ⟨h3, h4⟩ := h3
        dsimp only at h3
        subst h3
        exact ⟨h1, h2, .inr ⟨rfl, h4⟩⟩
    | loop k =>
      obtain ⟨h2, h3 | h3⟩ := h
      · obtain ⟨h3, h4⟩ := h3
        dsimp only at h3
        subst h3
        exact ⟨h2, .inl ⟨rfl, h4⟩⟩
      · obtain ⟨k', i, r, h1, h4, h3, h5⟩ := h3
        dsimp only at h3
        subst h3
        exact ⟨h2, .inr ⟨k', i, r, h1, h4, rfl, h5⟩⟩
    | _ =>
      obtain ⟨h1, h2⟩ := h
      dsimp only at h1
      subst h1
      exact ⟨rfl, h2⟩
  | _ =>
    obtain ⟨h1, h2⟩ := h
    dsimp only at h1
    subst h1
    exact ⟨rfl, h2⟩

theorem Sim.wake {c : Cfg M P R} {d : Reads P R} {f : St M P R c.W} {s : Pool.St M R c.W} (h : Sim c d f s) :
    Sim c d { f with main := wake f.main } { s with main := Pool.wake s.main } where
  qin := h.qin
  qout := h.qout
  model := h.model
  ws := h.ws
  win := h.win
  wout := h.wout
  wev := h.wev
  wok := h.wok
  main := h.main.wake

/-- The coarse machine does as many steps as needed (none or one). -/
def Follows (c : Cfg M P R) (d : Reads P R) (s : Pool.St M R c.W) (f' : St M P R c.W) : Prop :=
  ∃ as s', Pool.run c s as = some s' ∧ Sim c d f' s'

theorem Follows.zero {c : Cfg M P R} {d : Reads P R} {s : Pool.St M R c.W} {f' : St M P R c.W} (h : Sim c d f' s) :
    Follows c d s f' := ⟨[], s, rfl, h⟩

theorem Follows.one {c : Cfg M P R} {d : Reads P R} {s s' : Pool.St M R c.W} {f' : St M P R c.W} {a : Pool.Act}
    (hs : Pool.step c s a = some s') (h : Sim c d f' s') : Follows c d s f' :=
  ⟨[a], s', by simp [Pool.run, hs], h⟩

theorem Follows.worker {c : Cfg M P R} {d : Reads P R} {s s' : Pool.St M R c.W} {f' : St M P R c.W} {j : Fin c.W}
    (hs : Pool.workerStep c s j = some s') (h : Sim c d f' s') : Follows c d s f' :=
  Follows.one (a := .worker j) (by simp [Pool.step, hs]) h

theorem sim_worker {c : Cfg M P R} {d : Reads P R} (hd : Faithful c d) {f f' : St M P R c.W}
    {s : Pool.St M R c.W} (h : Sim c d f s) {j : Fin c.W} (hs : workerStep c d f j = some f') :
    Follows c d s f' := by
  have hw := h.ws j
  have hk := h.wok j
  have keep : ∀ v : WPc P R, absW v = absW (f.ws j) → ∀ x, s.ws x = if x = j then absW v else s.ws x := by
    intro v hv x
    by_cases e : x = j
    · subst e; simp only [if_true]; rw [hw, hv]
    · simp [e]
  unfold workerStep at hs
  split at hs
  · cases hs
  · cases hs
  · -- start
    rename_i e
    split at hs
    · rename_i hn
      cases hs
      exact .zero (h.move j .look (by simp [e]) rfl (keep _ (by rw [e]; rfl)) rfl rfl rfl rfl rfl rfl h.qin h.qout id
        (fun _ => rfl) False.elim False.elim (by intro w _ hh; rw [hn] at hh; cases hh)
        (fun _ _ hh => ⟨hh, rfl⟩) (fun _ _ hh => ⟨hh, rfl⟩) trivial)
    · cases hs
  · -- look
    rename_i e
    split at hs
    · rename_i hq
      cases hs
      refine .worker (j := j) (s' := { s with ws := Pool.setW s.ws j .done }) ?_
        (h.move j .quit (by simp [e]) rfl (fun x => rfl) rfl rfl rfl rfl rfl rfl h.qin h.qout id
        (fun _ => h.win j (by rw [e]; trivial)) False.elim False.elim (fun _ _ hh => ⟨hh, rfl⟩)
        (fun _ _ hh => ⟨hh, rfl⟩) (fun _ _ hh => ⟨hh, rfl⟩) trivial)
      rw [e] at hw
      simp only [Pool.workerStep, hw, absW, h.qin, hq]
    · rename_i i q hq
      cases hs
      exact .zero (h.move j (.pop i) (by simp [e]) rfl (keep _ (by rw [e]; rfl)) rfl rfl rfl rfl rfl rfl h.qin h.qout id
        (fun _ => h.win j (by rw [e]; trivial)) False.elim False.elim (fun _ _ hh => ⟨hh, rfl⟩)
        (fun _ _ hh => ⟨hh, rfl⟩) (fun _ _ hh => ⟨hh, rfl⟩) ⟨q, hq⟩)
  · -- pop
    rename_i i e
    cases hs
    rw [e] at hk
    obtain ⟨q, hq⟩ := hk
    have hin := h.win j (by rw [e]; trivial)
    refine .worker (j := j) (s' := { s with qin := q, ws := Pool.setW s.ws j (.work i) }) ?_
      (h.move j (.leaveIn i) (by simp [e]) rfl (fun x => rfl) rfl rfl rfl rfl rfl rfl (by simp [hq]) h.qout id
      (fun _ => hin) False.elim False.elim
      (by intro w hw hh; rw [hin] at hh; injection hh with hh; exact absurd hh.symm hw)
      (fun _ _ hh => ⟨hh, rfl⟩) (fun _ _ hh => ⟨hh, rfl⟩) trivial)
    rw [e] at hw
    simp only [Pool.workerStep, hw, absW, h.qin, hq]
  · -- leaveIn
    rename_i i e
    cases hs
    have hin := h.win j (by rw [e]; trivial)
    exact .zero (h.move j (.reads i []) (by simp [e]) rfl (keep _ (by rw [e]; rfl)) rfl rfl rfl rfl rfl rfl h.qin h.qout id
      False.elim False.elim False.elim
      (by intro w hw hh; rw [hin] at hh; injection hh with hh; exact absurd hh.symm hw)
      (fun _ _ hh => ⟨hh, rfl⟩) (fun _ _ hh => ⟨hh, rfl⟩) ⟨rfl, Nat.zero_le _⟩)
  · -- quit
    rename_i e
    cases hs
    have hin := h.win j (by rw [e]; trivial)
    exact .zero (h.move j .done (by simp [e]) rfl (keep _ (by rw [e]; rfl)) rfl rfl rfl rfl rfl rfl h.qin h.qout id
      False.elim False.elim False.elim
      (by intro w hw hh; rw [hin] at hh; injection hh with hh; exact absurd hh.symm hw)
      (fun _ _ hh => ⟨hh, rfl⟩) (fun _ _ hh => ⟨hh, rfl⟩) trivial)
  · -- reads
    rename_i i ps e
    rw [e] at hk
    obtain ⟨h1, h2⟩ := hk
    split at hs
    · rename_i hlt
      cases hs
      refine .zero (h.move j (.reads i (ps ++ [c.params f.model])) (by simp [e]) rfl (keep _ (by rw [e]; rfl)) rfl rfl rfl
        rfl rfl rfl h.qin h.qout id False.elim False.elim False.elim (fun _ _ hh => ⟨hh, rfl⟩)
        (fun _ _ hh => ⟨hh, rfl⟩) (fun _ _ hh => ⟨hh, rfl⟩) ⟨?_, ?_⟩)
      · rw [List.length_append, List.length_singleton, List.replicate_succ']
        exact congrArg (· ++ [c.params f.model]) h1
      · rw [List.length_append, List.length_singleton]; omega
    · rename_i hge
      cases hs
      refine .zero (h.move j (.ev0 i (d.value i ps)) (by simp [e]) rfl (keep _ (by rw [e]; rfl)) rfl rfl rfl
        rfl rfl rfl h.qin h.qout id False.elim False.elim False.elim (fun _ _ hh => ⟨hh, rfl⟩)
        (fun _ _ hh => ⟨hh, rfl⟩) (fun _ _ hh => ⟨hh, rfl⟩) ?_)
      have hl : ps.length = d.count i := by omega
      rw [hl] at h1
      show d.value i ps = _
      rw [h1]
      exact hd i _
  · -- ev0
    rename_i i r e
    rw [e] at hk
    split at hs
    · rename_i hn
      cases hs
      exact .zero (h.move j (.ev1 i r) (by simp [e]) rfl (keep _ (by rw [e]; rfl)) rfl rfl rfl rfl rfl rfl h.qin h.qout id
        False.elim False.elim (fun _ => rfl) (fun _ _ hh => ⟨hh, rfl⟩)
        (fun _ _ hh => ⟨hh, rfl⟩) (by intro w _ hh; rw [hn] at hh; cases hh) hk)
    · cases hs
  · -- ev1
    rename_i i r e
    rw [e] at hk
    cases hs
    exact .zero (h.move j (.ev2 i r f.evq) (by simp [e]) rfl (keep _ (by rw [e]; rfl)) rfl rfl rfl rfl rfl rfl h.qin h.qout
      id False.elim False.elim (fun _ => h.wev j (by rw [e]; trivial)) (fun _ _ hh => ⟨hh, rfl⟩)
      (fun _ _ hh => ⟨hh, rfl⟩) (fun _ _ hh => ⟨hh, rfl⟩) ⟨hk, rfl⟩)
  · -- ev2
    rename_i i r q e
    rw [e] at hk
    obtain ⟨h1, h2⟩ := hk
    cases hs
    have hev := h.wev j (by rw [e]; trivial)
    refine .worker (j := j)
      (s' := { s with ws := Pool.setW s.ws j (.push i (c.eval (c.params s.model) i)), evq := s.evq ++ [.exp i] }) ?_
      (h.move j (.ev3 i r) (by simp [e]) rfl ?_ rfl rfl rfl rfl rfl rfl h.qin h.qout ?_
      False.elim False.elim (fun _ => hev) (fun _ _ hh => ⟨hh, rfl⟩) (fun _ _ hh => ⟨hh, rfl⟩)
      (by intro w hw hh; rw [hev] at hh; injection hh with hh; exact absurd hh.symm hw) trivial)
    · rw [e] at hw
      simp only [Pool.workerStep, hw, absW]
    · intro x
      simp only [Pool.setW, absW, h1, h.model]
    · intro hh
      dsimp only
      rw [hh, h2]
  · -- ev3
    rename_i i r e
    cases hs
    have hev := h.wev j (by rw [e]; trivial)
    exact .zero (h.move j (.out0 i r) (by simp [e]) rfl (keep _ (by rw [e]; rfl)) rfl rfl rfl rfl rfl rfl h.qin h.qout id
      False.elim False.elim False.elim (fun _ _ hh => ⟨hh, rfl⟩) (fun _ _ hh => ⟨hh, rfl⟩)
      (by intro w hw hh; rw [hev] at hh; injection hh with hh; exact absurd hh.symm hw) trivial)
  · -- out0
    rename_i i r e
    split at hs
    · rename_i hn
      cases hs
      exact .zero (h.move j (.out1 i r) (by simp [e]) rfl (keep _ (by rw [e]; rfl)) rfl rfl rfl rfl rfl rfl h.qin h.qout id
        False.elim (fun _ => rfl) False.elim (fun _ _ hh => ⟨hh, rfl⟩)
        (by intro w _ hh; rw [hn] at hh; cases hh) (fun _ _ hh => ⟨hh, rfl⟩) trivial)
    · cases hs
  · -- out1
    rename_i i r e
    cases hs
    exact .zero (h.move j (.out2 i r f.qout) (by simp [e]) rfl (keep _ (by rw [e]; rfl)) rfl rfl rfl rfl rfl rfl h.qin h.qout
      id False.elim (fun _ => h.wout j (by rw [e]; trivial)) False.elim (fun _ _ hh => ⟨hh, rfl⟩)
      (fun _ _ hh => ⟨hh, rfl⟩) (fun _ _ hh => ⟨hh, rfl⟩) rfl)
  · -- out2
    rename_i i r q e
    rw [e] at hk
    cases hs
    have hout := h.wout j (by rw [e]; trivial)
    refine .worker (j := j) (s' := { s with qout := s.qout ++ [(r, i)], ws := Pool.setW s.ws j .notify }) ?_
      (h.move j .out3 (by simp [e]) rfl (fun x => rfl) rfl rfl rfl rfl rfl rfl h.qin ?_ id
      False.elim (fun _ => hout) False.elim (fun _ _ hh => ⟨hh, rfl⟩)
      (by intro w hw hh; rw [hout] at hh; injection hh with hh; exact absurd hh.symm hw)
      (fun _ _ hh => ⟨hh, rfl⟩) trivial)
    · rw [e] at hw
      simp only [Pool.workerStep, hw, absW]
    · dsimp only
      rw [h.qout, show f.qout = q from hk]
  · -- out3
    rename_i e
    cases hs
    have hout := h.wout j (by rw [e]; trivial)
    exact .zero (h.move j .sig (by simp [e]) rfl (keep _ (by rw [e]; rfl)) rfl rfl rfl rfl rfl rfl h.qin h.qout id
      False.elim False.elim False.elim (fun _ _ hh => ⟨hh, rfl⟩)
      (by intro w hw hh; rw [hout] at hh; injection hh with hh; exact absurd hh.symm hw)
      (fun _ _ hh => ⟨hh, rfl⟩) trivial)
  · -- sig
    rename_i e
    cases hs
    have h1 : Sim c d (f.setW j .start) { s with ws := Pool.setW s.ws j .fetch } :=
      h.move j .start (by simp [e]) rfl (fun x => rfl) rfl rfl rfl rfl rfl rfl h.qin h.qout id
        False.elim False.elim False.elim (fun _ _ hh => ⟨hh, rfl⟩) (fun _ _ hh => ⟨hh, rfl⟩)
        (fun _ _ hh => ⟨hh, rfl⟩) trivial
    refine .worker (j := j) (s' := { s with ws := Pool.setW s.ws j .fetch, main := Pool.wake s.main }) ?_ h1.wake
    rw [e] at hw
    simp only [Pool.workerStep, hw, absW]

/-! ### Steps of the calling thread -/

theorem Sim.moveMain {c : Cfg M P R} {d : Reads P R} {f f' : St M P R c.W} {s s' : Pool.St M R c.W} (h : Sim c d f s)
    (hws : f'.ws = f.ws) (hws' : s'.ws = s.ws) (hqi : f'.qin = f.qin) (hqi' : s'.qin = s.qin) (hin : f'.inM = f.inM)
    (hqo : s'.qout = f'.qout) (hmo : s'.model = f'.model)
    (hp : c.params f'.model = c.params f.model ∨ ∀ x, f.ws x = .done)
    (oout : ∀ j, holdsOut (f.ws j) → f'.outM = some (.worker j) ∧ f'.qout = f.qout)
    (oev : ∀ j, holdsEv (f.ws j) → f'.evM = some (.worker j) ∧ f'.evq = f.evq)
    (hm : MOk c f' s') : Sim c d f' s' where
  qin := by rw [hqi, hqi', h.qin]
  qout := hqo
  model := hmo
  ws := by rw [hws, hws']; exact h.ws
  win := by rw [hws, hin]; exact h.win
  wout := by rw [hws]; exact fun j hj => (oout j hj).1
  wev := by rw [hws]; exact fun j hj => (oev j hj).1
  wok := by
    intro j
    rw [hws]
    rcases hp with hp | hp
    · rw [hp]
      exact (h.wok j).frame (fun _ => hqi) (fun hh => (oout j hh).2) (fun hh => (oev j hh).2)
    · rw [hp j]; trivial
  main := hm

theorem Follows.main {c : Cfg M P R} {d : Reads P R} {s s' : Pool.St M R c.W} {f' : St M P R c.W}
    (hs : Pool.mainStep c s = some s') (h : Sim c d f' s') : Follows c d s f' :=
  Follows.one (a := .main) hs h

theorem fin_append (t u : List MI) (q : List Ev) (l : List (Obs R)) :
    fin (t ++ u) q l = fin u (fin t q l).1 (fin t q l).2 := by
  induction t generalizing q l with
  | nil => rfl
  | cons m t ih => cases m <;> simp only [List.cons_append, fin, ih]

theorem fin_delivers (es : List Ev) (q : List Ev) (l : List (Obs R)) :
    fin (es.map .deliver) q l = (q, l ++ es.map .deliver) := by
  induction es generalizing l with
  | nil => simp [fin]
  | cons e es ih => simp [fin, ih]

theorem fin_dispatch {c : Cfg M P R} (s : Pool.St M R c.W) (e : Ev) :
    fin (dispatchP c.owner e) s.evq s.log = ((Pool.dispatch c s e).evq, (Pool.dispatch c s e).log) := by
  unfold dispatchP Pool.dispatch
  cases c.owner <;> simp [fin, processEv, Pool.flush]

theorem fin_dispatches {c : Cfg M P R} (k : Nat) (s : Pool.St M R c.W) :
    fin (dispatches c.owner k) s.evq s.log = ((Pool.emitM c s k).evq, (Pool.emitM c s k).log) := by
  induction k generalizing s with
  | zero => rfl
  | succ k ih => rw [dispatches, fin_append, fin_dispatch, ih]; rfl

theorem dispatch_rest {c : Cfg M P R} (s : Pool.St M R c.W) (e : Ev) :
    (Pool.dispatch c s e).qin = s.qin ∧ (Pool.dispatch c s e).qout = s.qout ∧ (Pool.dispatch c s e).ws = s.ws ∧
    (Pool.dispatch c s e).model = s.model := by
  unfold Pool.dispatch
  cases c.owner <;> simp [Pool.flush]

theorem emitM_rest {c : Cfg M P R} (k : Nat) (s : Pool.St M R c.W) :
    (Pool.emitM c s k).qin = s.qin ∧ (Pool.emitM c s k).qout = s.qout ∧ (Pool.emitM c s k).ws = s.ws ∧
    (Pool.emitM c s k).model = s.model := by
  induction k generalizing s with
  | zero => exact ⟨rfl, rfl, rfl, rfl⟩
  | succ k ih =>
    have h1 := ih (Pool.dispatch c s .max)
    have h2 := dispatch_rest (c := c) s .max
    exact ⟨h1.1.trans h2.1, h1.2.1.trans h2.2.1, h1.2.2.1.trans h2.2.2.1, h1.2.2.2.trans h2.2.2.2⟩

/-- Steps inside `busy` once every worker has ended: the outcome of what is left does not change. -/
theorem busy_fin {c : Cfg M P R} {f f' : St M P R c.W} {m : MI} {t : List MI} {a : After R}
    (hf : f.main = .busy (m :: t) a) (hs : mainStep c f = some f') :
    ∃ t', f'.main = .busy t' a ∧ fin t' f'.evq f'.log = fin (m :: t) f.evq f.log ∧ f'.ws = f.ws ∧ f'.qin = f.qin ∧
      f'.qout = f.qout ∧ f'.model = f.model ∧ f'.inM = f.inM ∧ f'.outM = f.outM := by
  unfold mainStep at hs
  rw [hf] at hs
  cases m with
  | lockEv =>
    dsimp only at hs
    split at hs
    · cases hs; exact ⟨t, rfl, rfl, rfl, rfl, rfl, rfl, rfl, rfl⟩
    · cases hs
  | clear es =>
    cases hs
    refine ⟨_, rfl, ?_, rfl, rfl, rfl, rfl, rfl, rfl⟩
    simp only [fin]
    rw [fin_append, fin_delivers]
  | _ => cases hs; exact ⟨_, rfl, rfl, rfl, rfl, rfl, rfl, rfl, rfl⟩

/-- What a step inside `busy` leaves alone. -/
structure Quiet {W : Nat} (f f' : St M P R W) : Prop where
  ws : f'.ws = f.ws
  qin : f'.qin = f.qin
  qout : f'.qout = f.qout
  model : f'.model = f.model
  inM : f'.inM = f.inM
  outM : f'.outM = f.outM
  ev : ∀ j, holdsEv (f.ws j) → f'.evM = some (.worker j) ∧ f'.evq = f.evq

theorem pre_step {c : Cfg M P R} {d : Reads P R} {f f' : St M P R c.W} {s : Pool.St M R c.W} (h : Sim c d f s)
    {todo : List MI} {a : After R} (hf : f.main = .busy todo a) (hp : Pre todo f) (hs : mainStep c f = some f') :
    Quiet f f' ∧ f'.log = f.log ∧
    ((∃ t, f'.main = .busy t a ∧ Pre t f' ∧ f'.evq = f.evq) ∨
     (∃ t, f'.main = .busy t a ∧ Post t f.evq f' ∧ f'.evq = [])) := by
  have hev : f.evM = some .main → ∀ j, ¬ holdsEv (f.ws j) := by
    intro hm j hj
    have := h.wev j hj
    rw [hm] at this
    cases this
  unfold mainStep at hs
  rw [hf] at hs
  rcases hp with rfl | ⟨rfl, hm⟩ | ⟨rfl, hm⟩
  · dsimp only at hs
    split at hs
    · rename_i hn
      cases hs
      refine ⟨⟨rfl, rfl, rfl, rfl, rfl, rfl, ?_⟩, rfl, .inl ⟨_, rfl, .inr (.inl ⟨rfl, rfl⟩), rfl⟩⟩
      intro j hj
      have := h.wev j hj
      rw [hn] at this
      cases this
    · cases hs
  · cases hs
    exact ⟨⟨rfl, rfl, rfl, rfl, rfl, rfl, fun j hj => absurd hj (hev hm j)⟩, rfl,
      .inl ⟨_, rfl, .inr (.inr ⟨rfl, hm⟩), rfl⟩⟩
  · cases hs
    exact ⟨⟨rfl, rfl, rfl, rfl, rfl, rfl, fun j hj => absurd hj (hev hm j)⟩, rfl,
      .inr ⟨_, rfl, .inl ⟨by simp, hm⟩, rfl⟩⟩

theorem post_step {c : Cfg M P R} {d : Reads P R} {f f' : St M P R c.W} {s : Pool.St M R c.W} (h : Sim c d f s)
    {m : MI} {t : List MI} {a : After R} {es : List Ev} (hf : f.main = .busy (m :: t) a) (hp : Post (m :: t) es f)
    (hs : mainStep c f = some f') :
    Quiet f f' ∧ f'.evq = f.evq ∧ ∃ t' es', f'.main = .busy t' a ∧ Post t' es' f' ∧
      f'.log ++ es'.map .deliver = f.log ++ es.map .deliver := by
  unfold mainStep at hs
  rw [hf] at hs
  rcases hp with ⟨ht, hm⟩ | ht
  · injection ht with h1 h2
    subst h1 h2
    cases hs
    refine ⟨⟨rfl, rfl, rfl, rfl, rfl, rfl, ?_⟩, rfl, _, es, rfl, .inr rfl, rfl⟩
    intro j hj
    have := h.wev j hj
    rw [hm] at this
    cases this
  · cases es with
    | nil => cases ht
    | cons e es =>
      injection ht with h1 h2
      subst h1 h2
      cases hs
      exact ⟨⟨rfl, rfl, rfl, rfl, rfl, rfl, fun j hj => ⟨h.wev j hj, rfl⟩⟩, rfl, _, es, rfl, .inr rfl, by simp⟩

theorem Sim.quiet {c : Cfg M P R} {d : Reads P R} {f f' : St M P R c.W} {s s' : Pool.St M R c.W} (h : Sim c d f s)
    (hq : Quiet f f') (hws' : s'.ws = s.ws) (hqi' : s'.qin = s.qin) (hqo : s'.qout = s.qout)
    (hmo : s'.model = s.model) (hm : MOk c f' s') : Sim c d f' s' :=
  h.moveMain hq.ws hws' hq.qin hqi' hq.inM (by rw [hqo, hq.qout, h.qout]) (by rw [hmo, hq.model, h.model])
    (.inl (by rw [hq.model])) (fun j hj => ⟨by rw [hq.outM]; exact h.wout j hj, hq.qout⟩) hq.ev hm

theorem MOk.busy_doc {c : Cfg M P R} {f : St M P R c.W} {s : Pool.St M R c.W} {todo : List MI} {k i : Nat} {r : R}
    (hf : f.main = .busy todo (.doc k i r)) (h1 : c.kind = .partialFit) (h2 : s.evq = f.evq)
    (h3 : (s.main = .got k i r ∧ Pre todo f ∧ s.log = f.log) ∨
       (s.main = .mid k i r ∧ ∃ es, Post todo es f ∧ s.log = f.log ++ es.map .deliver)) : MOk c f s := by
  unfold MOk; rw [hf]; exact ⟨h1, h2, h3⟩

theorem MOk.busy_loop {c : Cfg M P R} {f : St M P R c.W} {s : Pool.St M R c.W} {todo : List MI} {k : Nat}
    (hf : f.main = .busy todo (.loop k)) (h2 : s.evq = f.evq)
    (h3 : (s.main = .loop k ∧ ∃ es, Post todo es f ∧ s.log = f.log ++ es.map .deliver) ∨
       (∃ k' i r, k = k' + 1 ∧ c.kind = .transform ∧ s.main = .mid k' i r ∧ Pre todo f ∧ s.log = f.log)) :
    MOk c f s := by
  unfold MOk; rw [hf]; exact ⟨h2, h3⟩

theorem Post.nil {W : Nat} {f : St M P R W} {es : List Ev} (h : Post [] es f) : es = [] := by
  rcases h with ⟨h, _⟩ | h
  · cases h
  · cases es with
    | nil => rfl
    | cons e es => cases h

theorem sim_busy {c : Cfg M P R} {d : Reads P R} (hb : BatchM c) (hq : Silent c) {f f' : St M P R c.W}
    {s : Pool.St M R c.W} (h : Sim c d f s) {todo : List MI} {a : After R} (hf : f.main = .busy todo a)
    (hs : mainStep c f = some f') : Follows c d s f' := by
  have hm := h.main
  unfold MOk at hm
  rw [hf] at hm
  cases a with
  | doc k i r =>
    obtain ⟨h1, h2, ⟨h3, h4, h5⟩ | ⟨h3, es, h4, h5⟩⟩ := hm
    · obtain ⟨g1, g2, ⟨t, g3, g4, g5⟩ | ⟨t, g3, g4, g5⟩⟩ := pre_step h hf h4 hs
      · exact .zero (h.quiet g1 rfl rfl rfl rfl
          (.busy_doc g3 h1 (by rw [g5, h2]) (.inl ⟨h3, g4, by rw [g2, h5]⟩)))
      · refine .main (s' := { Pool.flush s with main := .mid k i r }) ?_
          (h.quiet g1 rfl rfl rfl rfl (.busy_doc g3 h1 (by rw [g5]; rfl) (.inr ⟨rfl, f.evq, g4, ?_⟩)))
        · simp only [Pool.mainStep, h3, h1]
        · simp only [Pool.flush, h5, g2, h2]
    · cases todo with
      | cons m t =>
        obtain ⟨g1, g2, t', es', g3, g4, g5⟩ := post_step h hf h4 hs
        exact .zero (h.quiet g1 rfl rfl rfl rfl
          (.busy_doc g3 h1 (by rw [g2, h2]) (.inr ⟨h3, es', g4, by rw [g5, h5]⟩)))
      | nil =>
        have he := h4.nil
        subst he
        simp only [List.map_nil, List.append_nil] at h5
        unfold mainStep at hs
        rw [hf] at hs
        cases hs
        have hc : Pool.consume c s i r =
            { s with model := (c.docStep i r s.model).1, log := s.log ++ [.consume i r] } := by
          unfold Pool.consume
          dsimp only
          rw [hq i r s.model]
          rfl
        refine .main (s' := { Pool.consume c s i r with main := .loop (k + 1) }) ?_ ?_
        · simp only [Pool.mainStep, h3, h1]
        · rw [hc]
          refine h.moveMain rfl rfl rfl rfl rfl h.qout (by dsimp only; rw [h.model]) (.inl (hb _ _ _))
            (fun j hj => ⟨h.wout j hj, rfl⟩) (fun j hj => ⟨h.wev j hj, rfl⟩)
            (.busy_loop rfl h2 (.inl ⟨rfl, [], .inr ?_, ?_⟩))
          · rw [hq]; rfl
          · dsimp only; rw [h5]; simp
  | loop k =>
    obtain ⟨h2, ⟨h3, es, h4, h5⟩ | ⟨k', i, r, hk, h1, h3, h4, h5⟩⟩ := hm
    · cases todo with
      | cons m t =>
        obtain ⟨g1, g2, t', es', g3, g4, g5⟩ := post_step h hf h4 hs
        exact .zero (h.quiet g1 rfl rfl rfl rfl
          (.busy_loop g3 (by rw [g2, h2]) (.inl ⟨h3, es', g4, by rw [g5, h5]⟩)))
      | nil =>
        have he := h4.nil
        subst he
        simp only [List.map_nil, List.append_nil] at h5
        unfold mainStep at hs
        rw [hf] at hs
        cases hs
        exact .zero (h.quiet ⟨rfl, rfl, rfl, rfl, rfl, rfl, fun j hj => ⟨h.wev j hj, rfl⟩⟩ rfl rfl rfl rfl
          ⟨h3, h2, h5⟩)
    · obtain ⟨g1, g2, ⟨t, g3, g4, g5⟩ | ⟨t, g3, g4, g5⟩⟩ := pre_step h hf h4 hs
      · exact .zero (h.quiet g1 rfl rfl rfl rfl
          (.busy_loop g3 (by rw [g5, h2]) (.inr ⟨k', i, r, hk, h1, h3, g4, by rw [g2, h5]⟩)))
      · refine .main (s' := { Pool.flush s with main := .loop (k' + 1) }) ?_
          (h.quiet g1 rfl rfl rfl rfl (.busy_loop g3 (by rw [g5]; rfl) (.inl ⟨by rw [hk], f.evq, g4, ?_⟩)))
        · simp only [Pool.mainStep, h3, h1]
        · simp only [Pool.flush, h5, g2, h2]
  | epoch =>
    obtain ⟨h1, h2, h3⟩ := hm
    have no : ∀ j, ¬ holdsEv (f.ws j) := by intro j hj; rw [h3 j] at hj; exact hj
    cases todo with
    | cons m t =>
      obtain ⟨t', g1, g2, g3, g4, g5, g6, g7, g8⟩ := busy_fin hf hs
      refine .zero (h.quiet ⟨g3, g4, g5, g6, g7, g8, fun j hj => absurd hj (no j)⟩ rfl rfl rfl rfl ?_)
      unfold MOk
      rw [g1]
      exact ⟨h1, by rw [g2, h2], by rw [g3]; exact h3⟩
    | nil =>
      unfold mainStep at hs
      rw [hf] at hs
      cases hs
      have hr := dispatch_rest (c := c) s .epoch
      refine .main (s' := { Pool.dispatch c s .epoch with main := .ret }) ?_
        (h.quiet ⟨rfl, rfl, rfl, rfl, rfl, rfl, fun j hj => absurd hj (no j)⟩ hr.2.2.1 hr.1 hr.2.1 hr.2.2.2
          ⟨rfl, ?_, h3⟩)
      · simp only [Pool.mainStep, h1]
      · rw [fin] at h2
        injection h2 with h2 h2'
        dsimp only
        rw [h2, h2']
        exact fin_dispatch s .epoch
  | ret =>
    obtain ⟨h1, h2, h3⟩ := hm
    have no : ∀ j, ¬ holdsEv (f.ws j) := by intro j hj; rw [h3 j] at hj; exact hj
    cases todo with
    | cons m t =>
      obtain ⟨t', g1, g2, g3, g4, g5, g6, g7, g8⟩ := busy_fin hf hs
      refine .zero (h.quiet ⟨g3, g4, g5, g6, g7, g8, fun j hj => absurd hj (no j)⟩ rfl rfl rfl rfl ?_)
      unfold MOk
      rw [g1]
      exact ⟨h1, by rw [g2, h2], by rw [g3]; exact h3⟩
    | nil =>
      unfold mainStep at hs
      rw [hf] at hs
      cases hs
      rw [fin] at h2
      injection h2 with h2 h2'
      exact .zero (h.quiet ⟨rfl, rfl, rfl, rfl, rfl, rfl, fun j hj => absurd hj (no j)⟩ rfl rfl rfl rfl
        ⟨h1, h2.symm, h2'.symm⟩)

theorem sim_main {c : Cfg M P R} {d : Reads P R} (hb : BatchM c) (hq : Silent c) {f f' : St M P R c.W}
    {s : Pool.St M R c.W} (h : Sim c d f s) (hs : mainStep c f = some f') : Follows c d s f' := by
  cases hf : f.main with
  | busy todo a => exact sim_busy hb hq h hf hs
  | spawn j =>
    have hm := h.main
    unfold MOk at hm
    unfold mainStep at hs
    rw [hf] at hm hs
    obtain ⟨h1, h2, h3⟩ := hm
    dsimp only at hs
    split at hs
    · rename_i hj
      cases hs
      refine .main (s' := { s with ws := Pool.setW s.ws ⟨j, hj⟩ .fetch, main := .spawn (j + 1) }) ?_ ?_
      · simp only [Pool.mainStep, h1, hj, dif_pos]
      · refine ⟨h.qin, h.qout, h.model, ?_, ?_, ?_, ?_, ?_, ⟨rfl, h2, h3⟩⟩
        · intro x
          simp only [Pool.setW, St.setW]
          split
          · rfl
          · exact h.ws x
        · intro x hx
          simp only [St.setW] at hx
          split at hx
          · exact hx.elim
          · exact h.win x hx
        · intro x hx
          simp only [St.setW] at hx
          split at hx
          · exact hx.elim
          · exact h.wout x hx
        · intro x hx
          simp only [St.setW] at hx
          split at hx
          · exact hx.elim
          · exact h.wev x hx
        · intro x
          simp only [St.setW]
          split
          · trivial
          · exact h.wok x
    · rename_i hj
      cases hs
      refine .main (s' := { s with main := .loop 0 }) ?_
        (h.quiet ⟨rfl, rfl, rfl, rfl, rfl, rfl, fun j hj => ⟨h.wev j hj, rfl⟩⟩ rfl rfl rfl rfl ⟨rfl, h2, h3⟩)
      simp only [Pool.mainStep, h1, hj, dif_neg, not_false_eq_true]
  | loop k =>
    have hm := h.main
    unfold MOk at hm
    unfold mainStep at hs
    rw [hf] at hm hs
    obtain ⟨h1, h2, h3⟩ := hm
    dsimp only at hs
    split at hs
    · rename_i hk
      split at hs
      · rename_i hn
        cases hs
        refine .zero (h.moveMain rfl rfl rfl rfl rfl h.qout h.model (.inl rfl) ?_ (fun j hj => ⟨h.wev j hj, rfl⟩)
          ⟨h1, h2, h3, hk, rfl⟩)
        intro j hj
        have := h.wout j hj
        rw [hn] at this
        cases this
      · cases hs
    · rename_i hk
      cases hs
      refine .main (s' := { s with main := .join 0 }) ?_
        (h.quiet ⟨rfl, rfl, rfl, rfl, rfl, rfl, fun j hj => ⟨h.wev j hj, rfl⟩⟩ rfl rfl rfl rfl
          ⟨rfl, h2, h3, fun x hx => absurd hx (Nat.not_lt_zero _)⟩)
      simp only [Pool.mainStep, h1, hk, if_false]
  | test k =>
    have hm := h.main
    unfold MOk at hm
    unfold mainStep at hs
    rw [hf] at hm hs
    obtain ⟨h1, h2, h3, h4, h5⟩ := hm
    dsimp only at hs
    split at hs
    · rename_i he
      cases hs
      exact .zero (h.quiet ⟨rfl, rfl, rfl, rfl, rfl, rfl, fun j hj => ⟨h.wev j hj, rfl⟩⟩ rfl rfl rfl rfl
        ⟨h1, h2, h3, h4, h5, he⟩)
    · rename_i r i q he
      cases hs
      exact .zero (h.quiet ⟨rfl, rfl, rfl, rfl, rfl, rfl, fun j hj => ⟨h.wev j hj, rfl⟩⟩ rfl rfl rfl rfl
        ⟨h1, h2, h3, h4, h5, q, he⟩)
  | rel k =>
    have hm := h.main
    unfold MOk at hm
    unfold mainStep at hs
    rw [hf] at hm hs
    obtain ⟨h1, h2, h3, h4, h5, h6⟩ := hm
    cases hs
    refine .main (s' := { s with main := .waiting k }) ?_
      (h.moveMain rfl rfl rfl rfl rfl h.qout h.model (.inl rfl) ?_ (fun j hj => ⟨h.wev j hj, rfl⟩) ⟨rfl, h2, h3⟩)
    · simp only [Pool.mainStep, h1, h4, if_true, h.qout, h6]
    · intro j hj
      have := h.wout j hj
      rw [h5] at this
      cases this
  | wait k =>
    unfold mainStep at hs
    rw [hf] at hs
    cases hs
  | pop k i r =>
    have hm := h.main
    unfold MOk at hm
    unfold mainStep at hs
    rw [hf] at hm hs
    obtain ⟨h1, h2, h3, h4, h5, q, h6⟩ := hm
    cases hs
    refine .main (s' := { s with qout := q, main := .got k i r }) ?_
      (h.moveMain rfl rfl rfl rfl rfl (by rw [h6]; rfl) h.model (.inl rfl) ?_ (fun j hj => ⟨h.wev j hj, rfl⟩)
        ⟨rfl, h2, h3, h5⟩)
    · simp only [Pool.mainStep, h1, h4, if_true, h.qout, h6]
    · intro j hj
      have := h.wout j hj
      rw [h5] at this
      cases this
  | leaveOut k i r =>
    have hm := h.main
    unfold MOk at hm
    unfold mainStep at hs
    rw [hf] at hm hs
    obtain ⟨h1, h2, h3, h5⟩ := hm
    have no : ∀ j, ¬ holdsOut (f.ws j) := by
      intro j hj
      have := h.wout j hj
      rw [h5] at this
      cases this
    dsimp only at hs
    split at hs
    · rename_i hk
      cases hs
      exact .zero (h.moveMain rfl rfl rfl rfl rfl h.qout h.model (.inl rfl) (fun j hj => absurd hj (no j))
        (fun j hj => ⟨h.wev j hj, rfl⟩) ⟨hk, h2, .inl ⟨h1, .inl rfl, h3⟩⟩)
    · rename_i hk
      cases hs
      exact .zero (h.moveMain rfl rfl rfl rfl rfl h.qout h.model (.inl rfl) (fun j hj => absurd hj (no j))
        (fun j hj => ⟨h.wev j hj, rfl⟩) ⟨h1, h2, h3, hk⟩)
  | col k i r =>
    have hm := h.main
    unfold MOk at hm
    unfold mainStep at hs
    rw [hf] at hm hs
    obtain ⟨h1, h2, h3, h4⟩ := hm
    cases hs
    have hc : Pool.consume c s i r =
        { s with model := (c.docStep i r s.model).1, log := s.log ++ [.consume i r] } := by
      unfold Pool.consume
      dsimp only
      rw [hq i r s.model]
      rfl
    refine .main (s' := { Pool.consume c s i r with main := .mid k i r }) ?_ ?_
    · simp only [Pool.mainStep, h1, h4]
    · rw [hc]
      refine h.moveMain rfl rfl rfl rfl rfl h.qout (by dsimp only; rw [h.model]) (.inl (hb _ _ _))
        (fun j hj => ⟨h.wout j hj, rfl⟩) (fun j hj => ⟨h.wev j hj, rfl⟩)
        (.busy_loop rfl h2 (.inr ⟨k, i, r, rfl, h4, rfl, .inl ?_, ?_⟩))
      · rw [hq]; rfl
      · dsimp only; rw [h3]
  | join j =>
    have hm := h.main
    unfold MOk at hm
    unfold mainStep at hs
    rw [hf] at hm hs
    obtain ⟨h1, h2, h3, h4⟩ := hm
    dsimp only at hs
    split at hs
    · rename_i hj
      split at hs
      · rename_i hd
        cases hs
        refine .main (s' := { s with main := .join (j + 1) }) ?_
          (h.quiet ⟨rfl, rfl, rfl, rfl, rfl, rfl, fun j hj => ⟨h.wev j hj, rfl⟩⟩ rfl rfl rfl rfl ⟨rfl, h2, h3, ?_⟩)
        · have hw := h.ws ⟨j, hj⟩
          rw [hd] at hw
          simp only [Pool.mainStep, h1, hj, dif_pos, hw, absW]
        · intro x hx
          by_cases e : x.val = j
          · have : x = ⟨j, hj⟩ := Fin.ext e
            rw [this]; exact hd
          · exact h4 x (by omega)
      · cases hs
    · rename_i hj
      have all : ∀ x : Fin c.W, f.ws x = .done := fun x => h4 x (by omega)
      split at hs
      · rename_i hk
        cases hs
        refine .main (s' := { s with main := .post }) ?_
          (h.quiet ⟨rfl, rfl, rfl, rfl, rfl, rfl, fun j hj => ⟨h.wev j hj, rfl⟩⟩ rfl rfl rfl rfl ⟨rfl, h2, h3, all⟩)
        simp only [Pool.mainStep, h1, hj, dif_neg, not_false_eq_true, hk]
      · rename_i hk
        cases hs
        refine .main (s' := { s with main := .ret }) ?_
          (h.quiet ⟨rfl, rfl, rfl, rfl, rfl, rfl, fun j hj => ⟨h.wev j hj, rfl⟩⟩ rfl rfl rfl rfl ⟨rfl, h2, h3⟩)
        simp only [Pool.mainStep, h1, hj, dif_neg, not_false_eq_true, hk]
  | post =>
    have hm := h.main
    unfold MOk at hm
    unfold mainStep at hs
    rw [hf] at hm hs
    obtain ⟨h1, h2, h3, h4⟩ := hm
    cases hs
    have hr := emitM_rest (c := c) (c.batch s.model).2
      { s with model := (c.batch s.model).1, log := s.log ++ [.batch] }
    refine .main
      (s' := { Pool.emitM c { s with model := (c.batch s.model).1, log := s.log ++ [.batch] } (c.batch s.model).2 with
               main := .epoch }) ?_
      (h.moveMain rfl hr.2.2.1 rfl hr.1 rfl (hr.2.1.trans h.qout) (hr.2.2.2.trans (by rw [h.model])) (.inr h4)
        (fun j hj => ⟨h.wout j hj, rfl⟩) (fun j hj => ⟨h.wev j hj, rfl⟩) ⟨rfl, ?_, h4⟩)
    · simp only [Pool.mainStep, h1]
    · have hh := fin_dispatches (c := c) (c.batch s.model).2
        { s with model := (c.batch s.model).1, log := s.log ++ [.batch] }
      dsimp only at hh ⊢
      rw [← hh, h.model, h2, h3]
  | ret =>
    unfold mainStep at hs
    rw [hf] at hs
    cases hs

theorem sim_step {c : Cfg M P R} {d : Reads P R} (hd : Faithful c d) (hb : BatchM c) (hq : Silent c)
    {f f' : St M P R c.W} {s : Pool.St M R c.W} (h : Sim c d f s) {a : Pool.Act} (hs : step c d f a = some f') :
    Follows c d s f' := by
  cases a with
  | main => exact sim_main hb hq h hs
  | worker j =>
    simp only [step] at hs
    split at hs
    · exact sim_worker hd h hs
    · cases hs
  | spurious =>
    simp only [step] at hs
    split at hs
    · rename_i k hf
      cases hs
      have hm := h.main
      unfold MOk at hm
      rw [hf] at hm
      obtain ⟨h1, h2, h3⟩ := hm
      refine .one (a := .spurious) (s' := { s with main := .loop k }) ?_
        (h.quiet ⟨rfl, rfl, rfl, rfl, rfl, rfl, fun j hj => ⟨h.wev j hj, rfl⟩⟩ rfl rfl rfl rfl ⟨rfl, h2, h3⟩)
      simp only [Pool.step, h1]
    · cases hs

theorem pool_run_append {c : Cfg M P R} {s s' s'' : Pool.St M R c.W} {as bs : List Pool.Act}
    (h : Pool.run c s as = some s') (h' : Pool.run c s' bs = some s'') : Pool.run c s (as ++ bs) = some s'' := by
  induction as generalizing s with
  | nil => cases h; exact h'
  | cons a as ih =>
    simp only [Pool.run, List.cons_append] at h ⊢
    split at h
    · cases h
    · exact ih h

theorem sim_run {c : Cfg M P R} {d : Reads P R} (hd : Faithful c d) (hb : BatchM c) (hq : Silent c)
    {as : List Pool.Act} {f f' : St M P R c.W} {s : Pool.St M R c.W} (h : Sim c d f s)
    (hs : run c d f as = some f') : Follows c d s f' := by
  induction as generalizing f s with
  | nil => cases hs; exact .zero h
  | cons a as ih =>
    simp only [run] at hs
    split at hs
    · cases hs
    · rename_i f1 h1
      obtain ⟨bs, s1, g1, g2⟩ := sim_step hd hb hq h h1
      obtain ⟨cs, s2, g3, g4⟩ := ih g2 hs
      exact ⟨bs ++ cs, s2, pool_run_append g1 g3, g4⟩

/-! ### Back: every execution of the coarse machine is one of the small-step machine -/

def Steps (c : Cfg M P R) (d : Reads P R) (f f' : St M P R c.W) : Prop := ∃ as, run c d f as = some f'

theorem Steps.refl {c : Cfg M P R} {d : Reads P R} (f : St M P R c.W) : Steps c d f f := ⟨[], rfl⟩

theorem Steps.one {c : Cfg M P R} {d : Reads P R} {f f' : St M P R c.W} (a : Pool.Act)
    (h : step c d f a = some f') : Steps c d f f' := ⟨[a], by simp [run, h]⟩

theorem Steps.trans {c : Cfg M P R} {d : Reads P R} {f f' f'' : St M P R c.W} (h : Steps c d f f')
    (h' : Steps c d f' f'') : Steps c d f f'' := by
  obtain ⟨as, h⟩ := h
  obtain ⟨bs, h'⟩ := h'
  refine ⟨as ++ bs, ?_⟩
  induction as generalizing f with
  | nil => cases h; exact h'
  | cons a as ih =>
    simp only [run, List.cons_append] at h ⊢
    split at h
    · cases h
    · exact ih h

def concW : Pool.WPc R → WPc P R
  | .unborn => .unborn
  | .fetch => .start
  | .work i => .reads i []
  | .push i r => .out0 i r
  | .notify => .sig
  | .done => .done

def concM (kind : Kind) : Pool.MPc R → MPc R
  | .spawn j => .spawn j
  | .loop k => .loop k
  | .waiting k => .wait k
  | .got k i r => match kind with
    | .partialFit => .busy processEv (.doc k i r)
    | .transform => .col k i r
  | .mid k i r => match kind with
    | .partialFit => .busy [] (.doc k i r)
    | .transform => .busy processEv (.loop (k + 1))
  | .join j => .join j
  | .post => .post
  | .epoch => .busy [] .epoch
  | .ret => .ret

/-- The state of the small-step machine in which no thread is inside a critical section. -/
def conc (c : Cfg M P R) (s : Pool.St M R c.W) : St M P R c.W where
  qin := s.qin
  qout := s.qout
  evq := s.evq
  model := s.model
  log := s.log
  ws := fun j => concW (s.ws j)
  main := concM c.kind s.main
  inM := none
  outM := none
  evM := none

theorem delivers_steps {c : Cfg M P R} {d : Reads P R} (es : List Ev) {f : St M P R c.W} {t : List MI} {a : After R}
    (hf : f.main = .busy (es.map .deliver ++ t) a) :
    Steps c d f { f with log := f.log ++ es.map .deliver, main := .busy t a } := by
  induction es generalizing f with
  | nil =>
    have : ({ f with log := f.log ++ List.map Obs.deliver [], main := .busy t a } : St M P R c.W) = f := by
      obtain ⟨_, _, _, _, _, _, _, _, _, _⟩ := f
      dsimp only at hf
      subst hf
      simp
    rw [this]
    exact .refl f
  | cons e es ih =>
    refine (Steps.one .main (f' := { f with log := f.log ++ [.deliver e], main := .busy (es.map .deliver ++ t) a })
      (by simp only [step, mainStep, hf, List.map_cons, List.cons_append])).trans ?_
    have := ih (f := { f with log := f.log ++ [.deliver e], main := .busy (es.map .deliver ++ t) a }) rfl
    simpa using this

theorem process_steps {c : Cfg M P R} {d : Reads P R} {f : St M P R c.W} {t : List MI} {a : After R}
    (hf : f.main = .busy (processEv ++ t) a) (he : f.evM = none) :
    Steps c d f { f with evq := [], log := f.log ++ f.evq.map .deliver, main := .busy t a } := by
  refine (Steps.one .main (f' := { f with evM := some .main, main := .busy (.copy :: t) a })
    (by simp [step, mainStep, hf, processEv, he])).trans ?_
  refine (Steps.one .main (f' := { f with evM := some .main, main := .busy (.clear f.evq :: t) a })
    (by simp only [step, mainStep])).trans ?_
  refine (Steps.one .main
    (f' := { f with evM := some .main, evq := [], main := .busy (.unlockEv :: (f.evq.map .deliver ++ t)) a })
    (by simp only [step, mainStep])).trans ?_
  refine (Steps.one .main (f' := { f with evM := none, evq := [], main := .busy (f.evq.map .deliver ++ t) a })
    (by simp only [step, mainStep])).trans ?_
  have := delivers_steps (d := d) f.evq
    (f := { f with evM := none, evq := [], main := .busy (f.evq.map .deliver ++ t) a }) rfl
  rw [← he] at this
  rw [← he]
  exact this

theorem dispatch_steps {c : Cfg M P R} {d : Reads P R} {f : St M P R c.W} {e : Ev} {t : List MI} {a : After R}
    (hf : f.main = .busy (dispatchP c.owner e ++ t) a) (he : f.evM = none) :
    Steps c d f { f with evq := (fin (dispatchP c.owner e) f.evq f.log).1,
                         log := (fin (dispatchP c.owner e) f.evq f.log).2, main := .busy t a } := by
  unfold dispatchP at hf ⊢
  generalize ho : (if c.owner then processEv else []) = o at hf ⊢
  simp only [List.cons_append, List.nil_append] at hf ⊢
  refine (Steps.one .main (f' := { f with evM := some .main, main := .busy (.load e :: .unlockEv :: (o ++ t)) a })
    (by simp [step, mainStep, hf, he])).trans ?_
  refine (Steps.one .main
    (f' := { f with evM := some .main, main := .busy (.store e f.evq :: .unlockEv :: (o ++ t)) a })
    (by simp only [step, mainStep])).trans ?_
  refine (Steps.one .main
    (f' := { f with evM := some .main, evq := f.evq ++ [e], main := .busy (.unlockEv :: (o ++ t)) a })
    (by simp only [step, mainStep])).trans ?_
  refine (Steps.one .main (f' := { f with evM := none, evq := f.evq ++ [e], main := .busy (o ++ t) a })
    (by simp only [step, mainStep])).trans ?_
  subst ho
  cases c.owner with
  | false =>
    simp only [Bool.false_eq_true, if_false, fin, List.nil_append]
    rw [← he]
    exact .refl _
  | true =>
    simp only [if_true]
    have := process_steps (d := d) (t := t) (a := a)
      (f := { f with evM := none, evq := f.evq ++ [e], main := .busy (processEv ++ t) a }) rfl rfl
    simp only [fin, processEv]
    rw [← he] at this ⊢
    exact this

theorem dispatches_steps {c : Cfg M P R} {d : Reads P R} (k : Nat) {f : St M P R c.W} {t : List MI} {a : After R}
    (hf : f.main = .busy (dispatches c.owner k ++ t) a) (he : f.evM = none) :
    Steps c d f { f with evq := (fin (dispatches c.owner k) f.evq f.log).1,
                         log := (fin (dispatches c.owner k) f.evq f.log).2, main := .busy t a } := by
  induction k generalizing f with
  | zero =>
    have : ({ f with evq := (fin (dispatches c.owner 0) f.evq f.log).1,
                     log := (fin (dispatches c.owner 0) f.evq f.log).2, main := .busy t a } : St M P R c.W) = f := by
      obtain ⟨_, _, _, _, _, _, _, _, _, _⟩ := f
      dsimp only at hf
      subst hf
      rfl
    rw [this]
    exact .refl f
  | succ k ih =>
    simp only [dispatches, List.append_assoc] at hf
    refine (dispatch_steps hf he).trans ?_
    simp only [dispatches, fin_append]
    exact ih (f := { f with evq := (fin (dispatchP c.owner .max) f.evq f.log).1,
                            log := (fin (dispatchP c.owner .max) f.evq f.log).2,
                            main := .busy (dispatches c.owner k ++ t) a }) rfl he

theorem reads_steps {c : Cfg M P R} {d : Reads P R} {j : Fin c.W} {i : Nat} (k : Nat) {f : St M P R c.W}
    {ps : List P} (hw : f.ws j = .reads i ps) (hk : ps.length + k = d.count i) :
    Steps c d f (f.setW j (.reads i (ps ++ List.replicate k (c.params f.model)))) := by
  induction k generalizing f ps with
  | zero =>
    have : f.setW j (.reads i (ps ++ List.replicate 0 (c.params f.model))) = f := by
      simp only [List.replicate_zero, List.append_nil, ← hw, St.setW]
      congr
      funext x
      split
      · rename_i e; rw [e]
      · rfl
    rw [this]
    exact .refl f
  | succ k ih =>
    refine (Steps.one (.worker j.val) (f' := f.setW j (.reads i (ps ++ [c.params f.model]))) ?_).trans ?_
    · simp [step, workerStep, hw, show ps.length < d.count i by omega]
    · have := ih (f := f.setW j (.reads i (ps ++ [c.params f.model]))) (ps := ps ++ [c.params f.model])
        (by simp [St.setW]) (by simp; omega)
      have e : (f.setW j (.reads i (ps ++ [c.params f.model]))).setW j
          (.reads i (ps ++ [c.params f.model] ++
            List.replicate k (c.params (f.setW j (.reads i (ps ++ [c.params f.model]))).model))) =
          f.setW j (.reads i (ps ++ List.replicate (k + 1) (c.params f.model))) := by
        simp only [St.setW, List.replicate_succ, List.append_assoc, List.singleton_append]
        congr
        funext x
        split <;> rfl
      rw [e] at this
      exact this

theorem setW_at {W : Nat} (g : St M P R W) (j : Fin W) (v : WPc P R) : (g.setW j v).ws j = v := by simp [St.setW]

theorem setW_setW {W : Nat} (g : St M P R W) (j : Fin W) (v w : WPc P R) : (g.setW j v).setW j w = g.setW j w := by
  simp only [St.setW]
  congr
  funext x
  split <;> rfl

theorem setW_self {W : Nat} {g : St M P R W} {j : Fin W} {v : WPc P R} (h : g.ws j = v) : g.setW j v = g := by
  simp only [St.setW, ← h]
  congr
  funext x
  split
  · rename_i e; rw [e]
  · rfl

theorem conc_setW (c : Cfg M P R) (s : Pool.St M R c.W) (j : Fin c.W) (v : Pool.WPc R) :
    (conc c s).setW j (concW v) = conc c { s with ws := Pool.setW s.ws j v } := by
  simp only [conc, St.setW, Pool.setW]
  congr
  funext x
  split <;> rfl

theorem wstep {c : Cfg M P R} {d : Reads P R} {g g' : St M P R c.W} {j : Fin c.W} {v w : WPc P R}
    (h : workerStep c d (g.setW j v) j = some ((g'.setW j v).setW j w)) :
    Steps c d (g.setW j v) (g'.setW j w) :=
  .one (.worker j.val) (by rw [setW_setW] at h; simp only [step, j.isLt, dif_pos]; exact h)

theorem conc_worker {c : Cfg M P R} {d : Reads P R} (hd : Faithful c d) {s s' : Pool.St M R c.W} {j : Fin c.W}
    (hs : Pool.workerStep c s j = some s') : Steps c d (conc c s) (conc c s') := by
  have e0 : (conc c s).setW j (concW (s.ws j)) = conc c s := setW_self rfl
  rw [← e0]
  unfold Pool.workerStep at hs
  split at hs
  · cases hs
  · cases hs
  · rename_i e
    rw [e]
    have s1 : Steps c d ((conc c s).setW j .start) ({ conc c s with inM := some (.worker j) }.setW j .look) :=
      wstep (by simp only [workerStep, setW_at]; rfl)
    split at hs
    · rename_i hq
      cases hs
      rw [← conc_setW]
      refine s1.trans (Steps.trans (f' := { conc c s with inM := some (.worker j) }.setW j .quit) ?_ ?_)
      · apply wstep
        simp only [workerStep, setW_at]
        rw [show (({ conc c s with inM := some (.worker j) } : St M P R c.W).setW j .look).qin = [] from hq]
      · exact wstep (g' := conc c s) (by simp only [workerStep, setW_at]; rfl)
    · rename_i i q hq
      cases hs
      rw [show conc c { s with qin := q, ws := Pool.setW s.ws j (.work i) } =
        ({ conc c s with qin := q } : St M P R c.W).setW j (.reads i []) from
        (conc_setW c { s with qin := q } j (.work i)).symm]
      refine s1.trans (Steps.trans (f' := { conc c s with inM := some (.worker j) }.setW j (.pop i)) ?_ ?_)
      · apply wstep
        simp only [workerStep, setW_at]
        rw [show (({ conc c s with inM := some (.worker j) } : St M P R c.W).setW j .look).qin = i :: q from hq]
      refine Steps.trans (f' := { conc c s with inM := some (.worker j), qin := q }.setW j (.leaveIn i)) ?_ ?_
      · apply wstep
        simp only [workerStep, setW_at]
        rw [show (({ conc c s with inM := some (.worker j) } : St M P R c.W).setW j (.pop i)).qin = i :: q from hq]
        rfl
      · exact wstep (g' := { conc c s with qin := q }) (by simp only [workerStep, setW_at]; rfl)
  · rename_i i e
    rw [e]
    cases hs
    have s1 := reads_steps (d := d) (j := j) (i := i) (d.count i) (f := (conc c s).setW j (.reads i [])) (ps := [])
      (setW_at _ _ _) (by simp)
    rw [setW_setW] at s1
    rw [show conc c { s with ws := Pool.setW s.ws j (.push i (c.eval (c.params s.model) i)),
                             evq := s.evq ++ [.exp i] } =
      ({ conc c s with evq := s.evq ++ [.exp i] } : St M P R c.W).setW j (.out0 i (c.eval (c.params s.model) i)) from
      (conc_setW c { s with evq := s.evq ++ [.exp i] } j (.push i (c.eval (c.params s.model) i))).symm]
    refine Steps.trans s1 ?_
    generalize hr : c.eval (c.params s.model) i = r
    refine Steps.trans (f' := (conc c s).setW j (.ev0 i r)) (wstep ?_) ?_
    · have e1 := hd i (c.params s.model)
      rw [hr] at e1
      simp only [workerStep, setW_at, List.nil_append, List.length_replicate, Nat.lt_irrefl, if_false]
      rw [← e1]
      rfl
    refine Steps.trans (f' := { conc c s with evM := some (.worker j) }.setW j (.ev1 i r)) (wstep ?_) ?_
    · simp only [workerStep, setW_at]; rfl
    refine Steps.trans (f' := { conc c s with evM := some (.worker j) }.setW j (.ev2 i r s.evq)) (wstep ?_) ?_
    · simp only [workerStep, setW_at]; rfl
    refine Steps.trans (f' := { conc c s with evM := some (.worker j), evq := s.evq ++ [Ev.exp i] }.setW j (.ev3 i r))
      (wstep ?_) ?_
    · simp only [workerStep, setW_at]; rfl
    · exact wstep (by simp only [workerStep, setW_at]; rfl)
  · rename_i i r e
    rw [e]
    cases hs
    rw [show conc c { s with qout := s.qout ++ [(r, i)], ws := Pool.setW s.ws j .notify } =
      ({ conc c s with qout := s.qout ++ [(r, i)] } : St M P R c.W).setW j .sig from
      (conc_setW c { s with qout := s.qout ++ [(r, i)] } j .notify).symm]
    refine Steps.trans (f' := { conc c s with outM := some (.worker j) }.setW j (.out1 i r)) (wstep ?_) ?_
    · simp only [workerStep, setW_at]; rfl
    refine Steps.trans (f' := { conc c s with outM := some (.worker j) }.setW j (.out2 i r s.qout)) (wstep ?_) ?_
    · simp only [workerStep, setW_at]; rfl
    refine Steps.trans (f' := { conc c s with outM := some (.worker j), qout := s.qout ++ [(r, i)] }.setW j .out3)
      (wstep ?_) ?_
    · simp only [workerStep, setW_at]; rfl
    · exact wstep (by simp only [workerStep, setW_at]; rfl)
  · rename_i e
    rw [e]
    cases hs
    rw [show conc c { s with ws := Pool.setW s.ws j .fetch, main := Pool.wake s.main } =
      (conc c { s with main := Pool.wake s.main }).setW j .start from
      (conc_setW c { s with main := Pool.wake s.main } j .fetch).symm]
    refine wstep ?_
    simp only [workerStep, setW_at]
    have : (conc c { s with main := Pool.wake s.main }) = { conc c s with main := wake (conc c s).main } := by
      simp only [conc]
      congr
      cases s.main <;> cases c.kind <;> rfl
    rw [this]
    rfl

theorem mstep {c : Cfg M P R} {d : Reads P R} {g g' : St M P R c.W} (h : mainStep c g = some g') : Steps c d g g' :=
  .one .main h

theorem conc_main {c : Cfg M P R} {d : Reads P R} {s s' : Pool.St M R c.W}
    (hs : Pool.mainStep c s = some s') : Steps c d (conc c s) (conc c s') := by
  unfold Pool.mainStep at hs
  split at hs
  · -- spawn
    rename_i j e
    split at hs
    · rename_i h
      cases hs
      rw [show conc c { s with ws := Pool.setW s.ws ⟨j, h⟩ .fetch, main := .spawn (j + 1) } =
        (conc c { s with main := .spawn (j + 1) }).setW ⟨j, h⟩ .start from
        (conc_setW c { s with main := .spawn (j + 1) } ⟨j, h⟩ .fetch).symm]
      refine mstep ?_
      simp only [mainStep, conc, e, concM, h, dif_pos]
      rfl
    · rename_i h
      cases hs
      refine mstep ?_
      simp only [mainStep, conc, e, concM, h, dif_neg, not_false_eq_true]
  · -- loop
    rename_i k e
    split at hs
    · rename_i hk
      have s1 : Steps c d (conc c s) { conc c s with main := .test k, outM := some .main } :=
        mstep (by simp only [mainStep, conc, e, concM, hk, if_true])
      split at hs
      · rename_i hq
        cases hs
        refine s1.trans (Steps.trans (f' := { conc c s with main := .rel k, outM := some .main }) (mstep ?_) (mstep ?_))
        · simp only [mainStep, conc, hq]
        · simp only [mainStep, conc, concM]
      · rename_i r i q hq
        cases hs
        refine s1.trans (Steps.trans (f' := { conc c s with main := .pop k i r, outM := some .main }) (mstep ?_) ?_)
        · simp only [mainStep, conc, hq]
        refine Steps.trans (f' := { conc c s with qout := q, main := .leaveOut k i r, outM := some .main })
          (mstep ?_) (mstep ?_)
        · simp only [mainStep, conc, hq, List.tail_cons]
        · simp only [mainStep, conc, concM]
          cases c.kind <;> rfl
    · rename_i hk
      cases hs
      refine mstep ?_
      simp only [mainStep, conc, e, concM, hk, if_false]
  · cases hs
  · -- got
    rename_i k i r e
    split at hs
    · rename_i hk
      cases hs
      have := process_steps (c := c) (d := d) (f := conc c s) (t := []) (a := .doc k i r)
        (by simp [conc, e, concM, hk]) rfl
      simpa only [conc, Pool.flush, concM, hk] using this
    · rename_i hk
      cases hs
      refine Steps.trans (f' := { conc c s with
        model := (c.docStep i r s.model).1, log := s.log ++ [.consume i r],
        main := .busy (dispatches c.owner (c.docStep i r s.model).2 ++ processEv) (.loop (k + 1)) }) (mstep ?_) ?_
      · simp only [mainStep, conc, e, concM, hk]
      · have := dispatches_steps (c := c) (d := d) (c.docStep i r s.model).2
          (f := { conc c s with
            model := (c.docStep i r s.model).1, log := s.log ++ [.consume i r],
            main := .busy (dispatches c.owner (c.docStep i r s.model).2 ++ processEv) (.loop (k + 1)) })
          (t := processEv) (a := .loop (k + 1)) rfl rfl
        have hf := fin_dispatches (c := c) (c.docStep i r s.model).2
          { s with model := (c.docStep i r s.model).1, log := s.log ++ [.consume i r] }
        have hr := emitM_rest (c := c) (c.docStep i r s.model).2
          { s with model := (c.docStep i r s.model).1, log := s.log ++ [.consume i r] }
        simp only [conc] at this ⊢
        simp only [Pool.consume, concM, hk]
        rw [hr.1, hr.2.1, hr.2.2.1, hr.2.2.2]
        dsimp only at hf
        rw [hf] at this
        exact this
  · -- mid
    rename_i k i r e
    split at hs
    · rename_i hk
      cases hs
      refine Steps.trans (f' := { conc c s with
        model := (c.docStep i r s.model).1, log := s.log ++ [.consume i r],
        main := .busy (dispatches c.owner (c.docStep i r s.model).2) (.loop (k + 1)) }) (mstep ?_) ?_
      · simp only [mainStep, conc, e, concM, hk]
      · have := dispatches_steps (c := c) (d := d) (c.docStep i r s.model).2
          (f := { conc c s with
            model := (c.docStep i r s.model).1, log := s.log ++ [.consume i r],
            main := .busy (dispatches c.owner (c.docStep i r s.model).2) (.loop (k + 1)) })
          (t := []) (a := .loop (k + 1)) (by simp) rfl
        refine this.trans (mstep ?_)
        have hf := fin_dispatches (c := c) (c.docStep i r s.model).2
          { s with model := (c.docStep i r s.model).1, log := s.log ++ [.consume i r] }
        have hr := emitM_rest (c := c) (c.docStep i r s.model).2
          { s with model := (c.docStep i r s.model).1, log := s.log ++ [.consume i r] }
        simp only [conc, mainStep]
        simp only [Pool.consume, concM]
        rw [hr.1, hr.2.1, hr.2.2.1, hr.2.2.2]
        dsimp only at hf
        rw [hf]
    · rename_i hk
      cases hs
      have := process_steps (c := c) (d := d) (f := conc c s) (t := []) (a := .loop (k + 1))
        (by simp [conc, e, concM, hk]) rfl
      exact this.trans (mstep (by simp only [conc, mainStep, Pool.flush, concM]))
  · -- join
    rename_i j e
    split at hs
    · rename_i h
      split at hs
      · rename_i hd
        cases hs
        refine mstep ?_
        simp only [mainStep, conc, e, concM, h, dif_pos, hd, concW]
      · cases hs
    · rename_i h
      split at hs
      · rename_i hk
        cases hs
        refine mstep ?_
        simp only [mainStep, conc, e, concM, h, dif_neg, not_false_eq_true, hk]
      · rename_i hk
        cases hs
        refine mstep ?_
        simp only [mainStep, conc, e, concM, h, dif_neg, not_false_eq_true, hk]
  · -- post
    rename_i e
    cases hs
    refine Steps.trans (f' := { conc c s with
        model := (c.batch s.model).1, log := s.log ++ [.batch],
        main := .busy (dispatches c.owner (c.batch s.model).2) .epoch }) (mstep ?_) ?_
    · simp only [mainStep, conc, e, concM]
    · have := dispatches_steps (c := c) (d := d) (c.batch s.model).2
        (f := { conc c s with
        model := (c.batch s.model).1, log := s.log ++ [.batch],
        main := .busy (dispatches c.owner (c.batch s.model).2) .epoch })
        (t := []) (a := .epoch) (by simp) rfl
      have hf := fin_dispatches (c := c) (c.batch s.model).2
        { s with model := (c.batch s.model).1, log := s.log ++ [.batch] }
      have hr := emitM_rest (c := c) (c.batch s.model).2
        { s with model := (c.batch s.model).1, log := s.log ++ [.batch] }
      simp only [conc] at this ⊢
      simp only [concM]
      rw [hr.1, hr.2.1, hr.2.2.1, hr.2.2.2]
      dsimp only at hf
      rw [hf] at this
      exact this
  · -- epoch
    rename_i e
    cases hs
    refine Steps.trans (f' := { conc c s with main := .busy (dispatchP c.owner .epoch) .ret }) (mstep ?_) ?_
    · simp only [mainStep, conc, e, concM]
    · have := dispatch_steps (c := c) (d := d) (e := .epoch)
        (f := { conc c s with main := .busy (dispatchP c.owner .epoch) .ret }) (t := []) (a := .ret) (by simp) rfl
      refine this.trans (mstep ?_)
      have hf := fin_dispatch (c := c) s .epoch
      have hr := dispatch_rest (c := c) s .epoch
      simp only [conc, mainStep, concM]
      rw [hr.1, hr.2.1, hr.2.2.1, hr.2.2.2, hf]
  · cases hs

theorem conc_run {c : Cfg M P R} {d : Reads P R} (hd : Faithful c d) {as : List Pool.Act} {s s' : Pool.St M R c.W}
    (hs : Pool.run c s as = some s') : Steps c d (conc c s) (conc c s') := by
  induction as generalizing s with
  | nil => cases hs; exact .refl _
  | cons a as ih =>
    simp only [Pool.run] at hs
    split at hs
    · cases hs
    · rename_i s1 h1
      refine Steps.trans ?_ (ih hs)
      cases a with
      | main => exact conc_main h1
      | worker j =>
        simp only [Pool.step] at h1
        split at h1
        · exact conc_worker hd h1
        · cases h1
      | spurious =>
        simp only [Pool.step] at h1
        split at h1
        · rename_i k e
          cases h1
          refine .one .spurious ?_
          simp only [step, conc, e, concM]
        · cases h1

/-! ### C122 -/

/-- A call that finds `l` in the members of the object and the model `m` can return, leave `l'` and `m'` and have been
observed to do `log`; in small steps. -/
def Outcome (c : Cfg M P R) (d : Reads P R) (l : Left R) (m : M) (l' : Left R) (m' : M) (log : List (Obs R)) : Prop :=
  ∃ as f, run c d (start c l m) as = some f ∧ f.main = .ret ∧ l' = ⟨f.qin, f.qout, f.evq⟩ ∧ f.model = m' ∧ f.log = log

/-- The same when a critical section is one step and the E step reads the model once. -/
def CoarseOutcome (c : Cfg M P R) (l : Left R) (m : M) (l' : Left R) (m' : M) (log : List (Obs R)) : Prop :=
  ∃ as s, Pool.run c (Pool.start c l m) as = some s ∧ s.main = .ret ∧ l' = s.left ∧ s.model = m' ∧ s.log = log

theorem conc_start (c : Cfg M P R) (l : Left R) (m : M) : conc c (Pool.start c l m) = start c l m := rfl

/-- **C122**.  Whatever can happen in large steps can happen in small ones, for every M step. -/
theorem C122_large_steps_exist {c : Cfg M P R} {d : Reads P R} (hd : Faithful c d) {l l' : Left R} {m m' : M}
    {log : List (Obs R)} (h : CoarseOutcome c l m l' m' log) : Outcome c d l m l' m' log := by
  obtain ⟨as, s, h1, h2, h3, h4, h5⟩ := h
  obtain ⟨bs, hb⟩ := conc_run hd h1
  rw [conc_start] at hb
  exact ⟨bs, _, hb, by simp only [conc, h2, concM], h3, h4, h5⟩

/-- **C122** (partial: batch M steps, which neither touch what the E step reads nor dispatch events per document).  The
outcomes of a call in small steps are exactly those in large steps.  Missing: the online M step, for which an E step can
mix two models (`C122_online_mixes_models`). -/
theorem C122_same_outcomes_partial {c : Cfg M P R} {d : Reads P R} (hd : Faithful c d) (hb : BatchM c) (hq : Silent c)
    {l l' : Left R} {m m' : M} {log : List (Obs R)} :
    Outcome c d l m l' m' log ↔ CoarseOutcome c l m l' m' log := by
  refine ⟨?_, C122_large_steps_exist hd⟩
  rintro ⟨as, f, h1, h2, h3, h4, h5⟩
  obtain ⟨bs, s, g1, g2⟩ := sim_run hd hb hq (sim_start c d l m) h1
  have hm := g2.main
  unfold MOk at hm
  rw [h2] at hm
  refine ⟨bs, s, g1, hm.1, ?_, by rw [g2.model, h4], by rw [hm.2.2, h5]⟩
  rw [h3, Pool.St.left, g2.qin, g2.qout, hm.2.1]

/-- **C122** (partial, as above).  A call on a fresh object that has returned has given every document to the M step
exactly once, with the result the E step computes from the one model at the start of the call; the queues are empty. -/
theorem C122_one_model_partial {c : Cfg M P R} {d : Reads P R} (hd : Faithful c d) (hb : BatchM c) (hq : Silent c)
    {l' : Left R} {m m' : M} {log : List (Obs R)} (h : Outcome c d .empty m l' m' log) :
    (Pool.consumed log).Perm ((List.range c.n).map fun i => (i, c.eval (c.params m) i)) ∧
    l'.qin = [] ∧ l'.qout = [] := by
  obtain ⟨as, s, h1, h2, h3, h4, h5⟩ := (C122_same_outcomes_partial hd hb hq).1 h
  have hr : Pool.Reachable c m s := ⟨as, h1⟩
  have h6 := Pool.C06_nothing_left hr h2
  refine ⟨?_, by rw [h3]; exact h6.1, by rw [h3]; exact h6.2.1⟩
  rw [← h5]
  have e : Pool.consumed s.log =
      ((Pool.consumed s.log).map Prod.fst).map fun i => (i, c.eval (c.params m) i) := by
    rw [List.map_map]
    conv_lhs => rw [← List.map_id (Pool.consumed s.log)]
    apply List.map_congr_left
    intro x hx
    simp [← (Pool.C01_result_of_same_document hb hr x hx).2]
  rw [e]
  exact (Pool.C01_each_document_once hr h2).1.map _

/-- **C122** (partial, as above).  When the per-document updates commute, the model after `partial_fit` is that of a
sequential epoch, for every schedule of the small steps. -/
theorem C122_sequential_partial {c : Cfg M P R} {d : Reads P R} (hd : Faithful c d) (hb : BatchM c) (hq : Silent c)
    (hk : c.kind = .partialFit) (hc : Pool.CommuteM c) {l' : Left R} {m m' : M} {log : List (Obs R)}
    (h : Outcome c d .empty m l' m' log) :
    m' = Pool.seqEpoch c.n c.params c.eval (fun i r x => (c.docStep i r x).1) (fun x => (c.batch x).1) m := by
  obtain ⟨as, s, h1, h2, _, h4, _⟩ := (C122_same_outcomes_partial hd hb hq).1 h
  rw [← h4]
  exact Pool.C08_schedule_independent hk hb hc ⟨as, h1⟩ h2

/-- The E step of the demo reads the parameter as often as the document has words (here `i + 1`) and sums what it reads. -/
def demoReads : Reads Nat Nat where
  count i := i + 1
  value i ps := 10 * (ps.sum / (i + 1)) + i

example : Faithful (Pool.demoSum 2) demoReads ∧ BatchM (Pool.demoSum 2) ∧ Silent (Pool.demoSum 2) ∧
    (∃ m' l' log, Outcome (Pool.demoSum 2) demoReads .empty (1, 0) l' m' log ∧ m' = (34, 0)) := by
  have hd : Faithful (Pool.demoSum 2) demoReads := by
    intro i p
    simp [demoReads, Pool.demoSum]
  exact ⟨hd, fun _ _ _ => rfl, fun _ _ _ => rfl, _, _, _,
    C122_large_steps_exist hd ⟨Pool.demoRun, _, rfl, rfl, rfl, rfl, rfl⟩, rfl⟩

/-- Two workers, two documents, an M step that adds one to the parameter after every document; the E step reads the
parameter twice and reports by how much it has changed meanwhile. -/
def mixCfg : Cfg Nat Nat Nat where
  W := 2
  n := 2
  kind := .partialFit
  owner := true
  params := id
  eval _ _ := 0
  docStep _ _ m := (m + 1, 0)
  batch m := (m, 0)

def mixReads : Reads Nat Nat where
  count _ := 2
  value _ ps := ps.getLastD 0 - ps.headD 0

/-- Worker 1 reads the parameter once before and once after the M step of document 0. -/
def mixRun : List Pool.Act :=
  List.replicate 3 .main ++ List.replicate 16 (.worker 0) ++ List.replicate 5 (.worker 1) ++
  List.replicate 10 .main ++ List.replicate 14 (.worker 1) ++ List.replicate 3 (.worker 0) ++ List.replicate 28 .main

/-- **C122 is false** for an M step that updates the parameters per document: a document is used with a result that the
E step computes from no single model. -/
theorem C122_online_mixes_models : Faithful mixCfg mixReads ∧
    ∃ l' m' log, Outcome mixCfg mixReads .empty 5 l' m' log ∧
      ∃ x ∈ Pool.consumed log, ∀ p, x.2 ≠ mixCfg.eval p x.1 := by
  refine ⟨fun i p => by simp [mixCfg, mixReads, List.replicate], _, _, _, ⟨mixRun, _, rfl, rfl, rfl, rfl, rfl⟩,
    (1, 1), ?_, fun p => by simp [mixCfg]⟩
  decide +kernel

end Verif.Fine
