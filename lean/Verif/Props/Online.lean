import Verif.Props.SupervisedM
import Verif.Lemmas.Perm

/-! Properties C52, C53 and C81 of `FastOnlineSupervisedMStep`. -/
namespace Verif.MStep

open MathUtils EStep Optim Finset

variable {K V C : ℕ}

/-- A history of calls of `FastOnlineSupervisedMStep` for a model with the given `beta` and `eta`: the state
with the model, and the events so far. -/
noncomputable def onlineHistory (cfg : OnlineCfg C) (beta : Mat K V ℝ) (eta : Mat K C ℝ)
    (h : List (Call (DocArg K V) Unit)) : Option (OnlineState K V C × List (Option ℝ)) :=
  history
    (fun a s => (onlineDoc cfg a.1 a.2.1 a.2.2 s.1).map fun r => (r.1, s.2 ++ r.2))
    (fun _ s => (onlineM cfg s.1).map fun r => (r.1, s.2 ++ r.2))
    (⟨none, 0, some beta, some eta⟩, []) h

/-- The documents after the last complete minibatch. -/
def pending {A : Type} (m : ℕ) (ds : List A) : List A := ds.drop (m * (ds.length / m))

/-- The share of the topics, if the sum is not zero. -/
noncomputable def share (d : DocArg K V) : Option (Vec K ℝ) := onlineZbar d.2.2.gamma d.1

/-- The invariant. -/
structure OnlineIs (cfg : OnlineCfg C) (s : OnlineState K V C) (ev : List (Option ℝ)) (ds : List (DocArg K V)) :
    Prop where
  seen : s.seen = ds.length % cfg.minibatch
  events : ev.length = ds.length / cfg.minibatch
  fresh : s.bufs = none → ds = []
  bufs : ∀ p, s.bufs = some p → p.b = expectedCounts (ds.map Prod.snd) ∧ p.zbar.length = cfg.minibatch ∧
    p.y.length = cfg.minibatch ∧ p.zbar.take s.seen = (pending cfg.minibatch ds).map share ∧
    p.y.take s.seen = (pending cfg.minibatch ds).map fun d => d.2.1.cls

theorem given_snoc {A B : Type} (h : List (Call A B)) (c : Call A B) :
    given (h ++ [c]) = match c with
      | .doc a => given h ++ [a]
      | .step _ => given h := by
  cases c <;> simp [given]

@[simp] theorem given_nil {A B : Type} : given ([] : List (Call A B)) = [] := rfl

@[simp] theorem given_doc {A B : Type} (a : A) (h : List (Call A B)) : given (.doc a :: h) = a :: given h := rfl

@[simp] theorem given_step {A B : Type} (b : B) (h : List (Call A B)) : given (.step b :: h) = given h := rfl

/-- The velocity of `eta`. -/
def OnlineState.velocity (s : OnlineState K V C) : Option (Mat K C ℝ) :=
  match s.bufs with
  | none => some fun _ _ => 0
  | some p => p.velocity

/-- The buffers after `doc_m_step` has stored the document. -/
noncomputable def stored (cfg : OnlineCfg C) (s : OnlineState K V C) (d : DocArg K V) : OnlineBufs K V C :=
  let p := s.bufs.getD (OnlineBufs.init cfg)
  { p with
    b := fun k n => p.b k n + scaled d.2.2.phi d.2.1.words k n
    zbar := p.zbar.set s.seen (share d)
    y := p.y.set s.seen d.2.1.cls }

theorem onlineDoc_eq {cfg : OnlineCfg C} {s : OnlineState K V C} (hm : s.seen < cfg.minibatch)
    (hl : ∀ p, s.bufs = some p → p.zbar.length = cfg.minibatch ∧ p.y.length = cfg.minibatch) (d : DocArg K V) :
    onlineDoc cfg d.1 d.2.1 d.2.2 s =
      if cfg.minibatch ≤ s.seen + 1 then
        onlineM cfg { s with bufs := some (stored cfg s d), seen := s.seen + 1 }
      else some ({ s with bufs := some (stored cfg s d), seen := s.seen + 1 }, []) := by
  have : s.seen < (s.bufs.getD (OnlineBufs.init cfg)).zbar.length ∧
      s.seen < (s.bufs.getD (OnlineBufs.init cfg)).y.length := by
    cases hb : s.bufs with
    | none => simp [OnlineBufs.init, hm]
    | some p => simp [hl p hb, hm]
  simp only [onlineDoc]
  rw [if_pos this]
  rfl

/-- What is stored after a document. -/
theorem stored_is {cfg : OnlineCfg C} {s : OnlineState K V C} {ev : List (Option ℝ)}
    {ds : List (DocArg K V)} (h : OnlineIs cfg s ev ds) (hm : s.seen < cfg.minibatch) (d : DocArg K V) :
    (stored cfg s d).b = expectedCounts ((ds ++ [d]).map Prod.snd) ∧
    (stored cfg s d).zbar.length = cfg.minibatch ∧ (stored cfg s d).y.length = cfg.minibatch ∧
    (stored cfg s d).zbar.take (s.seen + 1) = (pending cfg.minibatch ds ++ [d]).map share ∧
    (stored cfg s d).y.take (s.seen + 1) = (pending cfg.minibatch ds ++ [d]).map (fun d => d.2.1.cls) ∧
    (stored cfg s d).velocity = s.velocity := by
  have key : ∀ {α : Type} (l vs : List α) (v : α), s.seen < l.length → l.take s.seen = vs →
      (l.set s.seen v).take (s.seen + 1) = vs ++ [v] := by
    intro α l vs v hl ht
    rw [List.take_add_one, List.take_set_of_le (Nat.le_refl _), ht]
    simp [hl]
  cases hb : s.bufs with
  | none =>
    have hds := h.fresh hb
    subst hds
    have hs0 : s.seen = 0 := by rw [h.seen]; simp
    refine ⟨?_, by simp [stored, hb, OnlineBufs.init], by simp [stored, hb, OnlineBufs.init], ?_, ?_, ?_⟩
    · funext k n
      simp [stored, hb, OnlineBufs.init, expectedCounts, scaled, mul_comm]
    · rw [List.map_append]
      simp only [stored, hb, OnlineBufs.init, Option.getD_none]
      refine key _ _ _ (by simpa using hm) ?_
      simp [hs0, pending]
    · rw [List.map_append]
      simp only [stored, hb, OnlineBufs.init, Option.getD_none]
      refine key _ _ _ (by simpa using hm) ?_
      simp [hs0, pending]
    · simp [stored, hb, OnlineBufs.init, OnlineState.velocity]
  | some p =>
    obtain ⟨h1, h2, h3, h4, h5⟩ := h.bufs p hb
    refine ⟨?_, by simp [stored, hb, h2], by simp [stored, hb, h3], ?_, ?_, ?_⟩
    · funext k n
      rw [List.map_append, List.map_singleton, expectedCounts_snoc]
      simp [stored, hb, h1]
    · rw [List.map_append]
      simp only [stored, hb, Option.getD_some]
      exact key _ _ _ (by omega) h4
    · rw [List.map_append]
      simp only [stored, hb, Option.getD_some]
      exact key _ _ _ (by omega) h5
    · simp [stored, hb, OnlineState.velocity]

/-- The last minibatch when a document completes it. -/
theorem pending_complete {A : Type} {m : ℕ} {ds : List A} (d : A) (h : ds.length % m + 1 = m) :
    (pending m ds ++ [d]).length = m ∧
      pending m ds ++ [d] = (ds ++ [d]).drop ((ds ++ [d]).length - m) ∧
      pending m (ds ++ [d]) = [] ∧ (ds.length + 1) % m = 0 ∧ (ds.length + 1) / m = ds.length / m + 1 := by
  have hdm := Nat.div_add_mod ds.length m
  have hm : 0 < m := by omega
  have e : ds.length + 1 = m * (ds.length / m + 1) := by rw [Nat.mul_add]; omega
  have e2 : (ds.length + 1) / m = ds.length / m + 1 := by rw [e, Nat.mul_div_cancel_left _ hm]
  have e3 : (ds.length + 1) % m = 0 := by rw [e, Nat.mul_mod_right]
  refine ⟨?_, ?_, ?_, e3, e2⟩
  · simp [pending]; omega
  · have : (ds ++ [d]).length - m = m * (ds.length / m) := by simp; omega
    rw [this, List.drop_append_of_le_length (by omega), pending]
  · rw [pending, List.length_append, List.length_singleton, e2, ← e]
    simp

theorem pending_incomplete {A : Type} {m : ℕ} {ds : List A} (d : A) (h : ds.length % m + 1 < m) :
    pending m (ds ++ [d]) = pending m ds ++ [d] ∧ (ds.length + 1) % m = ds.length % m + 1 ∧
      (ds.length + 1) / m = ds.length / m := by
  have hdm := Nat.div_add_mod ds.length m
  have e2 : (ds.length + 1) / m = ds.length / m := by
    rw [Nat.div_eq_iff (by omega)]
    constructor
    · rw [Nat.mul_comm]; omega
    · rw [Nat.mul_comm]; omega
  have e3 : (ds.length + 1) % m = ds.length % m + 1 := by
    have := Nat.div_add_mod (ds.length + 1) m
    rw [e2] at this
    omega
  refine ⟨?_, e3, e2⟩
  rw [pending, List.length_append, List.length_singleton, e2, List.drop_append_of_le_length (by omega), pending]

/-- A document that does not complete a minibatch. -/
theorem OnlineIs.doc_incomplete {cfg : OnlineCfg C} {s : OnlineState K V C} {ev : List (Option ℝ)}
    {ds : List (DocArg K V)} (h : OnlineIs cfg s ev ds) (d : DocArg K V)
    (hc : ds.length % cfg.minibatch + 1 < cfg.minibatch) :
    ∃ s', onlineDoc cfg d.1 d.2.1 d.2.2 s = some (s', []) ∧ OnlineIs cfg s' ev (ds ++ [d]) ∧
      s'.beta = s.beta ∧ s'.eta = s.eta ∧ s'.velocity = s.velocity := by
  have hm : s.seen < cfg.minibatch := by rw [h.seen]; omega
  obtain ⟨p1, p2, p3⟩ := pending_incomplete d hc
  obtain ⟨t1, t2, t3, t4, t5, t6⟩ := stored_is h hm d
  refine ⟨{ s with bufs := some (stored cfg s d), seen := s.seen + 1 }, ?_, ⟨?_, ?_, ?_, ?_⟩, rfl, rfl, ?_⟩
  · rw [onlineDoc_eq hm (fun p hp => ⟨(h.bufs p hp).2.1, (h.bufs p hp).2.2.1⟩),
      if_neg (by rw [h.seen]; omega)]
  · simp only [List.length_append, List.length_singleton, p2, h.seen]
  · rw [List.length_append, List.length_singleton, p3, h.events]
  · simp
  · intro p hp
    simp only [Option.some.injEq] at hp
    subst hp
    rw [p1]
    exact ⟨t1, t2, t3, t4, t5⟩
  · simpa [OnlineState.velocity] using t6

/-- A document that completes a minibatch. -/
theorem OnlineIs.doc_complete {cfg : OnlineCfg C} {s : OnlineState K V C} {ev : List (Option ℝ)}
    {ds : List (DocArg K V)} (h : OnlineIs cfg s ev ds) (d : DocArg K V)
    (hc : ds.length % cfg.minibatch + 1 = cfg.minibatch) :
    onlineDoc cfg d.1 d.2.1 d.2.2 s =
      (onlineEta cfg ((pending cfg.minibatch ds ++ [d]).map share)
        ((pending cfg.minibatch ds ++ [d]).map fun d => d.2.1.cls) s.velocity s.eta).map fun r =>
      ({ bufs := some { stored cfg s d with velocity := r.1 }, seen := 0,
         beta := s.beta.bind fun be =>
           onlineBeta cfg.betaWeight be (expectedCounts ((ds ++ [d]).map Prod.snd)),
         eta := r.2.1 }, [r.2.2]) := by
  have hm : s.seen < cfg.minibatch := by rw [h.seen]; omega
  obtain ⟨p1, p2, p3, p4, p5⟩ := pending_complete d hc
  obtain ⟨t1, t2, t3, t4, t5, t6⟩ := stored_is h hm d
  have hse : s.seen + 1 = cfg.minibatch := by rw [h.seen]; exact hc
  rw [List.take_of_length_le (by omega)] at t4 t5
  rw [onlineDoc_eq hm (fun p hp => ⟨(h.bufs p hp).2.1, (h.bufs p hp).2.2.1⟩), if_pos (by omega)]
  simp only [onlineM]
  rw [if_neg (by omega), t4, t5, t6, t1]

theorem OnlineIs.doc {cfg : OnlineCfg C} {s s' : OnlineState K V C} {ev e : List (Option ℝ)}
    {ds : List (DocArg K V)} (hmb : 0 < cfg.minibatch) (h : OnlineIs cfg s ev ds) (d : DocArg K V)
    (hd : onlineDoc cfg d.1 d.2.1 d.2.2 s = some (s', e)) : OnlineIs cfg s' (ev ++ e) (ds ++ [d]) := by
  have hlt := Nat.mod_lt ds.length hmb
  by_cases hc : ds.length % cfg.minibatch + 1 < cfg.minibatch
  · obtain ⟨s1, h1, h2, _⟩ := h.doc_incomplete d hc
    rw [h1] at hd
    cases hd
    simpa using h2
  · have hc' : ds.length % cfg.minibatch + 1 = cfg.minibatch := by omega
    rw [h.doc_complete d hc', Option.map_eq_some_iff] at hd
    obtain ⟨r, _, hr⟩ := hd
    simp only [Prod.mk.injEq] at hr
    obtain ⟨rfl, rfl⟩ := hr
    obtain ⟨p1, p2, p3, p4, p5⟩ := pending_complete d hc'
    obtain ⟨t1, t2, t3, t4, t5, t6⟩ := stored_is h (by rw [h.seen]; omega) d
    refine ⟨?_, ?_, ?_, ?_⟩
    · simp [p4]
    · simp [p5, h.events]
    · simp
    · intro p hp
      simp only [Option.some.injEq] at hp
      subst hp
      rw [p3]
      exact ⟨t1, t2, t3, rfl, rfl⟩

theorem OnlineIs.step {cfg : OnlineCfg C} {s : OnlineState K V C} {ev : List (Option ℝ)}
    {ds : List (DocArg K V)} (hmb : 0 < cfg.minibatch) (h : OnlineIs cfg s ev ds) :
    onlineM cfg s = some (s, []) := by
  rw [onlineM, if_pos (by rw [h.seen]; exact Nat.mod_lt _ hmb)]

theorem onlineHistory_is {cfg : OnlineCfg C} (hmb : 0 < cfg.minibatch) {beta : Mat K V ℝ} {eta : Mat K C ℝ}
    {h : List (Call (DocArg K V) Unit)} {s : OnlineState K V C} {ev : List (Option ℝ)}
    (hs : onlineHistory cfg beta eta h = some (s, ev)) : OnlineIs cfg s ev (given h) := by
  induction h using List.reverseRecOn generalizing s ev with
  | nil =>
    have : (s, ev) = (⟨none, 0, some beta, some eta⟩, []) := by
      simpa [onlineHistory, history] using hs.symm
    obtain ⟨rfl, rfl⟩ := Prod.mk.inj this
    exact ⟨by simp [given], by simp [given], fun _ => rfl, by simp⟩
  | append_singleton h c ih =>
    rw [onlineHistory, history_snoc, Option.bind_eq_some_iff] at hs
    obtain ⟨⟨s1, ev1⟩, h1, h2⟩ := hs
    have hI := ih h1
    rw [given_snoc]
    cases c with
    | doc a =>
      simp only [Option.map_eq_some_iff] at h2
      obtain ⟨⟨s2, e⟩, h3, h4⟩ := h2
      obtain ⟨rfl, rfl⟩ := Prod.mk.inj h4
      exact hI.doc hmb a h3
    | step b =>
      simp only [hI.step hmb, Option.map_some, List.append_nil, Option.some.injEq] at h2
      obtain ⟨rfl, rfl⟩ := Prod.mk.inj h2
      exact hI

/-! ### C52 -/

/-- **C52**: after any history of `n` documents and any number of `m_step` calls anywhere between them, the
model has been updated, and an event emitted, exactly `n / minibatch` times (rounded down). -/
theorem C52_count {cfg : OnlineCfg C} (hmb : 0 < cfg.minibatch) {beta : Mat K V ℝ} {eta : Mat K C ℝ}
    {h : List (Call (DocArg K V) Unit)} {s : OnlineState K V C} {ev : List (Option ℝ)}
    (hs : onlineHistory cfg beta eta h = some (s, ev)) :
    ev.length = (given h).length / cfg.minibatch := (onlineHistory_is hmb hs).events

/-- **C52**: calling `m_step`, as `partial_fit` does after every epoch, changes nothing and emits nothing. -/
theorem C52_m_step_no_op {cfg : OnlineCfg C} (hmb : 0 < cfg.minibatch) {beta : Mat K V ℝ} {eta : Mat K C ℝ}
    {h : List (Call (DocArg K V) Unit)} {s : OnlineState K V C} {ev : List (Option ℝ)}
    (hs : onlineHistory cfg beta eta h = some (s, ev)) :
    onlineHistory cfg beta eta (h ++ [.step ()]) = some (s, ev) := by
  have hI := onlineHistory_is hmb hs
  rw [onlineHistory] at hs ⊢
  rw [history_snoc, hs, Option.bind_some]
  simp [hI.step hmb]

/-- **C52**: a document that does not complete a minibatch leaves the model as it is and emits nothing. -/
theorem C52_between {cfg : OnlineCfg C} (hmb : 0 < cfg.minibatch) {beta : Mat K V ℝ} {eta : Mat K C ℝ}
    {h : List (Call (DocArg K V) Unit)} {s : OnlineState K V C} {ev : List (Option ℝ)}
    (hs : onlineHistory cfg beta eta h = some (s, ev)) (d : DocArg K V)
    (hn : ¬ cfg.minibatch ∣ (given h).length + 1) :
    ∃ s', onlineHistory cfg beta eta (h ++ [.doc d]) = some (s', ev) ∧ s'.beta = s.beta ∧ s'.eta = s.eta ∧
      s'.velocity = s.velocity := by
  have hI := onlineHistory_is hmb hs
  have hlt := Nat.mod_lt (given h).length hmb
  have hc : (given h).length % cfg.minibatch + 1 < cfg.minibatch := by
    by_contra hcon
    apply hn
    have := (pending_complete (ds := given h) d (by omega : _ = cfg.minibatch)).2.2.2.1
    exact Nat.dvd_of_mod_eq_zero this
  obtain ⟨s', h1, _, h3, h4, h5⟩ := hI.doc_incomplete d hc
  refine ⟨s', ?_, h3, h4, h5⟩
  rw [onlineHistory] at hs ⊢
  rw [history_snoc, hs, Option.bind_some]
  simp [h1]

/-- The documents of the minibatch that the last document completes. -/
def lastBatch {A : Type} (m : ℕ) (ds : List A) : List A := ds.drop (ds.length - m)

theorem online_complete {cfg : OnlineCfg C} (hmb : 0 < cfg.minibatch) {beta : Mat K V ℝ} {eta : Mat K C ℝ}
    {h : List (Call (DocArg K V) Unit)} {s : OnlineState K V C} {ev : List (Option ℝ)}
    (hs : onlineHistory cfg beta eta h = some (s, ev)) (d : DocArg K V)
    (hn : cfg.minibatch ∣ (given h).length + 1) :
    onlineHistory cfg beta eta (h ++ [.doc d]) =
      (onlineEta cfg ((lastBatch cfg.minibatch (given h ++ [d])).map share)
        ((lastBatch cfg.minibatch (given h ++ [d])).map fun d => d.2.1.cls) s.velocity s.eta).map fun r =>
      ({ bufs := some { stored cfg s d with velocity := r.1 }, seen := 0,
         beta := s.beta.bind fun be =>
           onlineBeta cfg.betaWeight be (expectedCounts ((given h ++ [d]).map Prod.snd)),
         eta := r.2.1 }, ev ++ [r.2.2]) := by
  have hI := onlineHistory_is hmb hs
  have hlt := Nat.mod_lt (given h).length hmb
  have hc : (given h).length % cfg.minibatch + 1 = cfg.minibatch := by
    by_contra hcon
    have hc' : (given h).length % cfg.minibatch + 1 < cfg.minibatch := by omega
    have := (pending_incomplete (ds := given h) d hc').2.1
    have h0 := Nat.mod_eq_zero_of_dvd hn
    omega
  rw [onlineHistory] at hs ⊢
  rw [history_snoc, hs, Option.bind_some]
  simp only [hI.doc_complete d hc, (pending_complete d hc).2.1, Option.map_map]
  rfl

theorem onlineEta_some {cfg : OnlineCfg C} {z : List (Option (Vec K ℝ))} {zs : List (Vec K ℝ)} {y : List ℤ}
    {vel e : Mat K C ℝ} (hz : readAll z = some zs) :
    onlineEta cfg z y (some vel) (some e) = (logisticDefault C zs y cfg.penalty).bind fun pr =>
      (pr.gradient e).bind fun g =>
      (pr.value fun k c => e k c + (cfg.momentum * vel k c - cfg.rate * g k c)).map fun v =>
        (some fun k c => cfg.momentum * vel k c - cfg.rate * g k c,
          some fun k c => e k c + (cfg.momentum * vel k c - cfg.rate * g k c), some (-v)) := by
  simp only [onlineEta, hz]

theorem onlineEta_none {cfg : OnlineCfg C} {z : List (Option (Vec K ℝ))} {y : List ℤ}
    {vel e : Option (Mat K C ℝ)} (h : readAll z = none ∨ vel = none ∨ e = none) :
    onlineEta cfg z y vel e =
      if LabelsOk C y ∧ (defaultWeights y).isSome then some (none, none, none) else none := by
  unfold onlineEta
  split
  · rename_i h1
    simp [h1] at h
  · rfl

theorem onlineZbar_eq {d : DocArg K V} (h : ∑ k, (d.2.2.gamma k - d.1 k) ≠ 0) :
    share d = some (topicShare d.1 d.2.2.gamma) := by
  simp only [share, onlineZbar, h, if_false]
  congr 1
  funext k
  simp only [topicShare, h, if_false]

/-- **C52**, the update of `eta` by the document that completes a minibatch.  With finite parameters and
labels in range: the velocity is the old one times the momentum minus the learning rate times the gradient,
at the old `eta`, of the documented objective whose data are exactly the documents of this minibatch (with
the balanced class weights); it is added to `eta`; and the event reports minus that objective at the new
`eta`. -/
theorem C52_update_eta {cfg : OnlineCfg C} (hmb : 0 < cfg.minibatch) {beta : Mat K V ℝ} {eta : Mat K C ℝ}
    {h : List (Call (DocArg K V) Unit)} {s : OnlineState K V C} {ev : List (Option ℝ)}
    (hs : onlineHistory cfg beta eta h = some (s, ev)) (d : DocArg K V)
    (hn : cfg.minibatch ∣ (given h).length + 1) {e0 vel : Mat K C ℝ} (he : s.eta = some e0)
    (hv : s.velocity = some vel)
    (hg : ∀ a ∈ lastBatch cfg.minibatch (given h ++ [d]), ∑ k, (a.2.2.gamma k - a.1 k) ≠ 0)
    {data : List (Vec K ℝ × Fin C)}
    (hx : data.map Prod.fst =
      (lastBatch cfg.minibatch (given h ++ [d])).map fun a => topicShare a.1 a.2.2.gamma)
    (hy : (data.map fun a => (a.2 : ℤ)) =
      (lastBatch cfg.minibatch (given h ++ [d])).map fun a => a.2.1.cls) :
    data.length = cfg.minibatch ∧
    ∃ (s' : OnlineState K V C) (w : Fin C → ℝ) (n : ℕ) (g e1 : Mat K C ℝ),
      ((∃ a ∈ data, (a.2 : ℕ) + 1 = n) ∧ (∀ a ∈ data, (a.2 : ℕ) < n)) ∧
      (∀ a ∈ data, w a.2 = (data.length : ℝ) / (n * (data.map Prod.snd).count a.2)) ∧
      IsGradient (logisticObjective data w cfg.penalty) e0 g ∧
      (∀ k c, e1 k c = e0 k c + (cfg.momentum * vel k c - cfg.rate * g k c)) ∧
      s'.eta = some e1 ∧ s'.velocity = some (fun k c => e1 k c - e0 k c) ∧
      onlineHistory cfg beta eta (h ++ [.doc d]) =
        some (s', ev ++ [some (-logisticObjective data w cfg.penalty e1)]) := by
  have hlen : data.length = cfg.minibatch := by
    have h1 := congrArg List.length hx
    simp only [List.length_map, lastBatch, List.length_drop, List.length_append, List.length_singleton]
      at h1
    have := Nat.le_of_dvd (Nat.succ_pos _) hn
    omega
  refine ⟨hlen, ?_⟩
  have hdne : data ≠ [] := by
    rintro rfl
    simp at hlen
    omega
  obtain ⟨pr, w, n, h1, h2, h3, h4, _, h6, h7⟩ := C59_absent_unused hdne cfg.penalty
  obtain ⟨g, hg1, hg2⟩ := h7 e0
  have hz : (lastBatch cfg.minibatch (given h ++ [d])).map share = (data.map Prod.fst).map some := by
    rw [hx, List.map_map]
    exact List.map_congr_left fun a ha => onlineZbar_eq (hg a ha)
  have hrun : ∃ s' : OnlineState K V C,
      s'.eta = some (fun k c => e0 k c + (cfg.momentum * vel k c - cfg.rate * g k c)) ∧
      s'.velocity = some (fun k c => cfg.momentum * vel k c - cfg.rate * g k c) ∧
      onlineHistory cfg beta eta (h ++ [.doc d]) = some (s', ev ++ [some (-logisticObjective data w cfg.penalty
        fun k c => e0 k c + (cfg.momentum * vel k c - cfg.rate * g k c))]) := by
    rw [online_complete hmb hs d hn, hz, ← hy, hv, he, onlineEta_some (readAll_map_some _)]
    simp only [h1, Option.bind_some, hg1, h6, Option.map_some]
    exact ⟨_, rfl, rfl, rfl⟩
  obtain ⟨s', r1, r2, r3⟩ := hrun
  refine ⟨s', w, n, g, fun k c => e0 k c + (cfg.momentum * vel k c - cfg.rate * g k c), ⟨h2, h3⟩, h4, hg2,
    fun _ _ => rfl, r1, ?_, r3⟩
  rw [r2]
  simp

/-- **C52**, the topics: after any history in which every topic received words in the first minibatch, if
`beta` was row-stochastic at first and `beta_weight` is in `[0,1]`, it still is. -/
theorem C52_beta_stochastic {cfg : OnlineCfg C} (hmb : 0 < cfg.minibatch) (hw0 : 0 ≤ cfg.betaWeight)
    (hw1 : cfg.betaWeight ≤ 1) {beta : Mat K V ℝ} (hb : RowStochastic beta) {eta : Mat K C ℝ}
    {h : List (Call (DocArg K V) Unit)} {s : OnlineState K V C} {ev : List (Option ℝ)}
    (hs : onlineHistory cfg beta eta h = some (s, ev)) (hphi : ∀ d ∈ given h, ∀ k n, 0 ≤ d.2.2.phi k n)
    (hm : cfg.minibatch ≤ (given h).length →
      ∀ k, 0 < topicMass (((given h).take cfg.minibatch).map Prod.snd) k) :
    ∃ b, s.beta = some b ∧ RowStochastic b := by
  induction h using List.reverseRecOn generalizing s ev with
  | nil =>
    have : (s, ev) = (⟨none, 0, some beta, some eta⟩, []) := by
      simpa [onlineHistory, history] using hs.symm
    obtain ⟨rfl, rfl⟩ := Prod.mk.inj this
    exact ⟨beta, rfl, hb⟩
  | append_singleton h c ih =>
    have hs' := hs
    rw [onlineHistory, history_snoc, Option.bind_eq_some_iff] at hs
    obtain ⟨⟨s1, ev1⟩, h1, h2⟩ := hs
    have hs1 : onlineHistory cfg beta eta h = some (s1, ev1) := h1
    have hI := onlineHistory_is hmb hs1
    rw [given_snoc] at hphi hm
    cases c with
    | step b =>
      simp only [hI.step hmb, Option.map_some, List.append_nil, Option.some.injEq] at h2
      obtain ⟨rfl, rfl⟩ := Prod.mk.inj h2
      exact ih hs1 hphi hm
    | doc d =>
      simp only at hphi hm
      obtain ⟨b, hb1, hb2⟩ := ih hs1 (fun a ha => hphi a (by simp [ha])) (by
        intro hle
        have := hm (by simp; omega)
        rwa [List.take_append_of_le_length hle] at this)
      by_cases hn : cfg.minibatch ∣ (given h).length + 1
      · rw [online_complete hmb hs1 d hn, Option.map_eq_some_iff] at hs'
        obtain ⟨r, _, hr⟩ := hs'
        have hbeta : s.beta = s1.beta.bind fun be =>
            onlineBeta cfg.betaWeight be (expectedCounts ((given h ++ [d]).map Prod.snd)) :=
          (congrArg (fun x => x.1.beta) hr).symm
        rw [hbeta, hb1, Option.bind_some]
        have hle : cfg.minibatch ≤ (given h ++ [d]).length := by
          simp only [List.length_append, List.length_singleton]
          exact Nat.le_of_dvd (Nat.succ_pos _) hn
        have hmass : ∀ k, 0 < ∑ n, expectedCounts ((given h ++ [d]).map Prod.snd) k n := by
          intro k
          have h3 := hm hle k
          have h4 : ∀ n, expectedCounts (((given h ++ [d]).take cfg.minibatch).map Prod.snd) k n ≤
              expectedCounts ((given h ++ [d]).map Prod.snd) k n := by
            intro n
            conv_rhs => rw [← List.take_append_drop cfg.minibatch (given h ++ [d])]
            rw [List.map_append]
            simp only [expectedCounts, List.map_append, List.sum_append]
            have : 0 ≤ expectedCounts (((given h ++ [d]).drop cfg.minibatch).map Prod.snd) k n := by
              apply expectedCounts_nonneg
              intro a ha k n
              obtain ⟨a', ha', rfl⟩ := List.mem_map.1 ha
              exact hphi a' (List.mem_of_mem_drop ha') k n
            rw [expectedCounts] at this
            linarith
          exact lt_of_lt_of_le h3 (Finset.sum_le_sum fun n _ => h4 n)
        have hnn : ∀ k n, 0 ≤ expectedCounts ((given h ++ [d]).map Prod.snd) k n := by
          apply expectedCounts_nonneg
          intro a ha k n
          obtain ⟨a', ha', rfl⟩ := List.mem_map.1 ha
          exact hphi a' ha' k n
        rw [onlineBeta, if_neg (by
          rintro ⟨k, hk⟩
          exact (hmass k).ne' hk)]
        refine ⟨_, rfl, ?_, ?_⟩
        · intro k n
          exact add_nonneg (mul_nonneg hw0 (hb2.1 k n))
            (mul_nonneg (by linarith) (div_nonneg (hnn k n) (hmass k).le))
        · intro k
          rw [Finset.sum_add_distrib, ← Finset.mul_sum, ← Finset.mul_sum, ← Finset.sum_div, hb2.2,
            div_self (hmass k).ne']
          ring
      · obtain ⟨s', h3, h4, _⟩ := C52_between hmb hs1 d hn
        rw [h3] at hs'
        obtain ⟨rfl, rfl⟩ := Prod.mk.inj (Option.some.inj hs')
        exact ⟨b, h4.trans hb1, hb2⟩

/-- **C52**: with minibatches of at least one document and labels in range no history is undefined, so the
hypotheses above can be met by every history. -/
theorem C52_defined {cfg : OnlineCfg C} (hmb : 0 < cfg.minibatch) (beta : Mat K V ℝ) (eta : Mat K C ℝ)
    (h : List (Call (DocArg K V) Unit))
    (hl : ∀ d ∈ given h, 0 ≤ d.2.1.cls ∧ d.2.1.cls < (C : ℤ)) :
    ∃ s ev, onlineHistory cfg beta eta h = some (s, ev) := by
  induction h using List.reverseRecOn with
  | nil => exact ⟨_, _, rfl⟩
  | append_singleton h c ih =>
    rw [given_snoc] at hl
    cases c with
    | step b =>
      obtain ⟨s, ev, hs⟩ := ih hl
      exact ⟨s, ev, C52_m_step_no_op hmb hs⟩
    | doc d =>
      simp only at hl
      obtain ⟨s, ev, hs⟩ := ih fun a ha => hl a (by simp [ha])
      by_cases hn : cfg.minibatch ∣ (given h).length + 1
      · rw [online_complete hmb hs d hn]
        set batch := lastBatch cfg.minibatch (given h ++ [d]) with hbatch
        have hle := Nat.le_of_dvd (Nat.succ_pos _) hn
        have hbl : batch.length = cfg.minibatch := by
          simp only [hbatch, lastBatch, List.length_drop, List.length_append, List.length_singleton]
          omega
        have hlb : ∀ a ∈ batch, 0 ≤ a.2.1.cls ∧ a.2.1.cls < (C : ℤ) := fun a ha =>
          hl a (List.mem_of_mem_drop ha)
        have hsome : ∃ r, onlineEta cfg (batch.map share) (batch.map fun d => d.2.1.cls) s.velocity s.eta =
            some r := by
          obtain ⟨Cy, m, h3, _⟩ := C59_weights (y := batch.map fun d => d.2.1.cls)
            (by
              intro e
              have := congrArg List.length e
              simp only [List.length_map, List.length_nil] at this
              omega) (by
              intro a ha
              obtain ⟨d, hd, rfl⟩ := List.mem_map.1 ha
              exact (hlb d hd).1)
          have hok : LabelsOk C (batch.map fun d => d.2.1.cls) := by
            intro a ha
            obtain ⟨d, hd, rfl⟩ := List.mem_map.1 ha
            exact hlb d hd
          cases hz : readAll (batch.map share) with
          | none => exact ⟨_, by rw [onlineEta_none (.inl hz), if_pos ⟨hok, by rw [h3]; rfl⟩]⟩
          | some zs =>
            cases hv : s.velocity with
            | none => exact ⟨_, by rw [onlineEta_none (.inr (.inl rfl)), if_pos ⟨hok, by rw [h3]; rfl⟩]⟩
            | some vel =>
              cases he : s.eta with
              | none => exact ⟨_, by rw [onlineEta_none (.inr (.inr rfl)), if_pos ⟨hok, by rw [h3]; rfl⟩]⟩
              | some e =>
                have hzl : zs.length = batch.length := by
                  have := congrArg List.length (readAll_eq_some hz)
                  simpa using this.symm
                obtain ⟨data, d1, d2⟩ : ∃ data : List (Vec K ℝ × Fin C), data.map Prod.fst = zs ∧
                    (data.map fun a => (a.2 : ℤ)) = batch.map fun d => d.2.1.cls := by
                  obtain ⟨data, e1, e2⟩ := exists_data (C := C) (zs.zip batch) (fun a => a.1)
                    (fun a => a.2.2.1.cls) (fun a ha => hlb a.2 (List.of_mem_zip ha).2)
                  refine ⟨data, ?_, ?_⟩
                  · rw [e1]; exact List.map_fst_zip (by omega)
                  · rw [e2]
                    have : (zs.zip batch).map (fun a => a.2.2.1.cls) =
                        ((zs.zip batch).map Prod.snd).map fun d => d.2.1.cls := by
                      rw [List.map_map]; rfl
                    rw [this, List.map_snd_zip (by omega)]
                have hdne : data ≠ [] := by
                  rintro rfl
                  simp only [List.map_nil] at d1
                  subst d1
                  simp only [List.length_nil] at hzl
                  omega
                obtain ⟨pr, w, n, q1, _, _, _, _, q6, q7⟩ := C59_absent_unused hdne cfg.penalty
                rw [d1, d2] at q1
                obtain ⟨g, hg1, _⟩ := q7 e
                exact ⟨_, by rw [onlineEta_some hz, q1, Option.bind_some, hg1, Option.bind_some, q6,
                  Option.map_some]⟩
        obtain ⟨r, hr⟩ := hsome
        rw [hr]
        exact ⟨_, _, rfl⟩
      · obtain ⟨s', h3, _⟩ := C52_between hmb hs d hn
        exact ⟨s', ev, h3⟩

/-- With minibatches of no documents the first document is undefined. -/
theorem C52_zero {cfg : OnlineCfg C} (hmb : cfg.minibatch = 0) (beta : Mat K V ℝ) (eta : Mat K C ℝ)
    (d : DocArg K V) : onlineHistory cfg beta eta [.doc d] = none := by
  simp [onlineHistory, history, onlineDoc, OnlineBufs.init, hmb]

/-- **C52**: as long as the labels are in range and no document is without words (more exactly, the sum of
`gamma - alpha` is not zero) `eta` and its velocity are finite after every history. -/
theorem C52_finite {cfg : OnlineCfg C} (hmb : 0 < cfg.minibatch) {beta : Mat K V ℝ} {eta : Mat K C ℝ}
    {h : List (Call (DocArg K V) Unit)} {s : OnlineState K V C} {ev : List (Option ℝ)}
    (hs : onlineHistory cfg beta eta h = some (s, ev))
    (hl : ∀ d ∈ given h, 0 ≤ d.2.1.cls ∧ d.2.1.cls < (C : ℤ))
    (hg : ∀ d ∈ given h, ∑ k, (d.2.2.gamma k - d.1 k) ≠ 0) :
    ∃ e vel, s.eta = some e ∧ s.velocity = some vel := by
  induction h using List.reverseRecOn generalizing s ev with
  | nil =>
    have : (s, ev) = (⟨none, 0, some beta, some eta⟩, []) := by
      simpa [onlineHistory, history] using hs.symm
    obtain ⟨rfl, rfl⟩ := Prod.mk.inj this
    exact ⟨eta, fun _ _ => 0, rfl, rfl⟩
  | append_singleton h c ih =>
    have hs' := hs
    rw [onlineHistory, history_snoc, Option.bind_eq_some_iff] at hs
    obtain ⟨⟨s1, ev1⟩, h1, h2⟩ := hs
    have hs1 : onlineHistory cfg beta eta h = some (s1, ev1) := h1
    have hI := onlineHistory_is hmb hs1
    rw [given_snoc] at hl hg
    cases c with
    | step b =>
      simp only [hI.step hmb, Option.map_some, List.append_nil, Option.some.injEq] at h2
      obtain ⟨rfl, rfl⟩ := Prod.mk.inj h2
      exact ih hs1 hl hg
    | doc d =>
      simp only at hl hg
      obtain ⟨e, vel, he, hv⟩ := ih hs1 (fun a ha => hl a (by simp [ha])) fun a ha => hg a (by simp [ha])
      by_cases hn : cfg.minibatch ∣ (given h).length + 1
      · obtain ⟨data, d1, d2⟩ := exists_data (C := C) (lastBatch cfg.minibatch (given h ++ [d]))
          (fun a => topicShare a.1 a.2.2.gamma) (fun a => a.2.1.cls)
          (fun a ha => hl a (List.mem_of_mem_drop ha))
        obtain ⟨_, s2, w, n, g, e1, _, _, _, _, r1, r2, r3⟩ := C52_update_eta hmb hs1 d hn he hv
          (fun a ha => hg a (List.mem_of_mem_drop ha)) d1 d2
        rw [r3] at hs'
        obtain ⟨rfl, rfl⟩ := Prod.mk.inj (Option.some.inj hs')
        exact ⟨_, _, r1, r2⟩
      · obtain ⟨s', h3, _, h5, h6⟩ := C52_between hmb hs1 d hn
        rw [h3] at hs'
        obtain ⟨rfl, rfl⟩ := Prod.mk.inj (Option.some.inj hs')
        exact ⟨e, vel, h5.trans he, h6.trans hv⟩

/-! ### C53 -/

/-- What a completed minibatch does to the topics: the new `beta` is the weighted mean of the old one and of
the normalised expected counts of *all* documents since the step was constructed. -/
theorem C53_all_documents {cfg : OnlineCfg C} (hmb : 0 < cfg.minibatch) {beta : Mat K V ℝ}
    {eta : Mat K C ℝ} {h : List (Call (DocArg K V) Unit)} {s s' : OnlineState K V C}
    {ev ev' : List (Option ℝ)} (hs : onlineHistory cfg beta eta h = some (s, ev)) (d : DocArg K V)
    (hn : cfg.minibatch ∣ (given h).length + 1) {b : Mat K V ℝ} (hb : s.beta = some b)
    (hs' : onlineHistory cfg beta eta (h ++ [.doc d]) = some (s', ev'))
    (hm : ∀ k, topicMass ((given h ++ [d]).map Prod.snd) k ≠ 0) :
    s'.beta = some fun k n => cfg.betaWeight * b k n + (1 - cfg.betaWeight) *
      (expectedCounts ((given h ++ [d]).map Prod.snd) k n / topicMass ((given h ++ [d]).map Prod.snd) k) := by
  rw [online_complete hmb hs d hn, Option.map_eq_some_iff] at hs'
  obtain ⟨r, _, hr⟩ := hs'
  have hbeta : s'.beta = s.beta.bind fun be =>
      onlineBeta cfg.betaWeight be (expectedCounts ((given h ++ [d]).map Prod.snd)) :=
    (congrArg (fun x => x.1.beta) hr).symm
  rw [hbeta, hb, Option.bind_some, onlineBeta, if_neg]
  · rfl
  · rintro ⟨k, hk⟩
    exact hm k hk

/-- **C53**, the part that holds: the update after the *first* minibatch depends on that minibatch only: it
uses exactly the expected counts of its documents.  Missing: the same for later minibatches, where the counts
of all earlier documents are still included (`C53_all_documents`, `C53_not_only_minibatch`). -/
theorem C53_first_minibatch_partial {cfg : OnlineCfg C} (hmb : 0 < cfg.minibatch) {beta : Mat K V ℝ}
    {eta : Mat K C ℝ} {h : List (Call (DocArg K V) Unit)} {s' : OnlineState K V C}
    {ev' : List (Option ℝ)} {d : DocArg K V}
    (hs' : onlineHistory cfg beta eta (h ++ [.doc d]) = some (s', ev'))
    (hn : (given h).length + 1 = cfg.minibatch)
    (hm : ∀ k, topicMass ((given h ++ [d]).map Prod.snd) k ≠ 0) :
    lastBatch cfg.minibatch (given h ++ [d]) = given h ++ [d] ∧
    s'.beta = some fun k n => cfg.betaWeight * beta k n + (1 - cfg.betaWeight) *
      (expectedCounts ((given h ++ [d]).map Prod.snd) k n / topicMass ((given h ++ [d]).map Prod.snd) k) := by
  refine ⟨by simp [lastBatch, hn], ?_⟩
  have hs1 : ∃ r, onlineHistory cfg beta eta h = some r := by
    rw [onlineHistory, history_snoc, Option.bind_eq_some_iff] at hs'
    obtain ⟨r, h1, _⟩ := hs'
    exact ⟨r, h1⟩
  obtain ⟨⟨s, ev⟩, hs⟩ := hs1
  refine C53_all_documents hmb hs d (by rw [hn]) ?_ hs' hm
  clear hs' hm
  have key : ∀ (h : List (Call (DocArg K V) Unit)) (s : OnlineState K V C) (ev : List (Option ℝ)),
      (given h).length < cfg.minibatch → onlineHistory cfg beta eta h = some (s, ev) →
      s.beta = some beta := by
    intro h
    induction h using List.reverseRecOn with
    | nil =>
      intro s ev _ hs
      have : (s, ev) = (⟨none, 0, some beta, some eta⟩, []) := by
        simpa [onlineHistory, history] using hs.symm
      obtain ⟨rfl, rfl⟩ := Prod.mk.inj this
      rfl
    | append_singleton h c ih =>
      intro s ev hlt hs
      have hs' := hs
      rw [onlineHistory, history_snoc, Option.bind_eq_some_iff] at hs
      obtain ⟨⟨s1, ev1⟩, h1, h2⟩ := hs
      have hs1 : onlineHistory cfg beta eta h = some (s1, ev1) := h1
      rw [given_snoc] at hlt
      cases c with
      | step b =>
        rw [C52_m_step_no_op hmb hs1] at hs'
        obtain ⟨rfl, rfl⟩ := Prod.mk.inj (Option.some.inj hs')
        exact ih _ _ hlt hs1
      | doc d =>
        simp only [List.length_append, List.length_singleton] at hlt
        obtain ⟨s', h3, h4, _⟩ := C52_between hmb hs1 d (fun hd => by
          have := Nat.le_of_dvd (Nat.succ_pos _) hd
          omega)
        rw [h3] at hs'
        obtain ⟨rfl, rfl⟩ := Prod.mk.inj (Option.some.inj hs')
        rw [h4]
        exact ih _ _ (by omega) hs1
  exact key h s ev (by omega) hs

/-- One topic, two words, one class; minibatches of one document. -/
noncomputable def onlineCfg1 : OnlineCfg 1 :=
  { classWeights := fun _ => 1, penalty := 0, minibatch := 1, momentum := 0, rate := 1, betaWeight := 0 }

/-- A document of `a` first words and `b` second words. -/
noncomputable def onlineDoc1 (a b : ℕ) : DocArg 1 2 :=
  (fun _ => 1, ⟨fun n => if n = 0 then a else b, 0⟩,
    { gamma := fun _ => 1 + a + b, phi := fun _ _ => 1 })

theorem online1_defined (h : List (Call (DocArg 1 2) Unit)) (hh : ∀ d ∈ given h, d.2.1.cls = 0)
    (beta : Mat 1 2 ℝ) (eta : Mat 1 1 ℝ) : ∃ s ev, onlineHistory onlineCfg1 beta eta h = some (s, ev) :=
  C52_defined (by simp [onlineCfg1]) beta eta h fun d hd => by simp [hh d hd]

theorem online1_beta {beta : Mat 1 2 ℝ} {eta : Mat 1 1 ℝ} {h : List (Call (DocArg 1 2) Unit)}
    {s s' : OnlineState 1 2 1} {ev ev' : List (Option ℝ)}
    (hs : onlineHistory onlineCfg1 beta eta h = some (s, ev)) {d : DocArg 1 2} {b : Mat 1 2 ℝ}
    (hb : s.beta = some b) (hs' : onlineHistory onlineCfg1 beta eta (h ++ [.doc d]) = some (s', ev'))
    (hm : topicMass ((given h ++ [d]).map Prod.snd) 0 ≠ 0) :
    s'.beta = some fun k n =>
      expectedCounts ((given h ++ [d]).map Prod.snd) k n / topicMass ((given h ++ [d]).map Prod.snd) k := by
  rw [C53_all_documents (by simp [onlineCfg1]) hs d (by simp [onlineCfg1]) hb hs' fun k => by
    rw [Subsingleton.elim k 0]; exact hm]
  congr 1
  funext k n
  simp [onlineCfg1]

/-- **C53 is false for later minibatches**: two histories after which the models have the same topics, and
then the same minibatch of one document; the topics become different. -/
theorem C53_not_only_minibatch :
    ∃ (beta : Mat 1 2 ℝ) (eta : Mat 1 1 ℝ) (h h' : List (Call (DocArg 1 2) Unit)) (d : DocArg 1 2)
      (s s' t t' : OnlineState 1 2 1) (ev ev' fv fv' : List (Option ℝ)) (b : Mat 1 2 ℝ),
      onlineHistory onlineCfg1 beta eta h = some (s, ev) ∧
      onlineHistory onlineCfg1 beta eta h' = some (s', ev') ∧
      s.beta = some b ∧ s'.beta = some b ∧
      lastBatch onlineCfg1.minibatch (given h ++ [d]) = [d] ∧
      lastBatch onlineCfg1.minibatch (given h' ++ [d]) = [d] ∧
      onlineHistory onlineCfg1 beta eta (h ++ [.doc d]) = some (t, fv) ∧
      onlineHistory onlineCfg1 beta eta (h' ++ [.doc d]) = some (t', fv') ∧ t.beta ≠ t'.beta := by
  obtain ⟨s, ev, hs⟩ := online1_defined [.doc (onlineDoc1 1 0)] (by simp [onlineDoc1])
    (fun _ _ => 1 / 2) (fun _ _ => 0)
  obtain ⟨s', ev', hs'⟩ := online1_defined [.doc (onlineDoc1 2 0)] (by simp [onlineDoc1])
    (fun _ _ => 1 / 2) (fun _ _ => 0)
  obtain ⟨t, fv, ht⟩ := online1_defined ([.doc (onlineDoc1 1 0)] ++ [.doc (onlineDoc1 0 1)])
    (by simp [onlineDoc1]) (fun _ _ => 1 / 2) (fun _ _ => 0)
  obtain ⟨t', fv', ht'⟩ := online1_defined ([.doc (onlineDoc1 2 0)] ++ [.doc (onlineDoc1 0 1)])
    (by simp [onlineDoc1]) (fun _ _ => 1 / 2) (fun _ _ => 0)
  have hs0 : onlineHistory (K := 1) (V := 2) onlineCfg1 (fun _ _ => 1 / 2) (fun _ _ => 0) [] =
      some (⟨none, 0, some fun _ _ => 1 / 2, some fun _ _ => 0⟩, []) := rfl
  have e1 := online1_beta hs0 rfl hs (by norm_num [onlineDoc1, topicMass, expectedCounts, Fin.sum_univ_two])
  have e2 := online1_beta hs0 rfl hs' (by norm_num [onlineDoc1, topicMass, expectedCounts, Fin.sum_univ_two])
  have e3 := online1_beta hs e1 ht (by norm_num [onlineDoc1, topicMass, expectedCounts, Fin.sum_univ_two])
  have e4 := online1_beta hs' e2 ht' (by norm_num [onlineDoc1, topicMass, expectedCounts, Fin.sum_univ_two])
  refine ⟨_, _, _, _, onlineDoc1 0 1, s, s', t, t', ev, ev', fv, fv', _, hs, hs', e1, e2.trans ?_, rfl, rfl,
    ht, ht', ?_⟩
  · congr 1
    funext k n
    fin_cases n <;> norm_num [onlineDoc1, topicMass, expectedCounts, Fin.sum_univ_two]
  · rw [e3, e4]
    intro h
    have := congrFun (congrFun (Option.some.inj h) 0) 0
    norm_num [onlineDoc1, topicMass, expectedCounts, Fin.sum_univ_two] at this

/-- One topic, one word and two classes, with twice the usual class weights. -/
noncomputable def onlineCfg2 : OnlineCfg 2 :=
  { classWeights := fun _ => 2, penalty := 0, minibatch := 1, momentum := 0, rate := 1, betaWeight := 0 }

/-- **C53 is false for the class weights**: here the update of `eta` is not a step along the gradient of the
objective with the class weights given to the constructor. -/
theorem C53_weights_wrong :
    ∃ (beta : Mat 1 1 ℝ) (eta : Mat 1 2 ℝ) (d : DocArg 1 1) (s : OnlineState 1 1 2) (ev : List (Option ℝ))
      (data : List (Vec 1 ℝ × Fin 2)) (e1 : Mat 1 2 ℝ),
      data.map Prod.fst = [topicShare d.1 d.2.2.gamma] ∧ (data.map fun a => (a.2 : ℤ)) = [d.2.1.cls] ∧
      onlineHistory onlineCfg2 beta eta [.doc d] = some (s, ev) ∧ s.eta = some e1 ∧
      ∀ g, IsGradient (logisticObjective data onlineCfg2.classWeights onlineCfg2.penalty) eta g →
        e1 ≠ fun k c => eta k c - onlineCfg2.rate * g k c := by
  let d : DocArg 1 1 := (fun _ => 1, ⟨fun _ => 1, 0⟩, { gamma := fun _ => 2, phi := fun _ _ => 1 })
  let data : List (Vec 1 ℝ × Fin 2) := [(fun _ => 1, 0)]
  have hx : data.map Prod.fst = [topicShare d.1 d.2.2.gamma] := by
    simp only [data, d, List.map_cons, List.map_nil, List.cons.injEq, and_true]
    funext k
    norm_num [topicShare]
  have hs0 : onlineHistory (K := 1) (V := 1) onlineCfg2 (fun _ _ => 1) (fun _ _ => 0) [] =
      some (⟨none, 0, some fun _ _ => 1, some fun _ _ => 0⟩, []) := rfl
  obtain ⟨_, s, w, n, g, e1, ⟨⟨a, ha, hn⟩, _⟩, hw, hg, he1, hs1, _, hs⟩ := C52_update_eta (by simp [onlineCfg2]) hs0 d
    (by simp [onlineCfg2]) rfl rfl (by norm_num [lastBatch, onlineCfg2, d]) (data := data)
    (by simpa [lastBatch, onlineCfg2] using hx) (by simp [lastBatch, onlineCfg2, data, d])
  refine ⟨_, _, d, s, _, data, e1, hx, by simp [data, d], hs, hs1, ?_⟩
  intro g' hg' heq
  have hw0 : w 0 = 1 := by
    have hn1 : n = 1 := by
      simp only [data, List.mem_singleton] at ha
      subst ha
      simpa using hn.symm
    have := hw (fun _ => 1, 0) (by simp [data])
    simpa [data, hn1] using this
  have hg1 := isGradient_unique hg (isGradient_logistic data w onlineCfg2.penalty _)
  have hg2 := isGradient_unique hg' (isGradient_logistic data onlineCfg2.classWeights onlineCfg2.penalty _)
  have h1 := congrFun (congrFun heq 0) 0
  rw [he1, hg1, hg2] at h1
  norm_num [data, onlineCfg2, hw0] at h1

/-- **C53 is false for the class weights**: the weights given to the constructor are not used: any other
weights give the same history. -/
theorem C53_weights_ignored (cfg : OnlineCfg C) (w : Fin C → ℝ) (beta : Mat K V ℝ) (eta : Mat K C ℝ)
    (h : List (Call (DocArg K V) Unit)) :
    onlineHistory { cfg with classWeights := w } beta eta h = onlineHistory cfg beta eta h := rfl

/-- The documents of `C53_not_only_minibatch` also meet the hypotheses of `C52_finite`. -/
example : ∀ d ∈ given [Call.doc (onlineDoc1 1 0), .step (), .doc (onlineDoc1 0 1)],
    (0 ≤ d.2.1.cls ∧ d.2.1.cls < ((1 : ℕ) : ℤ)) ∧ ∑ k, (d.2.2.gamma k - d.1 k) ≠ 0 := by
  simp [onlineDoc1]

/-- And those of `C52_beta_stochastic`. -/
example : ∀ k, 0 < topicMass
    (((given [Call.doc (onlineDoc1 1 0), .step (), .doc (onlineDoc1 0 1)]).take
      onlineCfg1.minibatch).map Prod.snd) k := by
  norm_num [onlineDoc1, topicMass, expectedCounts, Fin.sum_univ_two, onlineCfg1]

/-! ### C81 -/

/-- **C81 is false for the online step**: once a minibatch contains a document without words, for which
`gamma` is `alpha`, all of `eta` is not a number after it, and stays so after every further history. -/
theorem C81_online {cfg : OnlineCfg C} (hmb : 0 < cfg.minibatch) {beta : Mat K V ℝ}
    {eta : Mat K C ℝ} {h h' : List (Call (DocArg K V) Unit)} {d : DocArg K V} {s : OnlineState K V C}
    {ev : List (Option ℝ)} (hn : cfg.minibatch ∣ (given h).length + 1)
    (hd : ∃ a ∈ lastBatch cfg.minibatch (given h ++ [d]), a.2.2.gamma = a.1)
    (hs : onlineHistory cfg beta eta (h ++ [.doc d] ++ h') = some (s, ev)) : s.eta = none := by
  have hlater : s.eta = none ∧ s.velocity = none := by
    induction h' using List.reverseRecOn generalizing s ev with
    | nil =>
      rw [List.append_nil] at hs
      obtain ⟨⟨s1, ev1⟩, hs1⟩ : ∃ r, onlineHistory cfg beta eta h = some r := by
        rw [onlineHistory, history_snoc, Option.bind_eq_some_iff] at hs
        obtain ⟨r, h1, _⟩ := hs
        exact ⟨r, h1⟩
      rw [online_complete hmb hs1 d hn, onlineEta_none, Option.map_eq_some_iff] at hs
      · obtain ⟨r, hr, hr'⟩ := hs
        split at hr
        · cases hr
          obtain ⟨rfl, _⟩ := Prod.mk.inj hr'
          exact ⟨rfl, rfl⟩
        · simp at hr
      · left
        apply readAll_none
        obtain ⟨a, ha, hga⟩ := hd
        exact List.mem_map.2 ⟨a, ha, by simp [share, onlineZbar, hga]⟩
    | append_singleton h' c ih =>
      rw [← List.append_assoc] at hs
      have hs' := hs
      rw [onlineHistory, history_snoc, Option.bind_eq_some_iff] at hs
      obtain ⟨⟨s1, ev1⟩, h1, _⟩ := hs
      have hs1 : onlineHistory cfg beta eta (h ++ [.doc d] ++ h') = some (s1, ev1) := h1
      obtain ⟨i1, i2⟩ := ih hs1
      cases c with
      | step b =>
        rw [C52_m_step_no_op hmb hs1] at hs'
        obtain ⟨rfl, rfl⟩ := Prod.mk.inj (Option.some.inj hs')
        exact ⟨i1, i2⟩
      | doc a =>
        by_cases hn' : cfg.minibatch ∣ (given (h ++ [.doc d] ++ h')).length + 1
        · rw [online_complete hmb hs1 a hn', onlineEta_none (.inr (.inr i1)), Option.map_eq_some_iff] at hs'
          obtain ⟨r, hr, hr'⟩ := hs'
          split at hr
          · cases hr
            obtain ⟨rfl, _⟩ := Prod.mk.inj hr'
            exact ⟨rfl, rfl⟩
          · simp at hr
        · obtain ⟨s', h3, _, h5, h6⟩ := C52_between hmb hs1 a hn'
          rw [h3] at hs'
          obtain ⟨rfl, rfl⟩ := Prod.mk.inj (Option.some.inj hs')
          exact ⟨h5.trans i1, h6.trans i2⟩
  exact hlater.1

/-- A history that meets the hypotheses of `C81_online`: an empty document, then another. -/
example : ∃ s ev, onlineHistory onlineCfg1 (fun _ _ => 1 / 2) (fun _ _ => 0)
    ([] ++ [.doc (onlineDoc1 0 0)] ++ [.doc (onlineDoc1 1 2)]) = some (s, ev) ∧ s.eta = none := by
  obtain ⟨s, ev, hs⟩ := online1_defined ([] ++ [.doc (onlineDoc1 0 0)] ++ [.doc (onlineDoc1 1 2)])
    (by simp [onlineDoc1]) (fun _ _ => 1 / 2) (fun _ _ => 0)
  refine ⟨s, ev, hs, C81_online (by simp [onlineCfg1]) (by simp [onlineCfg1]) ?_ hs⟩
  exact ⟨onlineDoc1 0 0, by simp [lastBatch, onlineCfg1], by simp [onlineDoc1]⟩

end Verif.MStep
