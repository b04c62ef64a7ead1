import Verif.Lemmas.MStepFast
import Verif.Props.Topics

/-! Properties C46, C47, C50 and C51 of `FastSupervisedMStep` and `SemiSupervisedMStep`. -/
namespace Verif.MStep

open MathUtils EStep Optim Finset

variable {K V C : ℕ}

/-- The arguments of `doc_m_step` that matter: the prior `alpha` of the model, the document and its
variational parameters. -/
abbrev DocArg (K V : ℕ) := Vec K ℝ × Given K V

/-- A history of calls of `FastSupervisedMStep`; `m_step` is given the `eta` of the model. -/
noncomputable def fastHistory (cfg : SupCfg) (h : List (Call (DocArg K V) (Mat K C ℝ))) :
    Option (FastState K V) :=
  history (fun a s => fastDoc a.1 a.2.1 a.2.2 s) (fun eta s => (fastM cfg eta s).map Prod.snd)
    FastState.init h

theorem fastHistory_is {cfg : SupCfg} {h : List (Call (DocArg K V) (Mat K C ℝ))} {s : FastState K V}
    (hs : fastHistory cfg h = some s) : FastIs s (since h) ((since h).map Prod.snd) := by
  refine history_induct (fun s l => FastIs s l (l.map Prod.snd)) FastIs.init ?_ ?_ h s hs
  · intro a s s' l hI e
    obtain ⟨s1, h1, h2, _⟩ := hI.doc a
    rw [h1] at e
    cases e
    simpa using h2
  · intro eta s s' l hI e
    obtain ⟨s1, h1, _, _, h2⟩ := hI.step (C := C) cfg eta
    rw [h2, Option.map_eq_some_iff] at e
    obtain ⟨r, hr, rfl⟩ := e
    rw [Option.bind_eq_some_iff] at hr
    obtain ⟨pr, _, hr⟩ := hr
    rw [Option.map_eq_some_iff] at hr
    obtain ⟨_, _, rfl⟩ := hr
    exact h1

/-- The gradient descent both supervised M steps run on a problem, with the default Armijo search. -/
def Descends (cfg : SupCfg) (pr : Problem K C) (eta eta' : Mat K C ℝ) (events : List ℝ) : Prop :=
  ∃ last, Minimize (ArmijoSearch (1 / 1000) (1 / 2)) pr (mStepProgress cfg.iterations cfg.tolerance) eta
    (none, []) eta' (last, events)

/-- **C50**, `FastSupervisedMStep`.  After any history of calls (epochs of any sizes), `m_step` runs the
gradient descent on the problem whose samples are, in order of arrival, the topic shares of the documents
given since the last `m_step` with their labels, and nothing else. -/
theorem C50_fast {cfg : SupCfg} {h : List (Call (DocArg K V) (Mat K C ℝ))} {s : FastState K V}
    (hs : fastHistory cfg h = some s) (hne : since h ≠ []) (eta : Mat K C ℝ) (out : MOut K V C) :
    (∃ s', fastM cfg eta s = some (out, s')) ↔
      ∃ pr events, logisticDefault C ((since h).map fun d => topicShare d.1 d.2.2.gamma)
          ((since h).map fun d => d.2.1.cls) cfg.penalty = some pr ∧
        Descends cfg pr eta out.eta events ∧ out.events = events.map some ∧
        out.beta = betaOf ((since h).map Prod.snd) := by
  have hI := fastHistory_is hs
  obtain ⟨s1, _, _, _, h2⟩ := hI.step (C := C) cfg eta
  rw [h2, hI.buf.beta (by simpa using hne)]
  constructor
  · rintro ⟨s', e⟩
    rw [Option.bind_eq_some_iff] at e
    obtain ⟨pr, hpr, e⟩ := e
    rw [Option.map_eq_some_iff] at e
    obtain ⟨r, hr, e⟩ := e
    simp only [Prod.mk.injEq] at e
    obtain ⟨rfl, rfl⟩ := e
    exact ⟨pr, r.2, hpr, descend_eq_some.1 hr, rfl, rfl⟩
  · rintro ⟨pr, ev, hpr, hd, h3, h4⟩
    refine ⟨s1, ?_⟩
    rw [hpr, Option.bind_some, descend_eq_some.2 hd, Option.map_some]
    cases out
    simp only at h3 h4
    rw [h3, h4]

/-- The labels of the documents are columns of `eta`: then the samples with their labels are a list of
data in the sense of the specification. -/
theorem exists_data {α : Type} (l : List α) (x : α → Vec K ℝ) (y : α → ℤ)
    (hy : ∀ a ∈ l, 0 ≤ y a ∧ y a < (C : ℤ)) :
    ∃ data : List (Vec K ℝ × Fin C), data.map Prod.fst = l.map x ∧
      (data.map fun d => (d.2 : ℤ)) = l.map y := by
  induction l with
  | nil => exact ⟨[], rfl, rfl⟩
  | cons a l ih =>
    obtain ⟨data, h1, h2⟩ := ih fun b hb => hy b (List.mem_cons_of_mem _ hb)
    have ha := hy a List.mem_cons_self
    refine ⟨(x a, ⟨(y a).toNat, by omega⟩) :: data, by simp [h1], ?_⟩
    simp only [List.map_cons, h2, List.cons.injEq, and_true]
    exact Int.toNat_of_nonneg ha.1

/-- **C50** and **C56** for a whole epoch of `FastSupervisedMStep`.  After any history, if the labels of
the documents since the last `m_step` are columns of `eta`, `m_step` terminates without undefined
behaviour.  The new `eta` is not worse than the old one for the documented objective with exactly those
documents as data and the balanced class weights, and the events report minus that objective, never
decreasing, from the old `eta` to the new one. -/
theorem C50_fast_trains {cfg : SupCfg} {h : List (Call (DocArg K V) (Mat K C ℝ))} {s : FastState K V}
    (hs : fastHistory cfg h = some s) (hne : since h ≠ []) (eta : Mat K C ℝ)
    {data : List (Vec K ℝ × Fin C)}
    (hx : data.map Prod.fst = (since h).map fun d => topicShare d.1 d.2.2.gamma)
    (hy : (data.map fun d => (d.2 : ℤ)) = (since h).map fun d => d.2.1.cls) :
    ∃ (out : MOut K V C) (s' : FastState K V) (w : Fin C → ℝ) (n : ℕ) (events : List ℝ),
      fastM cfg eta s = some (out, s') ∧
      ((∃ d ∈ data, (d.2 : ℕ) + 1 = n) ∧ (∀ d ∈ data, (d.2 : ℕ) < n)) ∧
      (∀ d ∈ data, w d.2 = (data.length : ℝ) / (n * (data.map Prod.snd).count d.2)) ∧
      logisticObjective data w cfg.penalty out.eta ≤ logisticObjective data w cfg.penalty eta ∧
      out.events = events.map some ∧ events.Pairwise (· ≤ ·) ∧ events.length ≤ cfg.iterations + 1 ∧
      events.head? = some (-logisticObjective data w cfg.penalty eta) ∧
      events.getLast? = some (-logisticObjective data w cfg.penalty out.eta) := by
  have hdne : data ≠ [] := by
    rintro rfl
    exact hne (List.map_eq_nil_iff.1 hx.symm)
  obtain ⟨pr, w, n, h1, h2, h3, h4, _, h6, h7⟩ := C59_absent_unused hdne cfg.penalty
  obtain ⟨eta', st, hm⟩ := C56_terminates (b := 1 / 1000) (tau := 1 / 2) (limit := cfg.iterations)
    (tol := cfg.tolerance) h6 h7 (by norm_num) (by norm_num) (by norm_num) eta
  obtain ⟨_, e2, e3, v, v', e4, e5, e6, e7⟩ :=
    C56_events (by norm_num) (by norm_num) (by norm_num) hm
  obtain ⟨u, u', u1, u2, u3⟩ := C56_never_increases (by norm_num) (by norm_num) (by norm_num) hm
  rw [h6] at e4 e5 u1 u2
  cases e4; cases e5; cases u1; cases u2
  rw [hx, hy] at h1
  obtain ⟨s', hs'⟩ := (C50_fast hs hne eta ⟨betaOf ((since h).map Prod.snd), eta', st.2.map some⟩).2
    ⟨pr, st.2, h1, ⟨st.1, hm⟩, rfl, rfl⟩
  exact ⟨_, s', w, n, st.2, hs', ⟨h2, h3⟩, h4, u3, rfl, e3, e2, e6, e7⟩

/-- **C46** for `FastSupervisedMStep`: the topics are learnt as in the unsupervised step. -/
theorem C46_fast {cfg : SupCfg} {h : List (Call (DocArg K V) (Mat K C ℝ))} {s s' : FastState K V}
    (hs : fastHistory cfg h = some s) (hne : since h ≠ []) {eta : Mat K C ℝ} {out : MOut K V C}
    (ho : fastM cfg eta s = some (out, s')) {h' : List (Call (Given K V) Unit)} {b : Buf K V}
    (hb : uHistory h' = some b) (hsame : since h' = (since h).map Prod.snd) : out.beta = (uM b).1 := by
  obtain ⟨_, _, _, _, _, h4⟩ := (C50_fast hs hne eta out).1 ⟨s', ho⟩
  rw [h4, uM, (uHistory_buf hb).beta (by rw [hsame]; simpa using hne), hsame]

/-- **C47**, `FastSupervisedMStep`: what `m_step` computes depends only on the documents since the last
`m_step`, and without any it is undefined after every history. -/
theorem C47_fast {cfg : SupCfg} {h h' : List (Call (DocArg K V) (Mat K C ℝ))} {s t : FastState K V}
    (hs : fastHistory cfg h = some s) (ht : fastHistory cfg h' = some t) (he : since h = since h')
    (eta : Mat K C ℝ) : (fastM cfg eta s).map Prod.fst = (fastM cfg eta t).map Prod.fst := by
  have hI := fastHistory_is hs
  have hJ := fastHistory_is ht
  obtain ⟨s1, _, _, _, h2⟩ := hI.step (C := C) cfg eta
  obtain ⟨t1, _, _, _, h3⟩ := hJ.step (C := C) cfg eta
  rw [h2, h3]
  by_cases hne : since h = []
  · rw [← he, hne]
    simp [logisticDefault, defaultWeights, numClasses]
  · rw [hI.buf.beta (by simpa using hne), hJ.buf.beta (by rw [← he]; simpa using hne), he]
    simp [Option.map_bind, Function.comp_def]

/-- The topic share is a distribution when `gamma` exceeds `alpha` by the expected topic counts of the
document, and then it is the expected share of each topic. -/
theorem topicShare_counts {alpha gamma n : Vec K ℝ} (hg : ∀ k, gamma k = alpha k + n k)
    (hn : ∀ k, 0 ≤ n k) (hpos : 0 < ∑ k, n k) :
    (∀ k, topicShare alpha gamma k = n k / ∑ j, n j) ∧ (∀ k, 0 ≤ topicShare alpha gamma k) ∧
      ∑ k, topicShare alpha gamma k = 1 := by
  have h1 : ∀ k, topicShare alpha gamma k = n k / ∑ j, n j := by
    intro k
    have : ∑ j, (gamma j - alpha j) = ∑ j, n j := Finset.sum_congr rfl fun j _ => by rw [hg]; ring
    simp only [topicShare, this, hpos.ne', if_false]
    rw [hg]; ring
  refine ⟨h1, fun k => by rw [h1]; exact div_nonneg (hn k) hpos.le, ?_⟩
  simp only [h1]
  rw [← Finset.sum_div]
  exact div_self hpos.ne'

theorem fastHistory_docs (cfg : SupCfg) (ds : List (DocArg K V)) :
    ∃ s, fastHistory cfg (ds.map (Call.doc (B := Mat K C ℝ))) = some s := by
  induction ds using List.reverseRecOn with
  | nil => exact ⟨_, rfl⟩
  | append_singleton ds d ih =>
    obtain ⟨s, hs⟩ := ih
    have hI := fastHistory_is hs
    obtain ⟨s', h1, _⟩ := hI.doc d
    refine ⟨s', ?_⟩
    rw [fastHistory] at hs ⊢
    rw [List.map_append, List.map_singleton, history_snoc, hs, Option.bind_some]
    exact h1

/-- Histories of any number of epochs, each with documents whose labels are in range, are defined: the
hypotheses of the theorems above can be met. -/
theorem fastHistory_epochs (cfg : SupCfg) (epochs : List (List (DocArg K V) × Mat K C ℝ))
    (h : ∀ e ∈ epochs, e.1 ≠ [] ∧ ∀ d ∈ e.1, 0 ≤ d.2.1.cls ∧ d.2.1.cls < (C : ℤ))
    (rest : List (DocArg K V)) :
    ∃ s, fastHistory cfg ((epochs.flatMap fun e => e.1.map .doc ++ [.step e.2]) ++ rest.map .doc) =
      some s := by
  have docs : ∀ (ds : List (DocArg K V)) (h0 : List (Call (DocArg K V) (Mat K C ℝ))),
      (∃ s, fastHistory cfg h0 = some s) → ∃ s, fastHistory cfg (h0 ++ ds.map .doc) = some s := by
    intro ds
    induction ds using List.reverseRecOn with
    | nil => intro h0 hs; simpa using hs
    | append_singleton ds d ih =>
      intro h0 hs
      obtain ⟨s, hs⟩ := ih h0 hs
      obtain ⟨s', h1, _⟩ := (fastHistory_is hs).doc d
      refine ⟨s', ?_⟩
      rw [fastHistory] at hs ⊢
      rw [List.map_append, List.map_singleton, ← List.append_assoc, history_snoc, hs, Option.bind_some]
      exact h1
  refine docs rest _ ?_
  clear rest
  induction epochs using List.reverseRecOn with
  | nil => exact ⟨_, rfl⟩
  | append_singleton epochs e ih =>
    have h1 := ih fun e he => h e (by simp [he])
    obtain ⟨hne, hl⟩ := h e (by simp)
    obtain ⟨s, hs⟩ := docs e.1 _ h1
    have hsince : ∀ (h0 : List (Call (DocArg K V) (Mat K C ℝ))), (since h0 = []) →
        ∀ ds : List (DocArg K V), since (h0 ++ ds.map .doc) = ds := by
      intro h0 h00 ds
      induction ds using List.reverseRecOn with
      | nil => simpa using h00
      | append_singleton ds d ih' =>
        rw [List.map_append, List.map_singleton, ← List.append_assoc, since_doc, ih']
    have h0 : since (epochs.flatMap fun e : List (DocArg K V) × Mat K C ℝ =>
        e.1.map Call.doc ++ [Call.step e.2]) = [] := by
      rcases List.eq_nil_or_concat epochs with rfl | ⟨l, e', rfl⟩
      · rfl
      · simp only [List.concat_eq_append, List.flatMap_append, List.flatMap_cons, List.flatMap_nil,
          List.append_nil]
        rw [← List.append_assoc, since_step]
    have hse := hsince _ h0 e.1
    obtain ⟨data, d1, d2⟩ := exists_data (C := C) e.1 (fun d => topicShare d.1 d.2.2.gamma)
      (fun d => d.2.1.cls) hl
    obtain ⟨out, s', _, _, _, hM, _⟩ := C50_fast_trains hs (by rw [hse]; exact hne) e.2
      (by rw [hse]; exact d1) (by rw [hse]; exact d2)
    refine ⟨s', ?_⟩
    rw [List.flatMap_append, List.flatMap_cons, List.flatMap_nil, List.append_nil, ← List.append_assoc]
    rw [fastHistory] at hs ⊢
    rw [history_snoc, hs, Option.bind_some]
    simp only [hM, Option.map_some]

/-- An epoch of two documents, then one more document: the hypotheses of C46, C47 and C50 can be met. -/
example (cfg : SupCfg) (a b : DocArg 2 2) (eta : Mat 2 2 ℝ) (ha : a.2.1.cls = 1) (hb : b.2.1.cls = 0) :
    ∃ (h : List (Call (DocArg 2 2) (Mat 2 2 ℝ))) (s : FastState 2 2) (data : List (Vec 2 ℝ × Fin 2)),
      fastHistory cfg h = some s ∧ h = [.doc a, .doc b, .step eta, .doc a] ∧ since h ≠ [] ∧
      data.map Prod.fst = ((since h).map fun d => topicShare d.1 d.2.2.gamma) ∧
      (data.map fun d => (d.2 : ℤ)) = (since h).map fun d => d.2.1.cls := by
  obtain ⟨s, hs⟩ := fastHistory_epochs cfg [([a, b], eta)] (by
    intro e he
    simp only [List.mem_singleton] at he
    subst he
    refine ⟨by simp, ?_⟩
    intro d hd
    simp only [List.mem_cons, List.not_mem_nil, or_false] at hd
    rcases hd with rfl | rfl <;> omega) [a]
  refine ⟨_, s, [(topicShare a.1 a.2.2.gamma, 1)], hs, rfl, by simp [since], by simp [since], ?_⟩
  simp [since, ha]

/-! ### C51 -/

/-- A history of calls of `SemiSupervisedMStep`. -/
noncomputable def semiHistory (cfg : SupCfg) (h : List (Call (DocArg K V) (Mat K C ℝ))) :
    Option (FastState K V) :=
  history (fun a s => semiDoc a.1 a.2.1 a.2.2 s) (fun eta s => (fastM cfg eta s).map Prod.snd)
    FastState.init h

/-- The documents with a label. -/
def labelled (ds : List (DocArg K V)) : List (DocArg K V) := ds.filter fun d => decide (0 ≤ d.2.1.cls)

theorem semiDoc_is {s : FastState K V} {l all : List (DocArg K V)}
    (h : FastIs s (labelled l) (all.map Prod.snd)) (a : DocArg K V) :
    ∃ s', semiDoc a.1 a.2.1 a.2.2 s = some s' ∧
      FastIs s' (labelled (l ++ [a])) ((all ++ [a]).map Prod.snd) := by
  by_cases ha : a.2.1.cls < 0
  · refine ⟨_, by rw [semiDoc, if_pos ha], ?_⟩
    obtain ⟨h1, h2, h3, h4, h5, h6⟩ := h
    have e : labelled (l ++ [a]) = labelled l := by simp [labelled, ha]
    rw [e, List.map_append]
    exact ⟨h1.doc a.2, h2, h3, h4, h5, h6⟩
  · obtain ⟨s', h1, h2, _⟩ := h.doc a
    refine ⟨s', by rw [semiDoc, if_neg ha]; exact h1, ?_⟩
    have e : labelled (l ++ [a]) = labelled l ++ [a] := by simp [labelled, not_lt.1 ha]
    rw [e, List.map_append]
    exact h2

theorem semiHistory_is {cfg : SupCfg} {h : List (Call (DocArg K V) (Mat K C ℝ))} {s : FastState K V}
    (hs : semiHistory cfg h = some s) :
    FastIs s (labelled (since h)) ((since h).map Prod.snd) := by
  refine history_induct (fun s l => FastIs s (labelled l) (l.map Prod.snd)) FastIs.init ?_ ?_ h s hs
  · intro a s s' l hI e
    obtain ⟨s1, h1, h2⟩ := semiDoc_is hI a
    rw [h1] at e
    cases e
    exact h2
  · intro eta s s' l hI e
    obtain ⟨s1, h1, _, _, h2⟩ := hI.step (C := C) cfg eta
    rw [h2, Option.map_eq_some_iff] at e
    obtain ⟨r, hr, rfl⟩ := e
    rw [Option.bind_eq_some_iff] at hr
    obtain ⟨pr, _, hr⟩ := hr
    rw [Option.map_eq_some_iff] at hr
    obtain ⟨_, _, rfl⟩ := hr
    exact h1

/-- **C51**: the unlabelled documents have no influence on `eta` or the events.  They are what
`FastSupervisedMStep` computes (including whether it is undefined) when only the labelled documents of
the epoch are given to it. -/
theorem C51_eta {cfg : SupCfg} {h h' : List (Call (DocArg K V) (Mat K C ℝ))} {s t : FastState K V}
    (hs : semiHistory cfg h = some s) (ht : fastHistory cfg h' = some t)
    (he : since h' = labelled (since h)) (eta : Mat K C ℝ) :
    ((fastM cfg eta s).map fun r => (r.1.eta, r.1.events)) =
      (fastM cfg eta t).map fun r => (r.1.eta, r.1.events) := by
  obtain ⟨s1, _, _, _, h2⟩ := (semiHistory_is hs).step (C := C) cfg eta
  obtain ⟨t1, _, _, _, h3⟩ := (fastHistory_is ht).step (C := C) cfg eta
  rw [h2, h3, he]
  simp [Option.map_bind, Function.comp_def]

/-- **C51**: the unlabelled documents contribute to the topics like the others: `beta` is what the
unsupervised step computes from all documents of the epoch. -/
theorem C51_beta {cfg : SupCfg} {h : List (Call (DocArg K V) (Mat K C ℝ))} {s s' : FastState K V}
    (hs : semiHistory cfg h = some s) (hne : since h ≠ []) {eta : Mat K C ℝ} {out : MOut K V C}
    (ho : fastM cfg eta s = some (out, s')) {h' : List (Call (Given K V) Unit)} {b : Buf K V}
    (hb : uHistory h' = some b) (hsame : since h' = (since h).map Prod.snd) : out.beta = (uM b).1 := by
  have hI := semiHistory_is hs
  obtain ⟨s1, _, _, _, h2⟩ := hI.step (C := C) cfg eta
  rw [h2, Option.bind_eq_some_iff] at ho
  obtain ⟨pr, _, ho⟩ := ho
  rw [Option.map_eq_some_iff] at ho
  obtain ⟨_, _, ho⟩ := ho
  have := congrArg (fun r => r.1.beta) ho
  simp only at this
  rw [← this, hI.buf.beta (by simpa using hne), uM,
    (uHistory_buf hb).beta (by rw [hsame]; simpa using hne), hsame]

/-- **C51**: without any labelled document in the epoch `m_step` is undefined. -/
theorem C51_no_labels {cfg : SupCfg} {h : List (Call (DocArg K V) (Mat K C ℝ))} {s : FastState K V}
    (hs : semiHistory cfg h = some s) (hl : ∀ d ∈ since h, d.2.1.cls < 0) (eta : Mat K C ℝ) :
    fastM cfg eta s = none := by
  obtain ⟨s1, _, _, _, h2⟩ := (semiHistory_is hs).step (C := C) cfg eta
  have : labelled (since h) = [] := by
    rw [labelled, List.filter_eq_nil_iff]
    intro d hd
    simp [hl d hd]
  rw [h2, this]
  simp [logisticDefault, defaultWeights, numClasses]

/-- **C51**: with at least one labelled document, and the labels in range, it is defined: giving
documents is never undefined, and `m_step` terminates. -/
theorem C51_defined {cfg : SupCfg} {h : List (Call (DocArg K V) (Mat K C ℝ))} {s : FastState K V}
    (hs : semiHistory cfg h = some s) (hl : ∃ d ∈ since h, 0 ≤ d.2.1.cls)
    (hr : ∀ d ∈ since h, d.2.1.cls < (C : ℤ)) (eta : Mat K C ℝ) : (fastM cfg eta s).isSome := by
  have hne : labelled (since h) ≠ [] := by
    obtain ⟨d, hd, h0⟩ := hl
    exact List.ne_nil_of_mem (List.mem_filter.2 ⟨hd, by simpa using h0⟩)
  obtain ⟨t, ht⟩ := fastHistory_docs (C := C) cfg (labelled (since h))
  obtain ⟨data, d1, d2⟩ := exists_data (C := C) (labelled (since h)) (fun d => topicShare d.1 d.2.2.gamma)
    (fun d => d.2.1.cls) (by
      intro d hd
      obtain ⟨h1, h2⟩ := List.mem_filter.1 hd
      exact ⟨by simpa using h2, hr d h1⟩)
  have hsd := since_docs (B := Mat K C ℝ) (labelled (since h))
  obtain ⟨out, s', _, _, _, hM, _⟩ := C50_fast_trains ht (by rw [hsd]; exact hne) eta
    (by rw [hsd]; exact d1) (by rw [hsd]; exact d2)
  have := C51_eta hs ht hsd eta
  rw [hM, Option.map_some] at this
  rw [Option.isSome_iff_exists]
  cases hf : fastM cfg eta s with
  | none => rw [hf] at this; cases this
  | some r => exact ⟨r, rfl⟩

/-- A history with a labelled and an unlabelled document meets the hypotheses of the theorems above. -/
example (cfg : SupCfg) (a b : DocArg 2 2) (ha : a.2.1.cls = 1) (hb : b.2.1.cls = -1) :
    ∃ (h : List (Call (DocArg 2 2) (Mat 2 2 ℝ))) (s : FastState 2 2), semiHistory cfg h = some s ∧
      since h = [a, b] ∧ labelled (since h) = [a] ∧ (∃ d ∈ since h, 0 ≤ d.2.1.cls) ∧
      ∀ d ∈ since h, d.2.1.cls < ((2 : ℕ) : ℤ) := by
  obtain ⟨s1, h1, h2⟩ := semiDoc_is (l := []) (all := []) (FastIs.init (K := 2) (V := 2)) a
  obtain ⟨s2, h3, _⟩ := semiDoc_is h2 b
  refine ⟨[.doc a, .doc b], s2, ?_, rfl, ?_, ⟨a, by simp [since], by omega⟩, ?_⟩
  · simp [semiHistory, history, h1, h3]
  · simp [since, labelled, ha, hb]
  · intro d hd
    simp only [since, List.foldl_cons, List.foldl_nil, List.nil_append, List.cons_append,
      List.mem_cons, List.not_mem_nil, or_false] at hd
    rcases hd with rfl | rfl <;> omega

end Verif.MStep
