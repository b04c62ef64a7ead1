import Verif.Props.SupervisedM

/-! Properties C46, C47, C50, C80 and C81 of `SupervisedMStep`. -/
namespace Verif.MStep

open MathUtils EStep Optim Finset

variable {K V C : ℕ}

/-- A history of calls of `SupervisedMStep`. -/
noncomputable def supHistory (cfg : SupCfg) (h : List (Call (DocArg K V) (Mat K C ℝ))) :
    Option (SupState K V) :=
  history (fun a s => supDoc a.1 a.2.1 a.2.2 s) (fun eta s => (supM cfg eta s).map Prod.snd)
    SupState.init h

/-- The number of words of a document. -/
def size (d : DocArg K V) : ℕ := ∑ n, d.2.1.words n

theorem supHistory_is {cfg : SupCfg} {h : List (Call (DocArg K V) (Mat K C ℝ))} {s : SupState K V}
    (hs : supHistory cfg h = some s) : SupIs s (since h) := by
  refine history_induct (fun s l => SupIs s l) SupIs.init ?_ ?_ h s hs
  · intro a s s' l hI e
    by_cases hN : numWords a.2.1.words * numWords a.2.1.words ≤ 2147483647
    · obtain ⟨s1, h1, h2, _⟩ := hI.doc a hN
      rw [h1] at e
      cases e
      exact h2
    · rw [supDoc_overflow a (not_le.1 hN)] at e
      cases e
  · intro eta s s' l hI e
    obtain ⟨s1, h1, _, _, h2⟩ := hI.step (C := C) cfg eta
    rw [h2, Option.map_eq_some_iff] at e
    obtain ⟨r, hr, rfl⟩ := e
    rw [Option.map_eq_some_iff] at hr
    obtain ⟨_, _, rfl⟩ := hr
    exact h1

/-- The mean topic assignment of a document with words: `(gamma - alpha) / N`. -/
noncomputable def meanTopics (d : DocArg K V) : Vec K ℝ := fun k => (d.2.2.gamma k - d.1 k) / size d

/-- The variance given to the second order approximation:
`(1 / N^2) ∑_n (X_n phi_n) (X_n phi_n)^T`. -/
noncomputable def varTopics (d : DocArg K V) : Mat K K ℝ := fun k l =>
  (∑ n, (d.2.2.phi k n * d.2.1.words n) * (d.2.2.phi l n * d.2.1.words n)) / (size d : ℝ) ^ 2

theorem supZbar_eq {d : DocArg K V} (h : size d ≠ 0) :
    supZbar (numWords d.2.1.words) d.2.2.gamma d.1 = some (meanTopics d) := by
  have : numWords d.2.1.words = size d := rfl
  rw [this, supZbar, if_neg h]; rfl

theorem supVar_eq {d : DocArg K V} (h : size d ≠ 0) :
    supVar (numWords d.2.1.words) d.2.1.words d.2.2.phi = some (varTopics d) := by
  have : numWords d.2.1.words = size d := rfl
  rw [this, supVar, if_neg h]
  congr 1
  funext k l
  simp only [varTopics, scaled]
  ring

theorem varTopics_psd {d : DocArg K V} (h : size d ≠ 0) : PSD (varTopics d) :=
  supVar_psd (supVar_eq h)

/-- **C50**, `SupervisedMStep`.  After any history of calls, if the documents since the last `m_step` all
have words, `m_step` runs the gradient descent on the second order problem whose samples are, in order of
arrival, the means and variances of these documents with their labels, and nothing else. -/
theorem C50_second {cfg : SupCfg} {h : List (Call (DocArg K V) (Mat K C ℝ))} {s : SupState K V}
    (hs : supHistory cfg h = some s) (hne : since h ≠ []) (hw : ∀ d ∈ since h, size d ≠ 0)
    (eta : Mat K C ℝ) (out : MOut K V C) :
    (∃ s', supM cfg eta s = some (out, s')) ↔
      ∃ pr events, secondOrderDefault C ((since h).map meanTopics) ((since h).map varTopics)
          ((since h).map fun d => d.2.1.cls) cfg.penalty = some pr ∧
        Descends cfg pr eta out.eta events ∧ out.events = events.map some ∧
        out.beta = betaOf ((since h).map Prod.snd) := by
  have hI := supHistory_is hs
  obtain ⟨s1, _, _, _, h2⟩ := hI.step (C := C) cfg eta
  have e1 : ((since h).map fun d => supZbar (numWords d.2.1.words) d.2.2.gamma d.1) =
      ((since h).map meanTopics).map some := by
    rw [List.map_map]
    exact List.map_congr_left fun d hd => supZbar_eq (hw d hd)
  have e2 : ((since h).map fun d => supVar (numWords d.2.1.words) d.2.1.words d.2.2.phi) =
      ((since h).map varTopics).map some := by
    rw [List.map_map]
    exact List.map_congr_left fun d hd => supVar_eq (hw d hd)
  rw [h2, hI.buf.beta (by simpa using hne), e1, e2, supDescend, readAll_map_some, readAll_map_some]
  simp only
  constructor
  · rintro ⟨s', e⟩
    rw [Option.map_eq_some_iff] at e
    obtain ⟨r, hr, e⟩ := e
    rw [Option.bind_eq_some_iff] at hr
    obtain ⟨pr, hpr, hr⟩ := hr
    rw [Option.map_eq_some_iff] at hr
    obtain ⟨q, hq, rfl⟩ := hr
    simp only [Prod.mk.injEq] at e
    obtain ⟨rfl, rfl⟩ := e
    exact ⟨pr, q.2, hpr, descend_eq_some.1 hq, rfl, rfl⟩
  · rintro ⟨pr, ev, hpr, hd, h3, h4⟩
    refine ⟨s1, ?_⟩
    rw [hpr, Option.bind_some, descend_eq_some.2 hd, Option.map_some, Option.map_some]
    cases out
    simp only at h3 h4
    rw [h3, h4]

/-- The default class weights of the second order problem, as `C59_absent_unused`. -/
theorem second_default {data : List (Vec K ℝ × Mat K K ℝ × Fin C)} (hne : data ≠ [])
    (hV : ∀ d ∈ data, PSD d.2.1) (L : ℝ) :
    ∃ (pr : Problem K C) (w : Fin C → ℝ) (n : ℕ),
      secondOrderDefault C (data.map Prod.fst) (data.map fun d => d.2.1) (data.map fun d => (d.2.2 : ℤ)) L =
        some pr ∧
      (∃ d ∈ data, (d.2.2 : ℕ) + 1 = n) ∧ (∀ d ∈ data, (d.2.2 : ℕ) < n) ∧
      (∀ d ∈ data, w d.2.2 = (data.length : ℝ) / (n * (data.map fun d => d.2.2).count d.2.2)) ∧
      (∀ d ∈ data, 0 < w d.2.2) ∧
      (∀ eta, pr.value eta = some (secondObjective data w L eta)) ∧
      ∀ eta, ∃ g, pr.gradient eta = some g ∧ IsGradient (secondObjective data w L) eta g := by
  have hcount : ∀ c : Fin C, (data.map fun d => (d.2.2 : ℤ)).count (c : ℤ) =
      (data.map fun d => d.2.2).count c := by
    intro c
    have : (data.map fun d => (d.2.2 : ℤ)) =
        (data.map fun d => d.2.2).map fun c : Fin C => ((c : ℕ) : ℤ) := by
      simp [Function.comp_def]
    rw [this]
    exact List.count_map_of_injective (data.map fun d => d.2.2) (fun c : Fin C => ((c : ℕ) : ℤ))
      (fun a b h => by simpa [Fin.ext_iff] using h) c
  obtain ⟨Cy, n, h1, _, h3, h4, h5, _⟩ := C59_weights (y := data.map fun d => (d.2.2 : ℤ))
    (by simpa using hne) (by
      intro a ha
      obtain ⟨d, _, rfl⟩ := List.mem_map.1 ha
      exact Int.natCast_nonneg _)
  let w : Fin C → ℝ := fun c => (data.length : ℝ) / (n * (data.map fun d => d.2.2).count c)
  have hw : Weighs Cy w (data.map fun d => d.2.2) := by
    intro c hc
    obtain ⟨d, hd, rfl⟩ := List.mem_map.1 hc
    have := h5 d.2.2 (List.mem_map.2 ⟨d, hd, rfl⟩)
    rw [hcount, List.length_map] at this
    simp only [weightAt, Int.natCast_nonneg, if_true, Int.toNat_natCast] at this
    rw [Option.join_eq_some_iff] at this
    exact this
  refine ⟨secondOrder C (data.map Prod.fst) (data.map fun d => d.2.1) (data.map fun d => (d.2.2 : ℤ)) Cy L,
    w, n, ?_, ?_, ?_, ?_, ?_, ?_, ?_⟩
  · simp [secondOrderDefault, h1]
  · obtain ⟨d, hd, h⟩ := List.mem_map.1 h3
    exact ⟨d, hd, by omega⟩
  · intro d hd
    have := h4 d.2.2 (List.mem_map.2 ⟨d, hd, rfl⟩)
    omega
  · exact fun _ _ => rfl
  · intro d hd
    have h6 : 0 < (data.map fun d => d.2.2).count d.2.2 := List.count_pos_iff.2 (List.mem_map.2 ⟨d, hd, rfl⟩)
    have h7 : 0 < data.length := List.length_pos_of_mem hd
    have h8 : 0 < n := by
      have := h4 d.2.2 (List.mem_map.2 ⟨d, hd, rfl⟩)
      omega
    positivity
  · exact C58_value hw hV
  · exact C58_gradient hw hV

/-- **C50** and **C56** for a whole epoch of `SupervisedMStep`: if the documents since the last `m_step`
have words and labels that are columns of `eta`, `m_step` terminates, and improves the documented second
order objective of exactly those documents. -/
theorem C50_second_trains {cfg : SupCfg} {h : List (Call (DocArg K V) (Mat K C ℝ))} {s : SupState K V}
    (hs : supHistory cfg h = some s) (hne : since h ≠ []) (hw : ∀ d ∈ since h, size d ≠ 0)
    (eta : Mat K C ℝ) {data : List (Vec K ℝ × Mat K K ℝ × Fin C)}
    (hx : data.map Prod.fst = (since h).map meanTopics)
    (hv : (data.map fun d => d.2.1) = (since h).map varTopics)
    (hy : (data.map fun d => (d.2.2 : ℤ)) = (since h).map fun d => d.2.1.cls) :
    ∃ (out : MOut K V C) (s' : SupState K V) (w : Fin C → ℝ) (n : ℕ) (events : List ℝ),
      supM cfg eta s = some (out, s') ∧
      ((∃ d ∈ data, (d.2.2 : ℕ) + 1 = n) ∧ (∀ d ∈ data, (d.2.2 : ℕ) < n)) ∧
      (∀ d ∈ data, w d.2.2 = (data.length : ℝ) / (n * (data.map fun d => d.2.2).count d.2.2)) ∧
      secondObjective data w cfg.penalty out.eta ≤ secondObjective data w cfg.penalty eta ∧
      out.events = events.map some ∧ events.Pairwise (· ≤ ·) ∧ events.length ≤ cfg.iterations + 1 ∧
      events.head? = some (-secondObjective data w cfg.penalty eta) ∧
      events.getLast? = some (-secondObjective data w cfg.penalty out.eta) := by
  have hdne : data ≠ [] := by
    rintro rfl
    exact hne (List.map_eq_nil_iff.1 hx.symm)
  have hV : ∀ d ∈ data, PSD d.2.1 := by
    intro d hd
    have : d.2.1 ∈ (since h).map varTopics := hv ▸ List.mem_map.2 ⟨d, hd, rfl⟩
    obtain ⟨a, ha, e⟩ := List.mem_map.1 this
    rw [← e]
    exact varTopics_psd (hw a ha)
  obtain ⟨pr, w, n, h1, h2, h3, h4, _, h6, h7⟩ := second_default hdne hV cfg.penalty
  obtain ⟨eta', st, hm⟩ := C56_terminates (b := 1 / 1000) (tau := 1 / 2) (limit := cfg.iterations)
    (tol := cfg.tolerance) h6 h7 (by norm_num) (by norm_num) (by norm_num) eta
  obtain ⟨_, e2, e3, v, v', e4, e5, e6, e7⟩ :=
    C56_events (by norm_num) (by norm_num) (by norm_num) hm
  obtain ⟨u, u', u1, u2, u3⟩ := C56_never_increases (by norm_num) (by norm_num) (by norm_num) hm
  rw [h6] at e4 e5 u1 u2
  cases e4; cases e5; cases u1; cases u2
  rw [hx, hv, hy] at h1
  obtain ⟨s', hs'⟩ := (C50_second hs hne hw eta ⟨betaOf ((since h).map Prod.snd), eta', st.2.map some⟩).2
    ⟨pr, st.2, h1, ⟨st.1, hm⟩, rfl, rfl⟩
  exact ⟨_, s', w, n, st.2, hs', ⟨h2, h3⟩, h4, u3, rfl, e3, e2, e6, e7⟩

/-- **C46** for `SupervisedMStep`: the topics are learnt as in the unsupervised step. -/
theorem C46_second {cfg : SupCfg} {h : List (Call (DocArg K V) (Mat K C ℝ))} {s s' : SupState K V}
    (hs : supHistory cfg h = some s) (hne : since h ≠ []) {eta : Mat K C ℝ} {out : MOut K V C}
    (ho : supM cfg eta s = some (out, s')) {h' : List (Call (Given K V) Unit)} {b : Buf K V}
    (hb : uHistory h' = some b) (hsame : since h' = (since h).map Prod.snd) : out.beta = (uM b).1 := by
  have hI := supHistory_is hs
  obtain ⟨s1, _, _, _, h2⟩ := hI.step (C := C) cfg eta
  rw [h2, Option.map_eq_some_iff] at ho
  obtain ⟨_, _, ho⟩ := ho
  have := congrArg (fun r => r.1.beta) ho
  simp only at this
  rw [← this, hI.buf.beta (by simpa using hne), uM,
    (uHistory_buf hb).beta (by rw [hsame]; simpa using hne), hsame]

/-- **C47**, `SupervisedMStep`: what `m_step` computes depends only on the documents since the last
`m_step`, and without any it is undefined after every history. -/
theorem C47_second {cfg : SupCfg} {h h' : List (Call (DocArg K V) (Mat K C ℝ))} {s t : SupState K V}
    (hs : supHistory cfg h = some s) (ht : supHistory cfg h' = some t) (he : since h = since h')
    (eta : Mat K C ℝ) : (supM cfg eta s).map Prod.fst = (supM cfg eta t).map Prod.fst := by
  have hI := supHistory_is hs
  have hJ := supHistory_is ht
  obtain ⟨s1, _, _, _, h2⟩ := hI.step (C := C) cfg eta
  obtain ⟨t1, _, _, _, h3⟩ := hJ.step (C := C) cfg eta
  rw [h2, h3]
  by_cases hne : since h = []
  · rw [← he, hne]
    simp [supDescend, readAll, secondOrderDefault, defaultWeights, numClasses]
  · rw [hI.buf.beta (by simpa using hne), hJ.buf.beta (by rw [← he]; simpa using hne), he]
    simp [Function.comp_def]

/-! ### C80 -/

/-- **C80** (partial: at most 46340 words).  Giving such a document to `SupervisedMStep` is defined after
every history.  Missing: longer documents, for which it is not (`C80_overflow`). -/
theorem C80_defined_partial {cfg : SupCfg} {h : List (Call (DocArg K V) (Mat K C ℝ))} {s : SupState K V}
    (hs : supHistory cfg h = some s) (d : DocArg K V) (hd : size d ≤ 46340) :
    ∃ s', supHistory cfg (h ++ [.doc d]) = some s' := by
  obtain ⟨s', h1, _⟩ := (supHistory_is hs).doc d (by
    have : numWords d.2.1.words = size d := rfl
    rw [this]
    nlinarith)
  refine ⟨s', ?_⟩
  rw [supHistory] at hs ⊢
  rw [history_snoc, hs, Option.bind_some]
  exact h1

/-- **C80 is false** for longer documents: a document of more than 46340 words overflows `int`, whatever
came before. -/
theorem C80_overflow (cfg : SupCfg) (h : List (Call (DocArg K V) (Mat K C ℝ))) (d : DocArg K V)
    (hd : 46340 < size d) : supHistory cfg (h ++ [.doc d]) = none := by
  rw [supHistory, history_snoc]
  cases history (fun a s => supDoc a.1 a.2.1 a.2.2 s)
      (fun eta s => (supM cfg eta s).map Prod.snd) SupState.init h with
  | none => rfl
  | some s =>
    rw [Option.bind_some]
    refine supDoc_overflow d ?_
    have : numWords d.2.1.words = size d := rfl
    rw [this]
    nlinarith

/-- Documents of these sizes exist. -/
example : ∃ d d' : DocArg 2 1, size d = 46340 ∧ size d' = 46341 :=
  ⟨(![1, 1], ⟨![46340], 0⟩, ⟨fun _ _ => 1, fun _ => 1⟩), (![1, 1], ⟨![46341], 0⟩, ⟨fun _ _ => 1, fun _ => 1⟩),
    by simp [size], by simp [size]⟩

/-! ### C81 -/

/-- **C81 is false**: one document without words in an epoch, and `SupervisedMStep` leaves `eta` as it is,
whatever the other documents are; the only event reports a value that is not a number. -/
theorem C81_empty_document {cfg : SupCfg} {h : List (Call (DocArg K V) (Mat K C ℝ))} {s s' : SupState K V}
    (hs : supHistory cfg h = some s) (hd : ∃ d ∈ since h, size d = 0) {eta : Mat K C ℝ} {out : MOut K V C}
    (ho : supM cfg eta s = some (out, s')) : out.eta = eta ∧ out.events = [none] := by
  obtain ⟨d, hd, h0⟩ := hd
  obtain ⟨s1, _, _, _, h2⟩ := (supHistory_is hs).step (C := C) cfg eta
  have hz : readAll ((since h).map fun d => supZbar (numWords d.2.1.words) d.2.2.gamma d.1) = none := by
    refine readAll_none (List.mem_map.2 ⟨d, hd, ?_⟩)
    have : numWords d.2.1.words = size d := rfl
    rw [this, h0]; rfl
  rw [h2, supDescend, hz] at ho
  simp only at ho
  split at ho
  · simp only [Option.map_some, Option.some.injEq, Prod.mk.injEq] at ho
    rw [← ho.1]
    exact ⟨rfl, rfl⟩
  · cases ho

/-- It is defined when the labels are in range: the hypotheses of `C81_empty_document` can be met. -/
theorem C81_empty_defined {cfg : SupCfg} {h : List (Call (DocArg K V) (Mat K C ℝ))} {s : SupState K V}
    (hs : supHistory cfg h = some s) (hd : ∃ d ∈ since h, size d = 0)
    (hl : ∀ d ∈ since h, 0 ≤ d.2.1.cls ∧ d.2.1.cls < (C : ℤ)) (eta : Mat K C ℝ) :
    ∃ out s', supM cfg eta s = some (out, s') := by
  obtain ⟨d, hd, h0⟩ := hd
  obtain ⟨s1, _, _, _, h2⟩ := (supHistory_is hs).step (C := C) cfg eta
  have hz : readAll ((since h).map fun d => supZbar (numWords d.2.1.words) d.2.2.gamma d.1) = none := by
    refine readAll_none (List.mem_map.2 ⟨d, hd, ?_⟩)
    have : numWords d.2.1.words = size d := rfl
    rw [this, h0]; rfl
  have hok : LabelsOk C ((since h).map fun d => d.2.1.cls) := by
    intro a ha
    obtain ⟨d, hd, rfl⟩ := List.mem_map.1 ha
    exact hl d hd
  obtain ⟨Cy, _, h3, _⟩ := C59_weights (y := (since h).map fun d => d.2.1.cls)
    (by simpa using List.ne_nil_of_mem hd) (fun a ha => (hok a ha).1)
  rw [h2, supDescend, hz]
  simp only [h3, hok, Option.isSome_some, and_self, if_true]
  exact ⟨_, _, rfl⟩

/-- **C81** (partial: `FastSupervisedMStep`).  There a document without words, for which `gamma = alpha`,
is a sample that does not depend on the topics: it adds a constant to the objective, so the documents with
words train `eta` (`C50_fast_trains` has no hypothesis on the words).  Missing: `SupervisedMStep`, where it
is false (`C81_empty_document`), and the online step (`C81_online`). -/
theorem C81_fast_partial {data rest : List (Vec K ℝ × Fin C)} {w : Fin C → ℝ} {L : ℝ} {y : Fin C}
    {d : DocArg K V} (hd : d.2.2.gamma = d.1)
    (hdata : data.Perm ((topicShare d.1 d.2.2.gamma, y) :: rest)) (eta : Mat K C ℝ) :
    logisticObjective data w L eta = logisticObjective rest w L eta + w y * Real.log C := by
  have h0 : ∀ k, topicShare d.1 d.2.2.gamma k = 0 := by
    intro k
    rw [hd]
    simp [topicShare]
  simp only [logisticObjective]
  rw [(hdata.map _).sum_eq]
  simp only [List.map_cons, List.sum_cons, h0, mul_zero, Finset.sum_const_zero, Real.exp_zero,
    Finset.sum_const, Finset.card_univ, Fintype.card_fin, nsmul_eq_mul, mul_one]
  ring

/-- An empty document among two samples meets the hypotheses of `C81_fast_partial`. -/
example : ∃ (d : DocArg 2 1) (data rest : List (Vec 2 ℝ × Fin 2)), d.2.2.gamma = d.1 ∧ rest ≠ [] ∧
    data.Perm ((topicShare d.1 d.2.2.gamma, 1) :: rest) :=
  ⟨(![1, 1], ⟨![0], 1⟩, ⟨fun _ _ => 1 / 2, ![1, 1]⟩), _, [(![1 / 3, 2 / 3], 0)], rfl, by simp,
    List.Perm.swap _ _ _⟩

/-- A history with an ordinary and an empty document. -/
example (cfg : SupCfg) : ∃ (h : List (Call (DocArg 2 1) (Mat 2 2 ℝ))) (s : SupState 2 1),
    supHistory cfg h = some s ∧ (∃ d ∈ since h, size d = 0) ∧ (∃ d ∈ since h, size d = 3) ∧
    ∀ d ∈ since h, 0 ≤ d.2.1.cls ∧ d.2.1.cls < ((2 : ℕ) : ℤ) := by
  let a : DocArg 2 1 := (![1, 1], ⟨![3], 0⟩, ⟨fun _ _ => 1 / 2, ![5 / 2, 5 / 2]⟩)
  let b : DocArg 2 1 := (![1, 1], ⟨![0], 1⟩, ⟨fun _ _ => 1 / 2, ![1, 1]⟩)
  obtain ⟨s1, h1⟩ := C80_defined_partial (cfg := cfg) (C := 2) (h := []) rfl a (by simp [size, a])
  obtain ⟨s2, h2⟩ := C80_defined_partial h1 b (by simp [size, b])
  refine ⟨_, s2, h2, ⟨b, by simp [since], by simp [size, b]⟩, ⟨a, by simp [since], by simp [size, a]⟩, ?_⟩
  intro d hd
  simp only [List.nil_append, List.cons_append, since, List.foldl_cons, List.foldl_nil,
    List.mem_cons, List.not_mem_nil, or_false] at hd
  rcases hd with rfl | rfl <;> simp [a, b]

/-- The hypotheses of C50 for `SupervisedMStep` can be met. -/
example (cfg : SupCfg) : ∃ (h : List (Call (DocArg 2 1) (Mat 2 2 ℝ))) (s : SupState 2 1)
    (data : List (Vec 2 ℝ × Mat 2 2 ℝ × Fin 2)), supHistory cfg h = some s ∧ since h ≠ [] ∧
    (∀ d ∈ since h, size d ≠ 0) ∧ data.map Prod.fst = (since h).map meanTopics ∧
    (data.map fun d => d.2.1) = (since h).map varTopics ∧
    (data.map fun d => (d.2.2 : ℤ)) = (since h).map fun d => d.2.1.cls := by
  let a : DocArg 2 1 := (![1, 1], ⟨![3], 1⟩, ⟨fun _ _ => 1 / 2, ![5 / 2, 5 / 2]⟩)
  obtain ⟨s1, h1⟩ := C80_defined_partial (cfg := cfg) (C := 2) (h := []) rfl a (by simp [size, a])
  refine ⟨_, s1, [(meanTopics a, varTopics a, 1)], h1, by simp [since], ?_, by simp [since],
    by simp [since], by simp [since, a]⟩
  intro d hd
  simp only [List.nil_append, since, List.foldl_cons, List.foldl_nil, List.mem_cons, List.not_mem_nil,
    or_false] at hd
  subst hd
  simp [size, a]

end Verif.MStep
