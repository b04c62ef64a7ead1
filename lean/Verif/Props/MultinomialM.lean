import Verif.Props.Topics
import Verif.Props.MathUtils
import Verif.Lemmas.EStep

/-! Properties C47 and C49 of `MultinomialSupervisedMStep` and `CorrespondenceSupervisedMStep`. -/
namespace Verif.MStep

open MathUtils EStep Finset

variable {K V C : ℕ}

/-- What matters of a call of `doc_m_step`: the `eta` of the model, the label, and how many words of each
kind the document is expected to have drawn from each topic. -/
structure Sample (K V C : ℕ) where
  eta : Mat K C ℝ
  cls : ℤ
  counts : Mat K V ℝ

/-- The sample of a document for the multinomial step. -/
def multSample (eta : Mat K C ℝ) (d : Given K V) : Sample K V C :=
  ⟨eta, d.1.cls, fun k n => d.2.phi k n * d.1.words n⟩

/-- The sample of a document for the correspondence step: word `n` counts with weight `tau n`. -/
def corrSample (eta : Mat K C ℝ) (d : Given K V) (tau : Vec V ℝ) : Sample K V C :=
  ⟨eta, d.1.cls, fun k n => d.2.phi k n * (d.1.words n * tau n)⟩

/-- A history of calls of one of the two steps, which differ only in the samples. -/
noncomputable def multHistory (mu : ℝ) (h : List (Call (Sample K V C) Unit)) : Option (MultState K V C) :=
  history (fun a s => multAdd a.eta a.cls a.counts s) (fun _ s => some (multM mu s).2) MultState.init h

/-- Change the arguments of the `doc_m_step` calls. -/
def Call.map {A A' B : Type} (f : A → A') : Call A B → Call A' B
  | .doc a => .doc (f a)
  | .step b => .step b

theorem history_map {S A A' B : Type} (f : A → A') (doc : A' → S → Option S) (step : B → S → Option S)
    (s : S) (h : List (Call A B)) :
    history doc step s (h.map (Call.map f)) = history (fun a => doc (f a)) step s h := by
  induction h generalizing s with
  | nil => rfl
  | cons c h ih =>
    simp only [history, List.map_cons, List.foldlM_cons] at ih ⊢
    cases c <;> simp [Call.map, ih]

/-- `multHistory` is what the two classes do. -/
theorem multinomial_history (mu : ℝ) (h : List (Call (Mat K C ℝ × Given K V) Unit)) :
    history (fun a s => multDoc a.1 a.2.1 a.2.2.phi s) (fun _ s => some (multM mu s).2) MultState.init h =
      multHistory mu (h.map (Call.map fun a => multSample a.1 a.2)) := by
  rw [multHistory, history_map]
  rfl

theorem correspondence_history (mu : ℝ) (h : List (Call (Mat K C ℝ × Given K V × Vec V ℝ) Unit)) :
    history (fun a s => corrDoc a.1 a.2.1.1 a.2.1.2.phi a.2.2 s) (fun _ s => some (multM mu s).2)
      MultState.init h = multHistory mu (h.map (Call.map fun a => corrSample a.1 a.2.1 a.2.2)) := by
  rw [multHistory, history_map]
  rfl

theorem since_map {A A' B : Type} (f : A → A') (h : List (Call A B)) :
    since (h.map (Call.map f)) = (since h).map f := by
  induction h using List.reverseRecOn with
  | nil => rfl
  | append_singleton h c ih =>
    rw [List.map_append, List.map_singleton]
    cases c with
    | doc a =>
      rw [Call.map, since_doc, since_doc, ih, List.map_append, List.map_singleton]
    | step b => rw [Call.map, since_step, since_step, List.map_nil]

/-- A history of calls of `MultinomialSupervisedMStep`. -/
noncomputable def mHistory (mu : ℝ) (h : List (Call (Mat K C ℝ × Given K V) Unit)) : Option (MultState K V C) :=
  history (fun a s => multDoc a.1 a.2.1 a.2.2.phi s) (fun _ s => some (multM mu s).2) MultState.init h

/-- A history of calls of `CorrespondenceSupervisedMStep`. -/
noncomputable def cHistory (mu : ℝ) (h : List (Call (Mat K C ℝ × Given K V × Vec V ℝ) Unit)) :
    Option (MultState K V C) :=
  history (fun a s => corrDoc a.1 a.2.1.1 a.2.1.2.phi a.2.2 s) (fun _ s => some (multM mu s).2) MultState.init h

/-- Expected number of times word `n` was drawn from topic `k`. -/
def wordCount (l : List (Sample K V C)) (k : Fin K) (n : Fin V) : ℝ := (l.map fun a => a.counts k n).sum

/-- Expected number of words drawn from topic `k` in documents of class `c`. -/
def classCount (l : List (Sample K V C)) (k : Fin K) (c : Fin C) : ℝ :=
  ((l.filter fun a => decide (a.cls = (c : ℤ))).map fun a => ∑ n, a.counts k n).sum

/-- Expected number of words drawn from topic `k`. -/
def topicCount (l : List (Sample K V C)) (k : Fin K) : ℝ := ∑ n, wordCount l k n

/-- `E_q[log p(y | z, eta)]` of a document, `none` if a logarithm is not a number. -/
noncomputable def labelLog (a : Sample K V C) : Option ℝ :=
  (colAt a.eta a.cls).bind fun ey => expectedLog (fun k => ∑ n, a.counts k n) ey

/-- A sum of numbers some of which may not be numbers. -/
noncomputable def sumLog (l : List (Option ℝ)) : Option ℝ :=
  l.foldl (fun acc v => acc.bind fun a => v.map fun b => a + b) (some 0)

/-- The invariant. -/
def MultIs (s : MultState K V C) (l : List (Sample K V C)) : Prop :=
  (∀ a ∈ l, 0 ≤ a.cls ∧ a.cls < (C : ℤ)) ∧
  match s.bufs with
  | none => l = []
  | some p => p.1 = wordCount l ∧ p.2 = classCount l ∧ s.logpy = some (sumLog (l.map labelLog))

theorem colAt_some {r c : ℕ} {m : Mat r c ℝ} {y : ℤ} {v : Vec r ℝ} (h : colAt m y = some v) :
    0 ≤ y ∧ y < (c : ℤ) := by
  unfold colAt at h
  split at h
  · assumption
  · cases h

theorem MultIs.doc {s s' : MultState K V C} {l : List (Sample K V C)} {a : Sample K V C} (h : MultIs s l)
    (e : multAdd a.eta a.cls a.counts s = some s') : MultIs s' (l ++ [a]) := by
  simp only [multAdd, Option.map_eq_some_iff] at e
  obtain ⟨ey, hey, rfl⟩ := e
  have hr := colAt_some hey
  refine ⟨?_, ?_⟩
  · intro b hb
    rcases List.mem_append.1 hb with hb | hb
    · exact h.1 b hb
    · rw [List.mem_singleton] at hb
      subst hb
      exact hr
  have hlog : labelLog a = expectedLog (fun k => ∑ n, a.counts k n) ey := by
    rw [labelLog, hey, Option.bind_some]
  have hcls : ∀ (l : List (Sample K V C)) k (c : Fin C), classCount (l ++ [a]) k c =
      classCount l k c + if (c : ℤ) = a.cls then ∑ n, a.counts k n else 0 := by
    intro l k c
    by_cases hc : a.cls = (c : ℤ)
    · simp [classCount, List.filter_append, hc]
    · have hc' : ¬ (c : ℤ) = a.cls := fun e => hc e.symm
      simp [classCount, List.filter_append, hc, hc']
  have hword : ∀ (l : List (Sample K V C)) k n, wordCount (l ++ [a]) k n = wordCount l k n + a.counts k n := by
    intro l k n
    simp [wordCount]
  have h2 := h.2
  cases hb : s.bufs with
  | none =>
    simp only [hb] at h2 ⊢
    subst h2
    refine ⟨?_, ?_, ?_⟩
    · funext k n
      simp [wordCount]
    · funext k c
      rw [hcls]
      simp [classCount]
    · simp [sumLog, hlog]
  | some p =>
    simp only [hb] at h2 ⊢
    refine ⟨?_, ?_, ?_⟩
    · funext k n
      rw [hword, h2.1]
    · funext k c
      rw [hcls, h2.2.1]
    · rw [h2.2.2, List.map_append, sumLog, sumLog, List.foldl_append, List.map_singleton, hlog]
      rfl

theorem MultIs.step {s : MultState K V C} (mu : ℝ) : MultIs (multM mu s).2 [] := by
  refine ⟨by simp, ?_⟩
  cases hb : s.bufs with
  | none => simp [multM, hb]
  | some p =>
    simp only [multM, hb, Option.map_some]
    refine ⟨?_, ?_, by simp [sumLog]⟩
    · funext k n; simp [wordCount]
    · funext k c; simp [classCount]

theorem multHistory_is {mu : ℝ} {h : List (Call (Sample K V C) Unit)} {s : MultState K V C}
    (hs : multHistory mu h = some s) : MultIs s (since h) := by
  refine history_induct MultIs ⟨by simp, rfl⟩ ?_ ?_ h s hs
  · intro a s s' l hI e
    exact hI.doc e
  · intro _ s s' l _ e
    cases e
    exact MultIs.step mu

/-- A call of `doc_m_step` is undefined exactly if the label is not a column of `eta`. -/
theorem multAdd_defined (a : Sample K V C) (s : MultState K V C) :
    (∃ s', multAdd a.eta a.cls a.counts s = some s') ↔ 0 ≤ a.cls ∧ a.cls < (C : ℤ) := by
  constructor
  · rintro ⟨s', e⟩
    simp only [multAdd, Option.map_eq_some_iff] at e
    obtain ⟨ey, hey, rfl⟩ := e
    exact colAt_some hey
  · intro hr
    have : colAt a.eta a.cls = some fun k => a.eta k ⟨a.cls.toNat, by omega⟩ := by
      rw [colAt, dif_pos hr]
    rw [multAdd, this]
    exact ⟨_, rfl⟩

/-- There has been a document at some time. -/
def AnyDoc {A B : Type} (h : List (Call A B)) : Prop := ∃ a, Call.doc a ∈ h

theorem multHistory_bufs {mu : ℝ} {h : List (Call (Sample K V C) Unit)} {s : MultState K V C}
    (hs : multHistory mu h = some s) (hd : AnyDoc h) : s.bufs ≠ none := by
  induction h using List.reverseRecOn generalizing s with
  | nil => obtain ⟨a, ha⟩ := hd; simp at ha
  | append_singleton h c ih =>
    rw [multHistory, history_snoc, Option.bind_eq_some_iff] at hs
    obtain ⟨s1, h1, h2⟩ := hs
    cases c with
    | doc a =>
      simp only [multAdd, Option.map_eq_some_iff] at h2
      obtain ⟨_, _, rfl⟩ := h2
      simp
    | step b =>
      cases h2
      have : s1.bufs ≠ none := ih h1 (by
        obtain ⟨a, ha⟩ := hd
        exact ⟨a, by simpa using ha⟩)
      cases hb : s1.bufs with
      | none => exact absurd hb this
      | some p => simp [multM, hb]

/-- What `m_step` computes. -/
theorem mult_step {mu : ℝ} {h : List (Call (Sample K V C) Unit)} {s : MultState K V C}
    (hs : multHistory mu h = some s) (hd : AnyDoc h) :
    (multM mu s).1.params = some (normalizeRows (wordCount (since h)),
      normalizeRows fun k c => classCount (since h) k c + mu - 1) ∧
    (multM mu s).1.event = some (sumLog ((since h).map labelLog)) := by
  have hI := (multHistory_is hs).2
  cases hb : s.bufs with
  | none => exact absurd hb (multHistory_bufs hs hd)
  | some p =>
    simp only [hb] at hI
    simp only [multM, hb, Option.map_some, hI.1, hI.2.1, hI.2.2, and_self]

/-- The words drawn from a topic are those of the documents of the different classes. -/
theorem sum_classCount {l : List (Sample K V C)} (hl : ∀ a ∈ l, 0 ≤ a.cls ∧ a.cls < (C : ℤ)) (k : Fin K) :
    ∑ c, classCount l k c = topicCount l k := by
  induction l with
  | nil => simp [classCount, topicCount, wordCount]
  | cons a l ih =>
    have ha := hl a List.mem_cons_self
    have ih' := ih fun b hb => hl b (List.mem_cons_of_mem _ hb)
    have h1 : ∀ c : Fin C, classCount (a :: l) k c =
        (if c = ⟨a.cls.toNat, by omega⟩ then ∑ n, a.counts k n else 0) + classCount l k c := by
      intro c
      by_cases hc : c = ⟨a.cls.toNat, by omega⟩
      · have hc' : a.cls = (c : ℤ) := by
          rw [hc]; exact (Int.toNat_of_nonneg ha.1).symm
        simp only [classCount, hc', decide_true, List.filter_cons_of_pos, List.map_cons, List.sum_cons]
        rw [if_pos]
        rw [Fin.ext_iff]
        simp
      · have hc' : ¬ a.cls = (c : ℤ) := by
          intro e
          apply hc
          rw [Fin.ext_iff]
          simp [e]
        simp [classCount, hc', hc]
    simp only [h1, Finset.sum_add_distrib, Finset.sum_ite_eq', mem_univ, if_true, ih']
    simp [topicCount, wordCount, Finset.sum_add_distrib]

theorem wordCount_nonneg {l : List (Sample K V C)} (hl : ∀ a ∈ l, ∀ k n, 0 ≤ a.counts k n) (k : Fin K)
    (n : Fin V) : 0 ≤ wordCount l k n := by
  apply List.sum_nonneg
  intro x hx
  obtain ⟨d, hd, rfl⟩ := List.mem_map.1 hx
  exact hl d hd k n

theorem classCount_nonneg {l : List (Sample K V C)} (hl : ∀ a ∈ l, ∀ k n, 0 ≤ a.counts k n) (k : Fin K)
    (c : Fin C) : 0 ≤ classCount l k c := by
  apply List.sum_nonneg
  intro x hx
  obtain ⟨d, hd, rfl⟩ := List.mem_map.1 hx
  exact Finset.sum_nonneg fun n _ => hl d (List.mem_filter.1 hd).1 k n

/-- Normalising the rows of a matrix without negative entries: rows with mass become distributions that
maximise `∑ x log`, the others are zero. -/
theorem normalizeRows_spec {r c : ℕ} {x : Mat r c ℝ} (hx : ∀ i j, 0 ≤ x i j) (i : Fin r) :
    (0 < ∑ j, x i j → (∑ j, normalizeRows x i j = 1) ∧ (∀ j, normalizeRows x i j = x i j / ∑ j, x i j) ∧
      ∀ p : Vec c ℝ, (∀ j, 0 ≤ p j) → ∑ j, p j = 1 → (∀ j, 0 < x i j → 0 < p j) →
        ∑ j, x i j * Real.log (p j) ≤ ∑ j, x i j * Real.log (normalizeRows x i j)) ∧
    ((∑ j, x i j) = 0 → ∀ j, normalizeRows x i j = 0) := by
  constructor
  · intro hpos
    have h1 : ∀ j, normalizeRows x i j = x i j / ∑ j, x i j := by
      intro j
      rw [normalizeRows_apply, if_neg hpos.ne']
    refine ⟨((C27_normalize_rows x i).1 hpos.ne').1, h1, ?_⟩
    intro p hp hp1 hs
    simp only [h1]
    exact weighted_log_max (hx i) hpos hp hp1 hs
  · intro h0 j
    rw [normalizeRows_apply, if_pos h0]
    exact (Finset.sum_eq_zero_iff_of_nonneg fun j _ => hx i j).1 h0 j (mem_univ j)

theorem anyDoc_of_since {A B : Type} {h : List (Call A B)} (h0 : since h ≠ []) : AnyDoc h := by
  induction h using List.reverseRecOn with
  | nil => exact absurd rfl h0
  | append_singleton h c ih =>
    cases c with
    | doc a => exact ⟨a, by simp⟩
    | step b => exact absurd (since_step h b) h0

/-- **C49**, topics.  After any history with a document, `m_step` assigns to `beta` the normalised expected
counts of the documents since the last `m_step`: the row of a topic with words is a distribution (the one
maximising the expected log likelihood), the row of a topic without words is zero. -/
theorem C49_beta {mu : ℝ} {h : List (Call (Sample K V C) Unit)} {s : MultState K V C}
    (hs : multHistory mu h = some s) (hd : AnyDoc h) (hpos : ∀ a ∈ since h, ∀ k n, 0 ≤ a.counts k n) :
    ∃ beta eta, (multM mu s).1.params = some (beta, eta) ∧ (∀ k n, 0 ≤ beta k n) ∧
      ∀ k, (0 < topicCount (since h) k → ∑ n, beta k n = 1 ∧
          (∀ n, beta k n = wordCount (since h) k n / topicCount (since h) k) ∧
          ∀ p : Vec V ℝ, (∀ n, 0 ≤ p n) → ∑ n, p n = 1 → (∀ n, 0 < wordCount (since h) k n → 0 < p n) →
            ∑ n, wordCount (since h) k n * Real.log (p n) ≤
              ∑ n, wordCount (since h) k n * Real.log (beta k n)) ∧
        (topicCount (since h) k = 0 → ∀ n, beta k n = 0) := by
  have hx := fun k n => wordCount_nonneg hpos k n
  exact ⟨_, _, (mult_step hs hd).1, (C27_nonneg _ hx).1, fun k => normalizeRows_spec hx k⟩

/-- **C49**, classes.  With `mu ≥ 1`, after any history with a document, the entries of `eta` are not
negative; the row of a topic with words, and every row if `mu > 1`, is a distribution (the mode of the
posterior given the expected counts and a Dirichlet prior `mu`); the other rows are zero. -/
theorem C49_eta {mu : ℝ} (hmu : 1 ≤ mu) {h : List (Call (Sample K V C) Unit)} {s : MultState K V C}
    (hs : multHistory mu h = some s) (hd : AnyDoc h) (hpos : ∀ a ∈ since h, ∀ k n, 0 ≤ a.counts k n) :
    ∃ beta eta, (multM mu s).1.params = some (beta, eta) ∧ (∀ k c, 0 ≤ eta k c) ∧
      (1 < mu → ∀ k c, 0 < eta k c) ∧
      ∀ k, (0 < topicCount (since h) k ∨ (1 < mu ∧ 0 < C) →
          ∑ c, eta k c = 1 ∧
          (∀ c, eta k c = (classCount (since h) k c + (mu - 1)) / (topicCount (since h) k + C * (mu - 1))) ∧
          ∀ p : Vec C ℝ, (∀ c, 0 ≤ p c) → ∑ c, p c = 1 →
            (∀ c, 0 < classCount (since h) k c + (mu - 1) → 0 < p c) →
            ∑ c, (classCount (since h) k c + (mu - 1)) * Real.log (p c) ≤
              ∑ c, (classCount (since h) k c + (mu - 1)) * Real.log (eta k c)) ∧
        (topicCount (since h) k = 0 → mu = 1 → ∀ c, eta k c = 0) := by
  have hl := (multHistory_is hs).1
  have he : (fun k c => classCount (since h) k c + mu - 1) =
      fun k c => classCount (since h) k c + (mu - 1) := by funext k c; ring
  have h0 := (mult_step hs hd).1
  rw [he] at h0
  have hx : ∀ k c, 0 ≤ classCount (since h) k c + (mu - 1) := fun k c =>
    add_nonneg (classCount_nonneg hpos k c) (by linarith)
  have hsum : ∀ k, ∑ c, (classCount (since h) k c + (mu - 1)) =
      topicCount (since h) k + C * (mu - 1) := by
    intro k
    rw [Finset.sum_add_distrib, sum_classCount hl, Finset.sum_const, Finset.card_univ, Fintype.card_fin,
      nsmul_eq_mul]
  have htop : ∀ k, 0 ≤ topicCount (since h) k := fun k =>
    Finset.sum_nonneg fun n _ => wordCount_nonneg hpos k n
  refine ⟨_, _, h0, (C27_nonneg _ hx).1, ?_, ?_⟩
  · intro hmu1 k c
    have hp : 0 < ∑ c, (classCount (since h) k c + (mu - 1)) :=
      Finset.sum_pos (fun c _ => add_pos_of_nonneg_of_pos (classCount_nonneg hpos k c) (by linarith))
        ⟨c, mem_univ c⟩
    rw [((normalizeRows_spec hx k).1 hp).2.1]
    exact div_pos (add_pos_of_nonneg_of_pos (classCount_nonneg hpos k c) (by linarith)) hp
  · intro k
    constructor
    · intro hc
      have hp : 0 < ∑ c, (classCount (since h) k c + (mu - 1)) := by
        rw [hsum]
        rcases hc with hc | ⟨h1, h2⟩
        · have : 0 ≤ (C : ℝ) * (mu - 1) := mul_nonneg (Nat.cast_nonneg _) (by linarith)
          linarith
        · have : 0 < (C : ℝ) * (mu - 1) := mul_pos (Nat.cast_pos.2 h2) (by linarith)
          linarith [htop k]
      obtain ⟨h1, h2, h3⟩ := (normalizeRows_spec hx k).1 hp
      refine ⟨h1, ?_, h3⟩
      intro c
      rw [h2, hsum]
    · intro hz hm c
      refine (normalizeRows_spec hx k).2 ?_ c
      rw [hsum, hz, hm]; ring

theorem sumLog_some (l : List ℝ) : sumLog (l.map some) = some l.sum := by
  have : ∀ (l : List ℝ) (a : ℝ), (l.map some).foldl
      (fun (acc : Option ℝ) v => acc.bind fun a => v.map fun b => a + b) (some a) = some (a + l.sum) := by
    intro l
    induction l with
    | nil => simp
    | cons b l ih =>
      intro a
      simp only [List.map_cons, List.foldl_cons, Option.bind_some, Option.map_some, ih, List.sum_cons]
      rw [add_assoc]
  rw [sumLog, this, zero_add]

/-- **C49**, events.  The one event of `m_step` reports the sum of `E_q[log p(y | z, eta)]` of the documents
since the last `m_step`, each with the `eta` the model had when the document was given. -/
theorem C49_event {mu : ℝ} {h : List (Call (Sample K V C) Unit)} {s : MultState K V C}
    (hs : multHistory mu h = some s) (hd : AnyDoc h) {label : Sample K V C → Fin C}
    (hl : ∀ a ∈ since h, a.cls = label a) (hpos : ∀ a ∈ since h, ∀ k, 0 < a.eta k (label a)) :
    (multM mu s).1.event = some (some ((since h).map fun a =>
      ∑ k, (∑ n, a.counts k n) * Real.log (a.eta k (label a))).sum) := by
  rw [(mult_step hs hd).2]
  have : (since h).map labelLog = ((since h).map fun a =>
      ∑ k, (∑ n, a.counts k n) * Real.log (a.eta k (label a))).map some := by
    rw [List.map_map]
    refine List.map_congr_left fun a ha => ?_
    have hcol : colAt a.eta a.cls = some fun k => a.eta k (label a) := by
      rw [colAt, dif_pos (by rw [hl a ha]; exact ⟨by omega, by have := (label a).2; omega⟩)]
      simp only [hl a ha]
      rfl
    simp only [labelLog, hcol, Option.bind_some, expectedLog, mapOpt_logc (hpos a ha), Option.map_some,
      Function.comp_apply]
  rw [this, sumLog_some]

/-- **C49**: after any history of calls of `MultinomialSupervisedMStep` with a document since the last `m_step`, `m_step`
assigns the frequencies of the words in each topic and of the classes of the words of each topic, the latter smoothed. -/
theorem C49_multinomial {mu : ℝ} (hmu : 1 ≤ mu) {h : List (Call (Mat K C ℝ × Given K V) Unit)} {s : MultState K V C}
    (hs : mHistory mu h = some s) (hne : since h ≠ []) (hphi : ∀ d ∈ since h, ∀ k n, 0 ≤ d.2.2.phi k n) :
    ∃ beta eta, (multM mu s).1.params = some (beta, eta) ∧ ∀ k (total : ℝ),
      total = (∑ n, ((since h).map fun d => d.2.2.phi k n * (d.2.1.words n : ℝ)).sum) → 0 < total →
      (∀ n, beta k n = ((since h).map fun d => d.2.2.phi k n * (d.2.1.words n : ℝ)).sum / total) ∧
      ∀ c : Fin C, eta k c = ((((since h).filter fun d => decide (d.2.1.cls = (c : ℤ))).map fun d =>
        ∑ n, d.2.2.phi k n * (d.2.1.words n : ℝ)).sum + (mu - 1)) / (total + C * (mu - 1)) := by
  have hs' : multHistory mu (h.map (Call.map fun a => multSample a.1 a.2)) = some s := by
    rw [← multinomial_history]
    exact hs
  have hsince := since_map (fun a : Mat K C ℝ × Given K V => multSample a.1 a.2) h
  have hany : AnyDoc (h.map (Call.map fun a : Mat K C ℝ × Given K V => multSample a.1 a.2)) :=
    anyDoc_of_since (by rw [hsince]; simpa using hne)
  have hpos : ∀ a ∈ since (h.map (Call.map fun a : Mat K C ℝ × Given K V => multSample a.1 a.2)), ∀ k n,
      0 ≤ a.counts k n := by
    rw [hsince]
    intro a ha k n
    obtain ⟨d, hd, rfl⟩ := List.mem_map.1 ha
    exact mul_nonneg (hphi d hd k n) (Nat.cast_nonneg _)
  obtain ⟨beta, eta, h1, _, h2⟩ := C49_beta hs' hany hpos
  obtain ⟨beta', eta', h3, _, _, h4⟩ := C49_eta hmu hs' hany hpos
  rw [h1] at h3
  obtain ⟨rfl, rfl⟩ := Prod.mk.injEq .. ▸ Option.some_injective _ h3
  refine ⟨_, _, h1, fun k total ht h0 => ?_⟩
  have hw : ∀ n, wordCount (since (h.map (Call.map fun a : Mat K C ℝ × Given K V => multSample a.1 a.2))) k n =
      ((since h).map fun d => d.2.2.phi k n * (d.2.1.words n : ℝ)).sum := fun n => by
    rw [wordCount, hsince, List.map_map]
    rfl
  have htot : topicCount (since (h.map (Call.map fun a : Mat K C ℝ × Given K V => multSample a.1 a.2))) k = total := by
    rw [ht, topicCount]
    exact Finset.sum_congr rfl fun n _ => hw n
  refine ⟨fun n => ?_, fun c => ?_⟩
  · rw [((h2 k).1 (htot ▸ h0)).2.1, htot, hw]
  · rw [((h4 k).1 (.inl (htot ▸ h0))).2.1, htot, classCount, hsince, List.filter_map, List.map_map]
    rfl

/-- **C49**: after any history of calls of `CorrespondenceSupervisedMStep` with a document since the last `m_step`, `m_step`
assigns the frequencies of the words in each topic and of the classes of the words of each topic, the latter
smoothed; a word counts as much as it is expected to have drawn the class. -/
theorem C49_correspondence {mu : ℝ} (hmu : 1 ≤ mu) {h : List (Call (Mat K C ℝ × Given K V × Vec V ℝ) Unit)} {s : MultState K V C}
    (hs : cHistory mu h = some s) (hne : since h ≠ []) (hphi : ∀ d ∈ since h, ∀ k n, 0 ≤ d.2.1.2.phi k n)
    (htau : ∀ d ∈ since h, ∀ n, 0 ≤ d.2.2 n) :
    ∃ beta eta, (multM mu s).1.params = some (beta, eta) ∧ ∀ k (total : ℝ),
      total = (∑ n, ((since h).map fun d => d.2.1.2.phi k n * ((d.2.1.1.words n : ℝ) * d.2.2 n)).sum) → 0 < total →
      (∀ n, beta k n = ((since h).map fun d => d.2.1.2.phi k n * ((d.2.1.1.words n : ℝ) * d.2.2 n)).sum / total) ∧
      ∀ c : Fin C, eta k c = ((((since h).filter fun d => decide (d.2.1.1.cls = (c : ℤ))).map fun d =>
        ∑ n, d.2.1.2.phi k n * ((d.2.1.1.words n : ℝ) * d.2.2 n)).sum + (mu - 1)) / (total + C * (mu - 1)) := by
  have hs' : multHistory mu (h.map (Call.map fun a => corrSample a.1 a.2.1 a.2.2)) = some s := by
    rw [← correspondence_history]
    exact hs
  have hsince := since_map (fun a : Mat K C ℝ × Given K V × Vec V ℝ => corrSample a.1 a.2.1 a.2.2) h
  have hany : AnyDoc (h.map (Call.map fun a : Mat K C ℝ × Given K V × Vec V ℝ => corrSample a.1 a.2.1 a.2.2)) :=
    anyDoc_of_since (by rw [hsince]; simpa using hne)
  have hpos : ∀ a ∈ since (h.map (Call.map fun a : Mat K C ℝ × Given K V × Vec V ℝ => corrSample a.1 a.2.1 a.2.2)), ∀ k n,
      0 ≤ a.counts k n := by
    rw [hsince]
    intro a ha k n
    obtain ⟨d, hd, rfl⟩ := List.mem_map.1 ha
    exact mul_nonneg (hphi d hd k n) (mul_nonneg (Nat.cast_nonneg _) (htau d hd n))
  obtain ⟨beta, eta, h1, _, h2⟩ := C49_beta hs' hany hpos
  obtain ⟨beta', eta', h3, _, _, h4⟩ := C49_eta hmu hs' hany hpos
  rw [h1] at h3
  obtain ⟨rfl, rfl⟩ := Prod.mk.injEq .. ▸ Option.some_injective _ h3
  refine ⟨_, _, h1, fun k total ht h0 => ?_⟩
  have hw : ∀ n, wordCount (since (h.map (Call.map fun a : Mat K C ℝ × Given K V × Vec V ℝ => corrSample a.1 a.2.1 a.2.2))) k n =
      ((since h).map fun d => d.2.1.2.phi k n * ((d.2.1.1.words n : ℝ) * d.2.2 n)).sum := fun n => by
    rw [wordCount, hsince, List.map_map]
    rfl
  have htot : topicCount (since (h.map (Call.map fun a : Mat K C ℝ × Given K V × Vec V ℝ => corrSample a.1 a.2.1 a.2.2))) k = total := by
    rw [ht, topicCount]
    exact Finset.sum_congr rfl fun n _ => hw n
  refine ⟨fun n => ?_, fun c => ?_⟩
  · rw [((h2 k).1 (htot ▸ h0)).2.1, htot, hw]
  · rw [((h4 k).1 (.inl (htot ▸ h0))).2.1, htot, classCount, hsince, List.filter_map, List.map_map]
    rfl

/-- **C47** (partial: at least one document since the last `m_step`), multinomial and correspondence
steps: what `m_step` computes and reports depends only on those documents. -/
theorem C47_multinomial_partial {mu : ℝ} {h h' : List (Call (Sample K V C) Unit)}
    {s t : MultState K V C} (hs : multHistory mu h = some s) (ht : multHistory mu h' = some t)
    (he : since h = since h') (hne : since h ≠ []) : (multM mu s).1 = (multM mu t).1 := by
  have any : ∀ h : List (Call (Sample K V C) Unit), since h ≠ [] → AnyDoc h := by
    intro h
    induction h using List.reverseRecOn with
    | nil => intro h0; exact absurd rfl h0
    | append_singleton h c ih =>
      intro h0
      cases c with
      | doc a => exact ⟨a, by simp⟩
      | step b => exact absurd (since_step h b) h0
  have h1 := mult_step hs (any h hne)
  have h2 := mult_step ht (any h' (he ▸ hne))
  rw [← he] at h2
  have : ∀ o o' : MultOut K V C, o.params = o'.params → o.event = o'.event → o = o' := by
    rintro ⟨a, b⟩ ⟨c, d⟩ h1 h2
    simp only at h1 h2
    rw [h1, h2]
  exact this _ _ (h1.1.trans h2.1.symm) (h1.2.trans h2.2.symm)

/-- Without documents the result depends on earlier epochs: in a fresh step the matrices of the model lose
their rows and the value reported is that of uninitialised memory; after an earlier epoch all topics are
zero rows. -/
theorem C47_multinomial_no_documents {mu : ℝ} (a : Sample K V C) (ha : 0 ≤ a.cls ∧ a.cls < (C : ℤ)) :
    ∃ s t, multHistory mu ([] : List (Call (Sample K V C) Unit)) = some s ∧
      multHistory mu [.doc a, .step ()] = some t ∧
      (multM mu s).1 = ⟨none, none⟩ ∧
      ∃ eta, (multM mu t).1.params = some (fun _ _ => 0, eta) ∧ (multM mu t).1.event = some (some 0) := by
  obtain ⟨s1, h1⟩ := (multAdd_defined a MultState.init).2 ha
  have ht : multHistory mu [.doc a, .step ()] = some (multM mu s1).2 := by
    simp [multHistory, history, h1]
  refine ⟨_, _, rfl, ht, rfl, ?_⟩
  obtain ⟨h2, h3⟩ := mult_step ht ⟨a, by simp⟩
  refine ⟨normalizeRows fun k c => classCount ([] : List (Sample K V C)) k c + mu - 1, ?_, ?_⟩
  · refine h2.trans ?_
    congr 2
    funext k n
    rw [normalizeRows_apply]
    simp [since, wordCount]
  · rw [h3]
    simp [since, sumLog]

/-- The hypotheses of C49 can be met: two documents of the two classes, after another epoch. -/
noncomputable def multDemo : List (Call (Sample 2 2 2) Unit) :=
  [.doc ⟨fun _ _ => 1 / 2, 1, fun _ _ => 1⟩, .step (), .doc ⟨fun _ _ => 1 / 2, 0, ![![1, 2], ![0, 0]]⟩,
    .doc ⟨fun _ _ => 1 / 2, 1, ![![1, 0], ![0, 3]]⟩]

example : ∃ s, multHistory 2 multDemo = some s ∧ AnyDoc multDemo ∧
    (∀ a ∈ since multDemo, ∀ k n, 0 ≤ a.counts k n) ∧ (∀ k, 0 < topicCount (since multDemo) k) ∧
    (∀ a ∈ since multDemo, a.cls = (if a.cls = 0 then (0 : Fin 2) else 1 : Fin 2)) ∧
    ∀ a ∈ since multDemo, ∀ k, 0 < a.eta k (if a.cls = 0 then (0 : Fin 2) else 1) := by
  have hdef : ∀ (a : Sample 2 2 2) s, 0 ≤ a.cls ∧ a.cls < ((2 : ℕ) : ℤ) →
      ∃ s', multAdd a.eta a.cls a.counts s = some s' := fun a s h => (multAdd_defined a s).2 h
  obtain ⟨s1, h1⟩ := hdef ⟨fun _ _ => 1 / 2, 1, fun _ _ => 1⟩ MultState.init (by norm_num)
  obtain ⟨s2, h2⟩ := hdef ⟨fun _ _ => 1 / 2, 0, ![![1, 2], ![0, 0]]⟩ (multM 2 s1).2 (by norm_num)
  obtain ⟨s3, h3⟩ := hdef ⟨fun _ _ => 1 / 2, 1, ![![1, 0], ![0, 3]]⟩ s2 (by norm_num)
  have hsince : since multDemo = [⟨fun _ _ => 1 / 2, 0, ![![1, 2], ![0, 0]]⟩,
      ⟨fun _ _ => 1 / 2, 1, ![![1, 0], ![0, 3]]⟩] := by simp [since, multDemo]
  refine ⟨s3, ?_, ⟨_, by simp [multDemo]; exact .inl rfl⟩, ?_, ?_, ?_, ?_⟩
  · simp only [multHistory, history, multDemo, List.foldlM_cons, List.foldlM_nil]
    simp only at h1 h2 h3
    simp only [h1, h2, h3, bind, Option.bind, pure]
  all_goals rw [hsince]
  · intro a ha k n
    simp only [List.mem_cons, List.not_mem_nil, or_false] at ha
    rcases ha with rfl | rfl <;> fin_cases k <;> fin_cases n <;> norm_num
  · intro k
    fin_cases k <;> simp [topicCount, wordCount] <;> norm_num
  · intro a ha
    simp only [List.mem_cons, List.not_mem_nil, or_false] at ha
    rcases ha with rfl | rfl <;> norm_num
  · intro a ha k
    simp only [List.mem_cons, List.not_mem_nil, or_false] at ha
    rcases ha with rfl | rfl <;> norm_num

/-- Two documents of different classes after another epoch. -/
noncomputable def countsDemo : List (Call (Mat 2 2 ℝ × Given 2 2) Unit) :=
  [.doc (fun _ _ => 1 / 2, (⟨![1, 1], 1⟩, ⟨fun _ _ => 1 / 2, fun _ => 1⟩)), .step (),
    .doc (fun _ _ => 1 / 2, (⟨![1, 2], 0⟩, ⟨fun _ _ => 1 / 2, fun _ => 1⟩)),
    .doc (fun _ _ => 1 / 2, (⟨![3, 0], 1⟩, ⟨fun _ _ => 1 / 2, fun _ => 1⟩))]

example : (∃ s, mHistory 2 countsDemo = some s) ∧ since countsDemo ≠ [] ∧
    (∀ d ∈ since countsDemo, ∀ k n, 0 ≤ d.2.2.phi k n) ∧
    ∀ k, 0 < ∑ n, ((since countsDemo).map fun d => d.2.2.phi k n * (d.2.1.words n : ℝ)).sum := by
  have hsince : since countsDemo = [(fun _ _ => 1 / 2, (⟨![1, 2], 0⟩, ⟨fun _ _ => 1 / 2, fun _ => 1⟩)),
    (fun _ _ => 1 / 2, (⟨![3, 0], 1⟩, ⟨fun _ _ => 1 / 2, fun _ => 1⟩))] := rfl
  refine ⟨?_, ?_, ?_, ?_⟩
  · rw [mHistory, multinomial_history]
    obtain ⟨s1, h1⟩ := (multAdd_defined (multSample (fun _ _ => 1 / 2 : Mat 2 2 ℝ)
      (⟨![1, 1], 1⟩, ⟨fun _ _ => 1 / 2, fun _ => 1⟩)) MultState.init).2 ⟨by simp [multSample], by simp [multSample]⟩
    obtain ⟨s2, h2⟩ := (multAdd_defined (multSample (fun _ _ => 1 / 2 : Mat 2 2 ℝ)
      (⟨![1, 2], 0⟩, ⟨fun _ _ => 1 / 2, fun _ => 1⟩)) (multM 2 s1).2).2 ⟨by simp [multSample], by simp [multSample]⟩
    obtain ⟨s3, h3⟩ := (multAdd_defined (multSample (fun _ _ => 1 / 2 : Mat 2 2 ℝ)
      (⟨![3, 0], 1⟩, ⟨fun _ _ => 1 / 2, fun _ => 1⟩)) s2).2 ⟨by simp [multSample], by simp [multSample]⟩
    refine ⟨s3, ?_⟩
    simp only [countsDemo, multHistory, history, List.map_cons, List.map_nil, Call.map, List.foldlM_cons, List.foldlM_nil,
      h1, h2, h3, bind, Option.bind, pure]
  · rw [hsince]
    simp
  · rw [hsince]
    intro d hd k n
    simp only [List.mem_cons, List.not_mem_nil, or_false] at hd
    rcases hd with rfl | rfl <;> norm_num
  · intro k
    rw [hsince]
    norm_num [Fin.sum_univ_two]

end Verif.MStep
