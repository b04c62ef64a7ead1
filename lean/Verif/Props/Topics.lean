import Verif.Lemmas.MStep
import Verif.Lemmas.Gibbs
import Mathlib.Tactic.NormNum
import Mathlib.Data.Fin.VecNotation

/-! Properties C46, C48 and (for the unsupervised step) C47. -/
namespace Verif.MStep

open MathUtils EStep Optim Finset

variable {K V C : ℕ}

/-- A history of calls of `UnsupervisedMStep`. -/
noncomputable def uHistory (h : List (Call (Given K V) Unit)) : Option (Buf K V) :=
  history (fun d b => some (uDoc d.1.words d.2.phi b)) (fun _ b => some (uM b).2) none h

/-- The sufficient statistics are those of the documents since the last `m_step`. -/
theorem uHistory_buf {h : List (Call (Given K V) Unit)} {b : Buf K V} (hb : uHistory h = some b) :
    BufIs b (since h) := by
  refine history_induct (s0 := (none : Buf K V)) BufIs (by rfl) ?_ ?_ h b hb
  · intro d s s' l hI e
    cases e
    exact hI.doc d
  · intro _ s s' l _ e
    cases e
    exact BufIs.clear

/-- No call of the unsupervised step is undefined. -/
theorem uHistory_defined (h : List (Call (Given K V) Unit)) : ∃ b, uHistory h = some b := by
  induction h using List.reverseRecOn with
  | nil => exact ⟨_, rfl⟩
  | append_singleton h c ih =>
    obtain ⟨b, hb⟩ := ih
    rw [uHistory] at hb ⊢
    rw [history_snoc, hb]
    cases c <;> exact ⟨_, rfl⟩

theorem betaOf_isReal {ds : List (Given K V)} (hm : ∀ k, topicMass ds k ≠ 0) :
    (betaOf ds).IsReal fun k n => expectedCounts ds k n / topicMass ds k := by
  simp only [Beta.IsReal, betaOf, quot]
  congr 1
  funext k n
  rw [if_pos (hm k)]

theorem rowStochastic_normalised {ds : List (Given K V)} (hphi : ∀ d ∈ ds, ∀ k n, 0 ≤ d.2.phi k n)
    (hm : ∀ k, 0 < topicMass ds k) :
    RowStochastic fun k n => expectedCounts ds k n / topicMass ds k := by
  refine ⟨fun k n => div_nonneg (expectedCounts_nonneg hphi k n) (hm k).le, fun k => ?_⟩
  rw [← Finset.sum_div]
  exact div_self (hm k).ne'

theorem wordLikelihood_eq (ds : List (Given K V)) (beta : Mat K V ℝ) :
    wordLikelihood ds beta = ∑ k, ∑ n, expectedCounts ds k n * Real.log (beta k n) := by
  induction ds with
  | nil => simp [wordLikelihood]
  | cons d ds ih =>
    have e : wordLikelihood (d :: ds) beta =
        (∑ k, ∑ n, (d.1.words n : ℝ) * d.2.phi k n * Real.log (beta k n)) + wordLikelihood ds beta := by
      simp [wordLikelihood]
    rw [e, ih, ← Finset.sum_add_distrib]
    refine Finset.sum_congr rfl fun k _ => ?_
    rw [← Finset.sum_add_distrib]
    refine Finset.sum_congr rfl fun n _ => ?_
    simp only [expectedCounts, List.map_cons, List.sum_cons]
    ring

/-- For weights `w` with a positive sum, the normalised weights maximise `∑ w log`. -/
theorem weighted_log_max {n : ℕ} {w p : Vec n ℝ} (hw : ∀ i, 0 ≤ w i) (hZ : 0 < ∑ i, w i)
    (hp : ∀ i, 0 ≤ p i) (hp1 : ∑ i, p i = 1) (hs : ∀ i, 0 < w i → 0 < p i) :
    ∑ i, w i * Real.log (p i) ≤ ∑ i, w i * Real.log (w i / ∑ j, w j) := by
  set Z := ∑ j, w j with hZdef
  have hq1 : ∑ i, w i / Z = 1 := by rw [← Finset.sum_div]; exact div_self hZ.ne'
  have h := gibbs (q := fun i => w i / Z) (w := p) (fun i => div_nonneg (hw i) hZ.le) hq1 hp (by
    intro i hi
    have : ¬ 0 < w i := fun h0 => by have := hs i h0; linarith
    rw [le_antisymm (not_lt.1 this) (hw i), zero_div])
  rw [hp1, Real.log_one] at h
  have h2 : ∑ i, w i * (Real.log (p i) - Real.log (w i / Z)) ≤ 0 := by
    have : ∑ i, w i * (Real.log (p i) - Real.log (w i / Z)) =
        Z * ∑ i, w i / Z * (Real.log (p i) - Real.log (w i / Z)) := by
      rw [Finset.mul_sum]
      refine Finset.sum_congr rfl fun i _ => ?_
      field_simp
    rw [this]
    exact mul_nonpos_of_nonneg_of_nonpos hZ.le h
  simp only [mul_sub, Finset.sum_sub_distrib] at h2
  linarith

/-- The normalised expected counts maximise the expected complete log likelihood among the row-stochastic
matrices.  A matrix that gives probability zero to a word expected from a topic has log likelihood `-∞`
and is no competitor. -/
theorem counts_maximise {ds : List (Given K V)} (hphi : ∀ d ∈ ds, ∀ k n, 0 ≤ d.2.phi k n)
    (hm : ∀ k, 0 < topicMass ds k) {other : Mat K V ℝ} (ho : RowStochastic other)
    (hs : ∀ k n, 0 < expectedCounts ds k n → 0 < other k n) :
    wordLikelihood ds other ≤ wordLikelihood ds fun k n => expectedCounts ds k n / topicMass ds k := by
  rw [wordLikelihood_eq, wordLikelihood_eq]
  refine Finset.sum_le_sum fun k _ => ?_
  exact weighted_log_max (expectedCounts_nonneg hphi k) (hm k) (ho.1 k) (ho.2 k) (hs k)

/-- **C46**.  After any history of calls, `m_step` assigns to `beta` the normalised expected counts of
the documents given since the last `m_step`: finite numbers, row-stochastic, the maximiser of the
expected complete log likelihood, and the same for any order of the documents. -/
theorem C46_topics {h : List (Call (Given K V) Unit)} {b : Buf K V} (hb : uHistory h = some b)
    (hne : since h ≠ []) (hphi : ∀ d ∈ since h, ∀ k n, 0 ≤ d.2.phi k n)
    (hm : ∀ k, 0 < topicMass (since h) k) :
    ∃ beta : Mat K V ℝ, (uM b).1.IsReal beta ∧
      (∀ k n, beta k n = expectedCounts (since h) k n / topicMass (since h) k) ∧
      RowStochastic beta ∧
      (∀ other, RowStochastic other → (∀ k n, 0 < expectedCounts (since h) k n → 0 < other k n) →
        wordLikelihood (since h) other ≤ wordLikelihood (since h) beta) ∧
      ∀ h' b', uHistory h' = some b' → (since h').Perm (since h) → (uM b').1 = (uM b).1 := by
  have hB := uHistory_buf hb
  refine ⟨fun k n => expectedCounts (since h) k n / topicMass (since h) k, ?_, fun _ _ => rfl,
    rowStochastic_normalised hphi hm, fun other ho hs => counts_maximise hphi hm ho hs, ?_⟩
  · rw [uM, hB.beta hne]
    exact betaOf_isReal fun k => (hm k).ne'
  · intro h' b' hb' hp
    have hne' : since h' ≠ [] := fun e => by rw [e] at hp; exact hne hp.symm.eq_nil
    rw [uM, uM, hB.beta hne, (uHistory_buf hb').beta hne', betaOf, betaOf]
    simp only [topicMass, expectedCounts_perm hp]

/-- Two documents over two words and two topics: the hypotheses of C46 can be met, after an epoch with
other documents. -/
noncomputable def topicsDemo : List (Given 2 2) :=
  [(⟨![1, 2], 0⟩, ⟨![![1 / 2, 1], ![1 / 2, 0]], ![1, 1]⟩), (⟨![3, 0], 1⟩, ⟨![![0, 1], ![1, 0]], ![1, 1]⟩)]

noncomputable def topicsDemoHistory : List (Call (Given 2 2) Unit) :=
  [.doc (⟨![5, 5], 0⟩, ⟨![![1, 1], ![0, 0]], ![1, 1]⟩), .step ()] ++ topicsDemo.map .doc

theorem topicsDemo_nonneg : ∀ d ∈ topicsDemo, ∀ k n, 0 ≤ d.2.phi k n := by
  intro d hd k n
  simp only [topicsDemo, List.mem_cons, List.not_mem_nil, or_false] at hd
  rcases hd with rfl | rfl <;> fin_cases k <;> fin_cases n <;> norm_num

theorem topicsDemo_mass : ∀ k, 0 < topicMass topicsDemo k := by
  intro k
  fin_cases k <;> simp [topicMass, expectedCounts, topicsDemo, Fin.sum_univ_two] <;> norm_num

theorem topicsDemo_since : since topicsDemoHistory = topicsDemo := by
  simp [since, topicsDemoHistory, topicsDemo]

example : ∃ b, uHistory topicsDemoHistory = some b ∧ since topicsDemoHistory ≠ [] ∧
    (∀ d ∈ since topicsDemoHistory, ∀ k n, 0 ≤ d.2.phi k n) ∧
    ∀ k, 0 < topicMass (since topicsDemoHistory) k := by
  obtain ⟨b, hb⟩ := uHistory_defined topicsDemoHistory
  rw [topicsDemo_since]
  exact ⟨b, hb, by simp [topicsDemo], topicsDemo_nonneg, topicsDemo_mass⟩

/-- **C47** (partial: at least one document since the last `m_step`), unsupervised step: what `m_step`
computes is a function of those documents, whatever happened before.  Missing: without documents it
depends on whether there ever was one (`C47_no_documents`). -/
theorem C47_unsupervised_partial {h h' : List (Call (Given K V) Unit)} {b b' : Buf K V}
    (hb : uHistory h = some b) (hb' : uHistory h' = some b') (hs : since h = since h')
    (hne : since h ≠ []) : (uM b).1 = (uM b').1 := by
  rw [uM, uM, (uHistory_buf hb).beta hne, (uHistory_buf hb').beta (hs ▸ hne), hs]

/-- Without documents the result depends on earlier epochs: a fresh step makes `beta` a matrix without
rows, a step that has seen a document before fills it with NaN. -/
theorem C47_no_documents (d : Given K V) :
    ∃ b b', uHistory ([] : List (Call (Given K V) Unit)) = some b ∧
      uHistory [.doc d, .step ()] = some b' ∧ since ([] : List (Call (Given K V) Unit)) = [] ∧
      since [Call.doc d, Call.step ()] = [] ∧
      (uM b).1 = .noRows ∧ (uM b').1 = .matrix fun _ _ => .nan := by
  refine ⟨_, _, rfl, rfl, rfl, rfl, rfl, ?_⟩
  simp [uM, uBeta, uDoc, Buf.add, Buf.clear, quot]

/-- **C48** (partial: when every topic received words).  Whatever the history, after an epoch in which
every topic has expected words `beta` is a row-stochastic matrix of the shape of the model.  Missing: the
other epochs, where it is not (`C48_no_documents`, `C48_topic_without_words`). -/
theorem C48_valid_partial {h : List (Call (Given K V) Unit)} {b : Buf K V} (hb : uHistory h = some b)
    (hne : since h ≠ []) (hphi : ∀ d ∈ since h, ∀ k n, 0 ≤ d.2.phi k n)
    (hm : ∀ k, 0 < topicMass (since h) k) :
    ∃ beta : Mat K V ℝ, (uM b).1.IsReal beta ∧ RowStochastic beta := by
  obtain ⟨beta, h1, _, h3, _⟩ := C46_topics hb hne hphi hm
  exact ⟨beta, h1, h3⟩

/-- **C48 is false** for an epoch without documents, after any history: `beta` has no rows, or every
entry of it is NaN. -/
theorem C48_no_documents {h : List (Call (Given K V) Unit)} {b : Buf K V} (hb : uHistory h = some b)
    (he : since h = []) : (uM b).1 = .noRows ∨ (uM b).1 = .matrix fun _ _ => .nan := by
  have hB := uHistory_buf hb
  rw [he] at hB
  cases b with
  | none => exact .inl rfl
  | some b =>
    right
    have hb' : b = expectedCounts [] := hB
    simp [uM, uBeta, hb', quot]

/-- **C48 is false** when a topic received no word: its row is NaN, and so it is when all documents of
the epoch are empty. -/
theorem C48_topic_without_words {h : List (Call (Given K V) Unit)} {b : Buf K V}
    (hb : uHistory h = some b) (hne : since h ≠ []) {k : Fin K}
    (hphi : ∀ d ∈ since h, ∀ n, (d.1.words n : ℝ) * d.2.phi k n = 0) :
    ∃ m, (uM b).1 = .matrix m ∧ ∀ n, m k n = .nan := by
  have hB := uHistory_buf hb
  refine ⟨_, (congrArg Prod.fst rfl).trans (hB.beta hne), fun n => ?_⟩
  have h0 : ∀ n, expectedCounts (since h) k n = 0 := by
    intro n
    refine List.sum_eq_zero ?_
    intro x hx
    obtain ⟨d, hd, rfl⟩ := List.mem_map.1 hx
    exact hphi d hd n
  simp [topicMass, h0, quot]

/-- An epoch of one empty document meets the hypotheses of `C48_topic_without_words`, for each topic. -/
example : ∃ (h : List (Call (Given 2 2) Unit)) (b : Buf 2 2), uHistory h = some b ∧ since h ≠ [] ∧
    ∀ d ∈ since h, ∀ n, (d.1.words n : ℝ) * d.2.phi 0 n = 0 := by
  refine ⟨[.doc (⟨![0, 0], 0⟩, ⟨fun _ _ => 1 / 2, fun _ => 1⟩)], _, rfl, by simp [since], ?_⟩
  intro d hd n
  simp only [since, List.foldl_cons, List.foldl_nil, List.nil_append, List.mem_singleton] at hd
  subst hd
  fin_cases n <;> simp

end Verif.MStep
