import Verif.Props.ClassBound
import Verif.Props.MultinomialM

/-! Property C102: the M steps maximise the bound that the E steps compute. -/
namespace Verif.MStep

open MathUtils EStep Finset

variable {K V C : ℕ}

/-! ### Specification -/

/-- The bound of the corpus: the documents `ds`, whose words are `words d`, with their variational parameters. -/
noncomputable def corpusBound (words : Given K V → List (Fin V)) (ds : List (Given K V)) (m : Model K V C) : ℝ :=
  (ds.map fun d => bound (words d) m d.2).sum

/-- The same for the multinomial model, with the log-density of the class parameters; `prior` are the frequencies of the
classes. -/
noncomputable def corpusVote (mu : ℝ) (prior : Vec C ℝ) (words : Given K V → List (Fin V)) (label : Given K V → Fin C)
    (ds : List (Given K V)) (m : Model K V C) : ℝ :=
  (ds.map fun d => voteBound (words d) (label d) m 1 (prior (label d)) d.2).sum + ∑ k, logDirichlet mu (m.eta k)

/-- The same for the correspondence model. -/
noncomputable def corpusChoice (mu : ℝ) (words : Given K V → List (Fin V)) (label : Given K V → Fin C)
    (ds : List (Given K V × Vec V ℝ)) (m : Model K V C) : ℝ :=
  (ds.map fun d => choiceBound (words d.1) (label d.1) m (d.1.2, d.2)).sum + ∑ k, logDirichlet mu (m.eta k)

/-! ### How the bound depends on the topics -/

theorem bound_topics (words : List (Fin V)) (m : Model K V C) (s : VP K V) :
    bound words m s = bound words { m with beta := fun _ _ => 1 } s +
      ∑ k, ∑ n, (countsOf words n : ℝ) * s.phi k n * Real.log (m.beta k n) := by
  have e : (words.map fun n => ∑ k, s.phi k n * Real.log (m.beta k n)).sum =
      ∑ k, ∑ n, (countsOf words n : ℝ) * s.phi k n * Real.log (m.beta k n) := by
    rw [sum_words, Finset.sum_comm]
    refine Finset.sum_congr rfl fun n _ => ?_
    rw [Finset.mul_sum]
    exact Finset.sum_congr rfl fun k _ => by ring
  unfold bound elbo
  rw [e]
  simp only [Real.log_one, mul_zero, Finset.sum_const_zero]
  rw [List.sum_eq_zero (l := words.map fun _ => (0 : ℝ)) (by simp)]
  ring

theorem corpusBound_topics {words : Given K V → List (Fin V)} {ds : List (Given K V)}
    (hw : ∀ d ∈ ds, countsOf (words d) = d.1.words) (m : Model K V C) :
    corpusBound words ds m = corpusBound words ds { m with beta := fun _ _ => 1 } + wordLikelihood ds m.beta := by
  induction ds with
  | nil => simp [corpusBound, wordLikelihood]
  | cons d ds ih =>
    have h1 := ih fun d hd => hw d (List.mem_cons_of_mem _ hd)
    have h2 := bound_topics (words d) m d.2
    rw [hw d List.mem_cons_self] at h2
    simp only [corpusBound, wordLikelihood, List.map_cons, List.sum_cons] at h1 ⊢
    rw [h2, h1]
    ring

/-- A word with expected occurrences in a topic is known to every topic with which the bound is finite. -/
theorem finite_support {words : Given K V → List (Fin V)} {ds : List (Given K V)}
    (hw : ∀ d ∈ ds, countsOf (words d) = d.1.words) {m : Model K V C} (hm : ∀ k n, 0 ≤ m.beta k n)
    (hf : ∀ d ∈ ds, Finite (words d) m d.2) {k : Fin K} {n : Fin V} (h : 0 < expectedCounts ds k n) : 0 < m.beta k n := by
  refine lt_of_le_of_ne (hm k n) fun h0 => h.ne' (List.sum_eq_zero ?_)
  intro x hx
  obtain ⟨d, hd, rfl⟩ := List.mem_map.1 hx
  by_cases hn : n ∈ words d
  · rw [hf d hd n hn k h0.symm, mul_zero]
  · have : countsOf (words d) n = 0 := List.count_eq_zero.2 hn
    rw [← hw d hd, this]
    simp

/-! ### C102 -/

/-- **C102**, unsupervised step: after any history, if every topic has expected words, the topics that `m_step` assigns
maximise the bound of the documents since the last `m_step`, among all topics for which it is a number. -/
theorem C102_unsupervised {h : List (Call (Given K V) Unit)} {b : Buf K V} (hb : uHistory h = some b)
    (hne : since h ≠ []) (hphi : ∀ d ∈ since h, ∀ k n, 0 ≤ d.2.phi k n) (hmass : ∀ k, 0 < topicMass (since h) k)
    {words : Given K V → List (Fin V)} (hw : ∀ d ∈ since h, countsOf (words d) = d.1.words) (m : Model K V C) :
    ∃ beta : Mat K V ℝ, (uM b).1.IsReal beta ∧ RowStochastic beta ∧ ∀ other, RowStochastic other →
      (∀ d ∈ since h, Finite (words d) { m with beta := other } d.2) →
      corpusBound words (since h) { m with beta := other } ≤ corpusBound words (since h) { m with beta := beta } := by
  obtain ⟨beta, h1, _, h3, h4, _⟩ := C46_topics hb hne hphi hmass
  refine ⟨beta, h1, h3, fun other ho hf => ?_⟩
  rw [corpusBound_topics hw { m with beta := other }, corpusBound_topics hw { m with beta := beta }]
  exact add_le_add le_rfl (h4 other ho fun k n hkn => finite_support hw (m := { m with beta := other }) ho.1 hf hkn)

theorem wordCount_log {D : Type} (f : D → Sample K V C) (ds : List D) (beta : Mat K V ℝ) :
    (ds.map fun d => ∑ k, ∑ n, (f d).counts k n * Real.log (beta k n)).sum =
      ∑ k, ∑ n, wordCount (ds.map f) k n * Real.log (beta k n) := by
  induction ds with
  | nil => simp [wordCount]
  | cons a l ih =>
    rw [List.map_cons, List.sum_cons, ih, ← Finset.sum_add_distrib]
    refine Finset.sum_congr rfl fun k _ => ?_
    rw [← Finset.sum_add_distrib]
    refine Finset.sum_congr rfl fun n _ => ?_
    simp only [wordCount, List.map_cons, List.sum_cons]
    ring

theorem classCount_log {D : Type} (f : D → Sample K V C) {label : D → Fin C} {ds : List D}
    (hl : ∀ d ∈ ds, (f d).cls = label d) (eta : Mat K C ℝ) :
    (ds.map fun d => ∑ k, (∑ n, (f d).counts k n) * Real.log (eta k (label d))).sum =
      ∑ k, ∑ c, classCount (ds.map f) k c * Real.log (eta k c) := by
  induction ds with
  | nil => simp [classCount]
  | cons a l ih =>
    rw [List.map_cons, List.sum_cons, ih fun a ha => hl a (List.mem_cons_of_mem _ ha), ← Finset.sum_add_distrib]
    refine Finset.sum_congr rfl fun k _ => ?_
    have h1 : ∀ c : Fin C, classCount ((a :: l).map f) k c =
        (if c = label a then ∑ n, (f a).counts k n else 0) + classCount (l.map f) k c := by
      intro c
      have ha := hl a List.mem_cons_self
      by_cases hc : c = label a
      · have : decide ((f a).cls = (c : ℤ)) = true := by rw [hc, ha]; simp
        simp only [classCount, this, List.filter_cons_of_pos, List.map_cons, List.sum_cons, if_pos hc]
      · have : decide ((f a).cls = (c : ℤ)) = false := by
          rw [ha]
          simp only [decide_eq_false_iff_not, Nat.cast_inj]
          exact fun e => hc (Fin.ext e.symm)
        simp [classCount, this, hc]
    simp only [h1, add_mul, Finset.sum_add_distrib, ite_mul, zero_mul, Finset.sum_ite_eq', mem_univ, if_true]

/-- Normalising the rows maximises, whether or not a row has mass. -/
theorem normalizeRows_max {r c : ℕ} {x p : Mat r c ℝ} (hx : ∀ i j, 0 ≤ x i j) (hp : RowStochastic p)
    (hs : ∀ i j, 0 < x i j → 0 < p i j) :
    ∑ i, ∑ j, x i j * Real.log (p i j) ≤ ∑ i, ∑ j, x i j * Real.log (normalizeRows x i j) := by
  refine Finset.sum_le_sum fun i _ => ?_
  rcases (Finset.sum_nonneg fun j _ => hx i j : 0 ≤ ∑ j, x i j).eq_or_lt with h0 | h0
  · have : ∀ j, x i j = 0 := fun j =>
      (Finset.sum_eq_zero_iff_of_nonneg fun j _ => hx i j).1 h0.symm j (mem_univ j)
    simp [this]
  · exact ((normalizeRows_spec hx i).1 h0).2.2 (p i) (hp.1 i) (hp.2 i) (hs i)

theorem logDirichlet_log (mu : ℝ) (eta : Mat K C ℝ) : ∑ k, logDirichlet mu (eta k) =
    (∑ _k : Fin K, logDirichlet mu fun _ : Fin C => 1) + ∑ k, ∑ c, (mu - 1) * Real.log (eta k c) := by
  simp only [logDirichlet, Finset.sum_add_distrib, Real.log_one, mul_zero, Finset.sum_const_zero, add_zero]

theorem voteBound_split (words : List (Fin V)) (y : Fin C) (m : Model K V C) (p : ℝ) (s : VP K V) :
    voteBound words y m 1 p s = voteBound words y { m with beta := fun _ _ => 1, eta := fun _ _ => 1 } 1 p s +
      (∑ k, ∑ n, s.phi k n * countsOf words n * Real.log (m.beta k n)) +
      ∑ k, (∑ n, s.phi k n * countsOf words n) * Real.log (m.eta k y) := by
  have e : (words.map fun n => ∑ k, s.phi k n * (1 * Real.log (m.eta k y))).sum =
      ∑ k, (∑ n, s.phi k n * countsOf words n) * Real.log (m.eta k y) := by
    rw [sum_words]
    simp only [Finset.mul_sum, Finset.sum_mul]
    rw [Finset.sum_comm]
    exact Finset.sum_congr rfl fun k _ => Finset.sum_congr rfl fun n _ => by ring
  have h1 := bound_topics words m s
  have h2 : ∑ k, ∑ n, (countsOf words n : ℝ) * s.phi k n * Real.log (m.beta k n) =
      ∑ k, ∑ n, s.phi k n * countsOf words n * Real.log (m.beta k n) :=
    Finset.sum_congr rfl fun k _ => Finset.sum_congr rfl fun n _ => by ring
  unfold voteBound voteScore
  rw [e, h1, h2]
  simp only [Real.log_one, mul_zero, Finset.sum_const_zero]
  rw [List.sum_eq_zero (l := words.map fun _ => (0 : ℝ)) (by simp)]
  have h3 : bound words ({ m with beta := fun _ _ => 1, eta := fun _ _ => 1 } : Model K V C) s =
    bound words { m with beta := fun _ _ => 1 } s := rfl
  rw [h3]
  ring

theorem choiceBound_split (words : List (Fin V)) (y : Fin C) (m : Model K V C) (s : VP K V) (tau : Vec V ℝ) :
    choiceBound words y m (s, tau) =
      choiceBound words y { m with beta := fun _ _ => 1, eta := fun _ _ => 1 } (s, tau) +
      (∑ k, ∑ n, (countsOf words n : ℝ) * s.phi k n * Real.log (m.beta k n)) +
      ∑ k, (∑ n, s.phi k n * (countsOf words n * tau n)) * Real.log (m.eta k y) := by
  have e : (words.map fun n => tau n * ∑ k, s.phi k n * Real.log (m.eta k y)).sum =
      ∑ k, (∑ n, s.phi k n * (countsOf words n * tau n)) * Real.log (m.eta k y) := by
    rw [sum_words]
    simp only [Finset.mul_sum, Finset.sum_mul]
    rw [Finset.sum_comm]
    exact Finset.sum_congr rfl fun k _ => Finset.sum_congr rfl fun n _ => by ring
  have h1 := bound_topics words m s
  unfold choiceBound choiceScore
  rw [e, h1]
  simp only [Real.log_one, mul_zero, Finset.sum_const_zero]
  rw [List.sum_eq_zero (l := words.map fun _ => (0 : ℝ)) (by simp)]
  have h3 : bound words ({ m with beta := fun _ _ => 1, eta := fun _ _ => 1 } : Model K V C) s =
    bound words { m with beta := fun _ _ => 1 } s := rfl
  rw [h3]
  ring

theorem corpusVote_split (mu : ℝ) (prior : Vec C ℝ) {words : Given K V → List (Fin V)} {label : Given K V → Fin C}
    {ds : List (Mat K C ℝ × Given K V)} (hw : ∀ d ∈ ds, countsOf (words d.2) = d.2.1.words)
    (hl : ∀ d ∈ ds, d.2.1.cls = label d.2) (m : Model K V C) :
    corpusVote mu prior words label (ds.map Prod.snd) m =
      corpusVote mu prior words label (ds.map Prod.snd) { m with beta := fun _ _ => 1, eta := fun _ _ => 1 } +
      (∑ k, ∑ n, wordCount (ds.map fun a => multSample a.1 a.2) k n * Real.log (m.beta k n)) +
      ∑ k, ∑ c, (classCount (ds.map fun a => multSample a.1 a.2) k c + (mu - 1)) * Real.log (m.eta k c) := by
  have h1 := wordCount_log (fun a : Mat K C ℝ × Given K V => multSample a.1 a.2) ds m.beta
  have h2 := classCount_log (fun a : Mat K C ℝ × Given K V => multSample a.1 a.2) (label := fun d => label d.2) hl m.eta
  have h3 : (ds.map fun d => voteBound (words d.2) (label d.2) m 1 (prior (label d.2)) d.2.2).sum =
      (ds.map fun d => voteBound (words d.2) (label d.2) { m with beta := fun _ _ => 1, eta := fun _ _ => 1 } 1
        (prior (label d.2)) d.2.2).sum +
      (ds.map fun d => ∑ k, ∑ n, (multSample d.1 d.2).counts k n * Real.log (m.beta k n)).sum +
      (ds.map fun d => ∑ k, (∑ n, (multSample d.1 d.2).counts k n) * Real.log (m.eta k (label d.2))).sum := by
    rw [← List.sum_map_add, ← List.sum_map_add]
    refine congrArg List.sum (List.map_congr_left fun d hd => ?_)
    have := voteBound_split (words d.2) (label d.2) m (prior (label d.2)) d.2.2
    rw [hw d hd] at this
    exact this
  simp only [corpusVote, List.map_map, Function.comp_def]
  rw [h3, h1, h2, logDirichlet_log mu m.eta]
  simp only [add_mul, Finset.sum_add_distrib]
  ring

theorem corpusChoice_split (mu : ℝ) {words : Given K V → List (Fin V)} {label : Given K V → Fin C}
    {ds : List (Mat K C ℝ × Given K V × Vec V ℝ)} (hw : ∀ d ∈ ds, countsOf (words d.2.1) = d.2.1.1.words)
    (hl : ∀ d ∈ ds, d.2.1.1.cls = label d.2.1) (m : Model K V C) :
    corpusChoice mu words label (ds.map Prod.snd) m =
      corpusChoice mu words label (ds.map Prod.snd) { m with beta := fun _ _ => 1, eta := fun _ _ => 1 } +
      wordLikelihood (ds.map fun a => a.2.1) m.beta +
      ∑ k, ∑ c, (classCount (ds.map fun a => corrSample a.1 a.2.1 a.2.2) k c + (mu - 1)) * Real.log (m.eta k c) := by
  have h2 := classCount_log (fun a : Mat K C ℝ × Given K V × Vec V ℝ => corrSample a.1 a.2.1 a.2.2)
    (label := fun d => label d.2.1) hl m.eta
  have h3 : (ds.map fun d => choiceBound (words d.2.1) (label d.2.1) m (d.2.1.2, d.2.2)).sum =
      (ds.map fun d => choiceBound (words d.2.1) (label d.2.1) { m with beta := fun _ _ => 1, eta := fun _ _ => 1 }
        (d.2.1.2, d.2.2)).sum +
      (ds.map fun d => ∑ k, ∑ n, (d.2.1.1.words n : ℝ) * d.2.1.2.phi k n * Real.log (m.beta k n)).sum +
      (ds.map fun d => ∑ k, (∑ n, (corrSample d.1 d.2.1 d.2.2).counts k n) * Real.log (m.eta k (label d.2.1))).sum := by
    rw [← List.sum_map_add, ← List.sum_map_add]
    refine congrArg List.sum (List.map_congr_left fun d hd => ?_)
    have := choiceBound_split (words d.2.1) (label d.2.1) m d.2.1.2 d.2.2
    rw [hw d hd] at this
    exact this
  simp only [corpusChoice, wordLikelihood, List.map_map, Function.comp_def]
  rw [h3, h2, logDirichlet_log mu m.eta]
  simp only [add_mul, Finset.sum_add_distrib]
  ring

theorem expected_of_samples (ds : List (Mat K C ℝ × Given K V)) :
    wordCount (ds.map fun a => multSample a.1 a.2) = expectedCounts (ds.map Prod.snd) := by
  funext k n
  simp only [wordCount, expectedCounts, List.map_map, Function.comp_def, multSample]
  refine congrArg List.sum (List.map_congr_left fun d _ => ?_)
  ring

/-- **C102**, multinomial step: with `mu ≥ 1`, after any history, the topics and class parameters that `m_step` assigns
maximise the bound of the documents since the last `m_step`, with the density of the class parameters, among all topics
and positive class parameters. -/
theorem C102_multinomial {mu : ℝ} (hmu : 1 ≤ mu) {h : List (Call (Mat K C ℝ × Given K V) Unit)} {s : MultState K V C}
    (hs : mHistory mu h = some s) (hne : since h ≠ []) (hphi : ∀ d ∈ since h, ∀ k n, 0 ≤ d.2.2.phi k n)
    {words : Given K V → List (Fin V)} (hw : ∀ d ∈ since h, countsOf (words d.2) = d.2.1.words)
    {label : Given K V → Fin C} (hl : ∀ d ∈ since h, d.2.1.cls = label d.2) (prior : Vec C ℝ) (alpha : Vec K ℝ) :
    ∃ beta eta, (multM mu s).1.params = some (beta, eta) ∧ ∀ beta' eta', RowStochastic beta' → RowStochastic eta' →
      (∀ d ∈ since h, Finite (words d.2) (⟨alpha, beta', eta'⟩ : Model K V C) d.2.2) → (∀ k c, 0 < eta' k c) →
      corpusVote mu prior words label ((since h).map Prod.snd) ⟨alpha, beta', eta'⟩ ≤
        corpusVote mu prior words label ((since h).map Prod.snd) ⟨alpha, beta, eta⟩ := by
  have hs' : multHistory mu (h.map (Call.map fun a => multSample a.1 a.2)) = some s := by
    rw [← multinomial_history]
    exact hs
  have hne' : since (h.map (Call.map fun a : Mat K C ℝ × Given K V => multSample a.1 a.2)) ≠ [] := by
    rw [since_map]
    simpa using hne
  have hp := (mult_step hs' (anyDoc_of_since hne')).1
  rw [since_map] at hp
  refine ⟨_, _, hp, fun beta' eta' hb he hf hpos => ?_⟩
  refine (corpusVote_split mu prior hw hl _).le.trans (le_trans ?_ (corpusVote_split mu prior hw hl _).ge)
  have hcount : ∀ a ∈ (since h).map (fun a : Mat K C ℝ × Given K V => multSample a.1 a.2), ∀ k n, 0 ≤ a.counts k n := by
    intro a ha k n
    obtain ⟨d, hd, rfl⟩ := List.mem_map.1 ha
    exact mul_nonneg (hphi d hd k n) (Nat.cast_nonneg _)
  refine add_le_add (add_le_add le_rfl (normalizeRows_max (wordCount_nonneg hcount) hb fun k n hkn => ?_)) ?_
  · rw [expected_of_samples] at hkn
    refine finite_support (words := words) (ds := (since h).map Prod.snd) (m := ⟨alpha, beta', eta'⟩) ?_ hb.1 ?_ hkn
    · intro d hd
      obtain ⟨e, he, rfl⟩ := List.mem_map.1 hd
      exact hw e he
    · intro d hd
      obtain ⟨e, he, rfl⟩ := List.mem_map.1 hd
      exact hf e he
  · have e : (fun k c => classCount ((since h).map fun a : Mat K C ℝ × Given K V => multSample a.1 a.2) k c + mu - 1) =
        fun k c => classCount ((since h).map fun a => multSample a.1 a.2) k c + (mu - 1) := by
      funext k c
      ring
    rw [e]
    exact normalizeRows_max (fun k c => add_nonneg (classCount_nonneg hcount k c) (by linarith)) he fun k c _ => hpos k c

/-- **C102**, correspondence step: the class parameters that `m_step` assigns maximise the bound for any topics.
Missing: the topics (`C102_correspondence_topics`). -/
theorem C102_correspondence_partial {mu : ℝ} (hmu : 1 ≤ mu) {h : List (Call (Mat K C ℝ × Given K V × Vec V ℝ) Unit)}
    {s : MultState K V C} (hs : cHistory mu h = some s) (hne : since h ≠ [])
    (hphi : ∀ d ∈ since h, ∀ k n, 0 ≤ d.2.1.2.phi k n) (htau : ∀ d ∈ since h, ∀ n, 0 ≤ d.2.2 n)
    {words : Given K V → List (Fin V)} (hw : ∀ d ∈ since h, countsOf (words d.2.1) = d.2.1.1.words)
    {label : Given K V → Fin C} (hl : ∀ d ∈ since h, d.2.1.1.cls = label d.2.1) (alpha : Vec K ℝ) :
    ∃ beta eta, (multM mu s).1.params = some (beta, eta) ∧ ∀ beta' eta', RowStochastic eta' → (∀ k c, 0 < eta' k c) →
      corpusChoice mu words label ((since h).map Prod.snd) ⟨alpha, beta', eta'⟩ ≤
        corpusChoice mu words label ((since h).map Prod.snd) ⟨alpha, beta', eta⟩ := by
  have hs' : multHistory mu (h.map (Call.map fun a => corrSample a.1 a.2.1 a.2.2)) = some s := by
    rw [← correspondence_history]
    exact hs
  have hne' : since (h.map (Call.map fun a : Mat K C ℝ × Given K V × Vec V ℝ => corrSample a.1 a.2.1 a.2.2)) ≠ [] := by
    rw [since_map]
    simpa using hne
  have hp := (mult_step hs' (anyDoc_of_since hne')).1
  rw [since_map] at hp
  refine ⟨_, _, hp, fun beta' eta' he hpos => ?_⟩
  refine (corpusChoice_split mu hw hl _).le.trans (le_trans ?_ (corpusChoice_split mu hw hl _).ge)
  have hcount : ∀ a ∈ (since h).map (fun a : Mat K C ℝ × Given K V × Vec V ℝ => corrSample a.1 a.2.1 a.2.2),
      ∀ k n, 0 ≤ a.counts k n := by
    intro a ha k n
    obtain ⟨d, hd, rfl⟩ := List.mem_map.1 ha
    exact mul_nonneg (hphi d hd k n) (mul_nonneg (Nat.cast_nonneg _) (htau d hd n))
  refine add_le_add le_rfl ?_
  have e : (fun k c => classCount ((since h).map fun a : Mat K C ℝ × Given K V × Vec V ℝ =>
        corrSample a.1 a.2.1 a.2.2) k c + mu - 1) =
      fun k c => classCount ((since h).map fun a => corrSample a.1 a.2.1 a.2.2) k c + (mu - 1) := by
    funext k c
    ring
  rw [e]
  exact normalizeRows_max (fun k c => add_nonneg (classCount_nonneg hcount k c) (by linarith)) he fun k c _ => hpos k c

/-- Two topics that share the second of two words and prefer different classes. -/
noncomputable def shared : Model 2 2 2 where
  alpha := fun _ => 1 / 2
  beta := fun k n => if k = 0 then 1 / 2 else if n = 0 then 0 else 1
  eta := fun k c => if k = c then 3 / 4 else 1 / 4

theorem shared_valid : shared.Valid where
  alpha_pos := fun _ => by norm_num [shared]
  beta_nonneg := fun k n => by
    simp only [shared]
    split
    · norm_num
    · split <;> norm_num

/-- What the correspondence step finds for the document with the two words. -/
theorem shared_result {s1 s : VP 2 2 × Vec 2 ℝ} (h : CorrespondenceUpdate exact (countsOf [0, 1]) (0 : Fin 2) shared s1 s) :
    s.1.phi 0 0 = 1 ∧ s.1.phi 1 0 = 0 ∧ 0 < s.1.phi 0 1 ∧ s.1.phi 0 1 < 1 ∧ s.1.phi 1 1 = 1 - s.1.phi 0 1 ∧
      0 < s.2 0 ∧ 0 < s.2 1 ∧ s.2 0 ≠ s.2 1 := by
  obtain ⟨psi, _, hprop, _, htau, _⟩ := h
  have pos : ∀ k n, 0 < exact.exp (psi k) * exact.exp (s1.2 n * Real.log (shared.eta k 0)) := fun k n =>
    mul_pos (exact.exp_pos _) (exact.exp_pos _)
  have a0 := (hprop 0).1
  have a1 := (hprop 1).1
  have b0 := (hprop 0).2.1 ⟨0, by
    have := pos 0 0
    simp only [shared]
    simp only [shared] at this
    norm_num
    exact ⟨left_ne_zero_of_mul this.ne', right_ne_zero_of_mul this.ne'⟩⟩
  have b1 := (hprop 1).2.1 ⟨0, by
    have := pos 0 1
    simp only [shared]
    simp only [shared] at this
    norm_num
    exact ⟨left_ne_zero_of_mul this.ne', right_ne_zero_of_mul this.ne'⟩⟩
  rw [Fin.sum_univ_two] at b0 b1
  have c00 : shared.beta 0 0 = 1 / 2 := by simp [shared]
  have c01 : shared.beta 0 1 = 1 / 2 := by simp [shared]
  have c10 : shared.beta 1 0 = 0 := by simp [shared]
  have c11 : shared.beta 1 1 = 1 := by simp [shared]
  have z : s.1.phi 1 0 = 0 := by
    have := a0 1
    simp only [Fin.sum_univ_two, c00, c10, zero_mul, add_zero] at this
    exact (mul_eq_zero.1 this).resolve_right (by have := pos 0 0; positivity)
  have p1 : 0 < s.1.phi 0 1 := by
    have := a1 0
    simp only [Fin.sum_univ_two, c01, c11] at this
    have q0 := pos 0 1
    have q1 := pos 1 1
    by_contra hc
    push Not at hc
    have := mul_nonpos_of_nonpos_of_nonneg hc (by positivity :
      0 ≤ 1 / 2 * (exact.exp (psi 0) * exact.exp (s1.2 1 * Real.log (shared.eta 0 0))) +
        1 * (exact.exp (psi 1) * exact.exp (s1.2 1 * Real.log (shared.eta 1 0))))
    linarith
  have p2 : 0 < s.1.phi 1 1 := by
    have := a1 1
    simp only [Fin.sum_univ_two, c01, c11] at this
    have q0 := pos 0 1
    have q1 := pos 1 1
    by_contra hc
    push Not at hc
    have := mul_nonpos_of_nonpos_of_nonneg hc (by positivity :
      0 ≤ 1 / 2 * (exact.exp (psi 0) * exact.exp (s1.2 1 * Real.log (shared.eta 0 0))) +
        1 * (exact.exp (psi 1) * exact.exp (s1.2 1 * Real.log (shared.eta 1 0))))
    linarith
  have e0 : shared.eta 0 0 = 3 / 4 := by simp [shared]
  have e1 : shared.eta 1 0 = 1 / 4 := by simp [shared]
  have t0 := htau 0
  have t1 := htau 1
  set S := ∑ l, exact.exp (∑ k, s.1.phi k l * Real.log (shared.eta k 0)) with hS
  have hSpos : 0 < S := by
    rw [hS, Fin.sum_univ_two]
    exact add_pos (exact.exp_pos _) (exact.exp_pos _)
  have tpos : ∀ n, 0 < s.2 n := by
    intro n
    by_contra hc
    push Not at hc
    have := mul_nonpos_of_nonpos_of_nonneg hc hSpos.le
    rw [htau n] at this
    linarith [exact.exp_pos (∑ k, s.1.phi k n * Real.log (shared.eta k 0))]
  have r0 : s.1.phi 0 0 = 1 := by linarith
  refine ⟨r0, z, p1, by linarith, by linarith, tpos 0, tpos 1, fun heq => ?_⟩
  rw [heq, t1] at t0
  have := Real.exp_injective (show Real.exp _ = Real.exp _ from t0)
  rw [Fin.sum_univ_two, Fin.sum_univ_two, r0, z, e0, e1, show s.1.phi 0 1 = 1 - s.1.phi 1 1 by linarith] at this
  have hlog : Real.log (1 / 4) < Real.log (3 / 4) := Real.log_lt_log (by norm_num) (by norm_num)
  nlinarith

/-- The topics that the correspondence step assigns do not maximise the bound: after an epoch on the document with the
two words and the class `0`, with any number of iterations of the E step, other topics have a larger bound. -/
theorem C102_correspondence_topics {cfg : EStep.Cfg} {mu draw : ℝ} {D : ℕ} {s : VP 2 2 × Vec 2 ℝ} {r : Report}
    (hr : RunsOnce cfg.iterations cfg.tolerance (countsOf [0, 1]) shared)
    (h : EStep.correspondence exact cfg mu D draw (countsOf [0, 1]) ((0 : Fin 2) : ℤ) shared = some (s, r)) :
    ∃ st beta eta, cHistory mu [.doc (shared.eta, (⟨countsOf [0, 1], ((0 : Fin 2) : ℤ)⟩, s.1), s.2)] = some st ∧
      (multM mu st).1.params = some (beta, eta) ∧
      ∃ other : Mat 2 2 ℝ, RowStochastic other ∧ Finite [0, 1] (⟨shared.alpha, other, eta⟩ : Model 2 2 2) s.1 ∧
        corpusChoice mu (fun _ => [0, 1]) (fun _ => 0) [((⟨countsOf [0, 1], ((0 : Fin 2) : ℤ)⟩, s.1), s.2)]
            ⟨shared.alpha, beta, eta⟩ <
          corpusChoice mu (fun _ => [0, 1]) (fun _ => 0) [((⟨countsOf [0, 1], ((0 : Fin 2) : ℤ)⟩, s.1), s.2)]
            ⟨shared.alpha, other, eta⟩ := by
  obtain ⟨s1, h1⟩ := (C38_correspondence shared_valid (by norm_num) h).ran shared_valid rfl hr
  obtain ⟨f00, f10, f01, f01', f11, t0, t1, ht⟩ := shared_result h1
  set d : Given 2 2 := (⟨countsOf [0, 1], ((0 : Fin 2) : ℤ)⟩, s.1) with hd
  have hw : ∀ e ∈ [(shared.eta, d, s.2)], countsOf ((fun _ : Given 2 2 => [(0 : Fin 2), 1]) e.2.1) = e.2.1.1.words := by
    intro e he
    rw [List.mem_singleton] at he
    rw [he]
  have hl : ∀ e ∈ [(shared.eta, d, s.2)], e.2.1.1.cls = ((fun _ : Given 2 2 => (0 : Fin 2)) e.2.1 : Fin 2) := by
    intro e he
    rw [List.mem_singleton] at he
    rw [he]
  obtain ⟨st, hst⟩ := (multAdd_defined (corrSample shared.eta d s.2) MultState.init).2 ⟨by simp [corrSample, hd], by
    simp [corrSample, hd]⟩
  have hh : multHistory mu [.doc (corrSample shared.eta d s.2)] = some st := by
    simp [multHistory, history, hst]
  have hcm := correspondence_history mu [.doc (shared.eta, d, s.2)]
  rw [List.map_singleton, Call.map, hh] at hcm
  have hp := (mult_step hh ⟨_, List.mem_singleton.2 rfl⟩).1
  have hx : ∀ k n, wordCount [corrSample shared.eta d s.2] k n = s.1.phi k n * s.2 n := by
    intro k n
    have : (countsOf [(0 : Fin 2), 1] n : ℝ) = 1 := by fin_cases n <;> simp [countsOf]
    simp [wordCount, corrSample, hd, this]
  refine ⟨st, _, _, hcm, hp, fun k n => s.1.phi k n / ∑ j, s.1.phi k j, ⟨fun k n => ?_, fun k => ?_⟩, ?_, ?_⟩
  · refine div_nonneg ?_ (Finset.sum_nonneg fun j _ => ?_)
    · fin_cases k <;> fin_cases n <;> simp <;> linarith
    · fin_cases k <;> fin_cases j <;> simp <;> linarith
  · rw [← Finset.sum_div]
    refine div_self ?_
    fin_cases k <;> simp [Fin.sum_univ_two] <;> linarith
  · intro n _ k hb
    rcases div_eq_zero_iff.1 hb with hb | hb
    · exact hb
    · exfalso
      fin_cases k <;> simp [Fin.sum_univ_two] at hb <;> linarith
  · have A := corpusChoice_split (C := 2) mu (words := fun _ => [0, 1]) (label := fun _ => 0) hw hl
    simp only [List.map_singleton] at A
    rw [A, A ⟨shared.alpha, fun k n => s.1.phi k n / ∑ j, s.1.phi k j, _⟩]
    refine add_lt_add_of_lt_of_le (add_lt_add_of_le_of_lt le_rfl ?_) le_rfl
    have c0 : (countsOf [(0 : Fin 2), 1] 0 : ℝ) = 1 := by simp [countsOf]
    have c1 : (countsOf [(0 : Fin 2), 1] 1 : ℝ) = 1 := by simp [countsOf]
    have B : ∀ beta : Mat 2 2 ℝ, wordLikelihood [d] beta =
        Real.log (beta 0 0) + s.1.phi 0 1 * Real.log (beta 0 1) + (1 - s.1.phi 0 1) * Real.log (beta 1 1) := by
      intro beta
      simp only [wordLikelihood, List.map_singleton, List.sum_singleton, Fin.sum_univ_two, hd, c0, c1, f00, f10, f11]
      ring
    have hn : ∀ k n, normalizeRows (wordCount [corrSample shared.eta d s.2]) k n =
        s.1.phi k n * s.2 n / ∑ j, s.1.phi k j * s.2 j := by
      intro k n
      rw [normalizeRows_apply]
      simp only [hx]
      rw [if_neg]
      refine ne_of_gt ?_
      have q : 0 < s.1.phi 0 1 * s.2 1 := mul_pos f01 t1
      have q' : 0 < (1 - s.1.phi 0 1) * s.2 1 := mul_pos (by linarith) t1
      fin_cases k <;> simp [Fin.sum_univ_two, f00, f10, f11] <;> linarith
    rw [B, B]
    simp only [since, List.foldl_cons, List.foldl_nil, List.nil_append, hn, Fin.sum_univ_two, f00, f10, f11, one_mul,
      zero_mul, zero_add]
    set p := s.1.phi 0 1 with hp'
    have hT : 0 < s.2 0 + p * s.2 1 := by positivity
    have l1 : Real.log (s.2 0 / (s.2 0 + p * s.2 1)) - Real.log (1 / (1 + p)) <
        s.2 0 * (1 + p) / (s.2 0 + p * s.2 1) - 1 := by
      rw [← Real.log_div (by positivity) (by positivity)]
      have e : s.2 0 / (s.2 0 + p * s.2 1) / (1 / (1 + p)) = s.2 0 * (1 + p) / (s.2 0 + p * s.2 1) := by
        field_simp
      rw [e]
      refine Real.log_lt_sub_one_of_pos (by positivity) fun h1 => ht ?_
      rw [div_eq_one_iff_eq hT.ne'] at h1
      have : p * s.2 0 = p * s.2 1 := by linarith
      exact mul_left_cancel₀ f01.ne' this
    have l2 : Real.log (p * s.2 1 / (s.2 0 + p * s.2 1)) - Real.log (p / (1 + p)) ≤
        s.2 1 * (1 + p) / (s.2 0 + p * s.2 1) - 1 := by
      rw [← Real.log_div (by positivity) (by positivity)]
      have e : p * s.2 1 / (s.2 0 + p * s.2 1) / (p / (1 + p)) = s.2 1 * (1 + p) / (s.2 0 + p * s.2 1) := by
        field_simp
      rw [e]
      exact Real.log_le_sub_one_of_pos (by positivity)
    have l3 := mul_le_mul_of_nonneg_left l2 f01.le
    have l4 : s.2 0 * (1 + p) / (s.2 0 + p * s.2 1) - 1 + p * (s.2 1 * (1 + p) / (s.2 0 + p * s.2 1) - 1) = 0 := by
      field_simp
      ring
    have h1p : 0 < 1 - p := by linarith
    rw [div_self (mul_pos h1p t1).ne', div_self h1p.ne']
    nlinarith

/-! ### The hypotheses are met -/

/-- Every document is a list of words. -/
def wordsOf (X : Vec V ℕ) : List (Fin V) := (List.finRange V).flatMap fun n => List.replicate (X n) n

theorem countsOf_wordsOf (X : Vec V ℕ) : countsOf (wordsOf X) = X := by
  funext n
  rw [countsOf, wordsOf, List.count_flatMap]
  have : (List.count n ∘ fun m => List.replicate (X m) m) = fun m => if m = n then X n else 0 := by
    funext m
    rw [Function.comp_apply, List.count_replicate]
    by_cases h : m = n <;> simp [h]
  rw [this, ← Fin.sum_univ_def]
  simp

example : ∃ b beta, uHistory topicsDemoHistory = some b ∧ (uM b).1.IsReal beta ∧ RowStochastic beta ∧
    corpusBound (fun d => wordsOf d.1.words) (since topicsDemoHistory)
        (⟨fun _ => 1, fun _ _ => 1 / 2, fun _ _ => 0⟩ : Model 2 2 2) ≤
      corpusBound (fun d => wordsOf d.1.words) (since topicsDemoHistory)
        (⟨fun _ => 1, beta, fun _ _ => 0⟩ : Model 2 2 2) := by
  obtain ⟨b, hb⟩ := uHistory_defined topicsDemoHistory
  have hs := topicsDemo_since
  obtain ⟨beta, h1, h2, h3⟩ := C102_unsupervised hb (by rw [hs]; simp [topicsDemo]) (by rw [hs]; exact topicsDemo_nonneg)
    (by rw [hs]; exact topicsDemo_mass) (words := fun d => wordsOf d.1.words) (fun d _ => countsOf_wordsOf _)
    (⟨fun _ => 1, fun _ _ => 1 / 2, fun _ _ => 0⟩ : Model 2 2 2)
  refine ⟨b, beta, hb, h1, h2, h3 (fun _ _ => 1 / 2) ⟨fun _ _ => by norm_num, fun _ => by norm_num [Fin.sum_univ_two]⟩ ?_⟩
  intro d _ n _ k hk
  norm_num at hk

/-- A document of each class. -/
noncomputable def classDemo : List (Call (Mat 2 2 ℝ × Given 2 2) Unit) :=
  [.doc (fun _ _ => 1 / 2, ⟨![1, 2], 0⟩, ⟨![![1 / 2, 1], ![1 / 2, 0]], ![1, 1]⟩),
    .doc (fun _ _ => 1 / 2, ⟨![3, 0], 1⟩, ⟨![![0, 1], ![1, 0]], ![1, 1]⟩)]

example : ∃ s beta eta, mHistory 2 classDemo = some s ∧ (multM 2 s).1.params = some (beta, eta) ∧
    corpusVote 2 (fun _ => 1 / 2) (fun d => wordsOf d.1.words) (fun d => if d.1.cls = 0 then 0 else 1)
        ((since classDemo).map Prod.snd) (⟨fun _ => 1, fun _ _ => 1 / 2, fun _ _ => 1 / 2⟩ : Model 2 2 2) ≤
      corpusVote 2 (fun _ => 1 / 2) (fun d => wordsOf d.1.words) (fun d => if d.1.cls = 0 then 0 else 1)
        ((since classDemo).map Prod.snd) ⟨fun _ => 1, beta, eta⟩ := by
  have hsince : since classDemo =
      [(fun _ _ => 1 / 2, ⟨![1, 2], 0⟩, ⟨![![1 / 2, 1], ![1 / 2, 0]], ![1, 1]⟩),
        (fun _ _ => 1 / 2, ⟨![3, 0], 1⟩, ⟨![![0, 1], ![1, 0]], ![1, 1]⟩)] := rfl
  have hdef : ∃ s, mHistory 2 classDemo = some s := by
    obtain ⟨s1, h1⟩ := (multAdd_defined (multSample (fun _ _ => 1 / 2 : Mat 2 2 ℝ)
      (⟨![1, 2], 0⟩, ⟨![![1 / 2, 1], ![1 / 2, 0]], ![1, 1]⟩)) MultState.init).2 ⟨by simp [multSample], by simp [multSample]⟩
    obtain ⟨s2, h2⟩ := (multAdd_defined (multSample (fun _ _ => 1 / 2 : Mat 2 2 ℝ)
      (⟨![3, 0], 1⟩, ⟨![![0, 1], ![1, 0]], ![1, 1]⟩)) s1).2 ⟨by simp [multSample], by simp [multSample]⟩
    refine ⟨s2, ?_⟩
    rw [mHistory, multinomial_history, multHistory, history, classDemo]
    exact (congrArg (fun o : Option (MultState 2 2 2) => o.bind fun s => (multAdd _ _ _ s).bind some) h1).trans
      (congrArg (fun o : Option (MultState 2 2 2) => o.bind some) h2)
  obtain ⟨s, hs⟩ := hdef
  obtain ⟨beta, eta, h1, h2⟩ := C102_multinomial (mu := 2) (by norm_num) hs (by rw [hsince]; simp)
    (by
      rw [hsince]
      intro d hd k n
      simp only [List.mem_cons, List.not_mem_nil, or_false] at hd
      rcases hd with rfl | rfl <;> fin_cases k <;> fin_cases n <;> norm_num)
    (words := fun d => wordsOf d.1.words) (fun d _ => countsOf_wordsOf _)
    (label := fun d => if d.1.cls = 0 then 0 else 1)
    (by
      rw [hsince]
      intro d hd
      simp only [List.mem_cons, List.not_mem_nil, or_false] at hd
      rcases hd with rfl | rfl <;> simp)
    (fun _ => 1 / 2) (fun _ => 1)
  refine ⟨s, beta, eta, hs, h1, h2 _ _ ⟨fun _ _ => by norm_num, fun _ => by norm_num [Fin.sum_univ_two]⟩
    ⟨fun _ _ => by norm_num, fun _ => by norm_num [Fin.sum_univ_two]⟩ ?_ (fun _ _ => by norm_num)⟩
  intro d _ n _ k hk
  norm_num at hk

example : ∃ s r, EStep.correspondence exact demoCfg 2 5 0 (countsOf [0, 1]) ((0 : Fin 2) : ℤ) shared = some (s, r) ∧
    RunsOnce demoCfg.iterations demoCfg.tolerance (countsOf [0, 1]) shared := by
  obtain ⟨s, r, h⟩ := C35_correspondence_defined (P := exact) (cfg := demoCfg) (draw := 0) (X := countsOf [0, 1])
    (y := 0) (mu := 2) (N := 5) shared_valid fun k => by
      simp only [shared]
      split <;> norm_num
  refine ⟨s, r, h, by norm_num [demoCfg], ?_⟩
  simp [shared, demoCfg, countsOf, Fin.sum_univ_two]
  norm_num

end Verif.MStep
