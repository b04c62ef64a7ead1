import Verif.Lemmas.Symmetry
import Verif.Props.Absent
import Verif.Props.Digamma

/-! Properties C92, C93 and C94: renumbering the topics, renumbering the vocabulary, switching the supervision off. -/
namespace Verif.EStep

open MathUtils Finset

variable {K V C : ℕ} {P : Prims} {cfg : Cfg} {draw : ℝ} {X : Vec V ℕ} {y : Fin C} {m : Model K V C}

/-! ### C92: the numbering of the topics is immaterial -/

theorem unsupervisedRun_topics (σ : Equiv.Perm (Fin K)) (m : Model K V C) :
    unsupervisedRun P cfg X (m.topics σ) = (unsupervisedRun P cfg X m).map (VP.topics σ) :=
  loop_perm σ (VP.topics σ) (fun _ => rfl) (fun s => unsupervisedStep_topics σ P X m s) cfg.iterations (fun _ => 0)
    (initial X m.alpha)

/-- **C92**, unsupervised step: with renumbered topics the result is the renumbered result, with the same reported
likelihood. -/
theorem C92_unsupervised (σ : Equiv.Perm (Fin K)) (P : Prims) (cfg : Cfg) (draw : ℝ) (X : Vec V ℕ) (m : Model K V C) :
    unsupervised P cfg draw X (m.topics σ) =
      (unsupervised P cfg draw X m).map fun r => (r.1.topics σ, r.2) := by
  unfold unsupervised
  rw [unsupervisedRun_topics]
  cases unsupervisedRun P cfg X m with
  | none => rfl
  | some s =>
    have h := unsupervisedLikelihood_topics σ P X m.alpha m.beta s.phi s.gamma
    simp only [Option.map_some, Option.bind_some, VP.topics, Model.topics, h, Option.map_map]
    rfl

theorem fastRun_topics (σ : Equiv.Perm (Fin K)) (w : ℝ) (y : ℤ) (m : Model K V C) :
    fastRun P cfg w X y (m.topics σ) = (fastRun P cfg w X y m).map (VP.topics σ) :=
  loop_perm σ (VP.topics σ) (fun _ => rfl) (fun s => fastStep_topics σ P w X y m s) cfg.iterations (fun _ => 0)
    (initial X m.alpha)

/-- **C92**, fast supervised step. -/
theorem C92_fast (σ : Equiv.Perm (Fin K)) (P : Prims) (cfg : Cfg) (w draw : ℝ) (X : Vec V ℕ) (y : ℤ)
    (m : Model K V C) :
    fast P cfg w draw X y (m.topics σ) = (fast P cfg w draw X y m).map fun r => (r.1.topics σ, r.2) := by
  unfold fast
  rw [fastRun_topics]
  cases fastRun P cfg w X y m with
  | none => rfl
  | some s =>
    have h := supervisedLikelihood'_topics σ P X y m.alpha m.beta m.eta s.phi s.gamma
    simp only [Option.map_some, Option.bind_some, VP.topics, Model.topics, h, Option.map_map]
    rfl

theorem supervisedRun_topics (σ : Equiv.Perm (Fin K)) (fp : ℕ) (y : ℤ) (m : Model K V C) :
    supervisedRun P cfg fp X y (m.topics σ) = (supervisedRun P cfg fp X y m).map (supTopics σ) :=
  loop_perm σ (supTopics σ) (fun _ => rfl)
    (fun s => supervisedPhiGamma_topics σ P X (ratio X) y m.beta m.eta fp s) cfg.iterations (fun _ => 0)
    (initial X m.alpha, none)

/-- **C92**, supervised step. -/
theorem C92_supervised (σ : Equiv.Perm (Fin K)) (P : Prims) (cfg : Cfg) (fp : ℕ) (draw : ℝ) (X : Vec V ℕ) (y : ℤ)
    (m : Model K V C) :
    supervised P cfg fp draw X y (m.topics σ) =
      (supervised P cfg fp draw X y m).map fun r => (r.1.topics σ, r.2) := by
  unfold supervised
  rw [supervisedRun_topics]
  cases supervisedRun P cfg fp X y m with
  | none => rfl
  | some s =>
    have h := supervisedLikelihood_topics σ P X y m.alpha m.beta m.eta s.1.phi s.1.gamma s.2
    simp only [Option.map_some, Option.bind_some, supTopics, VP.topics, Model.topics, h, Option.map_map]
    rfl

theorem multinomialRun_topics (σ : Equiv.Perm (Fin K)) (ew : ℝ) (y : ℤ) (m : Model K V C) :
    multinomialRun P cfg ew X y (m.topics σ) = (multinomialRun P cfg ew X y m).map (VP.topics σ) :=
  loop_perm σ (VP.topics σ) (fun _ => rfl) (fun s => multinomialStep_topics σ P ew X y m s) cfg.iterations
    (fun _ => 0) (initial X m.alpha)

/-- **C92**, multinomial step. -/
theorem C92_multinomial (σ : Equiv.Perm (Fin K)) (P : Prims) (cfg : Cfg) (ew mu prior : ℝ) (size : ℕ) (draw : ℝ)
    (X : Vec V ℕ) (y : ℤ) (m : Model K V C) :
    multinomial P cfg ew mu prior size draw X y (m.topics σ) =
      (multinomial P cfg ew mu prior size draw X y m).map fun r => (r.1.topics σ, r.2) := by
  unfold multinomial
  rw [multinomialRun_topics]
  cases multinomialRun P cfg ew X y m with
  | none => rfl
  | some s =>
    have h := multinomialLikelihood_topics σ P X y m.alpha m.beta m.eta s.phi s.gamma prior mu (1 / size)
    simp only [Option.map_some, Option.bind_some, VP.topics, Model.topics, h, Option.map_map]
    rfl

theorem correspondenceRun_topics (σ : Equiv.Perm (Fin K)) (y : ℤ) (m : Model K V C) :
    correspondenceRun P cfg X y (m.topics σ) =
      (correspondenceRun P cfg X y m).map fun s => (s.1.topics σ, s.2) :=
  loop_perm σ (fun s : VP K V × Vec V ℝ => (s.1.topics σ, s.2)) (fun _ => rfl)
    (fun s => correspondenceStep_topics σ P X y m s) cfg.iterations (fun _ => 0) (initial X m.alpha, fun _ => 1 / V)

/-- **C92**, correspondence step: `tau`, which is indexed by the words, stays as it is. -/
theorem C92_correspondence (σ : Equiv.Perm (Fin K)) (P : Prims) (cfg : Cfg) (mu : ℝ) (size : ℕ) (draw : ℝ)
    (X : Vec V ℕ) (y : ℤ) (m : Model K V C) :
    correspondence P cfg mu size draw X y (m.topics σ) =
      (correspondence P cfg mu size draw X y m).map fun r => ((r.1.1.topics σ, r.1.2), r.2) := by
  unfold correspondence
  rw [correspondenceRun_topics]
  cases correspondenceRun P cfg X y m with
  | none => rfl
  | some s =>
    have h := correspondenceLikelihood_topics σ P X y m.alpha m.beta m.eta s.1.phi s.1.gamma s.2 mu (1 / size)
    simp only [Option.map_some, Option.bind_some, VP.topics, Model.topics, h, Option.map_map]
    rfl

/-- Exchanging the two topics exchanges the entries of `gamma`. -/
example : ∃ s r, unsupervised fastPrims demoCfg 0 demoX demo = some (s, r) ∧
    ∃ s', unsupervised fastPrims demoCfg 0 demoX (demo.topics (Equiv.swap 0 1)) = some (s', r) ∧
      s'.gamma 0 = s.gamma 1 ∧ s'.gamma 1 = s.gamma 0 := by
  obtain ⟨s, r, h, _⟩ := C35_unsupervised_defined (P := fastPrims) (cfg := demoCfg) (draw := 0) (X := demoX)
    demo_valid (by norm_num)
  refine ⟨s, r, h, s.topics (Equiv.swap 0 1), ?_, rfl, rfl⟩
  rw [C92_unsupervised, h]
  rfl

/-! ### C93: the numbering of the vocabulary is immaterial -/

/-- **C93**, unsupervised step: the same `gamma` and the same likelihood; `phi` has its columns renumbered. -/
theorem C93_unsupervised (τ : Equiv.Perm (Fin V)) (P : Prims) (cfg : Cfg) (draw : ℝ) (X : Vec V ℕ) (m : Model K V C) :
    unsupervised P cfg draw (fun n => X (τ n)) (m.words τ) =
      (unsupervised P cfg draw X m).map fun r => (r.1.words τ, r.2) := by
  have hr : unsupervisedRun P cfg (fun n => X (τ n)) (m.words τ) = (unsupervisedRun P cfg X m).map (VP.words τ) := by
    unfold unsupervisedRun
    have h0 : initial (fun n => X (τ n)) (m.words τ).alpha = (initial X m.alpha).words τ := initial_words τ X m.alpha
    rw [h0]
    exact loop_map (VP.words τ) (fun _ => rfl) (fun s => unsupervisedStep_words τ P X m s) _ _ _
  unfold unsupervised
  rw [hr]
  cases unsupervisedRun P cfg X m with
  | none => rfl
  | some s =>
    have h := unsupervisedLikelihood_words τ P X m.alpha m.beta s.phi s.gamma
    simp only [Option.map_some, Option.bind_some, VP.words, Model.words, h, Option.map_map]
    rfl

theorem fastRun_words (τ : Equiv.Perm (Fin V)) (w : ℝ) (X : Vec V ℕ) (y : ℤ) (m : Model K V C) :
    fastRun P cfg w (fun n => X (τ n)) y (m.words τ) = (fastRun P cfg w X y m).map (VP.words τ) := by
  unfold fastRun
  have h0 : initial (fun n => X (τ n)) (m.words τ).alpha = (initial X m.alpha).words τ := initial_words τ X m.alpha
  rw [h0]
  exact loop_map (VP.words τ) (fun _ => rfl) (fun s => fastStep_words τ P w X y m s) _ _ _

theorem docPartition_words (τ : Equiv.Perm (Fin V)) (X : Vec V ℕ) (eta : Mat K C ℝ) (phi : Mat K V ℝ) :
    docPartition P (fun n => X (τ n)) eta (fun k n => phi k (τ n)) = docPartition P X eta phi := by
  unfold docPartition
  refine Finset.sum_congr rfl fun c _ => ?_
  rw [Equiv.sum_comp τ fun i => (X i : ℝ)]
  simp only [Finset.prod_filter]
  exact Equiv.prod_comp τ fun l => if X l ≠ 0 then
    ∑ j, phi j l * P.exp ((X l : ℝ) / (∑ i, (X i : ℝ)) * eta j c) else 1

/-- **C93**, fast supervised step, for a document whose words are all known.  (The likelihood of a document without
words is undefined, `C40_likelihood_undefined`.) -/
theorem C93_fast (hm : m.Valid) (hK : 0 < K) {w : ℝ} (hX : ∃ n, X n ≠ 0) (hk : ∀ n, X n ≠ 0 → m.Known n)
    (τ : Equiv.Perm (Fin V)) :
    ∃ s r, fast P cfg w draw X (y : ℤ) m = some (s, r) ∧
      fast P cfg w draw (fun n => X (τ n)) (y : ℤ) (m.words τ) = some (s.words τ, r) := by
  have hr := fastRun_words (P := P) (cfg := cfg) τ w X (y : ℤ) m
  by_cases hd : draw < cfg.computeLikelihood
  · obtain ⟨s, l, h⟩ := C76_fast_value (P := P) (cfg := cfg) (draw := draw) (y := y) (w := w) hm hK hX hk hd
    have hX' : ∃ n, X (τ n) ≠ 0 := by
      obtain ⟨n, hn⟩ := hX
      exact ⟨τ.symm n, by simpa using hn⟩
    obtain ⟨s', l', h'⟩ := C76_fast_value (P := P) (cfg := cfg) (draw := draw) (y := y) (w := w) (m := m.words τ)
      (X := fun n => X (τ n)) ⟨hm.alpha_pos, fun k n => hm.beta_nonneg k (τ n)⟩ hK hX' (fun n hn => hk (τ n) hn) hd
    have hs : s' = s.words τ := by
      have h1 := run_of_fast h
      have h2 := run_of_fast h'
      rw [hr, h1, Option.map_some, Option.some.injEq] at h2
      exact h2.symm
    subst hs
    obtain ⟨u, hu, _, hl⟩ := C76_fast hX hd h
    obtain ⟨u', hu', _, hl'⟩ := C76_fast hX' hd h'
    have e1 := unsupervisedLikelihood_words τ P X m.alpha m.beta s.phi s.gamma
    have e2 := docPartition_words (P := P) τ X m.eta s.phi
    have e3 : ∀ k, ∑ n, (X (τ n) : ℝ) * s.phi k (τ n) = ∑ n, (X n : ℝ) * s.phi k n :=
      fun k => Equiv.sum_comp τ fun n => (X n : ℝ) * s.phi k n
    simp only [VP.words, Model.words] at hu' hl'
    rw [e1, hu, Option.some.injEq] at hu'
    rw [e2, Equiv.sum_comp τ fun n => (X n : ℝ), ← hu'] at hl'
    simp only [e3] at hl'
    refine ⟨s, .value l, h, ?_⟩
    rw [h', hl', hl]
  · obtain ⟨s, r, h⟩ := C35_fast_defined (P := P) (cfg := cfg) (draw := draw) (y := y) (w := w) hm hK (Or.inl hX)
    have h1 := run_of_fast h
    rw [h1, Option.map_some] at hr
    refine ⟨s, .nan, ?_, ?_⟩
    · unfold fast report bernoulli
      rw [h1]
      simp [hd]
    · unfold fast report bernoulli
      rw [hr]
      simp [hd]

/-- **C93**, multinomial step. -/
theorem C93_multinomial (τ : Equiv.Perm (Fin V)) (P : Prims) (cfg : Cfg) (ew mu prior : ℝ) (size : ℕ) (draw : ℝ)
    (X : Vec V ℕ) (y : ℤ) (m : Model K V C) :
    multinomial P cfg ew mu prior size draw (fun n => X (τ n)) y (m.words τ) =
      (multinomial P cfg ew mu prior size draw X y m).map fun r => (r.1.words τ, r.2) := by
  have hr : multinomialRun P cfg ew (fun n => X (τ n)) y (m.words τ) =
      (multinomialRun P cfg ew X y m).map (VP.words τ) := by
    unfold multinomialRun
    have h0 : initial (fun n => X (τ n)) (m.words τ).alpha = (initial X m.alpha).words τ := initial_words τ X m.alpha
    rw [h0]
    exact loop_map (VP.words τ) (fun _ => rfl) (fun s => multinomialStep_words τ P ew X y m s) _ _ _
  unfold multinomial
  rw [hr]
  cases multinomialRun P cfg ew X y m with
  | none => rfl
  | some s =>
    have h := multinomialLikelihood_words τ P X y m.alpha m.beta m.eta s.phi s.gamma prior mu (1 / size)
    simp only [Option.map_some, Option.bind_some, VP.words, Model.words, h, Option.map_map]
    rfl

/-- **C93**, correspondence step: `tau` is renumbered too. -/
theorem C93_correspondence (τ : Equiv.Perm (Fin V)) (P : Prims) (cfg : Cfg) (mu : ℝ) (size : ℕ) (draw : ℝ)
    (X : Vec V ℕ) (y : ℤ) (m : Model K V C) :
    correspondence P cfg mu size draw (fun n => X (τ n)) y (m.words τ) =
      (correspondence P cfg mu size draw X y m).map fun r => ((r.1.1.words τ, fun n => r.1.2 (τ n)), r.2) := by
  have hr : correspondenceRun P cfg (fun n => X (τ n)) y (m.words τ) =
      (correspondenceRun P cfg X y m).map (corWords τ) := by
    unfold correspondenceRun
    have h0 : initial (fun n => X (τ n)) (m.words τ).alpha = (initial X m.alpha).words τ := initial_words τ X m.alpha
    rw [h0]
    exact loop_map (corWords τ) (fun _ => rfl) (fun s => correspondenceStep_words τ P X y m s) _ _
      (initial X m.alpha, fun _ => 1 / (V : ℝ))
  unfold correspondence
  rw [hr]
  cases correspondenceRun P cfg X y m with
  | none => rfl
  | some s =>
    have h := correspondenceLikelihood_words τ P X y m.alpha m.beta m.eta s.1.phi s.1.gamma s.2 mu (1 / size)
    simp only [Option.map_some, Option.bind_some, corWords, VP.words, Model.words, h, Option.map_map]
    rfl

/-- The words in the opposite order. -/
example : ∃ s r, fast fastPrims demoCfg 1 0 demoX ((1 : Fin 2) : ℤ) demo = some (s, r) ∧
    fast fastPrims demoCfg 1 0 (fun n => demoX (Fin.revPerm n)) ((1 : Fin 2) : ℤ) (demo.words Fin.revPerm) =
      some (s.words Fin.revPerm, r) :=
  C93_fast (y := 1) demo_valid (by norm_num) ⟨0, by simp [demoX]⟩ demo_known Fin.revPerm

/-! #### The supervised step depends on the order of the words -/

/-- Two topics and two words; the second topic does not have the first word. -/
noncomputable def orderModel : Model 2 2 1 where
  alpha := fun _ => 1 / 2
  beta := fun k n => if k = 0 then 1 / 2 else if n = 0 then 0 else 1
  eta := fun _ _ => 0

/-- One occurrence of each word. -/
def orderDoc : Vec 2 ℕ := fun _ => 1

theorem digamma_one : ∃ v, FastExp.digamma 1 = some v ∧ FastExp.digamma 2 = some (v + 1) ∧ -1 ≤ v ∧ v ≤ 0 := by
  obtain ⟨v, h1, h2, h3⟩ := FastExp.C88_accuracy 1 fun n h => by
    have : (0 : ℝ) ≤ n := Nat.cast_nonneg n
    linarith
  have e : logDeriv Real.Gamma 1 = -Real.eulerMascheroniConstant := by
    rw [logDeriv_apply, Real.Gamma_one, div_one, Real.eulerMascheroniConstant_eq_neg_deriv]
    ring
  rw [e] at h2 h3
  have g1 := Real.one_half_lt_eulerMascheroniConstant
  have g2 := Real.eulerMascheroniConstant_lt_two_thirds
  have h4 := FastExp.C32_recurrence 1 (by norm_num) (by norm_num)
  rw [h1] at h4
  have e2 : (1 : ℝ) + 1 = 2 := by norm_num
  rw [e2] at h4
  cases h5 : FastExp.digamma 2 with
  | none => rw [h5] at h4; simp at h4
  | some u =>
    rw [h5, Option.map_some, Option.some.injEq] at h4
    refine ⟨v, h1, ?_, by linarith, by linarith⟩
    rw [h4, Option.some.injEq]
    ring

theorem hDoc_zero {eta : Mat K 1 ℝ} (he : ∀ k c, eta k c = 0) {phi : Mat K V ℝ} (hd : ∀ n, ∑ k, phi k n = 1)
    (X : Vec V ℕ) (n : Fin V) (k : Fin K) : hDoc P X eta phi n k = 1 := by
  unfold hDoc
  simp only [he, mul_zero, P.exp_zero, mul_one, hd, Finset.prod_const_one, Finset.sum_const, Finset.card_univ,
    Fintype.card_fin, one_smul]

/-- Without classification parameters the responsibilities of a word are those of the unsupervised step, for `gamma`
as it is when the word is processed. -/
theorem wordUpdate_zero {m : Model K V 1} (he : ∀ k c, m.eta k c = 0) {n : Fin V} (hn : X n = 1) {s s' : VP K V}
    (hd : ∀ n, ∑ k, s.phi k n = 1) (h : WordUpdate P X 0 m 1 n s s') :
    (∀ n, ∑ k, s'.phi k n = 1) ∧ (∃ psi : Vec K ℝ, (∀ k, P.psi (s.gamma k) = some (psi k)) ∧
      ∃ Z : ℝ, ∀ k, s'.phi k n * Z = m.beta k n * P.exp (psi k - 1)) ∧
    ∀ k l, l ≠ n → s'.phi k l = s.phi k l := by
  obtain ⟨psi, h1, h2, h3, _⟩ := h
  cases h2 with
  | succ ha hb =>
    cases hb
    obtain ⟨_, hs, Z, hZ⟩ := ha
    refine ⟨fun l => ?_, ⟨psi, h1, Z, fun k => ?_⟩, h3⟩
    · by_cases hl : l = n
      · rw [hl]; exact hs
      · simp only [h3 _ l hl, hd]
    · have := hZ k
      simp only [hDoc_zero he hd, he, one_mul, hd, hn, mul_zero, add_zero, Nat.cast_one, mul_one, div_one] at this
      exact this

/-- The two updates of a sweep over a document with one occurrence of each of two words. -/
theorem sweep_two {m : Model 2 2 1} (hm : m.Valid) (hk : ∀ n, m.Known n) (he : ∀ k c, m.eta k c = 0)
    (halpha : m.alpha = fun _ => 1 / 2) (P : Prims) :
    ∃ s : VP 2 2, supervised P ⟨1, 1 / 100, 0⟩ 1 0 orderDoc 0 m = some (s, .nan) ∧ Counts orderDoc m.alpha s ∧
      (∀ n, ∑ k, s.phi k n = 1) ∧
      (∃ psi : Vec 2 ℝ, (∀ k, P.psi (3 / 2) = some (psi k)) ∧
        ∃ Z : ℝ, ∀ k, s.phi k 0 * Z = m.beta k 0 * P.exp (psi k - 1)) ∧
      (∃ psi : Vec 2 ℝ, (∀ k, P.psi (1 + s.phi k 0) = some (psi k)) ∧
        ∃ Z : ℝ, ∀ k, s.phi k 1 * Z = m.beta k 1 * P.exp (psi k - 1)) := by
  have hd := initial_dist (K := 2) (by norm_num) orderDoc m.alpha
  have hc := initial_counts orderDoc m.alpha
  obtain ⟨⟨s, h⟩, hs⟩ := supervisedPhiGamma_total (P := P) (y := (0 : Fin 1)) (fp := 1) (X := orderDoc)
    (s := (initial orderDoc m.alpha, none)) hm hd hc fun n _ => hk n
  obtain ⟨h1, _, _, h4⟩ := C42_sweep hm hd hc hs
  have hp : present orderDoc = [0, 1] := by
    simp [present, orderDoc, List.finRange_succ]
  rw [hp] at h1
  dsimp only at h1 h4
  cases h1 with
  | @cons _ _ _ s1 _ u1 u2 =>
    cases u2 with
    | @cons _ _ _ s2 _ u2 u3 =>
      cases u3
      have hg := u1.choose_spec.2.2.2
      obtain ⟨a1, ⟨psi, a2, Z, a3⟩, a4⟩ := wordUpdate_zero he rfl (fun n => (hd n).2) u1
      obtain ⟨b1, ⟨psi', b2, Z', b3⟩, b4⟩ := wordUpdate_zero he rfl a1 u2
      have hi : ∀ k, (initial orderDoc m.alpha).gamma k = 3 / 2 := by
        intro k
        simp [initial, halpha, numWords, orderDoc]
        norm_num
      refine ⟨s, ?_, h4, b1, ⟨psi, fun k => ?_, Z, fun k => ?_⟩, ⟨psi', fun k => ?_, Z', b3⟩⟩
      · have hconv : converged (fun _ => 0) ((initial orderDoc m.alpha).gamma) (1 / 100) = false := by
          unfold converged
          rw [decide_eq_false_iff_not]
          simp only [hi, Fin.sum_univ_two]
          norm_num [abs_of_pos]
        unfold supervised supervisedRun
        rw [loop]
        dsimp only
        rw [hconv]
        have hs' : supervisedPhiGamma P orderDoc (ratio orderDoc) 0 m.beta m.eta 1 (initial orderDoc m.alpha, none) =
          some (s, h) := hs
        rw [hs']
        simp [loop, report, bernoulli]
      · rw [← hi k]; exact a2 k
      · rw [b4 k 0 (by decide)]; exact a3 k
      · have := b2 k
        rw [hg k, hi k] at this
        rw [b4 k 0 (by decide)]
        have e : (3 : ℝ) / 2 + (orderDoc 0 : ℝ) * (s1.phi k 0 - (initial orderDoc m.alpha).phi k 0) = 1 + s1.phi k 0 := by
          simp [orderDoc, initial]
          ring
        rwa [e] at this

/-- **C93** is false for the supervised step, which updates `gamma` after each word: exchanging the two words of the
vocabulary changes the topic proportions of a document in which each occurs once. -/
theorem C93_supervised_depends : ∃ s s', supervised fastPrims ⟨1, 1 / 100, 0⟩ 1 0 orderDoc 0 orderModel = some (s, .nan) ∧
    supervised fastPrims ⟨1, 1 / 100, 0⟩ 1 0 (fun n => orderDoc (Equiv.swap 0 1 n)) 0
      (orderModel.words (Equiv.swap 0 1)) = some (s', .nan) ∧ s'.gamma ≠ s.gamma := by
  have hm : orderModel.Valid := ⟨fun k => by simp [orderModel], fun k n => by simp only [orderModel]; split_ifs <;> norm_num⟩
  have hk : ∀ n, orderModel.Known n := fun n => ⟨0, by simp [orderModel]⟩
  obtain ⟨s, h1, h2, h3, ⟨p1, a1, Z1, c1⟩, ⟨p2, a2, Z2, c2⟩⟩ :=
    sweep_two hm hk (fun _ _ => rfl) rfl fastPrims
  obtain ⟨s', g1, g2, g3, ⟨q1, b1, W1, d1⟩, ⟨q2, b2, W2, d2⟩⟩ :=
    sweep_two (m := orderModel.words (Equiv.swap 0 1)) ⟨hm.alpha_pos, fun k n => hm.beta_nonneg k _⟩
      (fun n => hk _) (fun _ _ => rfl) rfl fastPrims
  refine ⟨s, s', h1, g1, fun hne => ?_⟩
  -- the first word belongs to the first topic
  have e10 : s.phi 1 0 = 0 := by
    have k0 := c1 0
    have k1 := c1 1
    simp only [orderModel, if_true, Fin.isValue, one_ne_zero, if_false, zero_mul, mul_eq_zero] at k0 k1
    rcases k1 with h | h
    · exact h
    · rw [h, mul_zero] at k0
      have := fastPrims.exp_pos (p1 0 - 1)
      linarith
  have e00 : s.phi 0 0 = 1 := by
    have := h3 0
    rw [Fin.sum_univ_two, e10, add_zero] at this
    exact this
  -- the other word, processed after it
  obtain ⟨v, v1, v2, v3, v4⟩ := digamma_one
  have hp0 : p2 0 = v + 1 := by
    have := a2 0
    rw [e00] at this
    have e : (1 : ℝ) + 1 = 2 := by norm_num
    rw [e] at this
    exact Option.some.inj (this.symm.trans v2)
  have hp1 : p2 1 = v := by
    have := a2 1
    rw [e10, add_zero] at this
    exact Option.some.inj (this.symm.trans v1)
  -- the other word, processed first
  have hq : q1 0 = q1 1 := Option.some.inj ((b1 0).symm.trans (b1 1))
  have f0 : 2 * s'.phi 0 0 = s'.phi 1 0 := by
    have k0 := d1 0
    have k1 := d1 1
    simp only [orderModel, Model.words, Equiv.swap_apply_left, if_true, Fin.isValue, one_ne_zero, if_false, hq, one_mul]
      at k0 k1
    have hW : W1 ≠ 0 := by
      rintro rfl
      have := fastPrims.exp_pos (q1 1 - 1)
      linarith
    have : (2 * s'.phi 0 0 - s'.phi 1 0) * W1 = 0 := by linarith
    rcases mul_eq_zero.1 this with h | h
    · linarith
    · exact absurd h hW
  have f1 : s'.phi 1 1 = 0 := by
    have k0 := d2 0
    have k1 := d2 1
    simp only [orderModel, Model.words, Equiv.swap_apply_right, if_true, Fin.isValue, one_ne_zero, if_false, zero_mul,
      mul_eq_zero] at k0 k1
    rcases k1 with h | h
    · exact h
    · rw [h, mul_zero] at k0
      have := fastPrims.exp_pos (q2 0 - 1)
      linarith
  have hs0 := h3 1
  have hs'0 := g3 0
  rw [Fin.sum_univ_two] at hs0 hs'0
  -- if gamma is the same, then so are the two weights
  have hgam : s.phi 1 1 = s'.phi 1 0 := by
    have k1 := h2 1
    have k2 := g2 1
    rw [hne] at k2
    rw [k1] at k2
    simp only [orderModel, Model.words, orderDoc, Fin.sum_univ_two, Nat.cast_one, one_mul, e10, f1] at k2
    linarith
  have hx : fastPrims.exp v = fastPrims.exp (v - 1) := by
    have k0 := c2 0
    have k1 := c2 1
    simp only [orderModel, if_true, Fin.isValue, one_ne_zero, if_false, one_mul, hp0, hp1] at k0 k1
    have e : v + 1 - 1 = v := by ring
    rw [e] at k0
    have t1 : s.phi 1 1 = 2 * s.phi 0 1 := by linarith
    rw [t1] at k1
    linarith
  obtain ⟨x, x1, x2, x3⟩ := FastExp.C30_accuracy v (by rw [abs_le]; constructor <;> linarith)
  obtain ⟨z, z1, z2, z3⟩ := FastExp.C30_accuracy (v - 1) (by rw [abs_le]; constructor <;> linarith)
  rw [fastPrims_exp, Option.some.injEq] at x1 z1
  rw [x1, z1] at hx
  subst hx
  have m1 : max 1 (2 * |v|) ≤ 2 := max_le (by norm_num) (by rw [abs_of_nonpos v4]; linarith)
  have m2 : max 1 (2 * |v - 1|) ≤ 4 := max_le (by norm_num) (by rw [abs_of_nonpos (by linarith)]; linarith)
  have m3 : max 1 (2 * |v|) * (1 / 1023 + 23 / 10 ^ 14) ≤ 2 * (1 / 1023 + 23 / 10 ^ 14 : ℝ) :=
    mul_le_mul_of_nonneg_right m1 (by norm_num)
  have m4 : max 1 (2 * |v - 1|) * (1 / 1023 + 23 / 10 ^ 14) ≤ 4 * (1 / 1023 + 23 / 10 ^ 14 : ℝ) :=
    mul_le_mul_of_nonneg_right m2 (by norm_num)
  have n1 := (abs_le.1 (x3.trans m3))
  have n2 := (abs_le.1 (z3.trans m4))
  norm_num at n1 n2
  linarith [n1.1, n1.2, n2.1, n2.2]

/-- **C93**, supervised step, where it holds: the words of the document keep their order among each other.  It is
missing for all other renumberings, by `C93_supervised_depends`. -/
theorem C93_supervised_partial (hm : m.Valid) (hK : 0 < K) (τ : Equiv.Perm (Fin V))
    (hτ : ∀ a b, X (τ a) ≠ 0 → X (τ b) ≠ 0 → τ a < τ b → a < b) {fp : ℕ} {s s' : VP K V} {r r' : Report}
    (h : supervised P cfg fp draw X (y : ℤ) m = some (s, r))
    (h' : supervised P cfg fp draw (fun n => X (τ n)) (y : ℤ) (m.words τ) = some (s', r')) :
    s'.gamma = s.gamma ∧ ∀ k n, X (τ n) ≠ 0 → s'.phi k n = s.phi k (τ n) := by
  have hw : SameWords X m (fun n => X (τ n)) (m.words τ) τ.symm :=
    { count := fun n _ => by simp
      onto := fun n hn => ⟨τ n, hn, by simp⟩
      mono := fun a b ha hb hab => hτ _ _ (by simpa using ha) (by simpa using hb) (by simpa using hab)
      beta := fun k n _ => by simp [Model.words]
      alpha := rfl
      eta := rfl }
  obtain ⟨h1, h2⟩ := C39_supervised hw hm ⟨hm.alpha_pos, fun k n => hm.beta_nonneg k _⟩ hK h h'
  refine ⟨h1.symm, fun k n hn => ?_⟩
  have := h2 k (τ n) hn
  simpa using this

/-- The unused third word of the vocabulary becomes the first. -/
example : ∀ a b : Fin 3, demoX ((finRotate 3).symm a) ≠ 0 →
    demoX ((finRotate 3).symm b) ≠ 0 → (finRotate 3).symm a < (finRotate 3).symm b → a < b := by
  decide

/-! ### C94: switching the supervision off -/

/-- The factor of the classes in the update of the fast step disappears. -/
def Off (w : ℝ) (eta : Mat K C ℝ) : Prop := w = 0 ∨ ∀ k c d, eta k c = eta k d

theorem fastStep_off {w : ℝ} (hoff : Off w m.eta) (hK : 0 < K) (hX : ∃ n, X n ≠ 0) (s : VP K V) :
    fastStep P w X (y : ℤ) m s = unsupervisedStep P X m s := by
  have hN : numWords X ≠ 0 := by
    obtain ⟨n, hn⟩ := hX
    intro h0
    exact hn (by simpa [numWords] using (Finset.sum_eq_zero_iff.1 h0) n (mem_univ n))
  unfold fastStep approximatePhi unsupervisedStep unsupervisedPhi
  rw [if_neg hN]
  obtain ⟨sm, h2⟩ := softmaxEtaZ_total (P := P) (ratio X) m.eta s.phi y
  obtain ⟨mx, h3⟩ := maxCoeff_total m.eta ⟨0, hK⟩ y
  obtain ⟨es, h4⟩ : ∃ es, etaScaled m.eta = some es := by
    unfold etaScaled; rw [h3]; exact ⟨_, rfl⟩
  have hzero : ∀ k, w * (es k y - ∑ c, es k c * sm c) = 0 := by
    intro k
    rcases hoff with rfl | heq
    · rw [zero_mul]
    · have hes : ∀ c, es k c = es k y := by
        intro c
        unfold etaScaled at h4
        rw [h3, Option.map_some, Option.some.injEq] at h4
        rw [← h4]
        split
        · simp only [heq k c y]
        · exact heq k c y
      simp only [hes]
      rw [← Finset.mul_sum, (softmaxEtaZ_spec h2).1.2]
      ring
  cases mapOpt P.psi s.gamma with
  | none => rfl
  | some psi =>
    simp only [h2, h4, Option.bind_some, colAt_fin, hzero, add_zero, Option.map_some]

/-- **C94**, fast supervised step: with weight zero, or when the parameters of the classes do not differ, the topic
proportions are those of the unsupervised step; and so are the responsibilities, if the document has a word. -/
theorem C94_fast {w : ℝ} (hoff : Off w m.eta) (hK : 0 < K) {draw' : ℝ} {s s' : VP K V} {r r' : Report}
    (h : fast P cfg w draw X (y : ℤ) m = some (s, r)) (h' : unsupervised P cfg draw' X m = some (s', r')) :
    s.gamma = s'.gamma ∧ ((∃ n, X n ≠ 0) → s = s') := by
  have hf := run_of_fast h
  have hu := run_of_unsupervised h'
  by_cases hX : ∃ n, X n ≠ 0
  · have : fastRun P cfg w X (y : ℤ) m = unsupervisedRun P cfg X m := by
      unfold fastRun unsupervisedRun
      have : fastStep P w X (y : ℤ) m = unsupervisedStep P X m := funext fun s => fastStep_off hoff hK hX s
      rw [this]
    rw [hf, hu, Option.some.injEq] at this
    exact ⟨by rw [this], fun _ => this⟩
  · refine ⟨?_, fun hX' => absurd hX' hX⟩
    push Not at hX
    have hN : numWords X = 0 := by unfold numWords; exact Finset.sum_eq_zero fun n _ => hX n
    have key : ∀ (phi : Mat K V ℝ), computeGamma X m.alpha phi = m.alpha := by
      intro phi
      funext k
      rw [computeGamma_apply]
      simp [hX]
    have hi : (initial X m.alpha).gamma = m.alpha := by
      funext k
      simp [initial, hN]
    have g1 : s.gamma = m.alpha := loop_inv (fun s : VP K V => s.gamma = m.alpha) (fun a b _ hab => by
      rw [fastStep_empty hN, Option.some.injEq] at hab
      rw [← hab]
      exact key _) _ _ _ _ hi hf
    have g2 : s'.gamma = m.alpha := loop_inv (fun s : VP K V => s.gamma = m.alpha) (fun a b _ hab => by
      unfold unsupervisedStep at hab
      rw [Option.map_eq_some_iff] at hab
      obtain ⟨phi, _, rfl⟩ := hab
      exact key _) _ _ _ _ hi hu
    rw [g1, g2]

/-- **C94**, correspondence step: if the class is equally likely under all topics then the topic proportions and the
responsibilities are those of the unsupervised step. -/
theorem C94_correspondence (hm : m.Valid) {e : ℝ} (he : 0 < e) (hoff : ∀ k, m.eta k y = e) {mu draw' : ℝ} {size : ℕ}
    {s : VP K V × Vec V ℝ} {s' : VP K V} {r r' : Report}
    (h : correspondence P cfg mu size draw X (y : ℤ) m = some (s, r))
    (h' : unsupervised P cfg draw' X m = some (s', r')) : s.1 = s' := by
  unfold correspondence at h
  simp only [Option.bind_eq_some_iff, Option.map_eq_some_iff, Prod.mk.injEq] at h
  obtain ⟨t, hc, _, _, rfl, _⟩ := h
  have hu := run_of_unsupervised h'
  have hstep : ∀ (s : VP K V × Vec V ℝ) (s' : VP K V), s.1 = s' →
      Option.Rel (fun (s : VP K V × Vec V ℝ) (s' : VP K V) => s.1 = s') (correspondenceStep P X (y : ℤ) m s)
        (unsupervisedStep P X m s') := by
    rintro s _ rfl
    unfold correspondenceStep correspondencePhi correspondenceTau unsupervisedStep unsupervisedPhi
    cases mapOpt P.psi s.1.gamma with
    | none => exact .none
    | some psi =>
      simp only [colAt_fin, Option.bind_some, Option.map_some, mapOpt_logc (v := fun k => m.eta k y) (fun k => by rw [hoff k]; exact he)]
      refine .some ?_
      have hphi : (normalizeCols fun k n => m.beta k n * P.exp (psi k) * P.exp (Real.log (m.eta k y) * s.2 n)) =
          normalizeCols fun k n => m.beta k n * P.exp (psi k) := by
        funext k n
        simp only [hoff, normalizeCols_apply]
        rw [← Finset.sum_mul]
        have hp := (P.exp_pos (Real.log e * s.2 n)).ne'
        by_cases h0 : ∑ k, m.beta k n * P.exp (psi k) = 0
        · rw [h0, zero_mul, if_pos rfl, if_pos rfl]
          have hz := (Finset.sum_eq_zero_iff_of_nonneg fun k _ =>
            mul_nonneg (hm.beta_nonneg k n) (P.exp_pos (psi k)).le).1 h0 k (mem_univ k)
          rw [hz, zero_mul]
        · rw [if_neg (mul_ne_zero h0 hp), if_neg h0, mul_div_mul_right _ _ hp]
      simp only [hphi]
  have := loop_sim (gam := fun s : VP K V × Vec V ℝ => s.1.gamma) (gam' := VP.gamma) (tol := cfg.tolerance)
    (fun (s : VP K V × Vec V ℝ) (s' : VP K V) => s.1 = s') (fun _ _ h => by rw [h]) hstep cfg.iterations (fun _ => 0)
    (initial X m.alpha, fun _ => 1 / (V : ℝ)) (initial X m.alpha) rfl
  unfold correspondenceRun at hc
  unfold unsupervisedRun at hu
  rw [hc, hu] at this
  cases this with
  | some h => exact h

theorem multinomialStep_off (hexp : ∀ x, P.exp x = Real.exp x) (hm : m.Valid) {ew e : ℝ}
    (hoff : ew = 0 ∨ ∀ k, m.eta k y = e) {s s' : VP K V} (h : multinomialStep P ew X (y : ℤ) m s = some s') :
    unsupervisedStep P X m s = some s' := by
  unfold multinomialStep multinomialPhi at h
  simp only [Option.map_eq_some_iff, Option.bind_eq_some_iff, colAt_fin, Option.some.injEq, exists_eq_left'] at h
  obtain ⟨phi, ⟨psi, hpsi, d, _, le, hle, rfl⟩, rfl⟩ := h
  obtain ⟨_, rfl⟩ := mapOpt_logc_eq hle
  unfold unsupervisedStep unsupervisedPhi
  rw [hpsi, Option.map_some, Option.map_some]
  have hphi : (normalizeCols fun k n => m.beta k n * P.exp (ew * Real.log (m.eta k y) + psi k - (d + 1))) =
      normalizeCols fun k n => m.beta k n * P.exp (psi k) := by
    obtain ⟨c, hc⟩ : ∃ c : ℝ, ∀ k, ew * Real.log (m.eta k y) = c := by
      rcases hoff with rfl | he
      · exact ⟨0, fun k => by rw [zero_mul]⟩
      · exact ⟨ew * Real.log e, fun k => by rw [he k]⟩
    have hw : ∀ k n, m.beta k n * P.exp (ew * Real.log (m.eta k y) + psi k - (d + 1)) =
        m.beta k n * P.exp (psi k) * Real.exp (c - (d + 1)) := by
      intro k n
      rw [hexp, hexp, hc, mul_assoc, ← Real.exp_add]
      congr 2
      ring
    funext k n
    simp only [hw, normalizeCols_apply]
    rw [← Finset.sum_mul]
    have hp := (Real.exp_pos (c - (d + 1))).ne'
    by_cases h0 : ∑ k, m.beta k n * P.exp (psi k) = 0
    · have hz := (Finset.sum_eq_zero_iff_of_nonneg fun k _ =>
        mul_nonneg (hm.beta_nonneg k n) (P.exp_pos (psi k)).le).1 h0 k (mem_univ k)
      rw [h0, zero_mul, if_pos rfl, if_pos rfl, hz, zero_mul]
    · rw [if_neg (mul_ne_zero h0 hp), if_neg h0, mul_div_mul_right _ _ hp]
  simp only [hphi]

/-- **C94**, multinomial step, with the exact exponential: with `eta_weight` zero, or when the class is equally likely
under all topics, the result is that of the unsupervised step whose tolerance is the likelihood fraction (which this
step gives to its test of convergence, see C38). -/
theorem C94_multinomial (hexp : ∀ x, P.exp x = Real.exp x) (hm : m.Valid) {ew e : ℝ}
    (hoff : ew = 0 ∨ ∀ k, m.eta k y = e) {mu prior draw' : ℝ} {size : ℕ} {s s' : VP K V} {r r' : Report}
    (h : multinomial P cfg ew mu prior size draw X (y : ℤ) m = some (s, r))
    (h' : unsupervised P { cfg with tolerance := cfg.computeLikelihood } draw' X m = some (s', r')) : s = s' := by
  have hc := run_of_multinomial h
  have hu := run_of_unsupervised h'
  have key : ∀ (i : ℕ) (old : Vec K ℝ) (a b : VP K V),
      loop (multinomialStep P ew X (y : ℤ) m) VP.gamma cfg.computeLikelihood i old a = some b →
      loop (unsupervisedStep P X m) VP.gamma cfg.computeLikelihood i old a = some b := by
    intro i
    induction i with
    | zero => intro old a b h; simpa [loop] using h
    | succ i ih =>
      intro old a b h
      unfold loop at h ⊢
      split at h
      · rename_i hcv; rw [if_pos hcv]; exact h
      · rename_i hcv
        rw [if_neg hcv]
        rw [Option.bind_eq_some_iff] at h
        obtain ⟨c, h1, h2⟩ := h
        rw [multinomialStep_off hexp hm hoff h1]
        exact ih _ _ _ h2
  have := key _ _ _ _ hc
  unfold unsupervisedRun at hu
  rw [this, Option.some.injEq] at hu
  exact hu

/-- The document and topics of `demo`, with the classes indifferent: all three steps run, and agree. -/
noncomputable def indifferent : Model 2 3 2 := { demo with eta := fun _ _ => 1 / 2 }

theorem indifferent_valid : indifferent.Valid := ⟨demo_valid.alpha_pos, demo_valid.beta_nonneg⟩

example : ∃ s r s' r' t q, fast fastPrims demoCfg 0 0 demoX ((1 : Fin 2) : ℤ) demo = some (s, r) ∧
    unsupervised fastPrims demoCfg 0 demoX demo = some (s', r') ∧
    correspondence fastPrims demoCfg 2 5 0 demoX ((1 : Fin 2) : ℤ) indifferent = some (t, q) ∧ s = s' ∧ t.1 = s' := by
  obtain ⟨s, r, h⟩ := C35_fast_defined (P := fastPrims) (cfg := demoCfg) (draw := 0) (w := 0) (X := demoX) (y := 1) demo_valid
    (by norm_num) (Or.inl ⟨0, by simp [demoX]⟩)
  obtain ⟨s', r', h', _⟩ := C35_unsupervised_defined (P := fastPrims) (cfg := demoCfg) (draw := 0) (X := demoX)
    demo_valid (by norm_num)
  obtain ⟨t, q, h''⟩ := C35_correspondence_defined (P := fastPrims) (cfg := demoCfg) (draw := 0) (X := demoX) (mu := 2)
    (N := 5) (y := 1) indifferent_valid (fun k => by norm_num [indifferent])
  refine ⟨s, r, s', r', t, q, h, h', h'', (C94_fast (Or.inl rfl) (by norm_num) h h').2 ⟨0, by simp [demoX]⟩, ?_⟩
  exact C94_correspondence indifferent_valid (e := 1 / 2) (by norm_num) (fun k => rfl) h'' h'

example : ∃ s r r', multinomial (exactPrims fun _ => 0) demoCfg 0 2 (1 / 2) 5 0 demoX ((1 : Fin 2) : ℤ) demo = some (s, r) ∧
    unsupervised (exactPrims fun _ => 0) { demoCfg with tolerance := demoCfg.computeLikelihood } 0 demoX demo =
      some (s, r') := by
  obtain ⟨s, r, h⟩ := C35_multinomial_defined (P := exactPrims fun _ => 0) (cfg := demoCfg) (draw := 0) (X := demoX)
    (ew := 0) (mu := 2) (prior := 1 / 2) (N := 5) (y := 1) demo_valid (by norm_num) fun k => demo_eta k 1
  obtain ⟨s', r', h', _⟩ := C35_unsupervised_defined (P := exactPrims fun _ => 0)
    (cfg := { demoCfg with tolerance := demoCfg.computeLikelihood }) (draw := 0) (X := demoX) demo_valid (by norm_num)
  have := C94_multinomial (e := 0) (fun x => rfl) demo_valid (Or.inl rfl) h h'
  subst this
  exact ⟨s, r, r', h, h'⟩

end Verif.EStep
