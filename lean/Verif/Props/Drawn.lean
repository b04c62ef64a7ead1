import Verif.Props.Symmetry
import Verif.Lemmas.WeightMono
import Verif.Props.Gauge

/-! Property C150: the class of a document draws it towards the topics that speak for the class. -/
namespace Verif.EStep

open MathUtils Finset

variable {K V C : ℕ} {P : Prims} {cfg : Cfg} {X : Vec V ℕ}

/-- The digamma function in use does not decrease on the positive numbers (the exact one does not: `digamma_rising`). -/
def Rising (P : Prims) : Prop := ∀ x y a b, 0 < x → x ≤ y → P.psi x = some a → P.psi y = some b → a ≤ b

/-- For no class does topic `j`, as against any other topic, speak more than for class `y`. -/
def SpeaksMost (eta : Mat K C ℝ) (j : Fin K) (y : Fin C) : Prop :=
  ∀ k c, eta j c - eta k c ≤ eta j y - eta k y

/-! ### One pass -/

/-- If all the ratios to topic `j` fall, its share rises. -/
theorem tilt {a b : Mat K V ℝ} (j : Fin K) (ha : ∀ k n, 0 ≤ a k n) (hb : ∀ k n, 0 ≤ b k n) (n : Fin V)
    (h : ∀ k, a j n * b k n ≤ b j n * a k n) (hz : (∀ k, a k n = 0) ↔ ∀ k, b k n = 0) :
    normalizeCols a j n ≤ normalizeCols b j n := by
  have e : ∀ w : Mat K V ℝ, (∀ k n, 0 ≤ w k n) → ((∑ k, w k n) = 0 ↔ ∀ k, w k n = 0) := fun w hw => by
    rw [sum_eq_zero_iff_of_nonneg fun k _ => hw k n]; simp
  rw [normalizeCols_apply, normalizeCols_apply]
  by_cases h0 : (∑ k, a k n) = 0
  · rw [if_pos h0, if_pos ((e b hb).2 (hz.1 ((e a ha).1 h0))), (e a ha).1 h0 j]
    exact hb j n
  · have h1 : (∑ k, b k n) ≠ 0 := fun h1 => h0 ((e a ha).2 (hz.2 ((e b hb).1 h1)))
    rw [if_neg h0, if_neg h1, div_le_div_iff₀ ((sum_nonneg fun k _ => ha k n).lt_of_ne' h0)
      ((sum_nonneg fun k _ => hb k n).lt_of_ne' h1), mul_sum, mul_sum]
    exact sum_le_sum fun k _ => h k

theorem tilt_exp {beta A B : Mat K V ℝ} (hbeta : ∀ k n, 0 ≤ beta k n) (j : Fin K) (n : Fin V)
    (h : ∀ k, A j n + B k n ≤ B j n + A k n) :
    normalizeCols (fun k n => beta k n * Real.exp (A k n)) j n ≤
      normalizeCols (fun k n => beta k n * Real.exp (B k n)) j n := by
  refine tilt j (fun k n => mul_nonneg (hbeta k n) (Real.exp_pos _).le)
    (fun k n => mul_nonneg (hbeta k n) (Real.exp_pos _).le) n (fun k => ?_) ?_
  · calc beta j n * Real.exp (A j n) * (beta k n * Real.exp (B k n)) = beta j n * beta k n * Real.exp (A j n + B k n) := by
          rw [Real.exp_add]; ring
      _ ≤ beta j n * beta k n * Real.exp (B j n + A k n) :=
          mul_le_mul_of_nonneg_left (Real.exp_le_exp.2 (h k)) (mul_nonneg (hbeta _ _) (hbeta _ _))
      _ = _ := by rw [Real.exp_add]; ring
  · simp only [mul_eq_zero, (Real.exp_pos _).ne', or_false]

theorem normalize_nonneg {a : Mat K V ℝ} (ha : ∀ k n, 0 ≤ a k n) (k : Fin K) (n : Fin V) : 0 ≤ normalizeCols a k n := by
  rw [normalizeCols_apply]
  split
  · exact ha k n
  · exact div_nonneg (ha k n) (sum_nonneg fun k _ => ha k n)

/-- The updates of `phi` and `gamma` with the exponents `A`. -/
noncomputable def update (X : Vec V ℕ) (m : Model K V C) (A : Mat K V ℝ) : VP K V :=
  let phi := normalizeCols fun k n => m.beta k n * Real.exp (A k n)
  ⟨phi, computeGamma X m.alpha phi⟩

theorem update_pos {m : Model K V C} (hm : m.Valid) (A : Mat K V ℝ) (k : Fin K) : 0 < (update X m A).gamma k := by
  simp only [update, computeGamma_apply]
  exact add_pos_of_pos_of_nonneg (hm.alpha_pos k) (sum_nonneg fun n _ => mul_nonneg (Nat.cast_nonneg _)
    (normalize_nonneg (fun k n => mul_nonneg (hm.beta_nonneg k n) (Real.exp_pos _).le) k n))

theorem update_le {m : Model K V C} (hm : m.Valid) {A B : Mat K V ℝ} {j : Fin K}
    (h : ∀ k n, A j n + B k n ≤ B j n + A k n) :
    (∀ n, (update X m A).phi j n ≤ (update X m B).phi j n) ∧ (update X m A).gamma j ≤ (update X m B).gamma j := by
  have h1 : ∀ n, (update X m A).phi j n ≤ (update X m B).phi j n := fun n => tilt_exp hm.beta_nonneg j n fun k => h k n
  refine ⟨h1, ?_⟩
  show computeGamma X m.alpha (update X m A).phi j ≤ computeGamma X m.alpha (update X m B).phi j
  rw [computeGamma_apply, computeGamma_apply]
  exact add_le_add_right (sum_le_sum fun n _ => mul_le_mul_of_nonneg_left (h1 n) (Nat.cast_nonneg _)) _

theorem unsupervisedStep_update_eq (hexp : ∀ x, P.exp x = Real.exp x) {m : Model K V C} {s t : VP K V}
    (h : unsupervisedStep P X m s = some t) :
    ∃ psi, mapOpt P.psi s.gamma = some psi ∧ t = update X m fun k _ => psi k := by
  unfold unsupervisedStep unsupervisedPhi at h
  simp only [hexp, Option.map_map, Option.map_eq_some_iff] at h
  obtain ⟨psi, h1, rfl⟩ := h
  exact ⟨psi, h1, rfl⟩

theorem fastStep_update_eq (hexp : ∀ x, P.exp x = Real.exp x) {m : Model K V C} {w : ℝ} (hw : 0 ≤ w) {y : Fin C} {j : Fin K}
    (hy : SpeaksMost m.eta j y) (hX : ∃ n, X n ≠ 0) {s t : VP K V} (h : fastStep P w X y m s = some t) :
    ∃ psi d : Vec K ℝ, mapOpt P.psi s.gamma = some psi ∧ t = update X m (fun k _ => psi k + d k) ∧ ∀ k, d k ≤ d j := by
  have hN : numWords X ≠ 0 := by
    obtain ⟨n, hn⟩ := hX
    intro h0
    exact hn (by simpa [numWords] using (sum_eq_zero_iff.1 h0) n (mem_univ n))
  unfold fastStep approximatePhi at h
  rw [if_neg hN] at h
  simp only [Option.map_eq_some_iff, Option.bind_eq_some_iff, Option.some.injEq, colAt_fin] at h
  obtain ⟨phi, ⟨psi, h1, sm, h2, es, h3, ey, rfl, rfl⟩, rfl⟩ := h
  refine ⟨psi, fun k => w * (es k y - ∑ c, es k c * sm c), h1, by simp only [hexp]; rfl, fun k => ?_⟩
  refine mul_le_mul_of_nonneg_left ?_ hw
  have hs := (softmaxEtaZ_spec h2).1
  obtain ⟨M, hM, he⟩ : ∃ M : ℝ, 0 < M ∧ ∀ k c, es k c = m.eta k c / M := by
    obtain ⟨mx, h4, h5, h6⟩ := etaScaled_spec h3
    rcases h6 with ⟨hp, h6⟩ | ⟨_, rfl⟩
    · exact ⟨mx, hp, fun k c => by have := h6 k c; field_simp; linarith⟩
    · exact ⟨1, one_pos, fun k c => by simp⟩
  have key : ∑ c, (es j c - es k c) * sm c ≤ es j y - es k y := by
    calc ∑ c, (es j c - es k c) * sm c ≤ ∑ c, (es j y - es k y) * sm c := by
          refine sum_le_sum fun c _ => mul_le_mul_of_nonneg_right ?_ (hs.1 c)
          simp only [he, ← sub_div]
          exact div_le_div_of_nonneg_right (hy k c) hM.le
      _ = es j y - es k y := by rw [← mul_sum, hs.2, mul_one]
  simp only [sub_mul, sum_sub_distrib] at key
  linarith

/-- **C150**, one pass of the fast supervised step, any number of topics: the responsibility of a topic that speaks most for
the class is at least what plain LDA makes it from the same state, for every word, and so is the share of the document. -/
theorem C150_pass (hexp : ∀ x, P.exp x = Real.exp x) {m : Model K V C} (hm : m.Valid) {w : ℝ} (hw : 0 ≤ w) {y : Fin C}
    {j : Fin K} (hy : SpeaksMost m.eta j y) (hX : ∃ n, X n ≠ 0) {s t u : VP K V} (h : fastStep P w X y m s = some t)
    (h' : unsupervisedStep P X m s = some u) : (∀ n, u.phi j n ≤ t.phi j n) ∧ u.gamma j ≤ t.gamma j := by
  obtain ⟨psi, d, h1, rfl, h2⟩ := fastStep_update_eq hexp hw hy hX h
  obtain ⟨psi', h3, rfl⟩ := unsupervisedStep_update_eq hexp h'
  cases h1.symm.trans h3
  exact update_le hm fun k n => by have := h2 k; linarith

/-! ### All passes, two topics -/

theorem loop_pair {S S' : Type} {step : S → Option S} {step' : S' → Option S'} {gam : S → Vec K ℝ} {gam' : S' → Vec K ℝ}
    {tol tol' : ℝ} (ht : tol ≤ 0) (ht' : tol' ≤ 0) (R : S → S' → Prop)
    (hstep : ∀ s s' t t', R s s' → step s = some t → step' s' = some t' → R t t') :
    ∀ (i : ℕ) (old old' : Vec K ℝ) s s' t t', R s s' → loop step gam tol i old s = some t →
      loop step' gam' tol' i old' s' = some t' → R t t' := by
  have hc : ∀ (a b : Vec K ℝ) tol, tol ≤ 0 → converged a b tol = false := by
    intro a b tol ht
    simp only [converged, decide_eq_false_iff_not, not_and, not_lt]
    intro _
    exact ht.trans (div_nonneg (sum_nonneg fun _ _ => abs_nonneg _) (Nat.cast_nonneg _))
  intro i
  induction i with
  | zero =>
    intro old old' s s' t t' hR h h'
    cases h; cases h'; exact hR
  | succ i ih =>
    intro old old' s s' t t' hR h h'
    rw [loop, hc _ _ _ ht] at h
    rw [loop, hc _ _ _ ht'] at h'
    simp only [Bool.false_eq_true, if_false, Option.bind_eq_some_iff] at h h'
    obtain ⟨a, h1, h2⟩ := h
    obtain ⟨a', h1', h2'⟩ := h'
    exact ih _ _ _ _ _ _ (hstep _ _ _ _ hR h1 h1') h2 h2'

/-- With two topics: `j` has at most as much of the document in `s` as in `t`, and the other at least as much. -/
def Tilted (j : Fin 2) (s t : VP 2 V) : Prop :=
  (∀ k, 0 < s.gamma k ∧ 0 < t.gamma k) ∧ s.gamma j ≤ t.gamma j ∧ ∀ k, k ≠ j → t.gamma k ≤ s.gamma k

theorem tilted_initial {m : Model 2 V C} (hm : m.Valid) (j : Fin 2) : Tilted j (initial X m.alpha) (initial X m.alpha) := by
  have : ∀ k, 0 < (initial X m.alpha).gamma k := fun k => by
    simp only [initial]
    exact add_pos_of_pos_of_nonneg (hm.alpha_pos k) (by positivity)
  exact ⟨fun k => ⟨this k, this k⟩, le_rfl, fun _ _ => le_rfl⟩

theorem tilted_update {m : Model 2 V C} (hm : m.Valid) (j : Fin 2) {A B : Mat 2 V ℝ}
    (h : ∀ k, k ≠ j → ∀ n, A j n + B k n ≤ B j n + A k n) : Tilted j (update X m A) (update X m B) := by
  refine ⟨fun k => ⟨update_pos hm A k, update_pos hm B k⟩, (update_le hm fun k n => ?_).2, fun k hk => (update_le hm fun i n => ?_).2⟩
  · by_cases hk : k = j
    · rw [hk, add_comm]
    · exact h k hk n
  · by_cases hi : i = k
    · rw [hi, add_comm]
    · have : i = j := by omega
      have := h k hk n
      subst_vars
      linarith

/-- `psi` of topic `j` rises and that of the other falls. -/
theorem tilted_psi (hpsi : Rising P) {j : Fin 2} {s t : VP 2 V} (h : Tilted j s t) {p q : Vec 2 ℝ}
    (hp : mapOpt P.psi s.gamma = some p) (hq : mapOpt P.psi t.gamma = some q) :
    p j ≤ q j ∧ ∀ k, k ≠ j → q k ≤ p k :=
  ⟨hpsi _ _ _ _ (h.1 j).1 h.2.1 (mapOpt_eq.1 hp j) (mapOpt_eq.1 hq j), fun k hk =>
    hpsi _ _ _ _ (h.1 k).2 (h.2.2 k hk) (mapOpt_eq.1 hq k) (mapOpt_eq.1 hp k)⟩

variable {m : Model 2 V C} {y : Fin C} {j : Fin 2}

/-- **C150**, fast supervised step with two topics, through all its passes: the topic that speaks most for the class gets
at least as much of the document as it gets from plain LDA (and so the other gets at most as much). -/
theorem C150_fast_partial (hexp : ∀ x, P.exp x = Real.exp x) (hpsi : Rising P) (hm : m.Valid) (htol : cfg.tolerance ≤ 0)
    {w : ℝ} (hw : 0 ≤ w) (hy : SpeaksMost m.eta j y) {draw draw' : ℝ} {s s' : VP 2 V} {r r' : Report}
    (h : fast P cfg w draw X y m = some (s, r)) (h' : unsupervised P cfg draw' X m = some (s', r')) :
    s'.gamma j ≤ s.gamma j ∧ ∀ k, k ≠ j → s.gamma k ≤ s'.gamma k := by
  by_cases hX : ∃ n, X n ≠ 0
  · refine (loop_pair htol htol (Tilted j) ?_ _ _ _ _ _ _ _ (tilted_initial hm j) (run_of_unsupervised h') (run_of_fast h)).2
    intro a b a' b' hR ha hb
    obtain ⟨p, hp, rfl⟩ := unsupervisedStep_update_eq hexp ha
    obtain ⟨q, d, hq, rfl, hd⟩ := fastStep_update_eq hexp hw hy hX hb
    obtain ⟨h1, h2⟩ := tilted_psi hpsi hR hp hq
    exact tilted_update hm j fun k hk n => by
      have := h2 k hk
      have := hd k
      linarith
  · push Not at hX
    have e : s.gamma = m.alpha := counts_empty (fun k => (C37_fast hm h k).1) hX
    have e' : s'.gamma = m.alpha := counts_empty (fun k => (C37_unsupervised hm two_pos h' k).1) hX
    rw [e, e']
    exact ⟨le_rfl, fun _ _ => le_rfl⟩

/-- **C150**, two topics and two classes: a document gets more of a topic if its label is the class the topic speaks for
than if it is the other one, with plain LDA in between. -/
theorem C150_two_classes_partial (hexp : ∀ x, P.exp x = Real.exp x) (hpsi : Rising P) {m : Model 2 V 2} (hm : m.Valid)
    (htol : cfg.tolerance ≤ 0) {w : ℝ} (hw : 0 ≤ w) (hy : m.eta 0 1 - m.eta 1 1 ≤ m.eta 0 0 - m.eta 1 0)
    {draw draw' draw'' : ℝ} {s s' u : VP 2 V} {r r' q : Report}
    (h : fast P cfg w draw X ((0 : Fin 2) : ℤ) m = some (s, r)) (h' : fast P cfg w draw' X ((1 : Fin 2) : ℤ) m = some (s', r'))
    (hu : unsupervised P cfg draw'' X m = some (u, q)) : s'.gamma 0 ≤ u.gamma 0 ∧ u.gamma 0 ≤ s.gamma 0 := by
  have h0 : SpeaksMost m.eta 0 0 := by
    intro k c
    fin_cases k <;> fin_cases c <;> simp_all
  have h1 : SpeaksMost m.eta 1 1 := by
    intro k c
    fin_cases k <;> fin_cases c <;> simp_all
    linarith
  exact ⟨(C150_fast_partial hexp hpsi hm htol hw h1 h' hu).2 0 (by decide),
    (C150_fast_partial hexp hpsi hm htol hw h0 h hu).1⟩

/-- **C150**, multinomial step with two topics: between two labels the one for which topic `j` has the greater odds gives it
at least as much of the document.  (The step gives the likelihood fraction to its test of convergence, C38.) -/
theorem C150_multinomial_partial (hexp : ∀ x, P.exp x = Real.exp x) (hpsi : Rising P) (hm : m.Valid)
    (htol : cfg.computeLikelihood ≤ 0) {ew : ℝ} (hw : 0 ≤ ew) {y' : Fin C}
    (hy : ∀ k, m.eta j y' * m.eta k y ≤ m.eta j y * m.eta k y')
    {mu prior mu' prior' draw draw' : ℝ} {N N' : ℕ} {s s' : VP 2 V} {r r' : Report}
    (h : multinomial P cfg ew mu prior N draw X y m = some (s, r))
    (h' : multinomial P cfg ew mu' prior' N' draw' X y' m = some (s', r')) :
    s'.gamma j ≤ s.gamma j ∧ ∀ k, k ≠ j → s.gamma k ≤ s'.gamma k := by
  have step : ∀ (y : Fin C) (a b : VP 2 V), multinomialStep P ew X y m a = some b → ∃ (p : Vec 2 ℝ) (c : ℝ),
      mapOpt P.psi a.gamma = some p ∧ (∀ k, 0 < m.eta k y) ∧
      b = update X m (fun k _ => ew * Real.log (m.eta k y) + p k - c) := by
    intro y a b hb
    unfold multinomialStep multinomialPhi at hb
    simp only [Option.map_eq_some_iff, Option.bind_eq_some_iff, Option.some.injEq, colAt_fin, hexp] at hb
    obtain ⟨phi, ⟨p, h1, d, h2, ey, rfl, le, h3, rfl⟩, rfl⟩ := hb
    obtain ⟨h4, rfl⟩ := mapOpt_logc_eq h3
    exact ⟨p, d + 1, h1, h4, rfl⟩
  refine (loop_pair htol htol (Tilted j) ?_ _ _ _ _ _ _ _ (tilted_initial hm j) (run_of_multinomial h') (run_of_multinomial h)).2
  intro a b a' b' hR ha hb
  obtain ⟨p, c, hp, he', rfl⟩ := step y' _ _ ha
  obtain ⟨q, c', hq, he, rfl⟩ := step y _ _ hb
  obtain ⟨h1, h2⟩ := tilted_psi hpsi hR hp hq
  refine tilted_update hm j fun k hk n => ?_
  have := h2 k hk
  have hl : Real.log (m.eta j y') + Real.log (m.eta k y) ≤ Real.log (m.eta j y) + Real.log (m.eta k y') := by
    rw [← Real.log_mul (he' j).ne' (he k).ne', ← Real.log_mul (he j).ne' (he' k).ne']
    exact Real.log_le_log (mul_pos (he' j) (he k)) (hy k)
  have := mul_le_mul_of_nonneg_left hl hw
  rw [mul_add, mul_add] at this
  linarith

/-- **C150**, correspondence step with two topics: the topic under which the class is more likely gets at least as much of
the document as it gets from plain LDA. -/
theorem C150_correspondence_partial (hexp : ∀ x, P.exp x = Real.exp x) (hpsi : Rising P) (hm : m.Valid)
    (htol : cfg.tolerance ≤ 0) (hy : ∀ k, m.eta k y ≤ m.eta j y) {mu draw draw' : ℝ} {N : ℕ} {s : VP 2 V × Vec V ℝ}
    {s' : VP 2 V} {r r' : Report} (h : correspondence P cfg mu N draw X y m = some (s, r))
    (h' : unsupervised P cfg draw' X m = some (s', r')) :
    s'.gamma j ≤ s.1.gamma j ∧ ∀ k, k ≠ j → s.1.gamma k ≤ s'.gamma k := by
  refine (loop_pair htol htol (fun (a : VP 2 V) (b : VP 2 V × Vec V ℝ) => Tilted j a b.1 ∧ ∀ n, 0 ≤ b.2 n) ?_ _ _ _ _ _ _ _
    ⟨tilted_initial hm j, fun n => by positivity⟩ (run_of_unsupervised h') (run_of_correspondence h)).1.2
  rintro a ⟨b, tau⟩ a' ⟨b', tau'⟩ ⟨hR, ht⟩ ha hb
  obtain ⟨p, hp, rfl⟩ := unsupervisedStep_update_eq hexp ha
  unfold correspondenceStep correspondencePhi correspondenceTau at hb
  simp only [Option.map_eq_some_iff, Option.bind_eq_some_iff, Option.some.injEq, colAt_fin, hexp, Prod.mk.injEq] at hb
  obtain ⟨phi, ⟨q, hq, ey, rfl, le, h3, rfl⟩, tau2, ⟨ey', rfl, le', h4, rfl⟩, rfl, rfl⟩ := hb
  obtain ⟨h5, rfl⟩ := mapOpt_logc_eq h3
  obtain ⟨h1, h2⟩ := tilted_psi hpsi hR hp hq
  constructor
  · simp only [mul_assoc, ← Real.exp_add]
    refine tilted_update hm j fun k hk n => ?_
    have := h2 k hk
    have := mul_le_mul_of_nonneg_right (Real.log_le_log (h5 k) (hy k)) (ht n)
    linarith
  · intro n
    exact normalize_nonneg (fun _ _ => (Real.exp_pos _).le) n 0

/-! ### The hypotheses can be met -/

/-- The exact digamma function. -/
theorem digamma_rising : Rising (exactPrims Digamma.psi) := by
  intro x y a b hx hxy ha hb
  cases ha
  cases hb
  exact FastExp.psi_mono hx hxy

/-- The document and the topics of `demo`, with classes that the topics speak for. -/
noncomputable def spoken : Model 2 3 2 := { demo with eta := ![![1, -1], ![-1, 1]] }

theorem spoken_valid : spoken.Valid := ⟨demo_valid.alpha_pos, demo_valid.beta_nonneg⟩

example (w : ℝ) (hw : 0 ≤ w) : ∃ s s' u : VP 2 3, ∃ r r' q,
    fast (exactPrims Digamma.psi) { demoCfg with tolerance := 0 } w 0 demoX ((0 : Fin 2) : ℤ) spoken = some (s, r) ∧
    fast (exactPrims Digamma.psi) { demoCfg with tolerance := 0 } w 0 demoX ((1 : Fin 2) : ℤ) spoken = some (s', r') ∧
    unsupervised (exactPrims Digamma.psi) { demoCfg with tolerance := 0 } 0 demoX spoken = some (u, q) ∧
    s'.gamma 0 ≤ u.gamma 0 ∧ u.gamma 0 ≤ s.gamma 0 := by
  obtain ⟨s, r, h⟩ := C35_fast_defined (P := exactPrims Digamma.psi) (cfg := { demoCfg with tolerance := 0 }) (draw := 0) (w := w)
    (X := demoX) (y := 0) spoken_valid (by norm_num) (Or.inl ⟨0, by simp [demoX]⟩)
  obtain ⟨s', r', h'⟩ := C35_fast_defined (P := exactPrims Digamma.psi) (cfg := { demoCfg with tolerance := 0 }) (draw := 0) (w := w)
    (X := demoX) (y := 1) spoken_valid (by norm_num) (Or.inl ⟨0, by simp [demoX]⟩)
  obtain ⟨u, q, hu, _⟩ := C35_unsupervised_defined (P := exactPrims Digamma.psi) (cfg := { demoCfg with tolerance := 0 })
    (draw := 0) (X := demoX) spoken_valid (by norm_num)
  exact ⟨s, s', u, r, r', q, h, h', hu, C150_two_classes_partial (fun _ => rfl) digamma_rising spoken_valid le_rfl hw
    (by norm_num [spoken]) h h' hu⟩

/-! ### Where it fails -/

/-- Topic 0 speaks for class 0 and is not known for the only word. -/
noncomputable def aloud : Model 2 1 2 := ⟨fun _ => 1, fun k _ => if k = 0 then 1 / 20 else 1, fun k c => if k = 0 ∧ c = 0 then 2 else 0⟩

theorem aloud_run : ∃ r : VP 2 1 × Option (Vec 2 ℝ),
    supervisedRun (exactPrims fun _ => 0) gaugeCfg 2 (fun _ => 1) ((0 : Fin 2) : ℤ) aloud = some r ∧ r.1.gamma 0 < 1 + 1 / 21 := by
  have hr : ∀ n, ratio (fun _ : Fin 1 => 1) n = 1 := fun n => by simp [ratio, numWords]
  obtain ⟨a, ha⟩ : ∃ a, a = Real.exp 2 := ⟨_, rfl⟩
  have ha7 : (7.38 : ℝ) < a := by
    have := Real.exp_one_gt_d9
    rw [ha, show (2 : ℝ) = 1 + 1 by norm_num, Real.exp_add]
    nlinarith
  have hf : ∀ (phi : Mat 2 1 ℝ) n, factor (exactPrims fun _ => 0) (ratio fun _ => 1) aloud.eta phi n =
      ![a * phi 0 n + phi 1 n, phi 0 n + phi 1 n] := by
    intro phi n
    funext c
    fin_cases c <;> simp [factor, hr, aloud, exactPrims, ha]
  have hh : hOf (exactPrims fun _ => 0) (ratio fun _ : Fin 1 => 1) aloud.eta (fun _ : Fin 2 => 1) 0 = ![a + 1, 2] := by
    funext k
    fin_cases k <;> norm_num [hOf, hr, aloud, exactPrims, ha]
  have hm : ∀ g : Vec 2 ℝ, mapOpt (exactPrims fun _ => 0).psi g = some fun _ => 0 := fun g => mapOpt_eq.2 fun _ => rfl
  have hfp : ∀ c d : ℝ, 0 ≤ c → 0 < d → ∃ c' d' : ℝ, fixedPoint (exactPrims fun _ => 0) 1 1 (fun k => aloud.beta k 0)
      (fun k => aloud.eta k 0) (fun _ => 0) ![a + 1, 2] ![c, d] = some ![c', d'] ∧
      0 < c' ∧ 0 < d' ∧ c' + d' = 1 ∧ c' = 1 / 20 * Real.exp (2 - (a - 1) / ((a + 1) * c + 2 * d)) * d' := by
    intro c d hc hd
    have h0 : 0 < (a + 1) * c + 2 * d := by positivity
    have h1 : ∑ k : Fin 2, (![a + 1, 2] : Vec 2 ℝ) k * (![c, d] : Vec 2 ℝ) k = (a + 1) * c + 2 * d := by
      simp [Fin.sum_univ_two]
    let p := 1 / 20 * Real.exp (2 - (a + 1) * (1 / ((a + 1) * c + 2 * d)))
    let q := Real.exp (- (2 * (1 / ((a + 1) * c + 2 * d))))
    have hp : 0 < p := by positivity
    have hq : 0 < q := by positivity
    refine ⟨p / (p + q), q / (p + q), ?_, by positivity, by positivity, by field_simp, ?_⟩
    · unfold fixedPoint
      rw [h1, if_neg h0.ne']
      have h3 : ∀ k : Fin 2, aloud.beta k 0 * (exactPrims fun _ => 0).exp (0 + 1 * aloud.eta k 0 -
          (![a + 1, 2] : Vec 2 ℝ) k * (1 / ((a + 1) * c + 2 * d) / ((1 : ℕ) : ℝ))) = (![p, q] : Vec 2 ℝ) k := by
        intro k
        fin_cases k <;> simp [aloud, exactPrims, p, q]
      simp only [h3, Fin.sum_univ_two]
      simp only [Matrix.cons_val_zero, Matrix.cons_val_one, (add_pos hp hq).ne', if_false, Option.some.injEq]
      funext k
      fin_cases k <;> rfl
    · have : p = 1 / 20 * Real.exp (2 - (a - 1) / ((a + 1) * c + 2 * d)) * q := by
        simp only [p, q]
        rw [mul_assoc, ← Real.exp_add]
        congr 2
        field_simp
        ring
      rw [mul_div_assoc', ← this]
  obtain ⟨c, d, e1, hc, hd, hcd, e2⟩ := hfp (1 / 2) (1 / 2) (by norm_num) (by norm_num)
  obtain ⟨c', d', f1, hc', hd', hcd', f2⟩ := hfp c d hc.le hd
  have hc14 : c ≤ 0.14 := by
    have h1 : 2 - (a - 1) / ((a + 1) * (1 / 2) + 2 * (1 / 2)) ≤ 1 := by
      have : 0 < (a + 1) * (1 / 2) + 2 * (1 / 2) := by linarith
      rw [sub_le_iff_le_add, ← sub_le_iff_le_add', le_div_iff₀ this]
      linarith
    have h2 := Real.exp_le_exp.2 h1
    have h3 := Real.exp_one_lt_d9
    have : d ≤ 1 := by linarith
    rw [e2]
    have h4 := Real.exp_pos (2 - (a - 1) / ((a + 1) * (1 / 2) + 2 * (1 / 2)))
    nlinarith
  have hc21 : c' < 1 / 21 := by
    have h0 : 0 < (a + 1) * c + 2 * d := by positivity
    have h1 : 2 - (a - 1) / ((a + 1) * c + 2 * d) < 0 := by
      rw [sub_neg, lt_div_iff₀ h0]
      nlinarith
    have h2 : Real.exp (2 - (a - 1) / ((a + 1) * c + 2 * d)) < 1 := (Real.exp_lt_exp.2 h1).trans_eq Real.exp_zero
    nlinarith
  have hrun : ∃ r : VP 2 1 × Option (Vec 2 ℝ),
      supervisedRun (exactPrims fun _ => 0) gaugeCfg 2 (fun _ => 1) ((0 : Fin 2) : ℤ) aloud = some r ∧
      r.1.gamma 0 = 1 + 1 / 2 + (c' - 1 / 2) := by
    have hd2 : divide (![a * (1 / (2 : ℕ)) + 1 / (2 : ℕ), 1 / (2 : ℕ) + 1 / (2 : ℕ)] : Vec 2 ℝ)
        ![a * (1 / (2 : ℕ)) + 1 / (2 : ℕ), 1 / (2 : ℕ) + 1 / (2 : ℕ)] = some fun _ => 1 := by
      have h1 : a * (1 / (2 : ℕ)) + 1 / (2 : ℕ) ≠ 0 := by positivity
      unfold divide
      rw [if_pos (by intro i; fin_cases i <;> simp; linarith)]
      congr 1
      funext i
      fin_cases i <;> simp
      simpa using h1
    have hi : (fun _ : Fin 2 => 1 / ((2 : ℕ) : ℝ)) = ![1 / 2, 1 / 2] := by
      funext k; fin_cases k <;> norm_num
    unfold supervisedRun
    rw [gauge_loop]
    unfold supervisedPhiGamma
    simp only [hm, Option.bind_some, colAt_fin, initial, List.finRange_succ, List.finRange_zero, List.map_nil,
      List.foldl_cons, List.foldl_nil, sweepWords, sweepWord, hf, one_mul, one_ne_zero, if_false, hr, fixedPoints]
    rw [hd2]
    simp only [Option.bind_some, hh]
    rw [hi, e1]
    simp only [Option.bind_some]
    rw [f1]
    refine ⟨_, rfl, ?_⟩
    norm_num [aloud, numWords]
  obtain ⟨r, h1, h2⟩ := hrun
  exact ⟨r, h1, by rw [h2]; linarith⟩

/-- **C150**, false for the supervised step: topic 0 speaks for class 0, more than for class 1 and more than the other
topic, and yet a document of class 0 gets less of it than from plain LDA. -/
theorem C150_supervised_false : SpeaksMost aloud.eta 0 0 ∧ ∃ (s u : VP 2 1) (r q : Report),
    supervised (exactPrims fun _ => 0) gaugeCfg 2 0 (fun _ => 1) ((0 : Fin 2) : ℤ) aloud = some (s, r) ∧
    unsupervised (exactPrims fun _ => 0) gaugeCfg 0 (fun _ => 1) aloud = some (u, q) ∧ s.gamma 0 < u.gamma 0 := by
  refine ⟨fun k c => ?_, ?_⟩
  · fin_cases k <;> fin_cases c <;> norm_num [aloud]
  obtain ⟨⟨s, hs⟩, h1, h2⟩ := aloud_run
  obtain ⟨u, q, hu, _⟩ := C35_unsupervised_defined (P := exactPrims fun _ => 0) (cfg := gaugeCfg) (draw := 0)
    (X := fun _ : Fin 1 => 1) (m := aloud) ⟨fun _ => one_pos, fun k _ => by simp only [aloud]; split <;> norm_num⟩ two_pos
  have h3 := run_of_unsupervised hu
  unfold unsupervisedRun at h3
  rw [gauge_loop] at h3
  obtain ⟨p, hp, rfl⟩ := unsupervisedStep_update_eq (fun _ => rfl) h3
  have hp0 : p = fun _ => 0 := Option.some.inj (hp.symm.trans (mapOpt_eq.2 fun _ => rfl))
  refine ⟨s, _, .nan, q, ?_, hu, lt_of_lt_of_eq h2 ?_⟩
  · unfold supervised
    rw [h1]
    simp [report, bernoulli, gaugeCfg]
  · simp only [update, computeGamma_apply, normalizeCols_apply, hp0]
    norm_num [aloud, Fin.sum_univ_two]

end Verif.EStep
