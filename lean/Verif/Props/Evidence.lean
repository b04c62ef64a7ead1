import Verif.Props.Bound

/-! Property C91: what is reported bounds the probability of the document from below. -/
namespace Verif.EStep

open MathUtils Finset

variable {K V C : ℕ} {P : Prims}

/-! ### Specification -/

/-- The probability of a document under latent Dirichlet allocation, word by word: the first word comes from
topic `k` with probability `E[θ_k] = α_k / ∑ α`, in which case the mixture of topics, given that, has a Dirichlet
distribution with one more observation of `k`. -/
noncomputable def evidence (beta : Mat K V ℝ) : Vec K ℝ → List (Fin V) → ℝ
  | _, [] => 1
  | a, n :: l => ∑ k, a k / (∑ j, a j) * beta k n * evidence beta (a + Pi.single k 1) l

/-! ### The specification is a probability distribution -/

theorem sum_single (a : Vec K ℝ) (k : Fin K) : ∑ j, (a + Pi.single k 1 : Vec K ℝ) j = (∑ j, a j) + 1 := by
  simp only [Pi.add_apply, Finset.sum_add_distrib, Finset.sum_pi_single', mem_univ, if_true]

theorem single_pos {a : Vec K ℝ} (ha : ∀ k, 0 < a k) (k j : Fin K) : 0 < (a + Pi.single k 1 : Vec K ℝ) j := by
  rw [Pi.add_apply]
  by_cases h : j = k
  · subst h
    rw [Pi.single_eq_same]
    linarith [ha j]
  · rw [Pi.single_eq_of_ne h]
    linarith [ha j]

theorem sum_pos_of (hK : 0 < K) {a : Vec K ℝ} (ha : ∀ k, 0 < a k) : 0 < ∑ k, a k :=
  Finset.sum_pos (fun k _ => ha k) ⟨⟨0, hK⟩, mem_univ _⟩

/-- The probabilities of the documents with a given number of words sum to one. -/
theorem evidence_total (hK : 0 < K) {beta : Mat K V ℝ} (hb : ∀ k, ∑ n, beta k n = 1) :
    ∀ (N : ℕ) {a : Vec K ℝ}, (∀ k, 0 < a k) → ∑ w : Fin N → Fin V, evidence beta a (List.ofFn w) = 1 := by
  intro N
  induction N with
  | zero => intro a _; simp [evidence]
  | succ N ih =>
    intro a ha
    have hA := sum_pos_of hK ha
    rw [← (Fin.consEquiv fun _ : Fin (N + 1) => Fin V).sum_comp, Fintype.sum_prod_type]
    have hcons : ∀ (n : Fin V) (w : Fin N → Fin V),
        List.ofFn (Fin.consEquiv (fun _ : Fin (N + 1) => Fin V) (n, w)) = n :: List.ofFn w := fun n w => by
      simp [Fin.consEquiv]
    simp only [hcons, evidence]
    have : ∀ n : Fin V, ∑ w : Fin N → Fin V, ∑ k, a k / (∑ j, a j) * beta k n *
        evidence beta (a + Pi.single k 1) (List.ofFn w) = ∑ k, a k / (∑ j, a j) * beta k n := by
      intro n
      rw [Finset.sum_comm]
      refine Finset.sum_congr rfl fun k _ => ?_
      rw [← Finset.mul_sum, ih (single_pos ha k), mul_one]
    rw [Finset.sum_congr rfl fun n _ => this n, Finset.sum_comm]
    simp only [← Finset.mul_sum, hb, mul_one]
    rw [← Finset.sum_div, div_self hA.ne']

theorem evidence_nonneg {beta : Mat K V ℝ} (hb : ∀ k n, 0 ≤ beta k n) :
    ∀ (l : List (Fin V)) {a : Vec K ℝ}, (∀ k, 0 < a k) → 0 ≤ evidence beta a l := by
  intro l
  induction l with
  | nil => intro a _; simp [evidence]
  | cons n l ih =>
    intro a ha
    exact Finset.sum_nonneg fun k _ => mul_nonneg (mul_nonneg (div_nonneg (ha k).le
      (Finset.sum_nonneg fun j _ => (ha j).le)) (hb k n)) (ih (single_pos ha k))

theorem evidence_pos {beta : Mat K V ℝ} (hb : ∀ k n, 0 ≤ beta k n) :
    ∀ (l : List (Fin V)) (_ : ∀ n ∈ l, ∃ k, 0 < beta k n) {a : Vec K ℝ}, (∀ k, 0 < a k) → 0 < evidence beta a l := by
  intro l
  induction l with
  | nil => intro _ a _; simp [evidence]
  | cons n l ih =>
    intro hl a ha
    obtain ⟨k, hk⟩ := hl n List.mem_cons_self
    have hA : 0 < ∑ j, a j := Finset.sum_pos (fun k _ => ha k) ⟨k, mem_univ _⟩
    exact Finset.sum_pos' (fun k _ => mul_nonneg (mul_nonneg (div_nonneg (ha k).le hA.le) (hb k n))
      (evidence_nonneg hb l (single_pos ha k)))
      ⟨k, mem_univ _, mul_pos (mul_pos (div_pos (ha k) hA) hk)
        (ih (fun n hn => hl n (List.mem_cons_of_mem _ hn)) (single_pos ha k))⟩

/-! ### The bound -/

theorem log_gamma_add_one {x : ℝ} (hx : 0 < x) :
    Real.log (Real.Gamma (x + 1)) = Real.log (Real.Gamma x) + Real.log x := by
  rw [Real.Gamma_add_one hx.ne', Real.log_mul hx.ne' (Real.Gamma_pos_of_pos hx).ne', add_comm]

theorem logBeta_single {a : Vec K ℝ} (ha : ∀ k, 0 < a k) (k : Fin K) :
    (∑ j, Real.log (Real.Gamma ((a + Pi.single k 1 : Vec K ℝ) j))) -
      Real.log (Real.Gamma (∑ j, (a + Pi.single k 1 : Vec K ℝ) j)) =
    (∑ j, Real.log (Real.Gamma (a j))) - Real.log (Real.Gamma (∑ j, a j)) + Real.log (a k / ∑ j, a j) := by
  have hA : 0 < ∑ j, a j := Finset.sum_pos (fun k _ => ha k) ⟨k, mem_univ _⟩
  rw [sum_single, log_gamma_add_one hA, Real.log_div (ha k).ne' hA.ne']
  have : ∀ j, Real.log (Real.Gamma ((a + Pi.single k 1 : Vec K ℝ) j)) =
      Real.log (Real.Gamma (a j)) + if j = k then Real.log (a k) else 0 := by
    intro j
    rw [Pi.add_apply]
    by_cases h : j = k
    · subst h
      rw [Pi.single_eq_same, if_pos rfl, log_gamma_add_one (ha j)]
    · rw [Pi.single_eq_of_ne h, if_neg h, add_zero, add_zero]
  rw [Finset.sum_congr rfl fun j _ => this j, Finset.sum_add_distrib, Finset.sum_ite_eq' univ k]
  simp only [mem_univ, if_true]
  ring

theorem evidence_bound (hK : 0 < K) {beta phi : Mat K V ℝ} (hb : ∀ k n, 0 ≤ beta k n) {g : Vec K ℝ}
    (hg : ∀ k, 0 < g k) : ∀ (l : List (Fin V)) (_ : ∀ n ∈ l, IsDist fun k => phi k n)
      (_ : ∀ n ∈ l, ∀ k, beta k n = 0 → phi k n = 0) {a : Vec K ℝ}, (∀ k, 0 < a k) →
      ((∑ k, Real.log (Real.Gamma (g k))) - Real.log (Real.Gamma (∑ k, g k))
        + ∑ k, (a k - g k) * expectedLog g k)
      - ((∑ k, Real.log (Real.Gamma (a k))) - Real.log (Real.Gamma (∑ k, a k)))
      + (l.map fun n => ∑ k, phi k n * (expectedLog g k + Real.log (beta k n) - Real.log (phi k n))).sum ≤
        Real.log (evidence beta a l) := by
  intro l
  induction l with
  | nil =>
    intro _ _ a ha
    have : Nonempty (Fin K) := ⟨⟨0, hK⟩⟩
    have := Digamma.logMultiBeta_tangent (univ : Finset (Fin K)) univ_nonempty (fun k _ => hg k)
      (fun k _ => ha k)
    simp only [Digamma.psi] at this
    simp only [evidence, Real.log_one, List.map_nil, List.sum_nil, expectedLog]
    linarith
  | cons n l ih =>
    intro hd hs a ha
    have hA := sum_pos_of hK ha
    have hdn := hd n List.mem_cons_self
    have hev : ∀ k, 0 < evidence beta (a + Pi.single k 1) l := fun k =>
      evidence_pos hb l (fun n hn => by
        by_contra hcon
        push Not at hcon
        have h1 := (hd n (List.mem_cons_of_mem _ hn)).2
        rw [Finset.sum_eq_zero fun k _ => hs n (List.mem_cons_of_mem _ hn) k (le_antisymm (hcon k) (hb k n))] at h1
        exact zero_ne_one h1) (single_pos ha k)
    have hc : ∀ k, 0 < a k / ∑ j, a j := fun k => div_pos (ha k) hA
    have hgibbs := gibbs (q := fun k => phi k n)
      (w := fun k => a k / (∑ j, a j) * beta k n * evidence beta (a + Pi.single k 1) l) hdn.1 hdn.2
      (fun k => mul_nonneg (mul_nonneg (hc k).le (hb k n)) (hev k).le) fun k hk => by
        rcases mul_eq_zero.1 hk with h | h
        · exact hs n List.mem_cons_self k ((mul_eq_zero.1 h).resolve_left (hc k).ne')
        · exact absurd h (hev k).ne'
    rw [evidence]
    refine le_trans ?_ hgibbs
    rw [List.map_cons, List.sum_cons]
    set R := (l.map fun n => ∑ k, phi k n * (expectedLog g k + Real.log (beta k n) - Real.log (phi k n))).sum
    set G := (∑ k, Real.log (Real.Gamma (g k))) - Real.log (Real.Gamma (∑ k, g k))
    set A := (∑ k, Real.log (Real.Gamma (a k))) - Real.log (Real.Gamma (∑ k, a k))
    have key : ∀ k, phi k n * (G + (∑ j, (a j - g j) * expectedLog g j) - A + R +
        (expectedLog g k + Real.log (beta k n) - Real.log (phi k n))) ≤
        phi k n * (Real.log (a k / (∑ j, a j) * beta k n * evidence beta (a + Pi.single k 1) l) -
          Real.log (phi k n)) := by
      intro k
      by_cases hbk : beta k n = 0
      · have : phi k n = 0 := hs n List.mem_cons_self k hbk
        rw [this, zero_mul, zero_mul]
      · refine mul_le_mul_of_nonneg_left ?_ (hdn.1 k)
        rw [Real.log_mul (mul_ne_zero (hc k).ne' hbk) (hev k).ne', Real.log_mul (hc k).ne' hbk]
        have h1 := ih (fun n hn => hd n (List.mem_cons_of_mem _ hn)) (fun n hn => hs n (List.mem_cons_of_mem _ hn))
          (single_pos ha k)
        rw [logBeta_single ha k] at h1
        have h2 : ∑ j, ((a + Pi.single k 1 : Vec K ℝ) j - g j) * expectedLog g j =
            (∑ j, (a j - g j) * expectedLog g j) + expectedLog g k := by
          have : ∀ j, ((a + Pi.single k 1 : Vec K ℝ) j - g j) * expectedLog g j =
              (a j - g j) * expectedLog g j + if j = k then expectedLog g k else 0 := by
            intro j
            rw [Pi.add_apply]
            by_cases h : j = k
            · subst h; rw [Pi.single_eq_same, if_pos rfl]; ring
            · rw [Pi.single_eq_of_ne h, if_neg h]; ring
          rw [Finset.sum_congr rfl fun j _ => this j, Finset.sum_add_distrib, Finset.sum_ite_eq' univ k]
          simp
        rw [h2] at h1
        linarith
    refine le_trans (le_of_eq ?_) (Finset.sum_le_sum fun k _ => key k)
    simp only [mul_add (phi _ n) (G + (∑ j, (a j - g j) * expectedLog g j) - A + R)]
    rw [Finset.sum_add_distrib, ← Finset.sum_mul, hdn.2]
    ring

/-- **C91**, the mathematical part: the evidence lower bound is a lower bound of the logarithm of the
probability of the document, whatever the variational parameters. -/
theorem C91_elbo_le {words : List (Fin V)} {m : Model K V C} (hm : m.Valid) (hK : 0 < K) {s : VP K V}
    (hg : ∀ k, 0 < s.gamma k) (hd : ∀ n ∈ words, IsDist fun k => s.phi k n) (hf : Finite words m s) :
    bound words m s ≤ Real.log (evidence m.beta m.alpha words) := by
  refine le_trans (le_of_eq ?_) (evidence_bound hK hm.beta_nonneg hg words hd hf hm.alpha_pos)
  rw [bound, elbo_split_phi]
  have : ∑ k, (m.alpha k - s.gamma k) * expectedLog s.gamma k =
      (∑ k, (m.alpha k - 1) * expectedLog s.gamma k) - ∑ k, (s.gamma k - 1) * expectedLog s.gamma k := by
    rw [← Finset.sum_sub_distrib]
    exact Finset.sum_congr rfl fun k _ => by ring
  rw [this]
  ring

theorem likelihood_of_unsupervised {cfg : Cfg} {draw : ℝ} {X : Vec V ℕ} {m : Model K V C} {s : VP K V} {l : ℝ}
    (h : unsupervised P cfg draw X m = some (s, .value l)) :
    unsupervisedLikelihood P X m.alpha m.beta s.phi s.gamma = some l := by
  unfold unsupervised at h
  simp only [Option.bind_eq_some_iff, Option.map_eq_some_iff, Prod.mk.injEq] at h
  obtain ⟨s', _, r', h2, rfl, rfl⟩ := h
  unfold report at h2
  split at h2
  · cases hl : unsupervisedLikelihood P X m.alpha m.beta s'.phi s'.gamma with
    | none => rw [hl] at h2; cases h2
    | some x => rw [hl] at h2; cases h2; rfl
  · cases h2

/-- At the values the step returns, the digamma function does not contribute to the bound. -/
theorem elbo_counts (lg : ℝ → ℝ) {words : List (Fin V)} {alpha : Vec K ℝ} {s : VP K V}
    (hc : Counts (countsOf words) alpha s) (beta : Mat K V ℝ) (t t' : Vec K ℝ) :
    elbo lg words alpha s.gamma t beta s.phi = elbo lg words alpha s.gamma t' beta s.phi := by
  rw [elbo_split_gamma, elbo_split_gamma]
  simp only [← hc _, sub_self, zero_mul]

/-- **C91**, for documents in which no word occurs twice and whatever the exponential and digamma functions: the
likelihood reported for a document is at most the logarithm of its probability, up to the effect of the `1e-44`
added inside the logarithms; `b` is the least positive probability of a word of the document.  It is missing for
documents with repeated words, for which it is false (`C91_repeated_word`). -/
theorem C91_reported_partial {words : List (Fin V)} (hw : words.Nodup) {m : Model K V C} (hm : m.Valid) (hK : 0 < K)
    (hk : ∀ n ∈ words, m.Known n) {b : ℝ} (hb : 0 < b) (hbeta : ∀ n ∈ words, ∀ k, m.beta k n = 0 ∨ b ≤ m.beta k n)
    {cfg : Cfg} {draw : ℝ} (hr : RunsOnce cfg.iterations cfg.tolerance (countsOf words) m) {s : VP K V} {l : ℝ}
    (h : unsupervised P cfg draw (countsOf words) m = some (s, .value l)) :
    l ≤ Real.log (evidence m.beta m.alpha words) + words.length * (1 / b) / 10 ^ 44 := by
  have hg : ∀ k, 0 < s.gamma k := fun k => (hm.alpha_pos k).trans_le (C37_unsupervised hm hK h k).2
  have hres := C35_unsupervised hm hK h
  have hd : ∀ n ∈ words, IsDist fun k => s.phi k n := fun n hn => ⟨fun k => hres.1 k n, hres.2.1 n (hk n hn)⟩
  have hf := C90_finite hm hK hk hr h
  obtain ⟨pg, hpg⟩ := mapOpt_psi P hg
  obtain ⟨ps, hps⟩ := P.psi_some (∑ k, s.gamma k) (sum_pos_of hK hg)
  rw [C68_reported_elbo_partial hw (mapOpt_eq.1 hpg) hps (likelihood_of_unsupervised h),
    elbo_counts guarded (fun k => (C37_unsupervised hm hK h k).1) m.beta _ (expectedLog s.gamma)]
  have h1 := (C68_guard (alpha := m.alpha) (gamma := s.gamma) (t := expectedLog s.gamma) hb hd
    fun n hn k => (hbeta n hn k).imp_left (hf n hn k)).1
  have h2 := C91_elbo_le hm hK hg hd hf
  rw [bound] at h2
  linarith

/-! ### A repeated word -/

/-- Two topics, each of which knows one word only. -/
noncomputable def separate : Model 2 2 1 where
  alpha := fun _ => 1
  beta := fun k n => if k = n then 1 else 0
  eta := fun _ _ => 0

theorem separate_valid : separate.Valid where
  alpha_pos := fun k => by simp [separate]
  beta_nonneg := fun k n => by simp only [separate]; split <;> norm_num

theorem separate_known (n : Fin 2) : separate.Known n := ⟨n, by simp [separate]⟩

/-- What the formula gives for two copies of the first word if it is ascribed to the topic that knows it. -/
theorem repeated_gap {alpha : Vec 2 ℝ} {beta : Mat 2 2 ℝ} (ha : alpha = separate.alpha) (hbeta : beta = separate.beta)
    {s : VP 2 2} {l : ℝ} (hphi0 : s.phi 0 0 = 1) (hphi1 : s.phi 1 0 = 0) (hc : Counts (countsOf [0, 0]) alpha s)
    (h : unsupervisedLikelihood fastPrims (countsOf [0, 0]) alpha beta s.phi s.gamma = some l) :
    Real.log (1 / 3) + 1 / 3 < l := by
  subst ha hbeta
  have hg0 : s.gamma 0 = 3 := by
    rw [hc 0, Fin.sum_univ_two, hphi0]
    simp [countsOf, separate]
    norm_num
  have hg1 : s.gamma 1 = 1 := by
    rw [hc 1, Fin.sum_univ_two, hphi1]
    simp [countsOf, separate]
  have hg : ∀ k, 0 < s.gamma k := fun k => by fin_cases k <;> simp [hg0, hg1]
  obtain ⟨pg, hpg⟩ := mapOpt_psi fastPrims hg
  have hpg' := mapOpt_eq.1 hpg
  have hsum : ∑ k, s.gamma k = 3 + 1 := by rw [Fin.sum_univ_two, hg0, hg1]
  obtain ⟨ps, hps⟩ := fastPrims.psi_some (∑ k, s.gamma k) (by rw [hsum]; norm_num)
  have hp : pg 0 - ps = -(1 / 3) := by
    have h0 := hpg' 0
    rw [hg0] at h0
    rw [hsum] at hps
    have hrec := FastExp.C32_recurrence 3 (by norm_num) (by norm_num)
    rw [show FastExp.digamma 3 = some (pg 0) from h0, show FastExp.digamma (3 + 1) = some ps from hps,
      Option.map_some, Option.some.injEq] at hrec
    rw [hrec]
    ring
  rw [C68_gap hpg' hps h, elbo_counts guarded hc _ _ 0]
  have e : univ.filter (fun n : Fin 2 => n ∈ [(0 : Fin 2), 0]) = {0} := by decide
  have hcount : ([(0 : Fin 2), 0].count 0 : ℝ) = 2 := by simp
  have hlog : 0 < guarded 1 := Real.log_pos (by norm_num)
  have hG4 : Real.Gamma (3 + 1) = 6 := by
    rw [show (3 : ℝ) + 1 = (3 : ℕ) + 1 by norm_num, Real.Gamma_nat_eq_factorial]
    norm_num [Nat.factorial]
  have hG3 : Real.Gamma 3 = 2 := by
    rw [show (3 : ℝ) = (2 : ℕ) + 1 by norm_num, Real.Gamma_nat_eq_factorial]
    norm_num [Nat.factorial]
  have hG2 : Real.Gamma (1 + 1) = 1 := by
    rw [show (1 : ℝ) + 1 = (1 : ℕ) + 1 by norm_num, Real.Gamma_nat_eq_factorial]
    norm_num [Nat.factorial]
  have hl : Real.log 6 = Real.log 2 + Real.log 3 := by
    rw [← Real.log_mul (by norm_num) (by norm_num)]
    norm_num
  rw [e, Finset.sum_singleton, hcount, elbo, hsum]
  simp only [Fin.sum_univ_two, List.map_cons, List.map_nil, List.sum_cons, List.sum_nil, hphi0, hphi1, hg0, hg1, hG4,
    hG3, Real.Gamma_one, Real.log_one, hp, Pi.zero_apply, separate, hG2, hl]
  rw [one_div (3 : ℝ), Real.log_inv]
  norm_num
  linarith

/-- **C91** is false when a word occurs twice: with two topics, each of which knows a single word, the likelihood
reported for the document made of two copies of the first word exceeds the logarithm of its probability, `1/3`,
by more than `1/3`. -/
theorem C91_repeated_word {cfg : Cfg} {draw : ℝ}
    (hr : RunsOnce cfg.iterations cfg.tolerance (countsOf [0, 0]) separate) {s : VP 2 2} {l : ℝ}
    (h : unsupervised fastPrims cfg draw (countsOf [0, 0]) separate = some (s, .value l)) :
    evidence separate.beta separate.alpha [0, 0] = 1 / 3 ∧
    Real.log (evidence separate.beta separate.alpha [0, 0]) + 1 / 3 < l := by
  have hm := separate_valid
  have hK : 0 < 2 := by norm_num
  have hev : evidence separate.beta separate.alpha [0, 0] = 1 / 3 := by
    simp only [evidence, separate, Fin.sum_univ_two]
    norm_num
  refine ⟨hev, ?_⟩
  have hphi1 : s.phi 1 0 = 0 := C90_finite (words := [0, 0]) hm hK (fun n _ => separate_known n) hr h 0 (by simp) 1
    (by simp [separate])
  have hphi0 : s.phi 0 0 = 1 := by
    have := (C35_unsupervised hm hK h).2.1 0 (separate_known 0)
    rw [Fin.sum_univ_two, hphi1, add_zero] at this
    exact this
  have hc : Counts (countsOf [0, 0]) separate.alpha s := fun k => (C37_unsupervised hm hK h k).1
  rw [hev]
  exact repeated_gap rfl rfl hphi0 hphi1 hc (likelihood_of_unsupervised h)

/-- The hypotheses are met. -/
example : ∃ s l, unsupervised fastPrims ⟨10, 1 / 100, 1⟩ 0 (countsOf [0, 0]) separate = some (s, .value l) ∧
    Real.log (1 / 3) + 1 / 3 < l := by
  obtain ⟨s, r, h, hl⟩ := C35_unsupervised_defined (P := fastPrims) (cfg := ⟨10, 1 / 100, 1⟩) (draw := 0)
    (X := countsOf [0, 0]) separate_valid (by norm_num)
  obtain ⟨l, rfl⟩ := hl (by norm_num)
  have := C91_repeated_word ⟨by norm_num, by simp [separate, countsOf]; norm_num⟩ h
  rw [this.1] at this
  exact ⟨s, l, h, this.2⟩

example : ∃ s l, unsupervised fastPrims ⟨10, 1 / 100, 1⟩ 0 (countsOf [0, 1]) demo = some (s, .value l) ∧
    l ≤ Real.log (evidence demo.beta demo.alpha [0, 1]) + 2 * (1 / (1 / 4)) / 10 ^ 44 := by
  obtain ⟨s, r, h, hl⟩ := C35_unsupervised_defined (P := fastPrims) (cfg := ⟨10, 1 / 100, 1⟩) (draw := 0)
    (X := countsOf [0, 1]) demo_valid (by norm_num)
  obtain ⟨l, rfl⟩ := hl (by norm_num)
  refine ⟨s, l, h, C91_reported_partial (by decide) demo_valid (by norm_num)
    (fun n hn => demo_words_known n (by revert hn; revert n; decide)) (by norm_num) ?_ ?_ h⟩
  · intro n hn k
    have hn2 : n ≠ 2 := by rintro rfl; revert hn; decide
    right
    simp only [demo, if_neg hn2]
    split <;> norm_num
  · refine ⟨by norm_num, ?_⟩
    simp [demo, countsOf, Fin.sum_univ_three]
    norm_num

end Verif.EStep
