import Verif.Props.Joint

/-! Property C135: what the multinomial step reports and the probability of the document and its class. -/
namespace Verif.EStep

open MathUtils Finset

variable {K V C : ℕ} {P : Prims}

/-! ### Specification -/

/-- What the multinomial model puts in the place of the probability of class `y` if the words have the topics `z`: every
word votes for the class and the prior of the class is taken out of all votes but one. -/
noncomputable def voteFactor (eta : Mat K C ℝ) (prior : ℝ) (y : Fin C) (z : List (Fin K)) : ℝ :=
  (z.map fun k => eta k y).prod / prior ^ ((z.length : ℝ) - 1)

/-- The share of one document of `D` in the logarithm of the density of the parameters of the classes, as it is
reported (C99: the normaliser is counted once). -/
noncomputable def densityShare (mu : ℝ) (eta : Mat K C ℝ) (D : ℕ) : ℝ :=
  ((∑ k, logDirichlet mu (eta k)) - ((K : ℝ) - 1) * (Real.log (Real.Gamma (C * mu)) - C * Real.log (Real.Gamma mu))) / D

/-! ### The bound -/

theorem voteFactor_pos {eta : Mat K C ℝ} {prior : ℝ} (hp : 0 < prior) {y : Fin C} (he : ∀ k, 0 < eta k y)
    (z : List (Fin K)) : 0 < voteFactor eta prior y z := by
  refine div_pos (List.prod_pos fun x hx => ?_) (Real.rpow_pos_of_pos hp _)
  obtain ⟨k, _, rfl⟩ := List.mem_map.1 hx
  exact he k

theorem log_prod_eta {eta : Mat K C ℝ} {y : Fin C} (he : ∀ k, 0 < eta k y) (z : List (Fin K)) :
    Real.log ((z.map fun k => eta k y).prod) = (z.map fun k => Real.log (eta k y)).sum := by
  induction z with
  | nil => simp
  | cons k z ih =>
    have : 0 < (z.map fun k => eta k y).prod := List.prod_pos fun x hx => by
      obtain ⟨j, _, rfl⟩ := List.mem_map.1 hx
      exact he j
    rw [List.map_cons, List.prod_cons, List.map_cons, List.sum_cons, Real.log_mul (he k).ne' this.ne', ih]

/-- The expected logarithm of the votes is what C99 and C100 call their score. -/
theorem expect_votes {words : List (Fin V)} {phi : Mat K V ℝ} (hd : ∀ n ∈ words, IsDist fun k => phi k n)
    {eta : Mat K C ℝ} {prior : ℝ} (hp : 0 < prior) {y : Fin C} (he : ∀ k, 0 < eta k y) :
    expect phi (fun z => Real.log (voteFactor eta prior y z)) words = voteScore words y eta 1 prior phi := by
  have h2 := expect_words (phi := phi) (fun _ k => Real.log (eta k y)) words hd
  have h3 := expect_lin phi 1 (-(((words.length : ℝ) - 1) * Real.log prior)) words
    (fun z => (List.zipWith (fun _ k => Real.log (eta k y)) words z).sum) (fun _ => 1)
  rw [h2, expect_const _ words hd] at h3
  have h4 : expect phi (fun z => Real.log (voteFactor eta prior y z)) words =
      expect phi (fun z => 1 * (List.zipWith (fun _ k => Real.log (eta k y)) words z).sum +
        -(((words.length : ℝ) - 1) * Real.log prior) * 1) words := by
    refine expect_congr phi words fun z hz => ?_
    have hprod : 0 < (z.map fun k => eta k y).prod := List.prod_pos fun x hx => by
      obtain ⟨j, _, rfl⟩ := List.mem_map.1 hx
      exact he j
    rw [voteFactor, Real.log_div hprod.ne' (Real.rpow_pos_of_pos hp _).ne', Real.log_rpow hp, log_prod_eta he,
      zipWith_snd _ _ _ hz, hz]
    ring
  rw [h4, h3]
  unfold voteScore
  simp only [one_mul]
  ring

/-- **C135**, the mathematical part: for every document, repeated words included, the bound of the multinomial model
with unit weight is at most the logarithm of the probability of the words and the expected votes.  Missing: that the
votes are a probability, which is false (`C135_exceeds`). -/
theorem C135_bound_partial {words : List (Fin V)} {m : Model K V C} (hm : m.Valid) (hK : 0 < K) {y : Fin C}
    (he : ∀ k, 0 < m.eta k y) {prior : ℝ} (hp : 0 < prior) {s : VP K V} (hg : ∀ k, 0 < s.gamma k)
    (hd : ∀ n ∈ words, IsDist fun k => s.phi k n) (hf : Finite words m s) :
    bound words m s + voteScore words y m.eta 1 prior s.phi ≤
      Real.log (joint m.beta (voteFactor m.eta prior y) m.alpha words) := by
  rw [← expect_votes hd hp he]
  exact joint_bound' hK hm hg hd hf fun z _ => voteFactor_pos hp he z

/-! ### What is reported -/

/-- **C135**, for documents in which no word occurs twice: what is reported is at most the logarithm of the probability of
the words and the expected votes, plus the share of the document in the density of the parameters of the classes, up to
the effect of the `1e-44` added inside the logarithms. -/
theorem C135_reported_partial {words : List (Fin V)} (hw : words.Nodup) {m : Model K V C} (hm : m.Valid) (hK : 0 < K)
    (hk : ∀ n ∈ words, m.Known n) {b : ℝ} (hb : 0 < b) (hbeta : ∀ n ∈ words, ∀ k, m.beta k n = 0 ∨ b ≤ m.beta k n)
    {y : Fin C} (he : ∀ k, 0 < m.eta k y) {cfg : Cfg} {ew mu prior draw : ℝ} (hp : 0 < prior) {D : ℕ}
    (hr : RunsOnce cfg.iterations cfg.computeLikelihood (countsOf words) m) {s : VP K V} {l : ℝ}
    (h : multinomial P cfg ew mu prior D draw (countsOf words) (y : ℤ) m = some (s, .value l)) :
    l ≤ Real.log (joint m.beta (voteFactor m.eta prior y) m.alpha words) + words.length * (1 / b) / 10 ^ 44
      + densityShare mu m.eta D := by
  have hres := C35_multinomial hm hK h
  have hd : ∀ n ∈ words, IsDist fun k => s.phi k n := fun n hn => ⟨fun k => hres.1 k n, hres.2.1 n (hk n hn)⟩
  have hg : ∀ k, 0 < s.gamma k := fun k => (hm.alpha_pos k).trans_le (C37_multinomial hm hK h k).2
  have hc : Counts (countsOf words) m.alpha s := fun k => (C37_multinomial hm hK h k).1
  have hf : Finite words m s := by
    obtain ⟨s1, _, _, _, _, h2, _⟩ := (C38_multinomial_partial hm hK h).ran hm rfl hr
    exact proportional_finite hm hk (fun _ _ => P.exp_pos _) h2
  obtain ⟨pg, hpg⟩ := mapOpt_psi P hg
  obtain ⟨ps, hps⟩ := P.psi_some (∑ k, s.gamma k) (sum_pos_of hK hg)
  rw [C99_multinomial_partial hw h (mapOpt_eq.1 hpg) hps, elbo_counts guarded hc m.beta _ (expectedLog s.gamma)]
  have h1 := (C68_guard (alpha := m.alpha) (gamma := s.gamma) (t := expectedLog s.gamma) hb hd
    fun n hn k => (hbeta n hn k).imp_left (hf n hn k)).1
  have h2 := C135_bound_partial (words := words) hm hK he hp hg hd hf
  have h3 : densityShare mu m.eta D = (∑ k, logDirichlet mu (m.eta k)) / D
      - ((K : ℝ) - 1) * (Real.log (Real.Gamma (C * mu)) - C * Real.log (Real.Gamma mu)) / D := by
    unfold densityShare
    rw [sub_div]
  unfold bound at h2
  rw [h3]
  linarith

theorem joint_mono {beta : Mat K V ℝ} (hb : ∀ k n, 0 ≤ beta k n) :
    ∀ (l : List (Fin V)) {F G : List (Fin K) → ℝ} (_ : ∀ z, z.length = l.length → F z ≤ G z) {a : Vec K ℝ},
      (∀ k, 0 < a k) → joint beta F a l ≤ joint beta G a l
  | [], F, G, h, a, _ => h [] rfl
  | n :: l, F, G, h, a, ha => by
    simp only [joint]
    refine Finset.sum_le_sum fun k _ => mul_le_mul_of_nonneg_left
      (joint_mono hb l (fun z hz => h _ (by simp [hz])) (single_pos ha k)) ?_
    exact mul_nonneg (div_nonneg (ha k).le (Finset.sum_nonneg fun j _ => (ha j).le)) (hb k n)

/-- For a document of one word the votes are a probability: if the parameters of each topic are a distribution then the
classes together have the probability of the document, whatever their priors. -/
theorem C135_one_word {eta : Mat K C ℝ} (he : ∀ k, ∑ c, eta k c = 1) (prior : Fin C → ℝ) (beta : Mat K V ℝ)
    (a : Vec K ℝ) (n : Fin V) :
    ∑ y, joint beta (voteFactor eta (prior y) y) a [n] = evidence beta a [n] := by
  rw [← joint_one, ← joint_add]
  simp only [joint]
  refine Finset.sum_congr rfl fun k _ => ?_
  congr 1
  simp [voteFactor, he]

/-- **C135**, for documents in which no word occurs twice, if no topic favours the class over its prior: then the votes
are at most one, and what is reported is at most the logarithm of the probability of the words, plus the share. -/
theorem C135_prior_partial {words : List (Fin V)} (hw : words.Nodup) {m : Model K V C} (hm : m.Valid) (hK : 0 < K)
    (hk : ∀ n ∈ words, m.Known n) {b : ℝ} (hb : 0 < b) (hbeta : ∀ n ∈ words, ∀ k, m.beta k n = 0 ∨ b ≤ m.beta k n)
    {y : Fin C} (he : ∀ k, 0 < m.eta k y) {cfg : Cfg} {ew mu prior draw : ℝ} (hp : ∀ k, m.eta k y ≤ prior)
    (hp1 : prior ≤ 1) {D : ℕ} (hr : RunsOnce cfg.iterations cfg.computeLikelihood (countsOf words) m) {s : VP K V} {l : ℝ}
    (h : multinomial P cfg ew mu prior D draw (countsOf words) (y : ℤ) m = some (s, .value l)) :
    l ≤ Real.log (evidence m.beta m.alpha words) + words.length * (1 / b) / 10 ^ 44 + densityShare mu m.eta D := by
  have hp0 : 0 < prior := (he ⟨0, hK⟩).trans_le (hp _)
  refine (C135_reported_partial hw hm hK hk hb hbeta he hp0 hr h).trans ?_
  have hF : ∀ z : List (Fin K), voteFactor m.eta prior y z ≤ 1 := by
    intro z
    have h1 : ∀ z : List (Fin K), 0 ≤ (z.map fun k => m.eta k y).prod ∧
        (z.map fun k => m.eta k y).prod ≤ prior ^ z.length := by
      intro z
      induction z with
      | nil => simp
      | cons k z ih =>
        simp only [List.map_cons, List.prod_cons, List.length_cons]
        refine ⟨mul_nonneg (he k).le ih.1, ?_⟩
        rw [pow_succ, mul_comm (prior ^ _)]
        exact mul_le_mul (hp k) ih.2 ih.1 hp0.le
    unfold voteFactor
    rw [div_le_one (Real.rpow_pos_of_pos hp0 _)]
    refine (h1 z).2.trans ?_
    rw [← Real.rpow_natCast]
    exact Real.rpow_le_rpow_of_exponent_ge hp0 hp1 (by linarith)
  have h2 := joint_mono hm.beta_nonneg words (F := voteFactor m.eta prior y) (G := fun _ => 1) (fun z _ => hF z) hm.alpha_pos
  rw [joint_one] at h2
  have h3 : 0 < joint m.beta (voteFactor m.eta prior y) m.alpha words :=
    joint_pos hm.beta_nonneg words (fun n hn => hk n hn) (fun z _ => voteFactor_pos hp0 he z) hm.alpha_pos
  have := Real.log_le_log h3 h2
  linarith

/-! ### The votes are no probability -/

/-- One topic, one word, two classes; the topic votes for the first class with nine tenths. -/
noncomputable def sure : Model 1 1 2 where
  alpha := fun _ => 1
  beta := fun _ _ => 1
  eta := fun _ c => if c = 0 then 9 / 10 else 1 / 10

theorem sure_valid : sure.Valid where
  alpha_pos := fun k => by simp [sure]
  beta_nonneg := fun k n => by simp [sure]

theorem sure_known (n : Fin 1) : sure.Known n := ⟨0, by simp [sure]⟩

/-- Whatever the digamma function, the words add nothing but the effect of the `1e-44`. -/
theorem sure_likelihood {N : ℕ} {s : VP 1 1} {u : ℝ} (hphi : s.phi 0 0 = 1)
    (h : unsupervisedLikelihood P (fun _ => N + 1) sure.alpha sure.beta s.phi s.gamma = some u) : 0 ≤ u := by
  unfold unsupervisedLikelihood at h
  simp only [Option.bind_eq_some_iff, Option.some.injEq, Fin.sum_univ_one] at h
  obtain ⟨pg, hpg, ps, hps, rfl⟩ := h
  have h0 := mapOpt_eq.1 hpg 0
  rw [hps, Option.some.injEq] at h0
  have hl : 0 ≤ Real.log (1 + tiny) := Real.log_nonneg (by unfold tiny; norm_num)
  simp only [h0, hphi, sure]
  have : (0 : ℝ) ≤ N * Real.log (1 + tiny) := mul_nonneg (Nat.cast_nonneg _) hl
  push_cast
  simp
  linarith

/-- **C135 is false**, also without repetitions of a word being at fault: with one topic, one word and two classes of the
prior one half, the document that consists of `N + 1` copies of the word has probability one, but the value reported for
its class exceeds the share of the document in the density by `N log 2 + (N + 1) log (9 / 10)` or more.  That is more
than one for three words and has no limit, where the logarithm of a probability is at most zero. -/
theorem C135_exceeds {cfg : Cfg} {ew mu draw : ℝ} {D N : ℕ} {s : VP 1 1} {l : ℝ}
    (h : multinomial P cfg ew mu (1 / 2) D draw (fun _ => N + 1) ((0 : Fin 2) : ℤ) sure = some (s, .value l)) :
    evidence sure.beta sure.alpha (List.replicate (N + 1) 0) = 1 ∧
    densityShare mu sure.eta D + N * Real.log 2 + (N + 1) * Real.log (9 / 10) ≤ l := by
  constructor
  · have : ∀ (l : List (Fin 1)) (a : Vec 1 ℝ), (∀ k, 0 < a k) → evidence sure.beta a l = 1 := by
      intro l
      induction l with
      | nil => intro a _; rfl
      | cons n l ih =>
        intro a ha
        simp only [evidence, Fin.sum_univ_one]
        rw [ih _ (single_pos ha 0)]
        simp only [sure, mul_one]
        exact div_self (ha 0).ne'
    exact this _ _ fun k => by simp [sure]
  · have hphi : s.phi 0 0 = 1 := by
      have := (C35_multinomial sure_valid (by norm_num) h).2.1 0 (sure_known 0)
      rwa [Fin.sum_univ_one] at this
    unfold multinomial report at h
    simp only [Option.bind_eq_some_iff, Option.map_eq_some_iff, Prod.mk.injEq] at h
    obtain ⟨s', _, r, h2, rfl, rfl⟩ := h
    split at h2
    swap
    · exact absurd h2 (by simp)
    unfold multinomialLikelihood at h2
    rw [colAt_fin, Option.bind_some, Option.some.injEq] at h2
    cases hu : unsupervisedLikelihood P (fun _ => N + 1) sure.alpha sure.beta s'.phi s'.gamma with
    | none => rw [hu] at h2; simp [Report.ofOption] at h2
    | some u =>
    cases hle : mapOpt logc (fun k => sure.eta k 0) with
    | none => rw [hu, hle] at h2; simp [Report.ofOption] at h2
    | some le =>
    cases hlp : logc (1 / 2) with
    | none => rw [hu, hle, hlp] at h2; simp [Report.ofOption] at h2
    | some lp =>
    cases hsl : sumLogs sure.eta with
    | none => rw [hu, hle, hlp, hsl] at h2; simp [Report.ofOption] at h2
    | some sl =>
    rw [hu, hle, hlp, hsl] at h2
    simp only [Option.bind_some, Report.ofOption, Report.value.injEq] at h2
    have hsl' : sl = ∑ k, ∑ c, Real.log (sure.eta k c) := by
      unfold sumLogs at hsl
      split at hsl
      · exact (Option.some.inj hsl).symm
      · exact absurd hsl (by simp)
    have hu0 := sure_likelihood hphi hu
    have hle0 : le 0 = Real.log (9 / 10) := by
      rw [(logc_eq.1 (mapOpt_eq.1 hle 0)).2]
      simp [sure]
    have hlp0 : lp = -Real.log 2 := by rw [(logc_eq.1 hlp).2, one_div, Real.log_inv]
    have hN : (numWords (fun _ : Fin 1 => N + 1) : ℝ) = N + 1 := by
      rw [numWords_cast]; simp
    rw [← h2, hN, hsl', hlp0]
    unfold densityShare
    rw [sum_logDirichlet]
    simp only [Fin.sum_univ_one, hle0, hphi]
    push_cast
    unfold lgamma
    have : ∀ a b c : ℝ, ((mu - 1) * a + 1 * (b - 2 * c) - (1 - 1) * (b - 2 * c)) / D =
        1 / D * (mu - 1) * a + 1 / D * (b - 2 * c) := by intro a b c; ring
    rw [this]
    linarith

/-- Three words. -/
theorem C135_positive {cfg : Cfg} {ew mu draw : ℝ} {D : ℕ} {s : VP 1 1} {l : ℝ}
    (h : multinomial P cfg ew mu (1 / 2) D draw (fun _ => 3) ((0 : Fin 2) : ℤ) sure = some (s, .value l)) :
    densityShare mu sure.eta D + 1 < l := by
  have h1 := (C135_exceeds (N := 2) h).2
  have h2 : (1 : ℝ) < 2 * Real.log 2 + 3 * Real.log (9 / 10) := by
    have e : 2 * Real.log 2 + 3 * Real.log (9 / 10) = Real.log (4 * (729 / 1000)) := by
      rw [Real.log_mul (by norm_num) (by norm_num), show (4 : ℝ) = 2 ^ 2 by norm_num,
        show (729 / 1000 : ℝ) = (9 / 10) ^ 3 by norm_num, Real.log_pow, Real.log_pow]
      norm_num
    rw [e, Real.lt_log_iff_exp_lt (by norm_num)]
    exact Real.exp_one_lt_d9.trans (by norm_num)
  push_cast at h1
  linarith

/-! ### The hypotheses are met -/

/-- Three words of a corpus of two documents with the classes 0 and 1. -/
example : ∃ s l, multinomial fastPrims ⟨10, 1 / 100, 1⟩ 1 2 (1 / 2) 2 0 (fun _ => 3) ((0 : Fin 2) : ℤ) sure =
    some (s, .value l) ∧ densityShare 2 sure.eta 2 + 1 < l := by
  obtain ⟨s, l, h⟩ := C99_multinomial_value (P := fastPrims) (X := fun _ => 3) (y := (0 : Fin 2)) (cfg := ⟨10, 1 / 100, 1⟩)
    (ew := 1) (mu := 2) (prior := 1 / 2) (draw := 0) (D := 2) sure_valid (by norm_num)
    (fun k c => by simp only [sure]; split <;> norm_num) (by norm_num) (by norm_num)
  exact ⟨s, l, h, C135_positive h⟩

/-- Two topics, three words, and topics that say nothing about the class. -/
noncomputable def unsure : Model 2 3 2 where
  alpha := demo.alpha
  beta := demo.beta
  eta := fun _ _ => 1 / 2

example : ∃ s l, multinomial fastPrims ⟨10, 1 / 100, 1⟩ 1 2 (1 / 2) 2 0 (countsOf [0, 1]) ((0 : Fin 2) : ℤ) unsure =
      some (s, .value l) ∧
    l ≤ Real.log (evidence unsure.beta unsure.alpha [0, 1]) + 2 * (1 / (1 / 4)) / 10 ^ 44 + densityShare 2 unsure.eta 2 := by
  have hm : unsure.Valid := ⟨demo_valid.alpha_pos, demo_valid.beta_nonneg⟩
  have hk : ∀ n ∈ [(0 : Fin 3), 1], unsure.Known n := fun n hn =>
    demo_words_known n (by revert hn; revert n; decide)
  obtain ⟨s, l, h⟩ := C99_multinomial_value (P := fastPrims) (X := countsOf [0, 1]) (y := (0 : Fin 2))
    (cfg := ⟨10, 1 / 100, 1⟩) (ew := 1) (mu := 2) (prior := 1 / 2) (draw := 0) (D := 2) hm (by norm_num)
    (fun k c => by simp [unsure]) (by norm_num) (by norm_num)
  refine ⟨s, l, h, ?_⟩
  have := C135_prior_partial (words := [0, 1]) (b := 1 / 4) (by decide) hm (by norm_num) hk (by norm_num) ?_
    (fun k => by simp [unsure]) (fun k => by simp [unsure]) (by norm_num) ?_ h
  · simpa using this
  · intro n hn k
    have hn2 : n ≠ 2 := by rintro rfl; revert hn; decide
    right
    simp only [unsure, demo, if_neg hn2]
    split <;> norm_num
  · refine ⟨by norm_num, ?_⟩
    simp [unsure, demo, countsOf, Fin.sum_univ_three]
    norm_num

end Verif.EStep
