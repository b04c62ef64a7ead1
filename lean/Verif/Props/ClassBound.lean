import Verif.Props.Bound

/-! Properties C99, C100 and C101: the bounds of the models that generate the class from the topics (the multinomial
and the correspondence steps), and what the steps report of them and do to them. -/
namespace Verif.EStep

open MathUtils Finset

variable {K V C : ℕ} {P : Prims}

/-! ### Specification -/

/-- The logarithm of the density of the symmetric Dirichlet distribution with parameter `mu`. -/
noncomputable def logDirichlet (mu : ℝ) (p : Vec C ℝ) : ℝ :=
  Real.log (Real.Gamma (∑ _c : Fin C, mu)) - (∑ _c : Fin C, Real.log (Real.Gamma mu)) + ∑ c, (mu - 1) * Real.log (p c)

/-- `E_q[log p(y | z, η)]` of the multinomial model, in which every word votes for the class and the prior of the class
is taken out of all votes but one; `ew` is the weight of the votes. -/
noncomputable def voteScore (words : List (Fin V)) (y : Fin C) (eta : Mat K C ℝ) (ew prior : ℝ) (phi : Mat K V ℝ) : ℝ :=
  (words.map fun n => ∑ k, phi k n * (ew * Real.log (eta k y))).sum - ((words.length : ℝ) - 1) * Real.log prior

/-- What the class adds to the bound of the correspondence model, in which the topic of one word, uniformly chosen,
generates the class; `tau` is the distribution of the chosen word given the document and its class (equal words share
their probability):
`E_q[log p(y | λ, z, η)] + E_q[log p(λ | N)] - E_q[log q(λ)]`. -/
noncomputable def choiceScore (lg : ℝ → ℝ) (words : List (Fin V)) (y : Fin C) (eta : Mat K C ℝ) (phi : Mat K V ℝ)
    (tau : Vec V ℝ) : ℝ :=
  (words.map fun n => tau n * ∑ k, phi k n * Real.log (eta k y)).sum - Real.log words.length
    - (words.map fun n => tau n * lg (tau n)).sum

/-! ### C99 -/

theorem numWords_length (words : List (Fin V)) : (numWords (countsOf words) : ℝ) = words.length := by
  rw [numWords_cast]
  have := sum_words words fun _ => 1
  simp at this
  exact this.symm

theorem sum_logDirichlet (mu : ℝ) (eta : Mat K C ℝ) : ∑ k, logDirichlet mu (eta k) =
    (mu - 1) * (∑ k, ∑ c, Real.log (eta k c)) + K * (lgamma (C * mu) - C * lgamma mu) := by
  simp only [logDirichlet, Finset.sum_add_distrib, Finset.sum_const, card_univ, Fintype.card_fin, nsmul_eq_mul, lgamma,
    ← Finset.mul_sum]
  ring

/-- **C99**, multinomial step: for a document in which no word occurs twice, what is reported is the evidence lower
bound (with unit weight and the guarded logarithm) plus the share of the document in the log-density of the parameters
of the classes, except that the normaliser of that density is counted once and not for each of the `K` topics.  It is
missing that this is the bound; for more than one topic it is not (`C99_prior`). -/
theorem C99_multinomial_partial {words : List (Fin V)} (hd : words.Nodup) {y : Fin C} {m : Model K V C} {cfg : Cfg}
    {ew mu prior draw : ℝ} {D : ℕ} {s : VP K V} {l : ℝ}
    (h : multinomial P cfg ew mu prior D draw (countsOf words) (y : ℤ) m = some (s, .value l)) {pg : Vec K ℝ} {ps : ℝ}
    (hpg : ∀ k, P.psi (s.gamma k) = some (pg k)) (hps : P.psi (∑ k, s.gamma k) = some ps) :
    l = elbo guarded words m.alpha s.gamma (fun k => pg k - ps) m.beta s.phi + voteScore words y m.eta 1 prior s.phi
      + (∑ k, logDirichlet mu (m.eta k)) / D
      - ((K : ℝ) - 1) * (Real.log (Real.Gamma (C * mu)) - C * Real.log (Real.Gamma mu)) / D := by
  unfold multinomial report at h
  simp only [Option.bind_eq_some_iff, Option.map_eq_some_iff, Prod.mk.injEq] at h
  obtain ⟨s', _, r, h2, rfl, rfl⟩ := h
  split at h2
  swap
  · exact absurd h2 (by simp)
  unfold multinomialLikelihood at h2
  rw [colAt_fin, Option.bind_some, Option.some.injEq] at h2
  cases hu : unsupervisedLikelihood P (countsOf words) m.alpha m.beta s'.phi s'.gamma with
  | none => rw [hu] at h2; simp [Report.ofOption] at h2
  | some u =>
  cases hle : mapOpt logc (fun k => m.eta k y) with
  | none => rw [hu, hle] at h2; simp [Report.ofOption] at h2
  | some le =>
  cases hlp : logc prior with
  | none => rw [hu, hle, hlp] at h2; simp [Report.ofOption] at h2
  | some lp =>
  cases hsl : sumLogs m.eta with
  | none => rw [hu, hle, hlp, hsl] at h2; simp [Report.ofOption] at h2
  | some sl =>
  rw [hu, hle, hlp, hsl] at h2
  simp only [Option.bind_some, Report.ofOption, Report.value.injEq] at h2
  have hsl' : sl = ∑ k, ∑ c, Real.log (m.eta k c) := by
    unfold sumLogs at hsl
    split at hsl
    · exact (Option.some.inj hsl).symm
    · exact absurd hsl (by simp)
  have hv : ∑ n, ∑ k, s'.phi k n * (countsOf words n : ℝ) * le k =
      (words.map fun n => ∑ k, s'.phi k n * (1 * Real.log (m.eta k y))).sum := by
    rw [sum_words]
    refine Finset.sum_congr rfl fun n _ => ?_
    rw [Finset.mul_sum]
    refine Finset.sum_congr rfl fun k _ => ?_
    rw [(mapOpt_logc_eq hle).2]
    ring
  rw [← h2, C68_reported_elbo_partial hd hpg hps hu, hv, (logc_eq.1 hlp).2, numWords_length, hsl', sum_logDirichlet, voteScore]
  unfold lgamma
  ring

/-- **C99**, correspondence step: the same holds there.  It is missing, besides, that `tau` is a distribution of the
chosen word (`C101_not_a_choice`). -/
theorem C99_correspondence_partial {words : List (Fin V)} (hd : words.Nodup) {y : Fin C} {m : Model K V C} {cfg : Cfg}
    {mu draw : ℝ} {D : ℕ} {s : VP K V × Vec V ℝ} {l : ℝ}
    (h : correspondence P cfg mu D draw (countsOf words) (y : ℤ) m = some (s, .value l)) {pg : Vec K ℝ} {ps : ℝ}
    (hpg : ∀ k, P.psi (s.1.gamma k) = some (pg k)) (hps : P.psi (∑ k, s.1.gamma k) = some ps) :
    l = elbo guarded words m.alpha s.1.gamma (fun k => pg k - ps) m.beta s.1.phi
      + choiceScore guarded words y m.eta s.1.phi s.2 + (∑ k, logDirichlet mu (m.eta k)) / D
      - ((K : ℝ) - 1) * (Real.log (Real.Gamma (C * mu)) - C * Real.log (Real.Gamma mu)) / D := by
  unfold correspondence report at h
  simp only [Option.bind_eq_some_iff, Option.map_eq_some_iff, Prod.mk.injEq] at h
  obtain ⟨s', _, r, h2, rfl, rfl⟩ := h
  split at h2
  swap
  · exact absurd h2 (by simp)
  unfold correspondenceLikelihood at h2
  rw [colAt_fin, Option.bind_some, Option.some.injEq] at h2
  cases hu : unsupervisedLikelihood P (countsOf words) m.alpha m.beta s'.1.phi s'.1.gamma with
  | none => rw [hu] at h2; simp [Report.ofOption] at h2
  | some u =>
  cases hle : mapOpt logc (fun k => m.eta k y) with
  | none => rw [hu, hle] at h2; simp [Report.ofOption] at h2
  | some le =>
  cases hln : logc (numWords (countsOf words)) with
  | none => rw [hu, hle, hln] at h2; simp [Report.ofOption] at h2
  | some ln =>
  cases hsl : sumLogs m.eta with
  | none => rw [hu, hle, hln, hsl] at h2; simp [Report.ofOption] at h2
  | some sl =>
  rw [hu, hle, hln, hsl] at h2
  simp only [Option.bind_some, Report.ofOption, Report.value.injEq] at h2
  have hsl' : sl = ∑ k, ∑ c, Real.log (m.eta k c) := by
    unfold sumLogs at hsl
    split at hsl
    · exact (Option.some.inj hsl).symm
    · exact absurd hsl (by simp)
  have hv : ∑ n, ∑ k, s'.1.phi k n * ((countsOf words n : ℝ) * s'.2 n) * le k =
      (words.map fun n => s'.2 n * ∑ k, s'.1.phi k n * Real.log (m.eta k y)).sum := by
    rw [sum_words]
    refine Finset.sum_congr rfl fun n _ => ?_
    rw [Finset.mul_sum, Finset.mul_sum]
    refine Finset.sum_congr rfl fun k _ => ?_
    rw [(mapOpt_logc_eq hle).2]
    ring
  have ht : ∑ n, s'.2 n * (countsOf words n : ℝ) * Real.log (s'.2 n + tiny) =
      (words.map fun n => s'.2 n * guarded (s'.2 n)).sum := by
    rw [sum_words]
    refine Finset.sum_congr rfl fun n _ => ?_
    unfold guarded tiny
    ring
  rw [← h2, C68_reported_elbo_partial hd hpg hps hu, hv, ht, (logc_eq.1 hln).2, numWords_length, hsl', sum_logDirichlet,
    choiceScore]
  unfold lgamma
  ring

/-- If the parameters of the classes and the prior of the class are positive and the likelihood is asked for, then the
multinomial step reports a number. -/
theorem C99_multinomial_value {X : Vec V ℕ} {y : Fin C} {m : Model K V C} (hm : m.Valid) (hK : 0 < K)
    (he : ∀ k c, 0 < m.eta k c) {cfg : Cfg} {ew mu prior draw : ℝ} (hp : 0 < prior) (hdraw : draw < cfg.computeLikelihood)
    {D : ℕ} : ∃ s l, multinomial P cfg ew mu prior D draw X (y : ℤ) m = some (s, .value l) := by
  obtain ⟨s, r, h⟩ := C35_multinomial_defined (P := P) (X := X) (y := y) (cfg := cfg) (draw := draw) (ew := ew) (mu := mu)
    (prior := prior) (N := D) hm hK fun k => he k y
  have hg := C37_multinomial hm hK h
  obtain ⟨u, hu⟩ := unsupervisedLikelihood_total (P := P) (X := X) hK m.alpha m.beta s.phi (gamma := s.gamma)
    fun k => (hm.alpha_pos k).trans_le (hg k).2
  have h0 := h
  unfold multinomial report at h0
  simp only [Option.bind_eq_some_iff, Option.map_eq_some_iff, Prod.mk.injEq] at h0
  obtain ⟨s', h1, r', h2, rfl, rfl⟩ := h0
  rw [if_pos (by simpa [bernoulli] using hdraw)] at h2
  unfold multinomialLikelihood at h2
  rw [colAt_fin, Option.bind_some, Option.some.injEq, hu] at h2
  have hle : mapOpt logc (fun k => m.eta k y) = some fun k => Real.log (m.eta k y) := by
    rw [mapOpt_eq]
    exact fun k => logc_eq.2 ⟨he k y, rfl⟩
  have hsl : sumLogs m.eta = some (∑ k, ∑ c, Real.log (m.eta k c)) := if_pos he
  rw [hle, hsl, logc_eq.2 ⟨hp, rfl⟩] at h2
  simp only [Option.bind_some, Report.ofOption] at h2
  rw [← h2] at h
  exact ⟨s', _, h⟩

/-- The same for the correspondence step and a document with words. -/
theorem C99_correspondence_value {X : Vec V ℕ} (hX : ∃ n, X n ≠ 0) {y : Fin C} {m : Model K V C} (hm : m.Valid) (hK : 0 < K)
    (he : ∀ k c, 0 < m.eta k c) {cfg : Cfg} {mu draw : ℝ} (hdraw : draw < cfg.computeLikelihood)
    {D : ℕ} : ∃ s l, correspondence P cfg mu D draw X (y : ℤ) m = some (s, .value l) := by
  obtain ⟨s, r, h⟩ := C35_correspondence_defined (P := P) (X := X) (y := y) (cfg := cfg) (draw := draw) (mu := mu)
    (N := D) hm fun k => he k y
  have hg := C37_correspondence hm hK h
  obtain ⟨u, hu⟩ := unsupervisedLikelihood_total (P := P) (X := X) hK m.alpha m.beta s.1.phi (gamma := s.1.gamma)
    fun k => (hm.alpha_pos k).trans_le (hg k).2
  have h0 := h
  unfold correspondence report at h0
  simp only [Option.bind_eq_some_iff, Option.map_eq_some_iff, Prod.mk.injEq] at h0
  obtain ⟨s', h1, r', h2, rfl, rfl⟩ := h0
  rw [if_pos (by simpa [bernoulli] using hdraw)] at h2
  unfold correspondenceLikelihood at h2
  rw [colAt_fin, Option.bind_some, Option.some.injEq, hu] at h2
  have hle : mapOpt logc (fun k => m.eta k y) = some fun k => Real.log (m.eta k y) := by
    rw [mapOpt_eq]
    exact fun k => logc_eq.2 ⟨he k y, rfl⟩
  have hsl : sumLogs m.eta = some (∑ k, ∑ c, Real.log (m.eta k c)) := if_pos he
  have hn : (0 : ℝ) < numWords X := by
    obtain ⟨n, hn⟩ := hX
    rw [numWords_cast]
    exact Finset.sum_pos' (fun n _ => Nat.cast_nonneg _) ⟨n, mem_univ _, by exact_mod_cast Nat.pos_of_ne_zero hn⟩
  rw [hle, hsl, logc_eq.2 ⟨hn, rfl⟩] at h2
  simp only [Option.bind_some, Report.ofOption] at h2
  rw [← h2] at h
  exact ⟨s', _, h⟩

/-- The normaliser of the prior that is missing is not zero: with the default `mu = 2` and two classes, a document of
a corpus of `D` is reported `log 6 / D` short of the bound for every topic but one. -/
theorem C99_prior {words : List (Fin V)} (hd : words.Nodup) {y : Fin 2} {m : Model K V 2} (hm : m.Valid) (hK : 2 ≤ K)
    (he : ∀ k c, 0 < m.eta k c) {cfg : Cfg} {ew prior draw : ℝ} (hp : 0 < prior) (hdraw : draw < cfg.computeLikelihood)
    {D : ℕ} (hD : 0 < D) : ∃ (s : VP K V) (l : ℝ) (pg : Vec K ℝ) (ps : ℝ),
      multinomial P cfg ew 2 prior D draw (countsOf words) (y : ℤ) m = some (s, .value l) ∧
      (∀ k, P.psi (s.gamma k) = some (pg k)) ∧ P.psi (∑ k, s.gamma k) = some ps ∧
      l < elbo guarded words m.alpha s.gamma (fun k => pg k - ps) m.beta s.phi + voteScore words y m.eta 1 prior s.phi
        + (∑ k, logDirichlet 2 (m.eta k)) / D := by
  have hK' : 0 < K := by omega
  obtain ⟨s, l, h⟩ := C99_multinomial_value (P := P) (X := countsOf words) (y := y) (cfg := cfg) (draw := draw) (ew := ew)
    (mu := 2) (D := D) hm hK' he hp hdraw
  have hg : ∀ k, 0 < s.gamma k := fun k => (hm.alpha_pos k).trans_le (C37_multinomial hm hK' h k).2
  obtain ⟨pg, hpg⟩ := mapOpt_psi P hg
  obtain ⟨ps, hps⟩ := P.psi_some (∑ k, s.gamma k) (Finset.sum_pos (fun k _ => hg k) ⟨⟨0, hK'⟩, mem_univ _⟩)
  refine ⟨s, l, pg, ps, h, mapOpt_eq.1 hpg, hps, ?_⟩
  rw [C99_multinomial_partial hd h (mapOpt_eq.1 hpg) hps]
  have h1 : Real.Gamma ((2 : ℕ) * 2) = 6 := by
    rw [show (((2 : ℕ) : ℝ) * 2) = ((3 : ℕ) : ℝ) + 1 by norm_num, Real.Gamma_nat_eq_factorial]
    norm_num [Nat.factorial]
  have h2 : Real.Gamma 2 = 1 := by
    rw [show (2 : ℝ) = ((1 : ℕ) : ℝ) + 1 by norm_num, Real.Gamma_nat_eq_factorial]
    norm_num [Nat.factorial]
  rw [h1, h2, Real.log_one]
  have hK2 : (2 : ℝ) ≤ K := by exact_mod_cast hK
  have hDr : (0 : ℝ) < D := by exact_mod_cast hD
  have : 0 < ((K : ℝ) - 1) * (Real.log 6 - (2 : ℕ) * 0) / D := by
    have := Real.log_pos (show (1 : ℝ) < 6 by norm_num)
    apply div_pos (mul_pos (by linarith) _) hDr
    simpa using this
  linarith

/-! ### Updates and bounds -/

/-- An update of the responsibilities that has, besides those of the topic model, the terms `f` in the exponent. -/
theorem update_bound {words : List (Fin V)} {m : Model K V C} (hm : m.Valid) (hk : ∀ n ∈ words, m.Known n)
    {s s' : VP K V} (hg : ∀ k, 0 < s.gamma k) (hd : ∀ n ∈ words, IsDist fun k => s.phi k n) (hf : Finite words m s)
    {e f : Mat K V ℝ} {c : Vec V ℝ} (he : ∀ k n, 0 < e k n)
    (hlog : ∀ k n, Real.log (e k n) = expectedLog s.gamma k + f k n + c n)
    (hprop : Proportional s'.phi fun k n => m.beta k n * e k n) (hcounts : Counts (countsOf words) m.alpha s') :
    bound words m s + (words.map fun n => ∑ k, s.phi k n * f k n).sum ≤
      bound words m s' + (words.map fun n => ∑ k, s'.phi k n * f k n).sum ∧
    (∀ k, 0 < s'.gamma k) ∧ (∀ n ∈ words, IsDist fun k => s'.phi k n) ∧ Finite words m s' := by
  have hw : ∀ k n, 0 ≤ m.beta k n * e k n := fun k n => mul_nonneg (hm.beta_nonneg k n) (he k n).le
  have hdist : ∀ n ∈ words, IsDist fun k => s'.phi k n := by
    intro n hn
    obtain ⟨k, hk⟩ := hk n hn
    exact ⟨fun k => hprop.nonneg hw k n, (hprop n).2.1 ⟨k, (mul_pos hk (he k n)).ne'⟩⟩
  have hpos : ∀ k, 0 < s'.gamma k := fun k => (counts_pos hm hcounts (fun k n => hprop.nonneg hw k n) k).2
  have hfin : Finite words m s' := by
    intro n hn k hb
    have h1 := (hprop n).1 k
    simp only [hb, zero_mul] at h1
    obtain ⟨j, hj⟩ := hk n hn
    have : 0 < ∑ j, m.beta j n * e j n :=
      Finset.sum_pos' (fun k _ => hw k n) ⟨j, mem_univ _, mul_pos hj (he j n)⟩
    exact (mul_eq_zero.1 h1).resolve_right this.ne'
  refine ⟨?_, hpos, hdist, hfin⟩
  have hs' : s'.gamma = computeGamma (countsOf words) m.alpha s'.phi := by
    funext k
    rw [hcounts k]
    exact (computeGamma_counts _ _ _ k).symm
  have h1 : elbo Real.log words m.alpha s.gamma (expectedLog s.gamma) m.beta s'.phi ≤ bound words m s' := by
    rw [bound, hs']
    exact C89_gamma_maximises Real.log words hm.alpha_pos m.beta (fun n hn => (hdist n hn).1) hg
  have key : ∀ n ∈ words, (∑ k, s.phi k n * (expectedLog s.gamma k + Real.log (m.beta k n) - Real.log (s.phi k n)))
        + ∑ k, s.phi k n * f k n ≤
      (∑ k, s'.phi k n * (expectedLog s.gamma k + Real.log (m.beta k n) - Real.log (s'.phi k n)))
        + ∑ k, s'.phi k n * f k n := by
    intro n hn
    have := word_bound (b := fun k => m.beta k n) (t := fun k => expectedLog s.gamma k + f k n) (e := fun k => e k n)
      (c := c n) (ε := 0) (fun k => hm.beta_nonneg k n) (fun k => he k n)
      (fun k => by rw [hlog k n]; simp) (hd n hn) (hf n hn) (hprop n).1 (hdist n hn).2
    rw [mul_zero, add_zero] at this
    rw [← Finset.sum_add_distrib, ← Finset.sum_add_distrib]
    refine le_trans (le_of_eq ?_) (this.trans (le_of_eq ?_)) <;>
      exact Finset.sum_congr rfl fun k _ => by ring
  have hsum : ∀ l : List (Fin V), (∀ n ∈ l, n ∈ words) →
      (l.map fun n => ∑ k, s.phi k n * (expectedLog s.gamma k + Real.log (m.beta k n) - Real.log (s.phi k n))).sum
        + (l.map fun n => ∑ k, s.phi k n * f k n).sum ≤
      (l.map fun n => ∑ k, s'.phi k n * (expectedLog s.gamma k + Real.log (m.beta k n) - Real.log (s'.phi k n))).sum
        + (l.map fun n => ∑ k, s'.phi k n * f k n).sum := by
    intro l
    induction l with
    | nil => simp
    | cons a l ih =>
      intro hl
      have h1 := ih fun n hn => hl n (List.mem_cons_of_mem _ hn)
      have h2 := key a (hl a List.mem_cons_self)
      simp only [List.map_cons, List.sum_cons]
      linarith
  have h2 := hsum words fun n hn => hn
  have h3 : bound words m s + (words.map fun n => ∑ k, s.phi k n * f k n).sum ≤
      elbo Real.log words m.alpha s.gamma (expectedLog s.gamma) m.beta s'.phi
        + (words.map fun n => ∑ k, s'.phi k n * f k n).sum := by
    rw [bound, elbo_split_phi, elbo_split_phi]
    linarith
  linarith

/-! ### C100 -/

/-- The bound of the multinomial model with votes of weight `ew`. -/
noncomputable def voteBound (words : List (Fin V)) (y : Fin C) (m : Model K V C) (ew prior : ℝ) (s : VP K V) : ℝ :=
  bound words m s + voteScore words y m.eta ew prior s.phi

theorem C100_iteration {words : List (Fin V)} {y : Fin C} {m : Model K V C} (hm : m.Valid)
    (hk : ∀ n ∈ words, m.Known n) {ew : ℝ} (prior : ℝ) {s s' : VP K V} (hg : ∀ k, 0 < s.gamma k)
    (hd : ∀ n ∈ words, IsDist fun k => s.phi k n) (hf : Finite words m s)
    (h : multinomialStep exact ew (countsOf words) (y : ℤ) m s = some s') :
    voteBound words y m ew prior s ≤ voteBound words y m ew prior s' ∧
    (∀ k, 0 < s'.gamma k) ∧ (∀ n ∈ words, IsDist fun k => s'.phi k n) ∧ Finite words m s' := by
  obtain ⟨psi, d, hpsi, hps, hprop, hcounts⟩ := multinomialStep_update hm h
  have hd' : logDeriv Real.Gamma (∑ j, s.gamma j) = d := Option.some.inj hps
  obtain ⟨h1, h2⟩ := update_bound (e := fun k _ => exact.exp (psi k - d - 1 + ew * Real.log (m.eta k y)))
    (f := fun k _ => ew * Real.log (m.eta k y)) (c := fun _ => -1) hm hk hg hd hf (fun _ _ => exact.exp_pos _)
    (fun k n => by
      have hp : logDeriv Real.Gamma (s.gamma k) = psi k := Option.some.inj (hpsi k)
      show Real.log (Real.exp _) = _
      rw [Real.log_exp, expectedLog, hp, hd']
      ring) hprop hcounts
  refine ⟨?_, h2⟩
  unfold voteBound voteScore
  linarith

/-- The bound of the result is a real number if at least one iteration is made. -/
theorem C100_finite {words : List (Fin V)} {y : Fin C} {m : Model K V C} (hm : m.Valid) (hK : 0 < K)
    (hk : ∀ n ∈ words, m.Known n) {cfg : Cfg} {ew mu prior draw : ℝ} {D : ℕ} {s : VP K V} {r : Report}
    (hr : RunsOnce cfg.iterations cfg.computeLikelihood (countsOf words) m)
    (h : multinomial P cfg ew mu prior D draw (countsOf words) (y : ℤ) m = some (s, r)) : Finite words m s := by
  obtain ⟨s1, psi, d, _, _, hprop, _⟩ := (C38_multinomial_partial hm hK h).ran hm rfl hr
  intro n hn k hb
  have h1 := (hprop n).1 k
  simp only [hb, zero_mul] at h1
  obtain ⟨j, hj⟩ := hk n hn
  have : 0 < ∑ j, m.beta j n * P.exp (psi j - d - 1 + ew * Real.log (m.eta j y)) :=
    Finset.sum_pos' (fun k _ => mul_nonneg (hm.beta_nonneg k n) (P.exp_pos _).le)
      ⟨j, mem_univ _, mul_pos hj (P.exp_pos _)⟩
  exact (mul_eq_zero.1 h1).resolve_right this.ne'

/-- **C100**: for every weight, allowing the multinomial step more iterations and asking for a smaller change never
makes the bound of the result worse (the place of the tolerance is taken by the likelihood fraction, see C38). -/
theorem C100_more_iterations {words : List (Fin V)} {y : Fin C} {m : Model K V C} (hm : m.Valid) (hK : 0 < K)
    (hk : ∀ n ∈ words, m.Known n) {ew : ℝ} {cfg cfg' : Cfg} (hi : cfg.iterations ≤ cfg'.iterations)
    (ht : cfg'.computeLikelihood ≤ cfg.computeLikelihood) {mu prior draw mu' prior' draw' : ℝ} {D D' : ℕ} {s s' : VP K V}
    {r r' : Report} (h : multinomial exact cfg ew mu prior D draw (countsOf words) (y : ℤ) m = some (s, r))
    (h' : multinomial exact cfg' ew mu' prior' D' draw' (countsOf words) (y : ℤ) m = some (s', r'))
    (hf : Finite words m s) (p : ℝ) : voteBound words y m ew p s ≤ voteBound words y m ew p s' := by
  obtain ⟨n, f, f0, fn, hstep⟩ := loop_longer ht _ _ _ _ _ _ hi (run_of_multinomial h) (run_of_multinomial h')
  have hr := C35_multinomial hm hK h
  have hd : ∀ n ∈ words, IsDist fun k => s.phi k n := fun n hn => ⟨fun k => hr.1 k n, hr.2.1 n (hk n hn)⟩
  have hg : ∀ k, 0 < s.gamma k := by
    have := C37_multinomial hm hK h
    exact fun k => (hm.alpha_pos k).trans_le (this k).2
  have : ∀ i, i ≤ n → voteBound words y m ew p s ≤ voteBound words y m ew p (f i) ∧ (∀ k, 0 < (f i).gamma k) ∧
      (∀ n ∈ words, IsDist fun k => (f i).phi k n) ∧ Finite words m (f i) := by
    intro i
    induction i with
    | zero =>
      intro _
      rw [f0]
      exact ⟨le_rfl, hg, hd, hf⟩
    | succ i ih =>
      intro hin
      obtain ⟨a1, a2, a3, a4⟩ := ih (by omega)
      obtain ⟨b1, b2⟩ := C100_iteration hm hk p a2 a3 a4 (hstep i (by omega))
      exact ⟨a1.trans b1, b2⟩
  have := (this n le_rfl).1
  rwa [fn] at this

/-! ### C101 -/

/-- The bound of the correspondence model. -/
noncomputable def choiceBound (words : List (Fin V)) (y : Fin C) (m : Model K V C) (s : VP K V × Vec V ℝ) : ℝ :=
  bound words m s.1 + choiceScore Real.log words y m.eta s.1.phi s.2

/-- **C101**, first half of an iteration, for every document: given the distribution of the chosen word, the new topics
of the words improve the bound. -/
theorem C101_phi_partial {words : List (Fin V)} {y : Fin C} {m : Model K V C} (hm : m.Valid)
    (hk : ∀ n ∈ words, m.Known n) {s s' : VP K V × Vec V ℝ} (hg : ∀ k, 0 < s.1.gamma k)
    (hd : ∀ n ∈ words, IsDist fun k => s.1.phi k n) (hf : Finite words m s.1)
    (h : correspondenceStep exact (countsOf words) (y : ℤ) m s = some s') :
    choiceBound words y m s ≤ choiceBound words y m (s'.1, s.2) ∧
    (∀ k, 0 < s'.1.gamma k) ∧ (∀ n ∈ words, IsDist fun k => s'.1.phi k n) ∧ Finite words m s'.1 := by
  obtain ⟨psi, hpsi, hprop, hcounts, _⟩ := correspondenceStep_update hm h
  obtain ⟨h1, h2⟩ := update_bound
    (e := fun k n => exact.exp (psi k) * exact.exp (s.2 n * Real.log (m.eta k y)))
    (f := fun k n => s.2 n * Real.log (m.eta k y)) (c := fun _ => logDeriv Real.Gamma (∑ k, s.1.gamma k))
    hm hk hg hd hf (fun _ _ => mul_pos (exact.exp_pos _) (exact.exp_pos _))
    (fun k n => by
      have hp : logDeriv Real.Gamma (s.1.gamma k) = psi k := Option.some.inj (hpsi k)
      show Real.log (Real.exp _ * Real.exp _) = _
      rw [Real.log_mul (Real.exp_pos _).ne' (Real.exp_pos _).ne', Real.log_exp, Real.log_exp, expectedLog, hp]
      ring) hprop hcounts
  refine ⟨?_, h2⟩
  have e : ∀ phi : Mat K V ℝ, (fun n => ∑ k, phi k n * (s.2 n * Real.log (m.eta k y))) =
      fun n => s.2 n * ∑ k, phi k n * Real.log (m.eta k y) := by
    intro phi
    funext n
    rw [Finset.mul_sum]
    exact Finset.sum_congr rfl fun k _ => by ring
  rw [e, e] at h1
  unfold choiceBound choiceScore
  linarith

/-- The responsibilities of the words after an iteration. -/
theorem correspondenceStep_tau {X : Vec V ℕ} {y : Fin C} {m : Model K V C} (hm : m.Valid) (hV : 0 < V)
    {s s' : VP K V × Vec V ℝ} (h : correspondenceStep P X (y : ℤ) m s = some s') : IsDist s'.2 ∧ ∀ n, 0 < s'.2 n := by
  obtain ⟨psi, _, _, _, h2, h3⟩ := correspondenceStep_update hm h
  have hp : 0 < ∑ l, P.exp (∑ k, s'.1.phi k l * Real.log (m.eta k y)) :=
    Finset.sum_pos (fun l _ => P.exp_pos _) ⟨⟨0, hV⟩, mem_univ _⟩
  have hpos : ∀ n, 0 < s'.2 n := by
    intro n
    by_contra hc
    push Not at hc
    have := mul_nonpos_of_nonpos_of_nonneg hc hp.le
    rw [h2 n] at this
    linarith [P.exp_pos (∑ k, s'.1.phi k n * Real.log (m.eta k y))]
  exact ⟨⟨fun n => (hpos n).le, h3 hV⟩, hpos⟩

/-- **C101**, a whole iteration, for a document that has every word of the vocabulary exactly once: the bound gets
better.  Missing: all other documents. -/
theorem C101_iteration_partial {words : List (Fin V)} (hV : 0 < V) (hone : ∀ n, countsOf words n = 1) {y : Fin C}
    {m : Model K V C} (hm : m.Valid) (hk : ∀ n ∈ words, m.Known n) {s s' : VP K V × Vec V ℝ}
    (hg : ∀ k, 0 < s.1.gamma k) (hd : ∀ n ∈ words, IsDist fun k => s.1.phi k n) (hf : Finite words m s.1)
    (ht : IsDist s.2) (h : correspondenceStep exact (countsOf words) (y : ℤ) m s = some s') :
    choiceBound words y m s ≤ choiceBound words y m s' ∧
    (∀ k, 0 < s'.1.gamma k) ∧ (∀ n ∈ words, IsDist fun k => s'.1.phi k n) ∧ Finite words m s'.1 ∧ IsDist s'.2 := by
  obtain ⟨h1, h2, h3, h4⟩ := C101_phi_partial hm hk hg hd hf h
  refine ⟨h1.trans ?_, h2, h3, h4, (correspondenceStep_tau hm hV h).1⟩
  obtain ⟨psi, _, _, _, h5, h6⟩ := correspondenceStep_update hm h
  have := word_bound (b := fun _ => 1) (t := fun n => ∑ k, s'.1.phi k n * Real.log (m.eta k y))
    (e := fun n => exact.exp (∑ k, s'.1.phi k n * Real.log (m.eta k y))) (q := s.2) (r := s'.2) (c := 0) (ε := 0)
    (fun _ => zero_le_one) (fun n => exact.exp_pos _)
    (fun n => by
      show |Real.log (Real.exp _) - _ - 0| ≤ 0
      rw [Real.log_exp]
      simp) ht (fun n hn => absurd hn one_ne_zero) (fun n => by simpa using h5 n) (h6 hV)
  simp only [Real.log_one, add_zero, mul_zero] at this
  unfold choiceBound choiceScore
  simp only [sum_words, hone, Nat.cast_one, one_mul]
  have e : ∀ tau : Vec V ℝ, ∑ n, tau n * ((∑ k, s'.1.phi k n * Real.log (m.eta k y)) - Real.log (tau n)) =
      (∑ n, tau n * ∑ k, s'.1.phi k n * Real.log (m.eta k y)) - ∑ n, tau n * Real.log (tau n) := by
    intro tau
    rw [← Finset.sum_sub_distrib]
    exact Finset.sum_congr rfl fun n _ => by ring
  rw [e, e] at this
  linarith

/-- **C101**, whole runs, for such a document. -/
theorem C101_more_iterations_partial {words : List (Fin V)} (hV : 0 < V) (hone : ∀ n, countsOf words n = 1) {y : Fin C}
    {m : Model K V C} (hm : m.Valid) (hK : 0 < K) (hk : ∀ n ∈ words, m.Known n) {cfg cfg' : Cfg}
    (hi : cfg.iterations ≤ cfg'.iterations) (htol : cfg'.tolerance ≤ cfg.tolerance) {mu draw mu' draw' : ℝ} {D D' : ℕ}
    {s s' : VP K V × Vec V ℝ} {r r' : Report}
    (h : correspondence exact cfg mu D draw (countsOf words) (y : ℤ) m = some (s, r))
    (h' : correspondence exact cfg' mu' D' draw' (countsOf words) (y : ℤ) m = some (s', r')) (hf : Finite words m s.1) :
    choiceBound words y m s ≤ choiceBound words y m s' := by
  obtain ⟨n, f, f0, fn, hstep⟩ := loop_longer htol _ _ _ _ _ _ hi (run_of_correspondence h) (run_of_correspondence h')
  have hr := C35_correspondence hm hK h
  have hd : ∀ n ∈ words, IsDist fun k => s.1.phi k n := fun n hn => ⟨fun k => hr.1 k n, hr.2.1 n (hk n hn)⟩
  have hg : ∀ k, 0 < s.1.gamma k := fun k => (hm.alpha_pos k).trans_le (C37_correspondence hm hK h k).2
  have ht := C35_correspondence_tau hm hK hV h
  have : ∀ i, i ≤ n → choiceBound words y m s ≤ choiceBound words y m (f i) ∧ (∀ k, 0 < (f i).1.gamma k) ∧
      (∀ n ∈ words, IsDist fun k => (f i).1.phi k n) ∧ Finite words m (f i).1 ∧ IsDist (f i).2 := by
    intro i
    induction i with
    | zero =>
      intro _
      rw [f0]
      exact ⟨le_rfl, hg, hd, hf, ht⟩
    | succ i ih =>
      intro hin
      obtain ⟨a1, a2, a3, a4, a5⟩ := ih (by omega)
      obtain ⟨b1, b2⟩ := C101_iteration_partial hV hone hm hk a2 a3 a4 a5 (hstep i (by omega))
      exact ⟨a1.trans b1, b2⟩
  have := (this n le_rfl).1
  rwa [fn] at this

/-- The probabilities of the words to be the chosen one add up to one over the vocabulary and not over the document:
if no word occurs twice and a word of the vocabulary is absent, they add up to less than one. -/
theorem C101_not_a_choice {words : List (Fin V)} (hd : words.Nodup) {a : Fin V} (ha : a ∉ words) {y : Fin C}
    {m : Model K V C} (hm : m.Valid) {s s' : VP K V × Vec V ℝ}
    (h : correspondenceStep P (countsOf words) (y : ℤ) m s = some s') : (words.map s'.2).sum < 1 := by
  obtain ⟨h1, h2⟩ := correspondenceStep_tau hm a.pos h
  rw [sum_words, ← h1.2]
  refine Finset.sum_lt_sum (fun n _ => ?_) ⟨a, mem_univ _, ?_⟩
  · have : (countsOf words n : ℝ) ≤ 1 := by exact_mod_cast List.nodup_iff_count_le_one.1 hd n
    nlinarith [h2 n]
  · have : countsOf words a = 0 := List.count_eq_zero.2 ha
    rw [this]
    simpa using h2 a

/-- If every word of the vocabulary occurs and one occurs twice, then they add up to more than one. -/
theorem C101_not_a_choice_repeated {words : List (Fin V)} (hall : ∀ n, n ∈ words) {a : Fin V}
    (ha : 2 ≤ words.count a) {y : Fin C} {m : Model K V C} (hm : m.Valid) {s s' : VP K V × Vec V ℝ}
    (h : correspondenceStep P (countsOf words) (y : ℤ) m s = some s') : 1 < (words.map s'.2).sum := by
  obtain ⟨h1, h2⟩ := correspondenceStep_tau hm a.pos h
  rw [sum_words, ← h1.2]
  refine Finset.sum_lt_sum (fun n _ => ?_) ⟨a, mem_univ _, ?_⟩
  · have : (1 : ℝ) ≤ countsOf words n := by exact_mod_cast List.count_pos_iff.2 (hall n)
    nlinarith [h2 n]
  · have : (2 : ℝ) ≤ countsOf words a := by exact_mod_cast ha
    nlinarith [h2 a]

/-- One topic with two words and two classes, all equally likely. -/
noncomputable def oneTopic : Model 1 2 2 where
  alpha := fun _ => 1
  beta := fun _ _ => 1 / 2
  eta := fun _ _ => 1 / 2

theorem oneTopic_valid : oneTopic.Valid where
  alpha_pos := fun _ => by norm_num [oneTopic]
  beta_nonneg := fun _ n => by norm_num [oneTopic]

/-- What is computed is no lower bound of the evidence, then: with a single topic, the probability of the document with
the word `0` and the class `0` is `β_0 · η_0`, but the bound of the result, for whatever number of iterations, is larger
than its logarithm. -/
theorem C101_exceeds_evidence {cfg : Cfg} {mu draw : ℝ} {D : ℕ} {s : VP 1 2 × Vec 2 ℝ} {r : Report}
    (h : correspondence exact cfg mu D draw (countsOf [0]) ((0 : Fin 2) : ℤ) oneTopic = some (s, r)) :
    Real.log (oneTopic.beta 0 0 * oneTopic.eta 0 0) < choiceBound [0] 0 oneTopic s := by
  have hphi : ∀ k n, s.1.phi k n = 1 := by
    intro k n
    have := (C35_correspondence oneTopic_valid one_pos h).2.1 n ⟨0, by norm_num [oneTopic]⟩
    rw [Fin.sum_univ_one] at this
    rwa [Subsingleton.elim k 0]
  have htau : s.2 0 = 1 / 2 := by
    rcases (C38_correspondence oneTopic_valid one_pos h).cases with ⟨h1, _⟩ | ⟨s1, h1⟩
    · rw [h1]
      norm_num
    · obtain ⟨psi, _, _, _, h2, _⟩ := h1
      have := h2 0
      simp only [hphi, Fin.sum_univ_two, oneTopic] at this
      have hp := exact.exp_pos (∑ _k : Fin 1, 1 * Real.log (1 / 2))
      have h3 : s.2 0 * 2 = 1 := by
        have : (s.2 0 * 2) * exact.exp (∑ _k : Fin 1, 1 * Real.log (1 / 2)) =
          1 * exact.exp (∑ _k : Fin 1, 1 * Real.log (1 / 2)) := by linarith
        exact mul_right_cancel₀ hp.ne' this
      linarith
  have ht : expectedLog s.1.gamma 0 = 0 := by simp [expectedLog]
  have hb : choiceBound [0] 0 oneTopic s = Real.log (1 / 2) := by
    simp [choiceBound, choiceScore, bound, elbo, hphi, htau, ht, oneTopic]
  rw [hb]
  refine Real.log_lt_log ?_ ?_ <;> norm_num [oneTopic]

/-! ### The hypotheses are met -/

/-- A document without repetitions. -/
example : ∃ s l, multinomial exact demoCfg 1 2 (1 / 2) 5 0 (countsOf [(0 : Fin 3), 1]) ((1 : Fin 2) : ℤ) demo =
    some (s, .value l) :=
  C99_multinomial_value demo_valid (by norm_num) demo_eta (by norm_num) (by norm_num [demoCfg])

example : ∃ (s : VP 2 3) (l : ℝ) (pg : Vec 2 ℝ) (ps : ℝ),
    multinomial exact demoCfg 1 2 (1 / 2) 5 0 (countsOf [(0 : Fin 3), 1]) ((1 : Fin 2) : ℤ) demo =
    some (s, .value l) ∧ (∀ k, exact.psi (s.gamma k) = some (pg k)) ∧ exact.psi (∑ k, s.gamma k) = some ps ∧
      l < elbo guarded [0, 1] demo.alpha s.gamma (fun k => pg k - ps) demo.beta s.phi
        + voteScore [0, 1] 1 demo.eta 1 (1 / 2) s.phi + (∑ k, logDirichlet 2 (demo.eta k)) / (5 : ℕ) :=
  C99_prior (by decide) demo_valid le_rfl demo_eta (by norm_num) (by norm_num [demoCfg]) (by norm_num)

example : ∃ s l, correspondence exact demoCfg 2 5 0 (countsOf [(0 : Fin 3), 1]) ((1 : Fin 2) : ℤ) demo =
    some (s, .value l) :=
  C99_correspondence_value ⟨0, by decide⟩ demo_valid (by norm_num) demo_eta (by norm_num [demoCfg])

/-- No iteration against up to ten. -/
example (ew : ℝ) : ∃ s s' r r', multinomial exact ⟨0, 1, 1⟩ ew 2 (1 / 2) 5 0 (countsOf [0, 1, 0]) ((1 : Fin 2) : ℤ) demo =
      some (s, r) ∧
    multinomial exact ⟨10, 1, 1 / 100⟩ ew 2 (1 / 2) 5 0 (countsOf [0, 1, 0]) ((1 : Fin 2) : ℤ) demo = some (s', r') ∧
    voteBound [0, 1, 0] 1 demo ew (1 / 2) s ≤ voteBound [0, 1, 0] 1 demo ew (1 / 2) s' := by
  obtain ⟨s, r, h⟩ := C35_multinomial_defined (P := exact) (cfg := ⟨0, 1, 1⟩) (draw := 0) (X := countsOf [0, 1, 0])
    (y := 1) (ew := ew) (mu := 2) (prior := 1 / 2) (N := 5) demo_valid (by norm_num) fun k => demo_eta k 1
  obtain ⟨s', r', h'⟩ := C35_multinomial_defined (P := exact) (cfg := ⟨10, 1, 1 / 100⟩) (draw := 0)
    (X := countsOf [0, 1, 0]) (y := 1) (ew := ew) (mu := 2) (prior := 1 / 2) (N := 5) demo_valid (by norm_num)
    fun k => demo_eta k 1
  exact ⟨s, s', r, r', h, h', C100_more_iterations demo_valid (by norm_num) demo_words_known (by norm_num) (by norm_num)
    h h' (demo_words_finite s) _⟩

/-- A document with every word of a vocabulary of two, and the topics of `demo` without the unknown word. -/
noncomputable def twoWords : Model 2 2 2 where
  alpha := fun _ => 1 / 2
  beta := fun k n => if k = n then 3 / 4 else 1 / 4
  eta := fun k c => if k = c then 3 / 4 else 1 / 4

theorem twoWords_valid : twoWords.Valid where
  alpha_pos := fun _ => by norm_num [twoWords]
  beta_nonneg := fun k n => by
    simp only [twoWords]
    split <;> norm_num

theorem twoWords_pos (k n : Fin 2) : 0 < twoWords.beta k n := by
  simp only [twoWords]
  split <;> norm_num

theorem twoWords_eta (k c : Fin 2) : 0 < twoWords.eta k c := by
  simp only [twoWords]
  split <;> norm_num

example : ∃ s s' r r', correspondence exact ⟨0, 1, 1⟩ 2 5 0 (countsOf [0, 1]) ((1 : Fin 2) : ℤ) twoWords = some (s, r) ∧
    correspondence exact ⟨10, 1 / 100, 1⟩ 2 5 0 (countsOf [0, 1]) ((1 : Fin 2) : ℤ) twoWords = some (s', r') ∧
    choiceBound [0, 1] 1 twoWords s ≤ choiceBound [0, 1] 1 twoWords s' := by
  obtain ⟨s, r, h⟩ := C35_correspondence_defined (P := exact) (cfg := ⟨0, 1, 1⟩) (draw := 0) (X := countsOf [0, 1])
    (y := 1) (mu := 2) (N := 5) twoWords_valid fun k => twoWords_eta k 1
  obtain ⟨s', r', h'⟩ := C35_correspondence_defined (P := exact) (cfg := ⟨10, 1 / 100, 1⟩) (draw := 0)
    (X := countsOf [0, 1]) (y := 1) (mu := 2) (N := 5) twoWords_valid fun k => twoWords_eta k 1
  exact ⟨s, s', r, r', h, h', C101_more_iterations_partial (by norm_num) (by decide) twoWords_valid (by norm_num)
    (fun n _ => ⟨0, twoWords_pos 0 n⟩) (by norm_num) (by norm_num) h h'
    (fun n _ k hb => absurd hb (twoWords_pos k n).ne')⟩

example : ∃ s r, correspondence exact demoCfg 2 5 0 (countsOf [0]) ((0 : Fin 2) : ℤ) oneTopic = some (s, r) ∧
    Real.log (oneTopic.beta 0 0 * oneTopic.eta 0 0) < choiceBound [0] 0 oneTopic s := by
  obtain ⟨s, r, h⟩ := C35_correspondence_defined (P := exact) (cfg := demoCfg) (draw := 0) (X := countsOf [0])
    (y := 0) (mu := 2) (N := 5) oneTopic_valid fun k => by norm_num [oneTopic]
  exact ⟨s, r, h, C101_exceeds_evidence h⟩

end Verif.EStep
