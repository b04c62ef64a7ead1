import Verif.Props.Likelihood
import Verif.Props.Digamma
import Verif.Lemmas.LogBeta

/-! Properties C89 and C90: what the expectation step does to the evidence lower bound. -/
namespace Verif.EStep

open MathUtils Finset

variable {K V C : ℕ} {P : Prims}

/-! ### Specification -/

/-- `E_q[log θ_k]` for a Dirichlet distribution with parameters `gamma`. -/
noncomputable def expectedLog (gamma : Vec K ℝ) : Vec K ℝ :=
  fun k => logDeriv Real.Gamma (gamma k) - logDeriv Real.Gamma (∑ j, gamma j)

/-- The evidence lower bound of a document for the variational parameters `s`. -/
noncomputable def bound (words : List (Fin V)) (m : Model K V C) (s : VP K V) : ℝ :=
  elbo Real.log words m.alpha s.gamma (expectedLog s.gamma) m.beta s.phi

/-- The bound is a real number (and not minus infinity): no word is ascribed to a topic that does not know
it. -/
def Finite (words : List (Fin V)) (m : Model K V C) (s : VP K V) : Prop :=
  ∀ n ∈ words, ∀ k, m.beta k n = 0 → s.phi k n = 0

/-! ### C89 -/

theorem elbo_split_gamma (lg : ℝ → ℝ) (words : List (Fin V)) (alpha gamma t : Vec K ℝ) (beta phi : Mat K V ℝ) :
    elbo lg words alpha gamma t beta phi =
      (Real.log (Real.Gamma (∑ k, alpha k)) - ∑ k, Real.log (Real.Gamma (alpha k)))
      + ((∑ k, Real.log (Real.Gamma (gamma k))) - Real.log (Real.Gamma (∑ k, gamma k))
        + ∑ k, (alpha k + (∑ n, (countsOf words n : ℝ) * phi k n) - gamma k) * t k)
      + ((words.map fun n => ∑ k, phi k n * lg (beta k n)).sum -
        (words.map fun n => ∑ k, phi k n * lg (phi k n)).sum) := by
  have h : (words.map fun n => ∑ k, phi k n * t k).sum = ∑ k, (∑ n, (countsOf words n : ℝ) * phi k n) * t k := by
    rw [sum_words]
    simp only [Finset.mul_sum, Finset.sum_mul]
    rw [Finset.sum_comm]
    exact Finset.sum_congr rfl fun k _ => Finset.sum_congr rfl fun n _ => by ring
  have h2 : ∑ k, (alpha k + (∑ n, (countsOf words n : ℝ) * phi k n) - gamma k) * t k =
      (∑ k, (alpha k - 1) * t k) + (∑ k, (∑ n, (countsOf words n : ℝ) * phi k n) * t k) -
        ∑ k, (gamma k - 1) * t k := by
    rw [← Finset.sum_add_distrib, ← Finset.sum_sub_distrib]
    exact Finset.sum_congr rfl fun k _ => by ring
  rw [elbo, h, h2]
  ring

/-- **C89**: for given responsibilities, the `gamma` that `compute_gamma` returns maximises the evidence lower
bound over all parameters of a Dirichlet distribution. -/
theorem C89_gamma_maximises (lg : ℝ → ℝ) (words : List (Fin V)) {alpha : Vec K ℝ} (ha : ∀ k, 0 < alpha k)
    (beta : Mat K V ℝ) {phi : Mat K V ℝ} (hphi : ∀ n ∈ words, ∀ k, 0 ≤ phi k n) {gamma : Vec K ℝ}
    (hg : ∀ k, 0 < gamma k) :
    elbo lg words alpha gamma (expectedLog gamma) beta phi ≤
      elbo lg words alpha (computeGamma (countsOf words) alpha phi)
        (expectedLog (computeGamma (countsOf words) alpha phi)) beta phi := by
  set a := computeGamma (countsOf words) alpha phi with ha'
  have hak : ∀ k, a k = alpha k + ∑ n, (countsOf words n : ℝ) * phi k n := fun k => computeGamma_counts _ _ phi k
  have hapos : ∀ k, 0 < a k := by
    intro k
    rw [hak]
    have : 0 ≤ ∑ n, (countsOf words n : ℝ) * phi k n := Finset.sum_nonneg fun n _ => by
      by_cases hn : n ∈ words
      · exact mul_nonneg (Nat.cast_nonneg _) (hphi n hn k)
      · simp [countsOf, List.count_eq_zero.2 hn]
    linarith [ha k]
  rw [elbo_split_gamma, elbo_split_gamma]
  simp only [← hak, sub_self, zero_mul, Finset.sum_const_zero, add_zero]
  rcases K.eq_zero_or_pos with h0 | h0
  · subst h0
    simp
  · have : Nonempty (Fin K) := ⟨⟨0, h0⟩⟩
    have := Digamma.logMultiBeta_tangent (univ : Finset (Fin K)) univ_nonempty (fun k _ => hg k)
      (fun k _ => hapos k)
    simp only [Digamma.psi] at this
    simp only [expectedLog]
    linarith

/-! ### C90 -/

/-- One word: weights that are almost the right ones give almost the best responsibilities. -/
theorem word_bound {b t e q r : Fin K → ℝ} {c ε : ℝ} (hb : ∀ k, 0 ≤ b k) (he : ∀ k, 0 < e k)
    (hε : ∀ k, |Real.log (e k) - t k - c| ≤ ε) (hq : IsDist q) (hs : ∀ k, b k = 0 → q k = 0)
    (hr : ∀ k, r k * ∑ j, b j * e j = b k * e k) (hr1 : ∑ k, r k = 1) :
    ∑ k, q k * (t k + Real.log (b k) - Real.log (q k)) ≤
      (∑ k, r k * (t k + Real.log (b k) - Real.log (r k))) + 2 * ε := by
  have hw : ∀ k, 0 ≤ b k * Real.exp (t k) := fun k => mul_nonneg (hb k) (Real.exp_pos _).le
  have hv : ∀ k, 0 ≤ b k * e k := fun k => mul_nonneg (hb k) (he k).le
  obtain ⟨k0, hk0⟩ : ∃ k, b k ≠ 0 := by
    by_contra hcon
    push Not at hcon
    have h0 : ∑ k, q k = 0 := Finset.sum_eq_zero fun k _ => hs k (hcon k)
    rw [hq.2] at h0
    exact one_ne_zero h0
  have hbk0 : 0 < b k0 := lt_of_le_of_ne (hb k0) (Ne.symm hk0)
  have hW : 0 < ∑ k, b k * Real.exp (t k) :=
    Finset.sum_pos' (fun k _ => hw k) ⟨k0, mem_univ _, mul_pos hbk0 (Real.exp_pos _)⟩
  have hZ : 0 < ∑ k, b k * e k :=
    Finset.sum_pos' (fun k _ => hv k) ⟨k0, mem_univ _, mul_pos hbk0 (he k0)⟩
  have hrk : ∀ k, r k = b k * e k / ∑ j, b j * e j := fun k => by rw [eq_div_iff hZ.ne', hr k]
  have hrn : ∀ k, 0 ≤ r k := fun k => by rw [hrk]; exact div_nonneg (hv k) hZ.le
  -- the competitor
  have h1 : ∑ k, q k * (t k + Real.log (b k) - Real.log (q k)) ≤ Real.log (∑ k, b k * Real.exp (t k)) := by
    refine le_trans (le_of_eq ?_) (gibbs hq.1 hq.2 hw fun k hk => hs k
      ((mul_eq_zero.1 hk).resolve_right (Real.exp_pos _).ne'))
    refine Finset.sum_congr rfl fun k _ => ?_
    by_cases hbk : b k = 0
    · rw [hs k hbk]; simp
    · rw [Real.log_mul hbk (Real.exp_pos _).ne', Real.log_exp]
      ring
  -- the update
  have h2 : ∑ k, r k * (t k + Real.log (b k) - Real.log (r k)) =
      Real.log (∑ k, b k * e k) - ∑ k, r k * (Real.log (e k) - t k) := by
    rw [eq_sub_iff_add_eq, ← Finset.sum_add_distrib, ← gibbs_eq hv hZ]
    refine Finset.sum_congr rfl fun k _ => ?_
    rw [← hrk]
    by_cases hbk : b k = 0
    · have : r k = 0 := by rw [hrk, hbk]; simp
      rw [this]; simp
    · rw [Real.log_mul hbk (he k).ne']
      ring
  have h3 : ∑ k, r k * (Real.log (e k) - t k) ≤ c + ε := by
    calc ∑ k, r k * (Real.log (e k) - t k) ≤ ∑ k, r k * (c + ε) := Finset.sum_le_sum fun k _ =>
          mul_le_mul_of_nonneg_left (by linarith [(abs_le.1 (hε k)).2]) (hrn k)
      _ = c + ε := by rw [← Finset.sum_mul, hr1, one_mul]
  have h4 : Real.log (∑ k, b k * Real.exp (t k)) + (c - ε) ≤ Real.log (∑ k, b k * e k) := by
    rw [← Real.log_exp (c - ε), ← Real.log_mul hW.ne' (Real.exp_pos _).ne']
    refine Real.log_le_log (mul_pos hW (Real.exp_pos _)) ?_
    rw [Finset.sum_mul]
    refine Finset.sum_le_sum fun k _ => ?_
    rw [mul_assoc, ← Real.exp_add]
    refine mul_le_mul_of_nonneg_left ?_ (hb k)
    rw [← Real.exp_log (he k)]
    exact Real.exp_le_exp.2 (by linarith [(abs_le.1 (hε k)).1])
  linarith

theorem elbo_split_phi (lg : ℝ → ℝ) (words : List (Fin V)) (alpha gamma t : Vec K ℝ) (beta phi : Mat K V ℝ) :
    elbo lg words alpha gamma t beta phi =
      (Real.log (Real.Gamma (∑ k, alpha k)) - (∑ k, Real.log (Real.Gamma (alpha k))) + ∑ k, (alpha k - 1) * t k)
      - (Real.log (Real.Gamma (∑ k, gamma k)) - (∑ k, Real.log (Real.Gamma (gamma k))) + ∑ k, (gamma k - 1) * t k)
      + (words.map fun n => ∑ k, phi k n * (t k + lg (beta k n) - lg (phi k n))).sum := by
  have h : (words.map fun n => ∑ k, phi k n * (t k + lg (beta k n) - lg (phi k n))).sum =
      (words.map fun n => ∑ k, phi k n * t k).sum + (words.map fun n => ∑ k, phi k n * lg (beta k n)).sum -
        (words.map fun n => ∑ k, phi k n * lg (phi k n)).sum := by
    simp only [sum_words]
    rw [← Finset.sum_add_distrib, ← Finset.sum_sub_distrib]
    refine Finset.sum_congr rfl fun n _ => ?_
    rw [← mul_add, ← mul_sub, ← Finset.sum_add_distrib, ← Finset.sum_sub_distrib]
    congr 1
    exact Finset.sum_congr rfl fun k _ => by ring
  rw [elbo, h]
  ring

theorem countsOf_ne {words : List (Fin V)} {n : Fin V} : countsOf words n ≠ 0 ↔ n ∈ words := by
  simp [countsOf, List.count_eq_zero]

theorem UnsupervisedUpdate.finite {words : List (Fin V)} {m : Model K V C} (hm : m.Valid)
    (hk : ∀ n ∈ words, m.Known n) {X : Vec V ℕ} {s s' : VP K V} (h : UnsupervisedUpdate P X m s s') :
    Finite words m s' := by
  obtain ⟨pg, _, hprop, _⟩ := h
  intro n hn k hb
  have h1 := (hprop n).1 k
  simp only [hb, zero_mul] at h1
  obtain ⟨j, hj⟩ := hk n hn
  have : 0 < ∑ j, m.beta j n * P.exp (pg j) :=
    Finset.sum_pos' (fun k _ => mul_nonneg (hm.beta_nonneg k n) (P.exp_pos _).le)
      ⟨j, mem_univ _, mul_pos hj (P.exp_pos _)⟩
  exact (mul_eq_zero.1 h1).resolve_right this.ne'

/-- **C90**, one iteration with any exponential and digamma function: if the exponential of digamma is right up
to a factor between `exp (-ε)` and `exp ε`, then an iteration does not decrease the evidence lower bound by more
than `2 ε` per word. -/
theorem C90_iteration {words : List (Fin V)} {m : Model K V C} (hm : m.Valid) (hk : ∀ n ∈ words, m.Known n)
    {s s' : VP K V} (hg : ∀ k, 0 < s.gamma k) (hd : ∀ n ∈ words, IsDist fun k => s.phi k n)
    (hf : Finite words m s) {ε : ℝ}
    (hε : ∀ k v, P.psi (s.gamma k) = some v → |Real.log (P.exp v) - logDeriv Real.Gamma (s.gamma k)| ≤ ε)
    (h : unsupervisedStep P (countsOf words) m s = some s') :
    bound words m s ≤ bound words m s' + words.length * (2 * ε) ∧ (∀ k, 0 < s'.gamma k) ∧
      (∀ n ∈ words, IsDist fun k => s'.phi k n) ∧ Finite words m s' := by
  have hs' : s'.gamma = computeGamma (countsOf words) m.alpha s'.phi := by
    unfold unsupervisedStep at h
    obtain ⟨phi, _, rfl⟩ := Option.map_eq_some_iff.1 h
    rfl
  have hu := unsupervisedStep_update hm h
  have hfin : Finite words m s' := hu.finite hm hk
  obtain ⟨pg, hpg, hprop, hcounts⟩ := hu
  have hwn : ∀ k n, 0 ≤ m.beta k n * P.exp (pg k) := fun k n => mul_nonneg (hm.beta_nonneg k n) (P.exp_pos _).le
  have hdist : ∀ n ∈ words, IsDist fun k => s'.phi k n := by
    intro n hn
    obtain ⟨k, hk⟩ := hk n hn
    exact ⟨fun k => hprop.nonneg hwn k n, (hprop n).2.1 ⟨k, (mul_pos hk (P.exp_pos _)).ne'⟩⟩
  have hpos : ∀ k, 0 < s'.gamma k := fun k => (counts_pos hm hcounts (fun k n => hprop.nonneg hwn k n) k).2
  refine ⟨?_, hpos, hdist, hfin⟩
  have h1 : elbo Real.log words m.alpha s.gamma (expectedLog s.gamma) m.beta s'.phi ≤ bound words m s' := by
    rw [bound, hs']
    exact C89_gamma_maximises Real.log words hm.alpha_pos m.beta (fun n hn => (hdist n hn).1) hg
  have h2 : bound words m s ≤
      elbo Real.log words m.alpha s.gamma (expectedLog s.gamma) m.beta s'.phi + words.length * (2 * ε) := by
    rw [bound, elbo_split_phi, elbo_split_phi]
    have key : ∀ n ∈ words, ∑ k, s.phi k n *
        (expectedLog s.gamma k + Real.log (m.beta k n) - Real.log (s.phi k n)) ≤
        (∑ k, s'.phi k n * (expectedLog s.gamma k + Real.log (m.beta k n) - Real.log (s'.phi k n))) + 2 * ε := by
      intro n hn
      refine word_bound (b := fun k => m.beta k n) (e := fun k => P.exp (pg k))
        (c := logDeriv Real.Gamma (∑ j, s.gamma j)) (fun k => hm.beta_nonneg k n) (fun k => P.exp_pos _) ?_
        (hd n hn) (hf n hn) (hprop n).1 (hdist n hn).2
      intro k
      have := hε k (pg k) (hpg k)
      simp only [expectedLog]
      rwa [show Real.log (P.exp (pg k)) - (logDeriv Real.Gamma (s.gamma k) - logDeriv Real.Gamma (∑ j, s.gamma j)) -
        logDeriv Real.Gamma (∑ j, s.gamma j) = Real.log (P.exp (pg k)) - logDeriv Real.Gamma (s.gamma k) by ring]
    have hsum : ∀ l : List (Fin V), (∀ n ∈ l, n ∈ words) →
        (l.map fun n => ∑ k, s.phi k n * (expectedLog s.gamma k + Real.log (m.beta k n) - Real.log (s.phi k n))).sum ≤
        (l.map fun n => ∑ k, s'.phi k n * (expectedLog s.gamma k + Real.log (m.beta k n) - Real.log (s'.phi k n))).sum
          + l.length * (2 * ε) := by
      intro l
      induction l with
      | nil => simp
      | cons a l ih =>
        intro hl
        have h1 := ih fun n hn => hl n (List.mem_cons_of_mem _ hn)
        have h2 := key a (hl a List.mem_cons_self)
        simp only [List.map_cons, List.sum_cons, List.length_cons, Nat.cast_add, Nat.cast_one]
        linarith
    have := hsum words fun n hn => hn
    linarith
  linarith

/-- The exact exponential and digamma function. -/
noncomputable def exact : Prims := exactPrims (logDeriv Real.Gamma)

/-- **C90**: with the exact exponential and digamma function an iteration never decreases the bound. -/
theorem C90_exact {words : List (Fin V)} {m : Model K V C} (hm : m.Valid) (hk : ∀ n ∈ words, m.Known n)
    {s s' : VP K V} (hg : ∀ k, 0 < s.gamma k) (hd : ∀ n ∈ words, IsDist fun k => s.phi k n)
    (hf : Finite words m s) (h : unsupervisedStep exact (countsOf words) m s = some s') :
    bound words m s ≤ bound words m s' := by
  have := (C90_iteration (ε := 0) hm hk hg hd hf (fun k v hv => by
    have : logDeriv Real.Gamma (s.gamma k) = v := Option.some.inj hv
    rw [this]
    simp [exact, exactPrims]) h).1
  simpa using this

/-- **C90**: with `fast_exp` and `digamma` as they are, an iteration decreases the bound by at most
`0.004 * M` per word, where `M` bounds the values of the digamma function. -/
theorem C90_actual {words : List (Fin V)} {m : Model K V C} (hm : m.Valid) (hk : ∀ n ∈ words, m.Known n)
    {s s' : VP K V} (hg : ∀ k, 0 < s.gamma k) (hd : ∀ n ∈ words, IsDist fun k => s.phi k n)
    (hf : Finite words m s) {M : ℝ} (hM : 1 ≤ M) (hpsi : ∀ k, |logDeriv Real.Gamma (s.gamma k)| ≤ M)
    (h : unsupervisedStep fastPrims (countsOf words) m s = some s') :
    bound words m s ≤ bound words m s' + words.length * (M / 250) := by
  have := (C90_iteration (ε := M / 500) hm hk hg hd hf (fun k v hv => ?_) h).1
  · refine this.trans (le_of_eq ?_)
    ring
  · obtain ⟨v', h1, h2, h3⟩ := FastExp.C88_accuracy (s.gamma k) fun n hn => by
      have := hg k
      have : (0 : ℝ) ≤ n := Nat.cast_nonneg n
      linarith
    have hv' : v' = v := Option.some.inj (h1.symm.trans hv)
    subst hv'
    have hexp := fastPrims_exp v'
    have hp := abs_le.1 (hpsi k)
    have hvM : |v'| ≤ M + 57 / 1000000000000 := abs_le.2 ⟨by linarith, by linarith⟩
    have hlog : |Real.log (fastPrims.exp v') - v'| ≤ (2 * M + 2 * (57 / 1000000000000)) * (1 / 1023 + 23 / 10 ^ 14) := by
      rcases le_or_gt |v'| 100 with h100 | h100
      · obtain ⟨u, hu1, _, hu3⟩ := FastExp.C30_accuracy v' h100
        have : u = fastPrims.exp v' := Option.some.inj (hu1.symm.trans hexp)
        rw [← this]
        refine hu3.trans (mul_le_mul_of_nonneg_right (max_le (by linarith) (by linarith)) (by norm_num))
      · have := Option.some.inj ((FastExp.C30_outside v' h100).symm.trans hexp)
        rw [← this, Real.log_exp, sub_self, abs_zero]
        exact mul_nonneg (by linarith) (by norm_num)
    have h4 : |v' - logDeriv Real.Gamma (s.gamma k)| ≤ 57 / 1000000000000 := abs_le.2 ⟨by linarith, by linarith⟩
    have h5 := abs_add_le (Real.log (fastPrims.exp v') - v') (v' - logDeriv Real.Gamma (s.gamma k))
    rw [sub_add_sub_cancel] at h5
    refine h5.trans ?_
    norm_num at hlog h4 ⊢
    linarith

/-! ### Whole runs -/

/-- Iterations of the loop body. -/
def Iterates {S : Type} (step : S → Option S) (n : ℕ) (s s' : S) : Prop :=
  ∃ f : ℕ → S, f 0 = s ∧ f n = s' ∧ ∀ i < n, step (f i) = some (f (i + 1))

theorem Iterates.cons {S : Type} {step : S → Option S} {n : ℕ} {s s1 s' : S} (h : step s = some s1)
    (h2 : Iterates step n s1 s') : Iterates step (n + 1) s s' := by
  obtain ⟨f, h0, hn, hi⟩ := h2
  refine ⟨fun i => match i with | 0 => s | i + 1 => f i, rfl, hn, fun i hlt => ?_⟩
  cases i with
  | zero => simpa [h0] using h
  | succ i => exact hi i (by omega)

theorem loop_iterates {S : Type} {step : S → Option S} {gam : S → Vec K ℝ} {tol : ℝ} :
    ∀ (i : ℕ) (old : Vec K ℝ) (s s' : S), loop step gam tol i old s = some s' → ∃ n, Iterates step n s s' := by
  intro i
  induction i with
  | zero =>
    intro old s s' h
    rw [loop, Option.some.injEq] at h
    subst h
    exact ⟨0, fun _ => s, rfl, rfl, fun i hi => by omega⟩
  | succ i ih =>
    intro old s s' h
    rw [loop] at h
    split at h
    · rw [Option.some.injEq] at h
      subst h
      exact ⟨0, fun _ => s, rfl, rfl, fun i hi => by omega⟩
    · obtain ⟨s1, h1, h2⟩ := Option.bind_eq_some_iff.1 h
      obtain ⟨n, hn⟩ := ih _ _ _ h2
      exact ⟨n + 1, hn.cons h1⟩

theorem loop_longer {S : Type} {step : S → Option S} {gam : S → Vec K ℝ} {tol tol' : ℝ} (ht : tol' ≤ tol) :
    ∀ (i j : ℕ) (old : Vec K ℝ) (s r r' : S), i ≤ j → loop step gam tol i old s = some r →
      loop step gam tol' j old s = some r' → ∃ n, Iterates step n r r' := by
  intro i
  induction i with
  | zero =>
    intro j old s r r' _ h h'
    rw [loop, Option.some.injEq] at h
    subst h
    exact loop_iterates j old s r' h'
  | succ i ih =>
    intro j old s r r' hij h h'
    obtain ⟨j, rfl⟩ : ∃ j', j = j' + 1 := ⟨j - 1, by omega⟩
    have hfull := h'
    rw [loop] at h h'
    split at h
    · rw [Option.some.injEq] at h
      subst h
      exact loop_iterates _ _ _ _ hfull
    · rename_i hc
      have hc' : ¬ converged old (gam s) tol' = true := by
        intro hc'
        apply hc
        simp only [converged, decide_eq_true_eq] at hc' ⊢
        exact ⟨hc'.1, lt_of_lt_of_le hc'.2 ht⟩
      rw [if_neg hc'] at h'
      obtain ⟨s1, h1, h2⟩ := Option.bind_eq_some_iff.1 h
      obtain ⟨s1', h1', h2'⟩ := Option.bind_eq_some_iff.1 h'
      have : s1 = s1' := Option.some.inj (h1.symm.trans h1')
      subst this
      exact ih j _ _ _ _ (by omega) h2 h2'

theorem iterates_bound {words : List (Fin V)} {m : Model K V C} (hm : m.Valid) (hk : ∀ n ∈ words, m.Known n)
    {n : ℕ} : ∀ {s s' : VP K V}, Iterates (unsupervisedStep exact (countsOf words) m) n s s' →
    (∀ k, 0 < s.gamma k) → (∀ n ∈ words, IsDist fun k => s.phi k n) → Finite words m s →
    bound words m s ≤ bound words m s' := by
  rintro s s' ⟨f, rfl, rfl, hi⟩ hg hd hf
  have : ∀ i, i ≤ n → bound words m (f 0) ≤ bound words m (f i) ∧ (∀ k, 0 < (f i).gamma k) ∧
      (∀ n ∈ words, IsDist fun k => (f i).phi k n) ∧ Finite words m (f i) := by
    intro i
    induction i with
    | zero => exact fun _ => ⟨le_rfl, hg, hd, hf⟩
    | succ i ih =>
      intro hin
      obtain ⟨h1, h2, h3, h4⟩ := ih (by omega)
      have hstep := hi i (by omega)
      have := C90_iteration (ε := 0) hm hk h2 h3 h4 (fun k v hv => by
        have : logDeriv Real.Gamma ((f i).gamma k) = v := Option.some.inj hv
        rw [this]
        simp [exact, exactPrims]) hstep
      exact ⟨h1.trans (by simpa using this.1), this.2⟩
  exact (this n le_rfl).1

/-- The bound of the result is a real number if at least one iteration is made. -/
theorem C90_finite {words : List (Fin V)} {m : Model K V C} (hm : m.Valid) (hK : 0 < K)
    (hk : ∀ n ∈ words, m.Known n) {cfg : Cfg} {draw : ℝ} {s : VP K V} {r : Report}
    (hr : RunsOnce cfg.iterations cfg.tolerance (countsOf words) m)
    (h : unsupervised P cfg draw (countsOf words) m = some (s, r)) : Finite words m s := by
  obtain ⟨s1, h1⟩ := (C38_unsupervised hm hK h).ran hm rfl hr
  exact h1.finite hm hk

/-- **C90**, whole runs with exact arithmetic: allowing more iterations and asking for a smaller change never
makes the evidence lower bound of the result worse, provided that the bound of the shorter run is finite (it is
as soon as that run has made an iteration, or if every topic knows every word of the document). -/
theorem C90_more_iterations {words : List (Fin V)} {m : Model K V C} (hm : m.Valid) (hK : 0 < K)
    (hk : ∀ n ∈ words, m.Known n) {cfg cfg' : Cfg} (hi : cfg.iterations ≤ cfg'.iterations)
    (ht : cfg'.tolerance ≤ cfg.tolerance) {draw draw' : ℝ} {s s' : VP K V} {r r' : Report}
    (h : unsupervised exact cfg draw (countsOf words) m = some (s, r))
    (h' : unsupervised exact cfg' draw' (countsOf words) m = some (s', r')) (hf : Finite words m s) :
    bound words m s ≤ bound words m s' := by
  obtain ⟨n, hn⟩ := loop_longer ht _ _ _ _ _ _ hi (run_of_unsupervised h) (run_of_unsupervised h')
  have hr := C35_unsupervised hm hK h
  have hd : ∀ n ∈ words, IsDist fun k => s.phi k n := fun n hn => ⟨fun k => hr.1 k n, hr.2.1 n (hk n hn)⟩
  exact iterates_bound hm hk hn
    (fun k => (hm.alpha_pos k).trans_le (C37_unsupervised hm hK h k).2) hd hf

/-! ### The hypotheses are met -/

theorem demo_words : countsOf [(0 : Fin 3), 1, 0] = demoX := by
  funext n
  fin_cases n <;> simp [countsOf, demoX]

theorem demo_words_known : ∀ n ∈ [(0 : Fin 3), 1, 0], demo.Known n := fun n hn =>
  demo_known n (by rw [← demo_words]; exact countsOf_ne.2 hn)

theorem demo_words_finite (s : VP 2 3) : Finite [(0 : Fin 3), 1, 0] demo s := by
  intro n hn k hb
  have hn2 : n ≠ 2 := by rintro rfl; revert hn; decide
  simp only [demo, if_neg hn2] at hb
  split at hb <;> norm_num at hb

/-- Ten iterations are at least as good as none, for a document with a repeated word. -/
example : ∃ s s' r r', unsupervised exact ⟨0, 1, 1⟩ 0 (countsOf [0, 1, 0]) demo = some (s, r) ∧
    unsupervised exact ⟨10, 1 / 100, 1⟩ 0 (countsOf [0, 1, 0]) demo = some (s', r') ∧
    bound [0, 1, 0] demo s ≤ bound [0, 1, 0] demo s' := by
  obtain ⟨s, r, h, _⟩ := C35_unsupervised_defined (P := exact) (cfg := ⟨0, 1, 1⟩) (draw := 0)
    (X := countsOf [0, 1, 0]) demo_valid (by norm_num)
  obtain ⟨s', r', h', _⟩ := C35_unsupervised_defined (P := exact) (cfg := ⟨10, 1 / 100, 1⟩) (draw := 0)
    (X := countsOf [0, 1, 0]) demo_valid (by norm_num)
  exact ⟨s, s', r, r', h, h', C90_more_iterations demo_valid (by norm_num) demo_words_known (by norm_num)
    (by norm_num) h h' (demo_words_finite s)⟩

/-- An iteration with the functions as they are, from parameters for which the bound on digamma is known. -/
example : ∃ s', unsupervisedStep fastPrims (countsOf [0, 1, 0]) demo
      ⟨fun _ _ => 1 / 2, fun _ => 1⟩ = some s' ∧
    bound [0, 1, 0] demo ⟨fun _ _ => 1 / 2, fun _ => 1⟩ ≤ bound [0, 1, 0] demo s' + 3 * (1 / 250) := by
  have hg : ∀ k, 0 < (⟨fun _ _ => 1 / 2, fun _ => 1⟩ : VP 2 3).gamma k := fun k => by norm_num
  obtain ⟨s', h⟩ := unsupervisedStep_total (P := fastPrims) (X := countsOf [0, 1, 0]) (m := demo) hg
  refine ⟨s', h, ?_⟩
  have := C90_actual (M := 1) demo_valid demo_words_known hg
    (fun n _ => ⟨fun k => by norm_num, by norm_num [Fin.sum_univ_two]⟩) (demo_words_finite _) le_rfl (fun k => ?_) h
  · simpa using this
  · have e : logDeriv Real.Gamma 1 = -Real.eulerMascheroniConstant := by
      rw [logDeriv_apply, Real.Gamma_one, div_one, Real.eulerMascheroniConstant_eq_neg_deriv]
      ring
    have h1 := Real.one_half_lt_eulerMascheroniConstant
    have h2 := Real.eulerMascheroniConstant_lt_two_thirds
    show |logDeriv Real.Gamma 1| ≤ 1
    rw [e, abs_neg, abs_le]
    constructor <;> linarith

end Verif.EStep
