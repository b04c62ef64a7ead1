import Verif.Props.EStep
import Verif.Lemmas.Gibbs
import Mathlib.Algebra.BigOperators.Group.Finset.Defs

/-! Properties C68 and C69: the evidence lower bound. -/
namespace Verif.EStep

open MathUtils Finset

variable {K V C : ℕ} {P : Prims}

/-! ### Specification -/

/-- The evidence lower bound of latent Dirichlet allocation, equations (14) and (15) of Blei 2003, of a
document given as the list of its words; `t` is `E_q[log θ]`, that is `ψ(γ_k) - ψ(∑ γ)`, and `lg` the
logarithm used for probabilities.  Equal words share their responsibilities, the columns of `phi`. -/
noncomputable def elbo (lg : ℝ → ℝ) (words : List (Fin V)) (alpha gamma t : Vec K ℝ) (beta phi : Mat K V ℝ) : ℝ :=
  -- E_q[log p(θ | α)]
  (Real.log (Real.Gamma (∑ k, alpha k)) - (∑ k, Real.log (Real.Gamma (alpha k))) + ∑ k, (alpha k - 1) * t k)
  -- E_q[log p(z | θ)]
  + (words.map fun n => ∑ k, phi k n * t k).sum
  -- E_q[log p(w | z, β)]
  + (words.map fun n => ∑ k, phi k n * lg (beta k n)).sum
  -- - E_q[log q(θ)]
  - (Real.log (Real.Gamma (∑ k, gamma k)) - (∑ k, Real.log (Real.Gamma (gamma k))) + ∑ k, (gamma k - 1) * t k)
  -- - E_q[log q(z)]
  - (words.map fun n => ∑ k, phi k n * lg (phi k n)).sum

/-- The counts of a list of words. -/
def countsOf (words : List (Fin V)) : Vec V ℕ := fun n => words.count n

/-- The logarithm with the guard against zero. -/
noncomputable def guarded (x : ℝ) : ℝ := Real.log (x + 1 / 10 ^ 44)

/-! ### C68 -/

theorem sum_words (words : List (Fin V)) (f : Fin V → ℝ) :
    (words.map f).sum = ∑ n, (countsOf words n : ℝ) * f n := by
  induction words with
  | nil => simp [countsOf]
  | cons a l ih =>
    rw [List.map_cons, List.sum_cons, ih]
    have : ∀ n, (countsOf (a :: l) n : ℝ) * f n = (if a = n then f n else 0) + (countsOf l n : ℝ) * f n := by
      intro n
      simp only [countsOf, List.count_cons]
      by_cases h : a = n
      · simp [h]; ring
      · simp [h]
    rw [Finset.sum_congr rfl fun n _ => this n, Finset.sum_add_distrib, Finset.sum_ite_eq]
    simp

/-- What is reported exceeds the bound by this much: in two of its terms a word that occurs several
times is counted once. -/
theorem C68_gap {words : List (Fin V)} {alpha gamma pg : Vec K ℝ} {ps : ℝ} {beta phi : Mat K V ℝ} {l : ℝ}
    (hpg : ∀ k, P.psi (gamma k) = some (pg k)) (hps : P.psi (∑ k, gamma k) = some ps)
    (h : unsupervisedLikelihood P (countsOf words) alpha beta phi gamma = some l) :
    l = elbo guarded words alpha gamma (fun k => pg k - ps) beta phi -
      ∑ n ∈ univ.filter (fun n => n ∈ words), ((words.count n : ℝ) - 1) *
        ∑ k, phi k n * (pg k - ps - guarded (phi k n)) := by
  unfold unsupervisedLikelihood at h
  rw [mapOpt_eq.2 hpg, hps] at h
  simp only [Option.bind_some, Option.some.injEq] at h
  rw [← h]
  unfold elbo
  simp only [sum_words]
  have key : ∀ g : Fin K → Fin V → ℝ, (∑ n, (countsOf words n : ℝ) * ∑ k, g k n) -
      ∑ n, ∑ k, (if countsOf words n ≠ 0 then 1 else 0) * g k n =
      ∑ n ∈ univ.filter (fun n => n ∈ words), ((words.count n : ℝ) - 1) * ∑ k, g k n := by
    intro g
    rw [← Finset.sum_sub_distrib, Finset.sum_filter]
    refine Finset.sum_congr rfl fun n _ => ?_
    rw [← Finset.mul_sum]
    by_cases hn : n ∈ words
    · have : words.count n ≠ 0 := (List.count_pos_iff.2 hn).ne'
      simp [hn, countsOf, this]
      ring
    · have : words.count n = 0 := List.count_eq_zero.2 hn
      simp [hn, countsOf, this]
  have e1 : ∑ n, ∑ k, phi k n * (if countsOf words n ≠ 0 then 1 else 0) * (pg k - ps) =
      ∑ n, ∑ k, (if countsOf words n ≠ 0 then 1 else 0) * (phi k n * (pg k - ps)) :=
    Finset.sum_congr rfl fun n _ => Finset.sum_congr rfl fun k _ => by ring
  have e2 : ∑ n, ∑ k, phi k n * (countsOf words n : ℝ) * Real.log (beta k n + tiny) =
      ∑ n, (countsOf words n : ℝ) * ∑ k, phi k n * guarded (beta k n) := by
    refine Finset.sum_congr rfl fun n _ => ?_
    rw [Finset.mul_sum]
    refine Finset.sum_congr rfl fun k _ => ?_
    unfold guarded tiny
    ring
  have e3 : ∑ n, ∑ k, phi k n * (if countsOf words n ≠ 0 then 1 else 0) *
        Real.log (phi k n * (if countsOf words n ≠ 0 then 1 else 0) + tiny) =
      ∑ n, ∑ k, (if countsOf words n ≠ 0 then 1 else 0) * (phi k n * guarded (phi k n)) := by
    refine Finset.sum_congr rfl fun n _ => Finset.sum_congr rfl fun k _ => ?_
    unfold guarded tiny
    split <;> simp
  rw [e1, e2, e3]
  have k1 := key fun k n => phi k n * (pg k - ps)
  have k2 := key fun k n => phi k n * guarded (phi k n)
  have e4 : ∑ n ∈ univ.filter (fun n => n ∈ words), ((words.count n : ℝ) - 1) *
        ∑ k, phi k n * (pg k - ps - guarded (phi k n)) =
      (∑ n ∈ univ.filter (fun n => n ∈ words), ((words.count n : ℝ) - 1) * ∑ k, phi k n * (pg k - ps)) -
      ∑ n ∈ univ.filter (fun n => n ∈ words), ((words.count n : ℝ) - 1) * ∑ k, phi k n * guarded (phi k n) := by
    rw [← Finset.sum_sub_distrib]
    refine Finset.sum_congr rfl fun n _ => ?_
    rw [← mul_sub, ← Finset.sum_sub_distrib]
    congr 1
    exact Finset.sum_congr rfl fun k _ => by ring
  rw [e4, ← k1, ← k2]
  unfold lgamma
  ring

/-- **C68**, for documents in which no word occurs twice: what is computed is the evidence lower
bound, with the guarded logarithm.  It is missing for the others, for which it is false
(`C68_repeated_word`). -/
theorem C68_reported_elbo_partial {words : List (Fin V)} (hd : words.Nodup) {alpha gamma pg : Vec K ℝ} {ps : ℝ}
    {beta phi : Mat K V ℝ} {l : ℝ} (hpg : ∀ k, P.psi (gamma k) = some (pg k))
    (hps : P.psi (∑ k, gamma k) = some ps)
    (h : unsupervisedLikelihood P (countsOf words) alpha beta phi gamma = some l) :
    l = elbo guarded words alpha gamma (fun k => pg k - ps) beta phi := by
  rw [C68_gap hpg hps h]
  have : ∀ n ∈ univ.filter (fun n => n ∈ words), ((words.count n : ℝ) - 1) *
      ∑ k, phi k n * (pg k - ps - guarded (phi k n)) = 0 := by
    intro n hn
    rw [List.count_eq_one_of_mem hd (by simpa using hn)]
    simp
  rw [Finset.sum_eq_zero this, sub_zero]

theorem guarded_bounds {q x : ℝ} (hq : 0 ≤ q) (hx : 0 ≤ x) (h : x = 0 → q = 0) :
    0 ≤ q * (guarded x - Real.log x) ∧ x * (q * (guarded x - Real.log x)) ≤ q / 10 ^ 44 := by
  rcases hx.eq_or_lt with rfl | hx
  · rw [h rfl]; simp
  have h1 : Real.log x ≤ guarded x := Real.log_le_log hx (by linarith [show (0:ℝ) < 1 / 10 ^ 44 by positivity])
  refine ⟨mul_nonneg hq (sub_nonneg.2 h1), ?_⟩
  have h2 : guarded x - Real.log x = Real.log (1 + 1 / 10 ^ 44 / x) := by
    unfold guarded
    rw [← Real.log_div (by positivity) hx.ne', add_div, div_self hx.ne']
  have h3 := Real.log_le_sub_one_of_pos (show 0 < 1 + 1 / 10 ^ 44 / x by positivity)
  rw [h2]
  have h4 : x * (1 / 10 ^ 44 / x) = 1 / 10 ^ 44 := by field_simp
  have : x * Real.log (1 + 1 / 10 ^ 44 / x) ≤ 1 / 10 ^ 44 := by
    calc x * Real.log (1 + 1 / 10 ^ 44 / x) ≤ x * (1 + 1 / 10 ^ 44 / x - 1) := mul_le_mul_of_nonneg_left h3 hx.le
      _ = 1 / 10 ^ 44 := by rw [add_sub_cancel_left, h4]
  calc x * (q * Real.log (1 + 1 / 10 ^ 44 / x)) = q * (x * Real.log (1 + 1 / 10 ^ 44 / x)) := by ring
    _ ≤ q * (1 / 10 ^ 44) := mul_le_mul_of_nonneg_left this hq
    _ = q / 10 ^ 44 := by ring

/-- The guard is harmless: the bound with the guarded logarithm is within `1e-44` times the number of
words times `max (topics) (1 / b)` of the exact one, where `b` is the least probability involved. -/
theorem C68_guard {words : List (Fin V)} {alpha gamma t : Vec K ℝ} {beta phi : Mat K V ℝ} {b : ℝ} (hb : 0 < b)
    (hphi : ∀ n ∈ words, IsDist fun k => phi k n)
    (hbeta : ∀ n ∈ words, ∀ k, phi k n = 0 ∨ b ≤ beta k n) :
    elbo guarded words alpha gamma t beta phi - elbo Real.log words alpha gamma t beta phi ≤
      words.length * (1 / b) / 10 ^ 44 ∧
    elbo Real.log words alpha gamma t beta phi - elbo guarded words alpha gamma t beta phi ≤
      words.length * K / 10 ^ 44 := by
  unfold elbo
  have d : ∀ f g : Fin V → ℝ, (words.map f).sum - (words.map g).sum = (words.map fun n => f n - g n).sum := by
    intro f g
    induction words with
    | nil => simp
    | cons a l ih =>
      simp only [List.map_cons, List.sum_cons]
      rw [← ih (fun n hn => hphi n (by simp [hn])) (fun n hn => hbeta n (by simp [hn]))]
      ring
  have b1 : 0 ≤ (words.map fun n => ∑ k, phi k n * (guarded (beta k n) - Real.log (beta k n))).sum ∧
      (words.map fun n => ∑ k, phi k n * (guarded (beta k n) - Real.log (beta k n))).sum ≤
        words.length * (1 / b / 10 ^ 44) := by
    have : ∀ n ∈ words, 0 ≤ (∑ k, phi k n * (guarded (beta k n) - Real.log (beta k n))) ∧
        (∑ k, phi k n * (guarded (beta k n) - Real.log (beta k n))) ≤ 1 / b / 10 ^ 44 := by
      intro n hn
      have hk : ∀ k, 0 ≤ phi k n * (guarded (beta k n) - Real.log (beta k n)) ∧
          phi k n * (guarded (beta k n) - Real.log (beta k n)) ≤ phi k n * (1 / b / 10 ^ 44) := by
        intro k
        rcases hbeta n hn k with h | h
        · rw [h]; simp
        · have hbk : 0 < beta k n := lt_of_lt_of_le hb h
          obtain ⟨g1, g2⟩ := guarded_bounds ((hphi n hn).1 k) hbk.le fun h0 => absurd h0 hbk.ne'
          refine ⟨g1, ?_⟩
          have : b * (phi k n * (guarded (beta k n) - Real.log (beta k n))) ≤ phi k n / 10 ^ 44 :=
            (mul_le_mul_of_nonneg_right h g1).trans g2
          rw [div_div, mul_one_div, le_div_iff₀ (by positivity)]
          have e : b * (phi k n * (guarded (beta k n) - Real.log (beta k n))) * 10 ^ 44 ≤ phi k n := by
            rwa [le_div_iff₀ (by positivity)] at this
          linarith
      refine ⟨Finset.sum_nonneg fun k _ => (hk k).1, (Finset.sum_le_sum fun k _ => (hk k).2).trans ?_⟩
      rw [← Finset.sum_mul, (hphi n hn).2, one_mul]
    constructor
    · exact List.sum_nonneg fun x hx => by
        obtain ⟨n, hn, rfl⟩ := List.mem_map.1 hx
        exact (this n hn).1
    · have := List.sum_le_card_nsmul (words.map fun n =>
        ∑ k, phi k n * (guarded (beta k n) - Real.log (beta k n))) (1 / b / 10 ^ 44) fun x hx => by
          obtain ⟨n, hn, rfl⟩ := List.mem_map.1 hx
          exact (this n hn).2
      rw [List.length_map, nsmul_eq_mul] at this
      exact this
  have b2 : 0 ≤ (words.map fun n => ∑ k, phi k n * (guarded (phi k n) - Real.log (phi k n))).sum ∧
      (words.map fun n => ∑ k, phi k n * (guarded (phi k n) - Real.log (phi k n))).sum ≤
        words.length * (K / 10 ^ 44) := by
    have : ∀ n ∈ words, 0 ≤ (∑ k, phi k n * (guarded (phi k n) - Real.log (phi k n))) ∧
        (∑ k, phi k n * (guarded (phi k n) - Real.log (phi k n))) ≤ K / 10 ^ 44 := by
      intro n hn
      have hk : ∀ k, 0 ≤ phi k n * (guarded (phi k n) - Real.log (phi k n)) ∧
          phi k n * (guarded (phi k n) - Real.log (phi k n)) ≤ 1 / 10 ^ 44 := by
        intro k
        obtain ⟨g1, g2⟩ := guarded_bounds ((hphi n hn).1 k) ((hphi n hn).1 k) id
        refine ⟨g1, ?_⟩
        rcases ((hphi n hn).1 k).eq_or_lt with h | h
        · simp only at h; rw [← h]; simp
        · rw [div_eq_mul_one_div (phi k n)] at g2
          exact le_of_mul_le_mul_left g2 h
      refine ⟨Finset.sum_nonneg fun k _ => (hk k).1, (Finset.sum_le_sum fun k _ => (hk k).2).trans ?_⟩
      simp [div_eq_mul_inv]
    constructor
    · exact List.sum_nonneg fun x hx => by
        obtain ⟨n, hn, rfl⟩ := List.mem_map.1 hx
        exact (this n hn).1
    · have := List.sum_le_card_nsmul (words.map fun n =>
        ∑ k, phi k n * (guarded (phi k n) - Real.log (phi k n))) (K / 10 ^ 44) fun x hx => by
          obtain ⟨n, hn, rfl⟩ := List.mem_map.1 hx
          exact (this n hn).2
      rw [List.length_map, nsmul_eq_mul] at this
      exact this
  have e1 := d (fun n => ∑ k, phi k n * guarded (beta k n)) (fun n => ∑ k, phi k n * Real.log (beta k n))
  have e2 := d (fun n => ∑ k, phi k n * guarded (phi k n)) (fun n => ∑ k, phi k n * Real.log (phi k n))
  simp only [← Finset.sum_sub_distrib, ← mul_sub] at e1 e2
  have c1 : (words.length : ℝ) * (1 / b) / 10 ^ 44 = words.length * (1 / b / 10 ^ 44) := by ring
  have c2 : (words.length : ℝ) * K / 10 ^ 44 = words.length * (K / 10 ^ 44) := by ring
  rw [c1, c2]
  constructor <;> linarith [b1.1, b1.2, b2.1, b2.2]

/-- **C68** is false when a word occurs twice: for the document that consists of two copies of the only
word, and parameters that satisfy `γ = α + ∑ X φ`, the number reported exceeds the evidence lower
bound by more than `1/3`. -/
theorem C68_repeated_word :
    let phi : Mat 2 1 ℝ := fun k _ => if k = 0 then 1 else 0
    let beta : Mat 2 1 ℝ := fun _ _ => 1
    let alpha : Vec 2 ℝ := fun _ => 1
    let gamma : Vec 2 ℝ := fun k => if k = 0 then 3 else 1
    ∃ (pg : Vec 2 ℝ) (ps l : ℝ), (∀ k, fastPrims.psi (gamma k) = some (pg k)) ∧ fastPrims.psi (∑ k, gamma k) = some ps ∧
      unsupervisedLikelihood fastPrims (countsOf [0, 0]) alpha beta phi gamma = some l ∧
      (∀ k, gamma k = alpha k + ∑ n, (countsOf [0, 0] n : ℝ) * phi k n) ∧
      elbo guarded [0, 0] alpha gamma (fun k => pg k - ps) beta phi + 1 / 3 < l := by
  intro phi beta alpha gamma
  have hg : ∀ k, 0 < gamma k := fun k => by simp only [gamma]; split <;> norm_num
  obtain ⟨pg, hpg⟩ := mapOpt_psi fastPrims hg
  have hpg' := mapOpt_eq.1 hpg
  have hsum : ∑ k, gamma k = 3 + 1 := by simp [gamma, Fin.sum_univ_two]
  obtain ⟨ps, hps⟩ := fastPrims.psi_some (∑ k, gamma k) (by rw [hsum]; norm_num)
  obtain ⟨l, hl⟩ := unsupervisedLikelihood_total (P := fastPrims) (X := countsOf [0, 0]) (by norm_num) alpha beta phi hg
  refine ⟨pg, ps, l, hpg', hps, hl, fun k => ?_, ?_⟩
  · simp [countsOf, alpha, gamma, phi]
    split <;> norm_num
  · rw [C68_gap hpg' hps hl]
    have e : univ.filter (fun n : Fin 1 => n ∈ [(0 : Fin 1), 0]) = {0} := by decide
    rw [e, Finset.sum_singleton, Fin.sum_univ_two]
    have hp : pg 0 - ps = -(1 / 3) := by
      have h0 := hpg' 0
      simp only [gamma, if_true] at h0
      rw [hsum] at hps
      have hrec := FastExp.C32_recurrence 3 (by norm_num) (by norm_num)
      rw [show FastExp.digamma 3 = some (pg 0) from h0, show FastExp.digamma (3 + 1) = some ps from hps,
        Option.map_some, Option.some.injEq] at hrec
      rw [hrec]
      ring
    have hlog : 0 ≤ guarded 1 := Real.log_nonneg (by norm_num)
    have hc : ([(0 : Fin 1), 0].count 0 : ℝ) = 2 := by simp
    simp only [hc, phi, if_true, one_ne_zero, if_false, hp, Fin.isValue, zero_mul, add_zero, one_mul]
    have hlog' : 0 < guarded 1 := Real.log_pos (by norm_num)
    linarith

/-! ### C69 -/

/-- The part of the bound that depends on the responsibilities. -/
noncomputable def phiObjective (X : Vec V ℕ) (t : Vec K ℝ) (beta q : Mat K V ℝ) : ℝ :=
  ∑ n, (X n : ℝ) * ∑ k, q k n * (t k + Real.log (beta k n) - Real.log (q k n))

/-- **C69**.  With exact arithmetic the responsibilities computed by the unsupervised update maximise,
among all those that are distributions and vanish where `beta` does (elsewhere the bound is `-∞`), the
part of the bound that depends on them. -/
theorem C69_phi_maximises (psi : ℝ → ℝ) (X : Vec V ℕ) (m : Model K V C) (hm : m.Valid)
    (hk : ∀ n, X n ≠ 0 → m.Known n) (gamma : Vec K ℝ) (phi : Mat K V ℝ)
    (h : unsupervisedPhi (exactPrims psi) m.beta gamma = some phi) (q : Mat K V ℝ)
    (hq : ∀ n, X n ≠ 0 → IsDist fun k => q k n) (hs : ∀ n k, X n ≠ 0 → m.beta k n = 0 → q k n = 0) :
    phiObjective X (fun k => psi (gamma k) - psi (∑ k, gamma k)) m.beta q ≤
      phiObjective X (fun k => psi (gamma k) - psi (∑ k, gamma k)) m.beta phi := by
  unfold unsupervisedPhi at h
  rw [mapOpt_eq.2 fun k => (rfl : (exactPrims psi).psi (gamma k) = some ((fun k => psi (gamma k)) k)), Option.map_some, Option.some.injEq] at h
  subst h
  unfold phiObjective
  refine Finset.sum_le_sum fun n _ => ?_
  by_cases hn : X n = 0
  · simp [hn]
  refine mul_le_mul_of_nonneg_left ?_ (Nat.cast_nonneg _)
  let w : Fin K → ℝ := fun k => m.beta k n * Real.exp (psi (gamma k))
  have hw : ∀ k, 0 ≤ w k := fun k => mul_nonneg (hm.beta_nonneg k n) (Real.exp_pos _).le
  have hZ : 0 < ∑ k, w k := by
    obtain ⟨k, hk⟩ := hk n hn
    exact Finset.sum_pos' (fun k _ => hw k) ⟨k, mem_univ k, mul_pos hk (Real.exp_pos _)⟩
  have hphi : ∀ k, normalizeCols (fun k n => m.beta k n * (exactPrims psi).exp (psi (gamma k))) k n =
      w k / ∑ j, w j := by
    intro k
    rw [normalizeCols_apply]
    exact if_neg hZ.ne'
  have split : ∀ r : Fin K → ℝ, (∀ k, m.beta k n = 0 → r k = 0) → ∑ k, r k = 1 →
      ∑ k, r k * (psi (gamma k) - psi (∑ k, gamma k) + Real.log (m.beta k n) - Real.log (r k)) =
        (∑ k, r k * (Real.log (w k) - Real.log (r k))) - psi (∑ k, gamma k) := by
    intro r hr hr1
    have : ∀ k, r k * (psi (gamma k) - psi (∑ k, gamma k) + Real.log (m.beta k n) - Real.log (r k)) =
        r k * (Real.log (w k) - Real.log (r k)) - r k * psi (∑ k, gamma k) := by
      intro k
      by_cases hb : m.beta k n = 0
      · rw [hr k hb]; simp
      · simp only [w]
        rw [Real.log_mul hb (Real.exp_pos _).ne', Real.log_exp]
        ring
    rw [Finset.sum_congr rfl fun k _ => this k, Finset.sum_sub_distrib, ← Finset.sum_mul, hr1, one_mul]
  simp only [hphi]
  rw [split _ (hs n · hn) (hq n hn).2, split (fun k => w k / ∑ j, w j) (fun k hk => by simp [w, hk])
    (by rw [← Finset.sum_div, div_self hZ.ne'])]
  rw [gibbs_eq hw hZ]
  have := gibbs (q := fun k => q k n) (w := w) (hq n hn).1 (hq n hn).2 hw fun k hk => by
    refine hs n k hn ?_
    exact (mul_eq_zero.1 hk).resolve_right (Real.exp_pos _).ne'
  linarith

/-- The hypotheses are met by the example model and document, with the uniform competitor. -/
example (psi : ℝ → ℝ) (gamma : Vec 2 ℝ) : ∃ phi, unsupervisedPhi (exactPrims psi) demo.beta gamma = some phi ∧
    phiObjective demoX (fun k => psi (gamma k) - psi (∑ k, gamma k)) demo.beta (fun _ _ => 1 / 2) ≤
      phiObjective demoX (fun k => psi (gamma k) - psi (∑ k, gamma k)) demo.beta phi := by
  have h : ∃ phi, unsupervisedPhi (exactPrims psi) demo.beta gamma = some phi := by
    unfold unsupervisedPhi
    rw [mapOpt_eq.2 fun k => (rfl : (exactPrims psi).psi (gamma k) = some ((fun k => psi (gamma k)) k))]
    exact ⟨_, rfl⟩
  obtain ⟨phi, h⟩ := h
  refine ⟨phi, h, C69_phi_maximises psi demoX demo demo_valid demo_known gamma phi h _ (fun n _ => ?_) ?_⟩
  · exact ⟨fun k => by norm_num, by norm_num [Fin.sum_univ_two]⟩
  · intro n k hn hb
    have hn2 : n ≠ 2 := by rintro rfl; exact hn rfl
    simp only [demo, if_neg hn2] at hb
    split at hb <;> norm_num at hb

end Verif.EStep
