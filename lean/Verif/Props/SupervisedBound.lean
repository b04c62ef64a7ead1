import Verif.Props.Bound
import Verif.Props.Supervised
import Mathlib.Analysis.Real.Pi.Bounds

/-! Property C98: what the supervised expectation step does to the supervised bound. -/
namespace Verif.EStep

open MathUtils Finset

variable {K V C : ℕ}

/-! ### Specification -/

/-- The evidence lower bound of the supervised model for a document and its class: that of the topic model, plus the
expected score of the class, minus the logarithm of the expected normaliser of the class probabilities
(include/ldaplusplus/e_step_utils.hpp documents its derivative `h`). -/
noncomputable def supBound (words : List (Fin V)) (y : Fin C) (m : Model K V C) (s : VP K V) : ℝ :=
  bound words m s + (words.map fun n => ∑ k, s.phi k n * m.eta k y).sum / words.length
    - Real.log (docPartition exact (countsOf words) m.eta s.phi)

/-! ### One column -/

/-- The part of the bound that depends on the responsibilities of one word that occurs once. -/
noncomputable def colObjective (N : ℝ) (b ey t h q : Vec K ℝ) : ℝ :=
  (∑ k, q k * (t k + Real.log (b k) - Real.log (q k))) + (∑ k, q k * ey k) / N - Real.log (∑ k, h k * q k)

theorem column_update {N : ℝ} {b ey psi t h q r : Vec K ℝ} {c : ℝ} (hb : ∀ k, 0 ≤ b k) (hh : ∀ k, 0 < h k)
    (ht : ∀ k, t k = psi k - c) (hq : IsDist q) (hs : ∀ k, b k = 0 → q k = 0)
    (hu : ColumnUpdate exact 1 N b ey psi h q r) :
    colObjective N b ey t h q ≤ colObjective N b ey t h r ∧ IsDist r ∧ ∀ k, b k = 0 → r k = 0 := by
  obtain ⟨_, hr1, Z, hZ⟩ := hu
  have hexp : ∀ x, exact.exp x = Real.exp x := fun _ => rfl
  simp only [hexp, Nat.cast_one, mul_one, one_div] at hZ
  have hq0 : 0 < ∑ k, h k * q k := by
    obtain ⟨k, hk⟩ : ∃ k, q k ≠ 0 := by
      by_contra hcon
      push Not at hcon
      have := hq.2
      simp [hcon] at this
    exact Finset.sum_pos' (fun k _ => mul_nonneg (hh k).le (hq.1 k))
      ⟨k, mem_univ _, mul_pos (hh k) (lt_of_le_of_ne (hq.1 k) (Ne.symm hk))⟩
  set S := ∑ k, h k * q k with hS
  have hZs : Z = ∑ k, b k * Real.exp (psi k + N⁻¹ * ey k - h k / S) := by
    rw [← Finset.sum_congr rfl fun k _ => hZ k, ← Finset.sum_mul, hr1, one_mul]
  have hv : ∀ k, 0 ≤ b k * Real.exp (psi k + N⁻¹ * ey k - h k / S) := fun k =>
    mul_nonneg (hb k) (Real.exp_pos _).le
  have hZ0 : 0 < Z := by
    rw [hZs]
    obtain ⟨k, hk⟩ : ∃ k, b k ≠ 0 := by
      by_contra hcon
      push Not at hcon
      have := hq.2
      simp [fun k => hs k (hcon k)] at this
    exact Finset.sum_pos' (fun k _ => hv k)
      ⟨k, mem_univ _, mul_pos (lt_of_le_of_ne (hb k) (Ne.symm hk)) (Real.exp_pos _)⟩
  have hr0 : ∀ k, 0 ≤ r k := by
    intro k
    have := hv k
    rw [← hZ k] at this
    exact nonneg_of_mul_nonneg_left this hZ0
  have hrs : ∀ k, b k = 0 → r k = 0 := by
    intro k hk
    have := hZ k
    rw [hk, zero_mul] at this
    exact (mul_eq_zero.1 this).resolve_right hZ0.ne'
  have hr : IsDist r := ⟨hr0, hr1⟩
  refine ⟨?_, hr, hrs⟩
  have hr0' : 0 < ∑ k, h k * r k := by
    obtain ⟨k, hk⟩ : ∃ k, r k ≠ 0 := by
      by_contra hcon
      push Not at hcon
      simp [hcon] at hr1
    exact Finset.sum_pos' (fun k _ => mul_nonneg (hh k).le (hr0 k))
      ⟨k, mem_univ _, mul_pos (hh k) (lt_of_le_of_ne (hr0 k) (Ne.symm hk))⟩
  have key := word_bound (b := b) (t := fun k => t k + N⁻¹ * ey k - h k / S)
    (e := fun k => Real.exp (psi k + N⁻¹ * ey k - h k / S)) (q := q) (r := r) (c := c) (ε := 0) hb
    (fun k => Real.exp_pos _) (fun k => by
      rw [Real.log_exp, ht k]
      have : psi k + N⁻¹ * ey k - h k / S - (psi k - c + N⁻¹ * ey k - h k / S) - c = 0 := by ring
      rw [this, abs_zero]) hq hs (fun k => by rw [← hZs, hZ k]) hr1
  have expand : ∀ p : Vec K ℝ, ∑ k, p k * (t k + N⁻¹ * ey k - h k / S + Real.log (b k) - Real.log (p k)) =
      (∑ k, p k * (t k + Real.log (b k) - Real.log (p k))) + (∑ k, p k * ey k) / N - (∑ k, h k * p k) / S := by
    intro p
    rw [Finset.sum_div, Finset.sum_div, ← Finset.sum_add_distrib, ← Finset.sum_sub_distrib]
    refine Finset.sum_congr rfl fun k _ => ?_
    ring
  rw [expand, expand, ← hS, div_self hq0.ne', mul_zero, add_zero] at key
  have hlog : Real.log (∑ k, h k * r k) ≤ Real.log S + ((∑ k, h k * r k) / S - 1) := by
    have := Real.log_le_sub_one_of_pos (div_pos hr0' hq0)
    rw [Real.log_div hr0'.ne' hq0.ne'] at this
    linarith
  unfold colObjective
  rw [← hS]
  linarith

theorem column_updates {N : ℝ} {b ey psi t h : Vec K ℝ} {c : ℝ} (hb : ∀ k, 0 ≤ b k) (hh : ∀ k, 0 < h k)
    (ht : ∀ k, t k = psi k - c) {fp : ℕ} {q r : Vec K ℝ} (hu : Times (ColumnUpdate exact 1 N b ey psi h) fp q r)
    (hq : IsDist q) (hs : ∀ k, b k = 0 → q k = 0) :
    colObjective N b ey t h q ≤ colObjective N b ey t h r ∧ IsDist r ∧ ∀ k, b k = 0 → r k = 0 := by
  induction hu with
  | zero a => exact ⟨le_rfl, hq, hs⟩
  | succ h1 _ ih =>
    obtain ⟨a1, a2, a3⟩ := column_update hb hh ht hq hs h1
    obtain ⟨b1, b2, b3⟩ := ih a2 a3
    exact ⟨a1.trans b1, b2, b3⟩

/-! ### One word -/

/-- What holds between the updates. -/
structure Good (words : List (Fin V)) (m : Model K V C) (s : VP K V) : Prop where
  dist : ∀ n, IsDist fun k => s.phi k n
  counts : Counts (countsOf words) m.alpha s
  finite : Finite words m s

theorem sum_update (words : List (Fin V)) (hd : words.Nodup) {n : Fin V} (hn : n ∈ words) (f g : Fin V → ℝ)
    (h : ∀ l, l ≠ n → f l = g l) : (words.map f).sum - (words.map g).sum = f n - g n := by
  rw [sum_words, sum_words, ← Finset.sum_sub_distrib, Finset.sum_eq_single n]
  · have : countsOf words n = 1 := List.count_eq_one_of_mem hd hn
    rw [this]
    simp
  · intro l _ hl
    rw [h l hl, sub_self]
  · simp

theorem word_update {words : List (Fin V)} (hd : words.Nodup) {y : Fin C} {m : Model K V C} (hm : m.Valid)
    {fp : ℕ} {n : Fin V} (hn : n ∈ words) {s s' : VP K V} (hs : Good words m s)
    (h : WordUpdate exact (countsOf words) y m fp n s s') :
    supBound words y m s ≤ supBound words y m s' ∧ Good words m s' := by
  obtain ⟨psi, hpsi, hT, hother, hgam⟩ := h
  have hone : countsOf words n = 1 := List.count_eq_one_of_mem hd hn
  have hlen : ∑ i, (countsOf words i : ℝ) = words.length := by
    have := sum_words words fun _ => 1
    simp at this
    exact this.symm
  rw [hone, hlen] at hT
  have hh : ∀ k, 0 < hDoc exact (countsOf words) m.eta s.phi n k := hDoc_pos (fun l => hs.dist l) n y
  have ht : ∀ k, expectedLog s.gamma k = psi k - logDeriv Real.Gamma (∑ j, s.gamma j) := by
    intro k
    have : logDeriv Real.Gamma (s.gamma k) = psi k := Option.some.inj (hpsi k)
    rw [expectedLog, this]
  obtain ⟨h1, h2, h3⟩ := column_updates (fun k => hm.beta_nonneg k n) hh ht hT (hs.dist n) (hs.finite n hn)
  have hdist : ∀ l, IsDist fun k => s'.phi k l := by
    intro l
    by_cases hl : l = n
    · rw [hl]; exact h2
    · have : (fun k => s'.phi k l) = fun k => s.phi k l := funext fun k => hother k l hl
      rw [this]
      exact hs.dist l
  have hcounts : Counts (countsOf words) m.alpha s' := by
    intro k
    rw [hgam k, hs.counts k, add_assoc]
    congr 1
    symm
    rw [← sub_eq_iff_eq_add', ← Finset.sum_sub_distrib, Finset.sum_eq_single n]
    · ring
    · intro l _ hl
      rw [hother k l hl, sub_self]
    · simp
  have hfin : Finite words m s' := by
    intro l hl k hk
    by_cases hln : l = n
    · subst hln
      exact h3 k hk
    · rw [hother k l hln]
      exact hs.finite l hl k hk
  refine ⟨?_, hdist, hcounts, hfin⟩
  have hg : ∀ k, 0 < s.gamma k := fun k => (counts_pos hm hs.counts (fun k n => (hs.dist n).1 k) k).2
  have hgam' : s'.gamma = computeGamma (countsOf words) m.alpha s'.phi := by
    funext k
    rw [hcounts k]
    exact (computeGamma_counts _ _ _ k).symm
  have e1 : elbo Real.log words m.alpha s.gamma (expectedLog s.gamma) m.beta s'.phi ≤ bound words m s' := by
    rw [bound, hgam']
    exact C89_gamma_maximises Real.log words hm.alpha_pos m.beta (fun n _ => (hdist n).1) hg
  have e2 : elbo Real.log words m.alpha s.gamma (expectedLog s.gamma) m.beta s'.phi - bound words m s =
      (∑ k, s'.phi k n * (expectedLog s.gamma k + Real.log (m.beta k n) - Real.log (s'.phi k n))) -
      ∑ k, s.phi k n * (expectedLog s.gamma k + Real.log (m.beta k n) - Real.log (s.phi k n)) := by
    rw [bound, elbo_split_phi, elbo_split_phi, add_sub_add_left_eq_sub]
    exact sum_update words hd hn _ _ fun l hl => Finset.sum_congr rfl fun k _ => by rw [hother k l hl]
  have e3 : (words.map fun n => ∑ k, s'.phi k n * m.eta k y).sum - (words.map fun n => ∑ k, s.phi k n * m.eta k y).sum =
      (∑ k, s'.phi k n * m.eta k y) - ∑ k, s.phi k n * m.eta k y :=
    sum_update words hd hn _ _ fun l hl => Finset.sum_congr rfl fun k _ => by rw [hother k l hl]
  have hX : countsOf words n ≠ 0 := by rw [hone]; exact one_ne_zero
  have e4 := hDoc_phi (P := exact) (eta := m.eta) (phi := s.phi) hX
  have e5 := hDoc_phi (P := exact) (eta := m.eta) (phi := s'.phi) hX
  rw [hDoc_congr (phi' := s.phi) fun k l hl => hother k l hl] at e5
  unfold colObjective at h1
  rw [e4, e5] at h1
  unfold supBound
  have e6 : (words.map fun n => ∑ k, s'.phi k n * m.eta k y).sum / (words.length : ℝ) -
      (words.map fun n => ∑ k, s.phi k n * m.eta k y).sum / words.length =
      (∑ k, s'.phi k n * m.eta k y) / words.length - (∑ k, s.phi k n * m.eta k y) / words.length := by
    rw [← sub_div, e3, sub_div]
  linarith

theorem word_updates {words : List (Fin V)} (hd : words.Nodup) {y : Fin C} {m : Model K V C} (hm : m.Valid)
    {fp : ℕ} {ns : List (Fin V)} {s s' : VP K V} (h : WordUpdates exact (countsOf words) y m fp ns s s') :
    (∀ n ∈ ns, n ∈ words) → Good words m s → supBound words y m s ≤ supBound words y m s' ∧ Good words m s' := by
  induction h with
  | nil s => exact fun _ hs => ⟨le_rfl, hs⟩
  | cons h1 _ ih =>
    intro hn hs
    obtain ⟨a1, a2⟩ := word_update hd hm (hn _ List.mem_cons_self) hs h1
    obtain ⟨b1, b2⟩ := ih (fun l hl => hn l (List.mem_cons_of_mem _ hl)) a2
    exact ⟨a1.trans b1, b2⟩

/-! ### C98 -/

/-- **C98**, one iteration: for a document without repeated words a sweep of the supervised step over the words, with
any number of fixed point iterations, does not decrease the supervised bound.  Missing: documents in which a word is
repeated, for which this is false (`C98_repeated_word`). -/
theorem C98_sweep_partial {words : List (Fin V)} (hd : words.Nodup) {y : Fin C} {m : Model K V C} (hm : m.Valid)
    {fp : ℕ} {s s' : VP K V × Option (Vec K ℝ)} (hs : Good words m s.1)
    (h : supervisedPhiGamma exact (countsOf words) (ratio (countsOf words)) (y : ℤ) m.beta m.eta fp s = some s') :
    supBound words y m s.1 ≤ supBound words y m s'.1 ∧ Good words m s'.1 := by
  obtain ⟨h1, _, _, _⟩ := C42_sweep hm hs.dist hs.counts h
  refine word_updates hd hm h1 (fun n hn => ?_) hs
  have : countsOf words n ≠ 0 := by simpa [present] using hn
  exact countsOf_ne.1 this

/-! ### Whole runs -/

theorem times_known {x : ℕ} {N : ℝ} {b ey psi h : Vec K ℝ} {P : Prims} (hb : ∃ j, 0 < b j) {k : Fin K}
    (hk : b k = 0) {fp : ℕ} {q r : Vec K ℝ} (h : Times (ColumnUpdate P x N b ey psi h) fp q r) :
    (0 < fp ∨ q k = 0) → r k = 0 := by
  induction h with
  | zero => simp
  | succ h1 _ ih =>
    intro _
    refine ih (Or.inr ?_)
    obtain ⟨_, _, Z, hZ⟩ := h1
    have hZk := hZ k
    rw [hk, zero_mul] at hZk
    refine (mul_eq_zero.1 hZk).resolve_right ?_
    rintro rfl
    obtain ⟨j, hj⟩ := hb
    have := hZ j
    rw [mul_zero] at this
    exact (mul_pos hj (P.exp_pos _)).ne this

theorem word_updates_known {P : Prims} {X : Vec V ℕ} {y : Fin C} {m : Model K V C} {fp : ℕ} (hfp : 0 < fp)
    {ns : List (Fin V)} {s s' : VP K V} (h : WordUpdates P X y m fp ns s s') {l : Fin V} (hl : m.Known l)
    {k : Fin K} (hk : m.beta k l = 0) : (l ∈ ns ∨ s.phi k l = 0) → s'.phi k l = 0 := by
  induction h with
  | nil => simp
  | @cons n ns s s' s'' h1 _ ih =>
    intro hor
    obtain ⟨psi, _, hT, hother, _⟩ := h1
    by_cases hn : l = n
    · subst hn
      exact ih (Or.inr (times_known hl hk hT (Or.inl hfp)))
    · refine ih ?_
      rw [hother k l hn]
      simpa [hn] using hor

/-- The supervised bound of the result is a real number if at least one sweep is made, with at least one fixed
point iteration per word. -/
theorem C98_finite {words : List (Fin V)} {m : Model K V C} (hm : m.Valid) (hK : 0 < K)
    (hk : ∀ n ∈ words, m.Known n) {P : Prims} {cfg : Cfg} {fp : ℕ} (hfp : 0 < fp) {y : Fin C} {draw : ℝ}
    {s : VP K V} {r : Report} (hr : RunsOnce cfg.iterations cfg.tolerance (countsOf words) m)
    (h : supervised P cfg fp draw (countsOf words) (y : ℤ) m = some (s, r)) : Finite words m s := by
  obtain ⟨h', h⟩ := run_of_supervised h
  have key := loop_reaches hK h
    (fun s => (∀ n, IsDist fun k => s.1.phi k n) ∧ Counts (countsOf words) m.alpha s.1)
    ⟨initial_dist hK _ m.alpha, initial_counts _ m.alpha⟩
    (fun a b => WordUpdates P (countsOf words) y m fp (present (countsOf words)) a.1 b.1)
    (fun a b hI hab => by
      obtain ⟨h1, _, h3, h4⟩ := C42_sweep hm hI.1 hI.2 hab
      exact ⟨⟨h3, h4⟩, h1⟩)
  obtain ⟨s1, hu⟩ := key.ran (X := countsOf words) hm (by simp [initial, numWords]) hr
  intro n hn k hb
  refine word_updates_known hfp hu (hk n hn) hb (Or.inl ?_)
  simpa [present] using countsOf_ne.2 hn

/-- **C98**, whole runs: for a document without repeated words, allowing the supervised step more iterations and
asking for a smaller change never makes the supervised bound of the result worse, provided that the bound of the
shorter run is finite (`C98_finite`).  Missing: documents in which a word is repeated, for which this is false
(`C98_repeated_word`). -/
theorem C98_more_iterations_partial {words : List (Fin V)} (hd : words.Nodup) {m : Model K V C} (hm : m.Valid)
    (hK : 0 < K) {y : Fin C} {fp : ℕ} {cfg cfg' : Cfg} (hi : cfg.iterations ≤ cfg'.iterations)
    (ht : cfg'.tolerance ≤ cfg.tolerance) {draw draw' : ℝ} {s s' : VP K V} {r r' : Report}
    (h : supervised exact cfg fp draw (countsOf words) (y : ℤ) m = some (s, r))
    (h' : supervised exact cfg' fp draw' (countsOf words) (y : ℤ) m = some (s', r')) (hf : Finite words m s) :
    supBound words y m s ≤ supBound words y m s' := by
  obtain ⟨h1, h2⟩ := supervised_between hm hK h
  obtain ⟨a, ha⟩ := run_of_supervised h
  obtain ⟨b, hb⟩ := run_of_supervised h'
  obtain ⟨n, f, f0, fn, hstep⟩ := loop_longer ht _ _ _ _ _ _ hi ha hb
  have : ∀ i, i ≤ n → supBound words y m s ≤ supBound words y m (f i).1 ∧ Good words m (f i).1 := by
    intro i
    induction i with
    | zero =>
      intro _
      rw [f0]
      exact ⟨le_rfl, h1, h2, hf⟩
    | succ i ih =>
      intro hin
      obtain ⟨a1, a2⟩ := ih (by omega)
      obtain ⟨b1, b2⟩ := C98_sweep_partial hd hm a2 (hstep i (by omega))
      exact ⟨a1.trans b1, b2⟩
  have := (this n le_rfl).1
  rwa [fn] at this

/-! ### A repeated word -/

/-- Two topics that know the only word, and two classes, each of which prefers one of the topics. -/
noncomputable def twoClasses : Model 2 1 2 where
  alpha := fun _ => 9 / 2
  beta := fun _ _ => 1
  eta := fun k c => if (k : ℕ) = c then 0 else Real.log 2

theorem twoClasses_valid : twoClasses.Valid where
  alpha_pos := fun k => by simp only [twoClasses]; norm_num
  beta_nonneg := fun k n => by simp only [twoClasses]; norm_num

theorem gamma_halves : Real.Gamma (11 / 2) * Real.Gamma (13 / 2) = 9823275 / 2048 * Real.pi := by
  have h : Real.Gamma (11 / 2) = 945 / 32 * √Real.pi := by
    rw [show (11 / 2 : ℝ) = 9 / 2 + 1 by norm_num, Real.Gamma_add_one (by norm_num),
      show (9 / 2 : ℝ) = 7 / 2 + 1 by norm_num, Real.Gamma_add_one (by norm_num),
      show (7 / 2 : ℝ) = 5 / 2 + 1 by norm_num, Real.Gamma_add_one (by norm_num),
      show (5 / 2 : ℝ) = 3 / 2 + 1 by norm_num, Real.Gamma_add_one (by norm_num),
      show (3 / 2 : ℝ) = 1 / 2 + 1 by norm_num, Real.Gamma_add_one (by norm_num), Real.Gamma_one_half_eq]
    ring
  rw [show (13 / 2 : ℝ) = 11 / 2 + 1 by norm_num, Real.Gamma_add_one (by norm_num), h]
  have := Real.mul_self_sqrt Real.pi_pos.le
  linear_combination 9823275 / 2048 * this

theorem twoClasses_counts : countsOf [(0 : Fin 1), 0, 0] = fun _ => 3 := by
  funext n
  fin_cases n
  rfl

/-- What a sweep does to the responsibilities of the only word. -/
theorem twoClasses_sweep {s' : VP 2 1 × Option (Vec 2 ℝ)}
    (h : supervisedPhiGamma exact (fun _ => 3) (ratio fun _ => 3) ((0 : Fin 2) : ℤ) twoClasses.beta twoClasses.eta 1
      (initial (fun _ => 3) twoClasses.alpha, none) = some s') :
    s'.1.phi 0 0 = 1 / 3 ∧ s'.1.phi 1 0 = 2 / 3 ∧ s'.1.gamma 0 = 11 / 2 ∧ s'.1.gamma 1 = 13 / 2 := by
  obtain ⟨hw, _, _, hc⟩ := C42_sweep (X := fun _ => 3) (y := (0 : Fin 2)) twoClasses_valid
    (initial_dist (by norm_num) _ _) (initial_counts _ _) h
  have hp : present (fun _ : Fin 1 => 3) = [0] := rfl
  rw [hp] at hw
  obtain _ | ⟨hw, hn⟩ := hw
  cases hn
  obtain ⟨psi, hpsi, hT, _, _⟩ := hw
  obtain _ | ⟨hT, h0⟩ := hT
  generalize hcol : (fun k => s'.1.phi k 0) = col at h0
  cases h0
  subst hcol
  obtain ⟨_, hsum, Z, hZ⟩ := hT
  have e2 : Real.exp (Real.log 2) = 2 := Real.exp_log (by norm_num)
  have hexp : ∀ x, exact.exp x = Real.exp x := fun _ => rfl
  have hpsi' : psi 0 = psi 1 := by
    have h0 := hpsi 0
    have h1 := hpsi 1
    rw [show (initial (fun _ : Fin 1 => 3) twoClasses.alpha).gamma 0 =
      (initial (fun _ : Fin 1 => 3) twoClasses.alpha).gamma 1 from rfl, h1] at h0
    exact (Option.some.inj h0).symm
  have hh : ∀ k, hDoc exact (fun _ : Fin 1 => 3) twoClasses.eta
      (initial (fun _ : Fin 1 => 3) twoClasses.alpha).phi 0 k = 3 := by
    intro k
    fin_cases k <;> simp [hDoc, twoClasses, hexp, e2, Fin.sum_univ_two, Finset.filter_false_of_mem] <;> norm_num
  have z0 := hZ 0
  have z1 := hZ 1
  simp only [hh, hpsi', hexp] at z0 z1
  have t0 : twoClasses.eta 0 0 = 0 := by simp [twoClasses]
  have t1 : twoClasses.eta 1 0 = Real.log 2 := by simp [twoClasses]
  have tb : ∀ k n, twoClasses.beta k n = 1 := fun _ _ => rfl
  simp only [Fin.isValue, t0, t1, tb, one_mul, mul_zero, add_zero, Finset.univ_unique, Finset.sum_const,
    Finset.card_singleton, one_smul, div_self (by norm_num : ((3 : ℕ) : ℝ) ≠ 0)] at z0 z1
  generalize (3 : ℝ) / _ = a at z0 z1
  rw [add_sub_right_comm, Real.exp_add, e2] at z1
  rw [Fin.sum_univ_two] at hsum
  have hE := Real.exp_pos (psi 1 - a)
  have hZE : Z = 3 * Real.exp (psi 1 - a) := by
    have : (s'.1.phi 0 0 + s'.1.phi 1 0) * Z = Z := by rw [hsum, one_mul]
    linarith
  have p0 : s'.1.phi 0 0 = 1 / 3 := by
    rw [hZE] at z0
    have : (s'.1.phi 0 0 * 3 - 1) * Real.exp (psi 1 - a) = 0 := by linarith
    have := (mul_eq_zero.1 this).resolve_right hE.ne'
    linarith
  have p1 : s'.1.phi 1 0 = 2 / 3 := by linarith
  have c0 := hc 0
  have c1 := hc 1
  simp only [Finset.univ_unique, Finset.sum_singleton, Fin.default_eq_zero, p0, p1, twoClasses] at c0 c1
  refine ⟨p0, p1, ?_, ?_⟩
  · rw [c0]; norm_num
  · rw [c1]; norm_num

/-- The supervised bound of `twoClasses` for the responsibilities `p`, `1 - p` and the parameters `a`, `b` with the
right sum. -/
theorem twoClasses_bound {s : VP 2 1} (hc : Counts (fun _ => 3) twoClasses.alpha s) (hs : ∑ k, s.phi k 0 = 1) :
    supBound [0, 0, 0] 0 twoClasses s =
      (Real.log (Real.Gamma 9) - 2 * Real.log (Real.Gamma (9 / 2)))
      + (Real.log (Real.Gamma (s.gamma 0)) + Real.log (Real.Gamma (s.gamma 1)) - Real.log (Real.Gamma 12))
      - 3 * (s.phi 0 0 * Real.log (s.phi 0 0) + s.phi 1 0 * Real.log (s.phi 1 0))
      + s.phi 1 0 * Real.log 2 - Real.log 3 := by
  have e2 : Real.exp (Real.log 2) = 2 := Real.exp_log (by norm_num)
  have hexp : ∀ x, exact.exp x = Real.exp x := fun _ => rfl
  rw [Fin.sum_univ_two] at hs
  have hpart : docPartition exact (countsOf [(0 : Fin 1), 0, 0]) twoClasses.eta s.phi = 3 := by
    rw [twoClasses_counts]
    simp [docPartition, twoClasses, hexp, e2, Fin.sum_univ_two]
    linarith
  have hsum : ∑ k, s.gamma k = 12 := by
    rw [Fin.sum_univ_two, hc 0, hc 1]
    simp [twoClasses]
    linarith
  have ha : ∑ k, twoClasses.alpha k = 9 := by
    rw [Fin.sum_univ_two]
    simp [twoClasses]
  rw [supBound, bound, elbo_split_gamma, hpart, twoClasses_counts, hsum, ha]
  have hz : ∀ k, twoClasses.alpha k + (∑ n, (((fun _ => 3) n : ℕ) : ℝ) * s.phi k n) - s.gamma k = 0 := fun k => by
    rw [hc k]; ring
  simp only [hz]
  simp [Fin.sum_univ_two, twoClasses]
  ring

theorem twoClasses_numbers : Real.log (Real.Gamma (11 / 2)) + Real.log (Real.Gamma (13 / 2))
    - 3 * (1 / 3 * Real.log (1 / 3) + 2 / 3 * Real.log (2 / 3)) + 2 / 3 * Real.log 2 <
    Real.log (Real.Gamma 6) + Real.log (Real.Gamma 6)
    - 3 * (1 / 2 * Real.log (1 / 2) + 1 / 2 * Real.log (1 / 2)) + 1 / 2 * Real.log 2 := by
  have g6 : Real.Gamma 6 = 120 := by
    rw [show (6 : ℝ) = (5 : ℕ) + 1 by norm_num, Real.Gamma_nat_eq_factorial]
    norm_num [Nat.factorial]
  have key : 6 * Real.log (Real.Gamma (11 / 2) * Real.Gamma (13 / 2)) + 18 * Real.log 3 <
      6 * Real.log (120 * 120) + 29 * Real.log 2 := by
    rw [gamma_halves, ← Real.log_rpow (by positivity), ← Real.log_rpow (by positivity), ← Real.log_rpow (by positivity),
      ← Real.log_rpow (by positivity), ← Real.log_mul (by positivity) (by positivity),
      ← Real.log_mul (by positivity) (by positivity)]
    refine Real.log_lt_log (by positivity) ?_
    have hp : 9823275 / 2048 * Real.pi < 9823275 / 2048 * 3.1416 := by
      linarith [Real.pi_lt_d4]
    have := pow_lt_pow_left₀ hp (by positivity) (n := 6) (by norm_num)
    norm_cast
    refine (mul_lt_mul_of_pos_right this (by positivity)).trans ?_
    norm_num
  rw [Real.log_mul (Real.Gamma_pos_of_pos (by norm_num)).ne' (Real.Gamma_pos_of_pos (by norm_num)).ne',
    Real.log_mul (by norm_num) (by norm_num)] at key
  rw [g6, Real.log_div (by norm_num) (by norm_num), Real.log_div (by norm_num) (by norm_num),
    Real.log_div (by norm_num) (by norm_num), Real.log_one]
  linarith

/-- **C98** fails for a document that repeats a word: the result of one iteration has a smaller supervised bound
than the initial parameters, because the step divides the term of the normaliser by the count of the word and
uses the entropy of a single occurrence. -/
theorem C98_repeated_word : ∃ (s s' : VP 2 1) (r r' : Report),
    supervised exact ⟨0, 1, 0⟩ 1 0 (countsOf [0, 0, 0]) ((0 : Fin 2) : ℤ) twoClasses = some (s, r) ∧
    supervised exact ⟨1, 1, 0⟩ 1 0 (countsOf [0, 0, 0]) ((0 : Fin 2) : ℤ) twoClasses = some (s', r') ∧
    Finite [0, 0, 0] twoClasses s ∧ supBound [0, 0, 0] 0 twoClasses s' < supBound [0, 0, 0] 0 twoClasses s := by
  have hk : ∀ n, (fun _ : Fin 1 => 3) n ≠ 0 → twoClasses.Known n := fun n _ => ⟨0, by norm_num [twoClasses]⟩
  obtain ⟨s', hs'⟩ := supervisedPhiGamma_total (P := exact) (X := fun _ => 3) (y := (0 : Fin 2)) (fp := 1)
    (s := (initial (fun _ => 3) twoClasses.alpha, none)) twoClasses_valid
    (initial_dist (by norm_num) _ _) (initial_counts _ _) hk
  obtain ⟨_, _, hd, hc⟩ := C42_sweep (X := fun _ => 3) (y := (0 : Fin 2)) twoClasses_valid
    (initial_dist (by norm_num) _ _) (initial_counts _ _) hs'
  obtain ⟨p0, p1, g0, g1⟩ := twoClasses_sweep hs'
  rw [twoClasses_counts]
  refine ⟨initial (fun _ => 3) twoClasses.alpha, s'.1, .nan, .nan, ?_, ?_, ?_, ?_⟩
  · simp [supervised, supervisedRun, loop, report, bernoulli]
  · have hconv : converged (fun _ => 0) (initial (fun _ : Fin 1 => 3) twoClasses.alpha).gamma 1 = false := by
      rw [Bool.eq_false_iff]
      intro hcon
      rw [converged_iff (by norm_num)] at hcon
      simp [initial, twoClasses, numWords] at hcon
      norm_num [abs_of_pos] at hcon
    simp only [supervised, supervisedRun, loop, hconv]
    rw [hs']
    simp [report, bernoulli]
  · intro n _ k hb
    norm_num [twoClasses] at hb
  · rw [twoClasses_bound hc (hd 0).2, twoClasses_bound (initial_counts _ _) (initial_dist (by norm_num) _ _ 0).2,
      p0, p1, g0, g1]
    have := twoClasses_numbers
    have i1 : ∀ k, (initial (fun _ : Fin 1 => 3) twoClasses.alpha).gamma k = 6 := by
      intro k
      simp [initial, twoClasses, numWords]
      norm_num
    have i2 : ∀ k, (initial (fun _ : Fin 1 => 3) twoClasses.alpha).phi k 0 = 1 / 2 := fun k => by
      simp [initial]
    rw [i1, i1, i2, i2]
    linarith

/-! ### The hypotheses are met -/

/-- The supervised bound of a document with two different words: ten iterations are at least as good as one. -/
example : ∃ s s' r r', supervised exact ⟨1, 1, 0⟩ 5 0 (countsOf [0, 1]) ((1 : Fin 2) : ℤ) demo = some (s, r) ∧
    supervised exact ⟨10, 1 / 100, 0⟩ 5 0 (countsOf [0, 1]) ((1 : Fin 2) : ℤ) demo = some (s', r') ∧
    supBound [0, 1] 1 demo s ≤ supBound [0, 1] 1 demo s' := by
  have hk : ∀ n ∈ [(0 : Fin 3), 1], demo.Known n := fun n hn => demo_words_known n (by
    simp only [List.mem_cons, List.not_mem_nil, or_false] at hn ⊢
    tauto)
  have hX : ∃ n, countsOf [(0 : Fin 3), 1] n ≠ 0 := ⟨0, by simp [countsOf]⟩
  have hk' : ∀ n, countsOf [(0 : Fin 3), 1] n ≠ 0 → demo.Known n := fun n hn => hk n (countsOf_ne.1 hn)
  have hr : ∀ (i : ℕ) (t : ℝ), i ≠ 0 → t ≤ 1 → RunsOnce i t (countsOf [(0 : Fin 3), 1]) demo := fun i t hi ht => by
    refine ⟨hi, ht.trans ?_⟩
    simp [demo, countsOf, Fin.sum_univ_three]
    norm_num
  obtain ⟨s, r, h⟩ := C75_supervised_partial (P := exact) (cfg := ⟨1, 1, 0⟩) (draw := 0) (y := 1) (fp := 5)
    demo_valid (by norm_num) hX hk' (hr _ _ (by norm_num) le_rfl)
  obtain ⟨s', r', h'⟩ := C75_supervised_partial (P := exact) (cfg := ⟨10, 1 / 100, 0⟩) (draw := 0) (y := 1) (fp := 5)
    demo_valid (by norm_num) hX hk' (hr _ _ (by norm_num) (by norm_num))
  exact ⟨s, s', r, r', h, h', C98_more_iterations_partial (by simp) demo_valid (by norm_num) (by norm_num)
    (by norm_num) h h' (C98_finite demo_valid (by norm_num) hk (by norm_num) (hr _ _ (by norm_num) le_rfl) h)⟩

end Verif.EStep
