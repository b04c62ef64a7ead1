import Verif.Props.EStep
import Verif.Props.Digamma

/-! Property C108: what the tolerance of an expectation step is a tolerance of. -/
namespace Verif.EStep

open MathUtils Finset

variable {K V C : ℕ} {P : Prims} {cfg : Cfg} {X : Vec V ℕ} {m : Model K V C} {y : Fin C} {draw : ℝ}

/-- The relative change from the previous element of a sequence; before the first there is the zero vector. -/
noncomputable def relativeChange (g : ℕ → Vec K ℝ) : ℕ → ℝ
  | 0 => (∑ k, |g 0 k - 0|) / ∑ k, |g 0 k|
  | i + 1 => (∑ k, |g (i + 1) k - g i k|) / ∑ k, |g (i + 1) k|

/-- A sequence of values obtained by repeated updates, started at `s0`, of which the last is `s`; it ends with the first
whose relative change is below the tolerance, or at the limit. -/
def ReachesRelative {S : Type} (R : S → S → Prop) (s0 s : S) (limit : ℕ) (tol : ℝ) (gam : S → Vec K ℝ) : Prop :=
  ∃ (f : ℕ → S) (j : ℕ), f 0 = s0 ∧ (∀ i < j, R (f i) (f (i + 1))) ∧ s = f j ∧ j ≤ limit ∧
    (j < limit → relativeChange (fun i => gam (f i)) j < tol) ∧
    ∀ i < j, ¬ relativeChange (fun i => gam (f i)) i < tol

/-- The mass of `gamma`, of which a step changes only the distribution. -/
noncomputable def mass (X : Vec V ℕ) (m : Model K V C) : ℝ := (∑ k, m.alpha k) + ∑ n, (X n : ℝ)

theorem mass_pos (hm : m.Valid) (hK : 0 < K) : 0 < mass X m := by
  have h1 : 0 < ∑ k, m.alpha k := Finset.sum_pos (fun k _ => hm.alpha_pos k) ⟨⟨0, hK⟩, mem_univ _⟩
  have h2 : 0 ≤ ∑ n, (X n : ℝ) := Finset.sum_nonneg fun n _ => Nat.cast_nonneg _
  unfold mass
  linarith

/-- A positive vector with the right sum. -/
def HasMass (T : ℝ) (g : Vec K ℝ) : Prop := (∀ k, 0 ≤ g k) ∧ ∑ k, g k = T

theorem HasMass.abs {T : ℝ} {g : Vec K ℝ} (h : HasMass T g) : ∑ k, |g k| = T := by
  rw [← h.2]
  exact Finset.sum_congr rfl fun k _ => abs_of_nonneg (h.1 k)

theorem change_relative (hK : 0 < K) {g : ℕ → Vec K ℝ} {T : ℝ} (hT : 0 < T) {i : ℕ} (h : HasMass T (g i)) (tol : ℝ) :
    change g i < tol ↔ relativeChange g i < tol * K / T := by
  have hK' : (0 : ℝ) < K := by exact_mod_cast hK
  have ha := h.abs
  cases i with
  | zero =>
    unfold change relativeChange
    simp only [sub_zero]
    rw [ha, div_lt_iff₀ hK', div_lt_div_iff_of_pos_right hT]
  | succ i =>
    simp only [change, relativeChange]
    rw [ha, div_lt_iff₀ hK', div_lt_div_iff_of_pos_right hT]

/-- If all values have the same mass, the absolute rule is a relative one. -/
theorem Reaches.relative (hK : 0 < K) {S : Type} {R R' : S → S → Prop} {s0 s : S} {limit : ℕ} {tol : ℝ}
    {gam : S → Vec K ℝ} (h : Reaches R s0 s limit tol gam) {T : ℝ} (hT : 0 < T) (h0 : HasMass T (gam s0))
    (hR : ∀ a b, HasMass T (gam a) → R a b → R' a b ∧ HasMass T (gam b)) :
    ReachesRelative R' s0 s limit (tol * K / T) gam := by
  obtain ⟨f, j, f0, fs, fj, h1, h2, h3⟩ := h
  have hI : ∀ i ≤ j, HasMass T (gam (f i)) := by
    intro i
    induction i with
    | zero => intro _; rw [f0]; exact h0
    | succ i ih => intro hi; exact (hR _ _ (ih (by omega)) (fs i (by omega))).2
  refine ⟨f, j, f0, fun i hi => (hR _ _ (hI i hi.le) (fs i hi)).1, fj, h1, fun hj => ?_, fun i hi => ?_⟩
  · exact (change_relative hK hT (hI j le_rfl) tol).1 (h2 hj)
  · exact fun hc => h3 i hi ((change_relative hK hT (hI i hi.le) tol).2 hc)

theorem hasMass_of (hm : m.Valid) {s : VP K V} (hb : Between X m s) (h : ∀ n, X n ≠ 0 → ∑ k, s.phi k n = 1) :
    HasMass (mass X m) s.gamma :=
  ⟨fun k => (between_pos hm hb k).le, mass_eq hb.2 h⟩

theorem hasMass_initial (hm : m.Valid) (hK : 0 < K) :
    HasMass (mass X m) fun k => m.alpha k + (∑ n, (X n : ℝ)) / K := by
  have := hasMass_of (X := X) hm (between_initial X m) fun n _ => (initial_dist hK X m.alpha n).2
  rwa [← numWords_cast]

/-- **C108**, unsupervised step.  The property is false (`C108_short`, `C108_long`): the tolerance is one of the mean
absolute change.  As no iteration changes the sum of `gamma`, the step stops at the first iterate whose relative change is
below the tolerance times the number of topics over the mass of the document. -/
theorem C108_unsupervised_partial (hm : m.Valid) (hK : 0 < K) (hX : ∀ n, X n ≠ 0 → m.Known n) {s : VP K V} {r : Report}
    (h : unsupervised P cfg draw X m = some (s, r)) :
    ReachesRelative (UnsupervisedUpdate P X m) ⟨fun _ _ => 1 / K, fun k => m.alpha k + (∑ n, (X n : ℝ)) / K⟩ s
      cfg.iterations (cfg.tolerance * K / ((∑ k, m.alpha k) + ∑ n, (X n : ℝ))) VP.gamma :=
  (C38_unsupervised hm hK h).relative hK (mass_pos hm hK) (hasMass_initial hm hK) fun _ b _ hab => by
    refine ⟨hab, hasMass_of hm (hab.between hm) fun n hn => ?_⟩
    obtain ⟨psi, _, h2, _⟩ := hab
    exact (h2.dist hm fun k n => P.exp_pos _).2.1 n (hX n hn)

/-- **C108**, fast supervised step. -/
theorem C108_fast_partial (hm : m.Valid) (hK : 0 < K) (hX : ∀ n, X n ≠ 0 → m.Known n) {w : ℝ} {s : VP K V} {r : Report}
    (h : fast P cfg w draw X (y : ℤ) m = some (s, r)) :
    ReachesRelative (FastUpdate' P w X y m) ⟨fun _ _ => 1 / K, fun k => m.alpha k + (∑ n, (X n : ℝ)) / K⟩ s
      cfg.iterations (cfg.tolerance * K / ((∑ k, m.alpha k) + ∑ n, (X n : ℝ))) VP.gamma :=
  (C38_fast hm hK h).relative hK (mass_pos hm hK) (hasMass_initial hm hK) fun a b _ hab => by
    refine ⟨hab, ?_⟩
    by_cases hx : ∃ n, X n ≠ 0
    · obtain ⟨psi, sm, es, _, _, _, h2, h3⟩ := hab.1 hx
      have hd := h2.dist hm fun k n => P.exp_pos _
      exact hasMass_of hm ⟨hd.1, h3⟩ fun n hn => hd.2.1 n (hX n hn)
    · push Not at hx
      rw [(hab.2 hx).2]
      refine ⟨fun k => (hm.alpha_pos k).le, ?_⟩
      simp [mass, hx]

/-- **C108**, supervised step. -/
theorem C108_supervised_partial (hm : m.Valid) (hK : 0 < K) {fp : ℕ} {s : VP K V} {r : Report}
    (h : supervised P cfg fp draw X (y : ℤ) m = some (s, r)) :
    ReachesRelative (WordUpdates P X y m fp (present X))
      ⟨fun _ _ => 1 / K, fun k => m.alpha k + (∑ n, (X n : ℝ)) / K⟩ s
      cfg.iterations (cfg.tolerance * K / ((∑ k, m.alpha k) + ∑ n, (X n : ℝ))) VP.gamma := by
  obtain ⟨h', h⟩ := run_of_supervised h
  have hr : Reaches (fun a b : VP K V × Option (Vec K ℝ) =>
      WordUpdates P X y m fp (present X) a.1 b.1 ∧ HasMass (mass X m) b.1.gamma)
      (initial X m.alpha, none) (s, h') cfg.iterations cfg.tolerance fun s => s.1.gamma :=
    loop_reaches hK h (fun s => (∀ n, IsDist fun k => s.1.phi k n) ∧ Counts X m.alpha s.1)
      ⟨initial_dist hK X m.alpha, initial_counts X m.alpha⟩ _
      (fun a b hI hab => by
        obtain ⟨h1, h2, h3, _⟩ := supervisedPhiGamma_spec hm hI.1 hI.2 hab
        exact ⟨⟨h1, h2⟩, h3, hasMass_of hm ⟨fun k n => (h1 n).1 k, h2⟩ fun n _ => (h1 n).2⟩)
  have h0 : HasMass (mass X m) (initial X m.alpha).gamma :=
    hasMass_of hm (between_initial X m) fun n _ => (initial_dist hK X m.alpha n).2
  obtain ⟨f, j, f0, fs, fj, st⟩ := hr.relative hK (mass_pos hm hK) h0 fun a b _ hab => ⟨hab.1, hab.2⟩
  rw [← numWords_cast]
  refine ⟨fun i => (f i).1, j, congrArg Prod.fst f0, fs, congrArg Prod.fst fj, ?_⟩
  simpa only [mass, ← numWords_cast] using st

/-- **C108**, multinomial step; see C38 for the place of the tolerance. -/
theorem C108_multinomial_partial (hm : m.Valid) (hK : 0 < K) (hX : ∀ n, X n ≠ 0 → m.Known n) {ew mu prior : ℝ} {N : ℕ}
    {s : VP K V} {r : Report} (h : multinomial P cfg ew mu prior N draw X (y : ℤ) m = some (s, r)) :
    ReachesRelative (MultinomialUpdate P ew X y m) ⟨fun _ _ => 1 / K, fun k => m.alpha k + (∑ n, (X n : ℝ)) / K⟩ s
      cfg.iterations (cfg.computeLikelihood * K / ((∑ k, m.alpha k) + ∑ n, (X n : ℝ))) VP.gamma :=
  (C38_multinomial_partial hm hK h).relative hK (mass_pos hm hK) (hasMass_initial hm hK) fun _ b _ hab => by
    refine ⟨hab, hasMass_of hm (hab.between hm) fun n hn => ?_⟩
    obtain ⟨psi, d, _, _, h2, _⟩ := hab
    exact (h2.dist hm fun k n => P.exp_pos _).2.1 n (hX n hn)

/-- **C108**, correspondence step. -/
theorem C108_correspondence_partial (hm : m.Valid) (hK : 0 < K) (hX : ∀ n, X n ≠ 0 → m.Known n) {mu : ℝ} {N : ℕ}
    {s : VP K V × Vec V ℝ} {r : Report} (h : correspondence P cfg mu N draw X (y : ℤ) m = some (s, r)) :
    ReachesRelative (CorrespondenceUpdate P X y m)
      (⟨fun _ _ => 1 / K, fun k => m.alpha k + (∑ n, (X n : ℝ)) / K⟩, fun _ => 1 / V) s
      cfg.iterations (cfg.tolerance * K / ((∑ k, m.alpha k) + ∑ n, (X n : ℝ))) (fun s => s.1.gamma) :=
  (C38_correspondence hm hK h).relative hK (mass_pos hm hK) (hasMass_initial hm hK) fun _ b _ hab => by
    refine ⟨hab, hasMass_of hm (hab.between hm) fun n hn => ?_⟩
    obtain ⟨psi, _, h2, _⟩ := hab
    exact (h2.dist hm fun k n => mul_pos (P.exp_pos _) (P.exp_pos _)).2.1 n (hX n hn)

/-! ### The tolerance is not a relative one -/

/-- **C108**, negation for short documents: if the mean of the first `gamma` is below the tolerance, the document is
returned with uniform responsibilities, whatever the number of iterations; it is compared with a vector of zeros. -/
theorem C108_short (hm : m.Valid) (hK : 0 < K) (h : (∑ k, m.alpha k) + ∑ n, (X n : ℝ) < cfg.tolerance * K) :
    ∃ r, unsupervised P cfg draw X m = some (⟨fun _ _ => 1 / K, fun k => m.alpha k + (∑ n, (X n : ℝ)) / K⟩, r) := by
  obtain ⟨s, r, hs, _⟩ := C35_unsupervised_defined (P := P) (cfg := cfg) (draw := draw) (X := X) hm hK
  obtain ⟨f, j, f0, _, fj, _, _, h3⟩ := C38_unsupervised hm hK hs
  have hK' : (0 : ℝ) < K := by exact_mod_cast hK
  have : j = 0 := by
    by_contra hj
    refine h3 0 (by omega) ?_
    rw [change, div_lt_iff₀ hK', f0]
    rw [(hasMass_initial (X := X) hm hK).abs]
    exact h
  subst this
  exact ⟨r, by rw [hs, fj, f0]⟩

/-- Two topics, the second without the first word. -/
noncomputable def lopsided : Model 2 2 1 where
  alpha := fun _ => 1
  beta := fun k n => if k = 1 ∧ n = 0 then 0 else if n = 0 then 1 / 2 else 1
  eta := fun _ _ => 1

theorem lopsided_valid : lopsided.Valid where
  alpha_pos := fun k => by simp [lopsided]
  beta_nonneg := fun k n => by
    unfold lopsided
    dsimp only
    split_ifs <;> norm_num

theorem lopsided_update {s s' : VP 2 2} (h : UnsupervisedUpdate P (fun _ => 2) lopsided s s') :
    ∃ psi : Vec 2 ℝ, (∀ k, P.psi (s.gamma k) = some (psi k)) ∧ s'.phi 0 0 = 1 ∧ s'.phi 1 0 = 0 ∧
      s'.phi 0 1 * (P.exp (psi 0) + P.exp (psi 1)) = P.exp (psi 0) ∧
      s'.phi 1 1 * (P.exp (psi 0) + P.exp (psi 1)) = P.exp (psi 1) ∧
      s'.gamma 0 = 1 + (2 * s'.phi 0 0 + 2 * s'.phi 0 1) ∧ s'.gamma 1 = 1 + (2 * s'.phi 1 0 + 2 * s'.phi 1 1) := by
  obtain ⟨psi, h1, h2, h3⟩ := h
  have p0 := (h2 0).1
  have p1 := (h2 1).1
  simp only [Fin.sum_univ_two, lopsided] at p0 p1
  have a := p0 0
  have b := p0 1
  have c := p1 0
  have d := p1 1
  simp at a b c d
  have e0 := P.exp_pos (psi 0)
  have g0 := h3 0
  have g1 := h3 1
  simp only [Fin.sum_univ_two, lopsided] at g0 g1
  push_cast at g0 g1
  refine ⟨psi, h1, ?_, ?_, c, d, g0, g1⟩
  · have : s'.phi 0 0 * (2⁻¹ * P.exp (psi 0)) = 1 * (2⁻¹ * P.exp (psi 0)) := by linarith
    exact mul_right_cancel₀ (by positivity) this
  · rcases b with b | b
    · exact b
    · exact absurd b e0.ne'

theorem digamma_two_four : ∃ v : ℝ, FastExp.digamma 2 = some v ∧ FastExp.digamma 4 = some (v + 5 / 6) ∧ 0 < v ∧ v < 1 := by
  obtain ⟨v, h1, h2, h3⟩ := FastExp.C88_accuracy 1 fun n h => by
    have : (0 : ℝ) ≤ n := Nat.cast_nonneg n
    linarith
  have e : logDeriv Real.Gamma 1 = -Real.eulerMascheroniConstant := by
    rw [logDeriv_apply, Real.Gamma_one, div_one, Real.eulerMascheroniConstant_eq_neg_deriv]
    ring
  rw [e] at h2 h3
  have b1 := Real.one_half_lt_eulerMascheroniConstant
  have b2 := Real.eulerMascheroniConstant_lt_two_thirds
  have r1 := FastExp.C32_recurrence 1 (by norm_num) (by norm_num)
  have r2 := FastExp.C32_recurrence 2 (by norm_num) (by norm_num)
  have r3 := FastExp.C32_recurrence 3 (by norm_num) (by norm_num)
  norm_num at r1 r2 r3
  obtain ⟨w, hw⟩ := FastExp.C32_positive 4 (by norm_num)
  rw [hw] at r3
  simp only [Option.map_some] at r3
  rw [r3] at r2
  simp only [Option.map_some] at r2
  rw [r2, h1] at r1
  simp only [Option.map_some, Option.some.injEq] at r1
  refine ⟨_, r2, ?_, by linarith, by linarith⟩
  rw [hw]
  congr 1
  ring

theorem fastPrims_two_four : ∃ v w : ℝ, fastPrims.psi 2 = some v ∧ fastPrims.psi 4 = some w ∧
    fastPrims.exp v < fastPrims.exp w := by
  obtain ⟨v, h1, h2, h3, h4⟩ := digamma_two_four
  refine ⟨v, _, h1, h2, ?_⟩
  obtain ⟨a, a1, a2, a3⟩ := FastExp.C30_accuracy v (by rw [abs_of_pos h3]; linarith)
  obtain ⟨b, b1, b2, b3⟩ := FastExp.C30_accuracy (v + 5 / 6) (by rw [abs_of_pos (by linarith)]; linarith)
  rw [fastPrims_exp, Option.some.injEq] at a1 b1
  rw [a1, b1]
  rw [abs_of_pos h3] at a3
  rw [abs_of_pos (show 0 < v + 5 / 6 by linarith)] at b3
  have c1 : max 1 (2 * v) ≤ 2 := max_le (by norm_num) (by linarith)
  have c2 : max 1 (2 * (v + 5 / 6)) ≤ 4 := max_le (by norm_num) (by linarith)
  have d1 := (abs_le.1 a3).2
  have d2 := (abs_le.1 b3).1
  have : Real.log a < Real.log b := by
    have k1 : max 1 (2 * v) * (1 / 1023 + 23 / 10 ^ 14) ≤ 2 * (1 / 1023 + 23 / 10 ^ 14 : ℝ) :=
      mul_le_mul_of_nonneg_right c1 (by norm_num)
    have k2 : max 1 (2 * (v + 5 / 6)) * (1 / 1023 + 23 / 10 ^ 14) ≤ 4 * (1 / 1023 + 23 / 10 ^ 14 : ℝ) :=
      mul_le_mul_of_nonneg_right c2 (by norm_num)
    norm_num at k1 k2 d1 d2 ⊢
    linarith
  exact (Real.log_lt_log_iff a2 b2).1 this

/-- The first iterate does not depend on the digamma function. -/
theorem lopsided_first {s : VP 2 2}
    (h : UnsupervisedUpdate P (fun _ => 2) lopsided ⟨fun _ _ => 1 / 2, fun _ => 3⟩ s) :
    s.phi 0 1 = 1 / 2 ∧ s.gamma 0 = 4 ∧ s.gamma 1 = 2 := by
  obtain ⟨psi, h1, h2, h3, h4, h5, h6, h7⟩ := lopsided_update h
  have e : psi 0 = psi 1 := by
    have a := h1 0
    have b := h1 1
    dsimp only at a b
    rw [a] at b
    exact Option.some.inj b
  rw [e] at h4 h5
  have hp := P.exp_pos (psi 1)
  have a : s.phi 0 1 = 1 / 2 := by
    have : (s.phi 0 1 * 2) * P.exp (psi 1) = 1 * P.exp (psi 1) := by linarith
    linarith [mul_right_cancel₀ hp.ne' this]
  have b : s.phi 1 1 = 1 / 2 := by
    have : (s.phi 1 1 * 2) * P.exp (psi 1) = 1 * P.exp (psi 1) := by linarith
    linarith [mul_right_cancel₀ hp.ne' this]
  rw [h2, a] at h6
  rw [h3, b] at h7
  exact ⟨a, by linarith, by linarith⟩

/-- **C108**, negation for long documents: a document of four words for which the step goes on although the relative
change is below the tolerance, which changes the result. -/
theorem C108_long : ∃ s r, unsupervised fastPrims ⟨2, 1 / 2, 0⟩ 0 (fun _ => 2) lopsided = some (s, r) ∧
    ¬ ReachesRelative (UnsupervisedUpdate fastPrims (fun _ => 2) lopsided) ⟨fun _ _ => 1 / 2, fun _ => 3⟩ s 2 (1 / 2)
      VP.gamma := by
  obtain ⟨s, r, h, _⟩ := C35_unsupervised_defined (P := fastPrims) (cfg := ⟨2, 1 / 2, 0⟩) (draw := 0) (X := fun _ => 2)
    lopsided_valid (by norm_num)
  refine ⟨s, r, h, ?_⟩
  have h38 := C38_unsupervised lopsided_valid (by norm_num) h
  have e0 : (⟨fun _ _ => 1 / ((2 : ℕ) : ℝ), fun k => lopsided.alpha k + (∑ n : Fin 2, (((fun _ => 2) n : ℕ) : ℝ)) / ((2 : ℕ) : ℝ)⟩ :
      VP 2 2) = ⟨fun _ _ => 1 / 2, fun _ => 3⟩ := by
    congr 1
    funext k
    simp only [lopsided, Fin.sum_univ_two]
    norm_num
  rw [e0] at h38
  -- the step makes two iterations
  obtain ⟨f, j, f0, fs, fj, h1, _, h3⟩ := h38
  have hs : s.phi 0 1 ≠ 1 / 2 := by
    have hj : j = 2 := by
      rcases Nat.lt_or_ge j 2 with hj | hj
      · exfalso
        have h2 := ‹j < 2 → change (fun i => (f i).gamma) j < 1 / 2› hj
        interval_cases j
        · rw [change, f0] at h2
          norm_num at h2
        · obtain ⟨_, g0, g1⟩ := lopsided_first (f0 ▸ fs 0 (by norm_num))
          rw [change, Fin.sum_univ_two, f0] at h2
          simp only [zero_add, g0, g1] at h2
          norm_num at h2
      · dsimp only at h1
        omega
    subst hj
    obtain ⟨_, g0, g1⟩ := lopsided_first (f0 ▸ fs 0 (by norm_num))
    obtain ⟨psi, p1, _, _, p4, _⟩ := lopsided_update (fs 1 (by norm_num))
    obtain ⟨v, w, q1, q2, q3⟩ := fastPrims_two_four
    have a := p1 0
    have b := p1 1
    rw [g0, q2, Option.some.injEq] at a
    rw [g1, q1, Option.some.injEq] at b
    rw [← a, ← b] at p4
    rw [fj]
    intro hc
    rw [hc] at p4
    linarith
  rintro ⟨f', j', f0', fs', fj', _, _, h3'⟩
  refine hs ?_
  rw [fj']
  match j', f0', fs', h3' with
  | 0, f0', _, _ => rw [f0']
  | 1, f0', fs', _ => exact (lopsided_first (f0' ▸ fs' 0 (by norm_num))).1
  | n + 2, f0', fs', h3' =>
    exfalso
    refine h3' 1 (by omega) ?_
    obtain ⟨_, g0, g1⟩ := lopsided_first (f0' ▸ fs' 0 (by omega))
    rw [relativeChange, Fin.sum_univ_two, Fin.sum_univ_two, f0']
    simp only [zero_add, g0, g1]
    norm_num

/-! ### The hypotheses are met -/

example : ∃ s r, unsupervised fastPrims ⟨2, 1 / 2, 0⟩ 0 (fun _ => 2) lopsided = some (s, r) ∧
    ∀ n, (fun _ => 2 : Vec 2 ℕ) n ≠ 0 → lopsided.Known n := by
  obtain ⟨s, r, h, _⟩ := C35_unsupervised_defined (P := fastPrims) (cfg := ⟨2, 1 / 2, 0⟩) (draw := 0) (X := fun _ => 2)
    lopsided_valid (by norm_num)
  refine ⟨s, r, h, fun n _ => ⟨0, ?_⟩⟩
  unfold lopsided
  dsimp only
  fin_cases n <;> norm_num

/-- A document of one word and a tolerance of two. -/
example : (∑ k, lopsided.alpha k) + ∑ n : Fin 2, (((fun n => if n = 0 then 1 else 0) n : ℕ) : ℝ) <
    (⟨100, 2, 0⟩ : Cfg).tolerance * (2 : ℕ) := by
  simp only [lopsided, Fin.sum_univ_two]
  norm_num

end Verif.EStep
