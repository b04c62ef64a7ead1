import Verif.Props.Unknown
import Verif.Props.Oscillate

/-! Property C130: documents for which words that no topic knows change the result. -/
namespace Verif.EStep

open MathUtils Finset

variable {P : Prims}

/-! ### C130: the convergence test -/

/-- Two topics, and a second word that neither of them knows. -/
noncomputable def halfKnown : Model 2 2 1 where
  alpha := fun _ => 1
  beta := fun k n => if n = 0 then (if k = 0 then 1 / 4 else 3 / 4) else 0
  eta := fun _ _ => 0

theorem halfKnown_valid : halfKnown.Valid where
  alpha_pos _ := by norm_num [halfKnown]
  beta_nonneg k n := by
    simp only [halfKnown]
    split
    · split <;> norm_num
    · norm_num

theorem halfKnown_one : ¬ halfKnown.Known 1 := by
  rintro ⟨k, hk⟩
  simp [halfKnown] at hk

theorem halfKnown_zero : halfKnown.Known 0 := ⟨0, by norm_num [halfKnown]⟩

theorem halfKnown_words (M : ℕ) :
    knownWords halfKnown (fun n => if n = 0 then 4 else M) = fun n : Fin 2 => if n = 0 then 4 else 0 := by
  funext n
  fin_cases n
  · exact if_pos halfKnown_zero
  · exact if_neg halfKnown_one

theorem halfKnown_update {M : ℕ} {s s' : VP 2 2}
    (h : UnsupervisedUpdate P (fun n => if n = 0 then 4 else M) halfKnown s s') :
    ∃ psi : Vec 2 ℝ, (∀ k, P.psi (s.gamma k) = some (psi k)) ∧
      s'.phi 0 0 * (P.exp (psi 0) + 3 * P.exp (psi 1)) = P.exp (psi 0) ∧ s'.phi 0 0 + s'.phi 1 0 = 1 ∧
      s'.gamma 0 = 1 + 4 * s'.phi 0 0 ∧ s'.gamma 1 = 1 + 4 * s'.phi 1 0 := by
  obtain ⟨psi, hpsi, hprop, hcnt⟩ := h
  refine ⟨psi, hpsi, ?_, ?_, ?_, ?_⟩
  · have := (hprop 0).1 0
    simp only [halfKnown, Fin.sum_univ_two] at this
    norm_num at this
    linarith
  · have := (hprop 0).2.1 ⟨0, mul_ne_zero (by norm_num [halfKnown]) (P.exp_pos _).ne'⟩
    rwa [Fin.sum_univ_two] at this
  all_goals
    have h1 : ∀ k, s'.phi k 1 = 0 := (hprop 1).2.2 fun k => by simp [halfKnown]
  · have := hcnt 0
    simp only [halfKnown, Fin.sum_univ_two, h1] at this
    norm_num at this
    exact this
  · have := hcnt 1
    simp only [halfKnown, Fin.sum_univ_two, h1] at this
    norm_num at this
    exact this

theorem halfKnown_first {M : ℕ} {g : ℝ} {s : VP 2 2}
    (h : UnsupervisedUpdate P (fun n => if n = 0 then 4 else M) halfKnown ⟨fun _ _ => 1 / 2, fun _ => g⟩ s) :
    s.phi 0 0 = 1 / 4 ∧ s.gamma 0 = 2 ∧ s.gamma 1 = 4 := by
  obtain ⟨psi, h1, h2, h3, h4, h5⟩ := halfKnown_update h
  have e : psi 0 = psi 1 := by
    have a := h1 0
    have b := h1 1
    dsimp only at a b
    rw [a] at b
    exact Option.some.inj b
  rw [e] at h2
  have hp := P.exp_pos (psi 1)
  have a : s.phi 0 0 = 1 / 4 := by
    have : (s.phi 0 0 * 4) * P.exp (psi 1) = 1 * P.exp (psi 1) := by linarith
    linarith [mul_right_cancel₀ hp.ne' this]
  exact ⟨a, by linarith, by linarith⟩

theorem halfKnown_start (M : ℕ) : (⟨fun _ _ => 1 / ((2 : ℕ) : ℝ), fun k => halfKnown.alpha k +
    (∑ n : Fin 2, (((fun n => if n = 0 then 4 else M : Vec 2 ℕ) n : ℕ) : ℝ)) / ((2 : ℕ) : ℝ)⟩ : VP 2 2) =
      ⟨fun _ _ => 1 / 2, fun _ => 3 + M / 2⟩ := by
  congr 1
  funext k
  simp only [halfKnown, Fin.sum_univ_two]
  norm_num
  ring

/-- C130, the full statement is false: with a positive tolerance the unsupervised step starts further from its result if
there are words that no topic knows, makes another iteration and returns something else than without them. -/
theorem C130_tolerance : ∃ s r s' r',
    unsupervised fastPrims ⟨2, 3 / 2, 0⟩ 0 (fun n => if n = 0 then 4 else 4) halfKnown = some (s, r) ∧
    unsupervised fastPrims ⟨2, 3 / 2, 0⟩ 0 (knownWords halfKnown fun n => if n = 0 then 4 else 4) halfKnown = some (s', r') ∧
    s.gamma 0 < s'.gamma 0 := by
  rw [halfKnown_words]
  obtain ⟨s, r, h, _⟩ := C35_unsupervised_defined (P := fastPrims) (cfg := ⟨2, 3 / 2, 0⟩) (draw := 0)
    (X := fun n => if n = 0 then 4 else 4) halfKnown_valid (by norm_num)
  obtain ⟨s', r', h', _⟩ := C35_unsupervised_defined (P := fastPrims) (cfg := ⟨2, 3 / 2, 0⟩) (draw := 0)
    (X := fun n => if n = 0 then 4 else 0) halfKnown_valid (by norm_num)
  refine ⟨s, r, s', r', h, h', ?_⟩
  have h1 := C38_unsupervised halfKnown_valid (by norm_num) h
  have h2 := C38_unsupervised halfKnown_valid (by norm_num) h'
  rw [halfKnown_start] at h1 h2
  have r2 : s'.gamma 0 = 2 := by
    obtain ⟨f, j, f0, fs, rfl, j1, j2, j3⟩ := h2
    have hj1 : 1 ≤ j := by
      by_contra hc
      obtain rfl : j = 0 := by omega
      have := j2 (by norm_num)
      rw [change, f0] at this
      norm_num at this
    obtain ⟨_, g0, g1⟩ := halfKnown_first (f0 ▸ fs 0 (by omega))
    have hj2 : j < 2 := by
      by_contra hc
      refine j3 1 (by omega) ?_
      rw [change, Fin.sum_univ_two, f0]
      simp only [zero_add, g0, g1]
      norm_num
    obtain rfl : j = 1 := by omega
    exact g0
  rw [r2]
  obtain ⟨f, j, f0, fs, rfl, j1, j2, j3⟩ := h1
  have hj1 : 1 ≤ j := by
    by_contra hc
    obtain rfl : j = 0 := by omega
    have := j2 (by norm_num)
    rw [change, f0] at this
    norm_num at this
  obtain ⟨_, g0, g1⟩ := halfKnown_first (f0 ▸ fs 0 (by omega))
  have hj2 : ¬ j < 2 := fun hc => by
    obtain rfl : j = 1 := by omega
    have := j2 (by norm_num)
    rw [change, Fin.sum_univ_two, f0] at this
    simp only [zero_add, g0, g1] at this
    norm_num at this
  obtain rfl : j = 2 := by dsimp only at j1; omega
  obtain ⟨psi, p1, p2, _, p4, _⟩ := halfKnown_update (fs 1 (by norm_num))
  obtain ⟨v, w, q1, q2, q3⟩ := fastPrims_two_four
  have a := p1 0
  have b := p1 1
  rw [g0, q1, Option.some.injEq] at a
  rw [g1, q2, Option.some.injEq] at b
  rw [← a, ← b] at p2
  show (f (1 + 1)).gamma 0 < 2
  rw [p4]
  have hv := fastPrims.exp_pos v
  have : (f (1 + 1)).phi 0 0 < 1 / 4 := by
    by_contra hc
    push Not at hc
    nlinarith
  linarith

/-! ### C130: the fast supervised step -/

/-- Two topics and two classes that follow the topics closely, and a second word that neither topic knows. -/
noncomputable def strangeModel : Model 2 2 2 where
  alpha := fun _ => 10
  beta := fun k n => if n = 0 then (if k = 0 then 1 / 5 else 4 / 5) else 0
  eta := fun k c => if k = c then 100 else 0

/-- The known word once and the unknown word `M` times. -/
def strangeDoc (M : ℕ) : Vec 2 ℕ := fun n => if n = 0 then 1 else M

theorem strange_valid : strangeModel.Valid where
  alpha_pos _ := by norm_num [strangeModel]
  beta_nonneg k n := by
    simp only [strangeModel]
    split
    · split <;> norm_num
    · norm_num

theorem strange_one : ¬ strangeModel.Known 1 := by
  rintro ⟨k, hk⟩
  simp [strangeModel] at hk

theorem strange_words (M : ℕ) : knownWords strangeModel (strangeDoc M) = strangeDoc 0 := by
  funext n
  fin_cases n
  · exact if_pos (show strangeModel.Known 0 from ⟨0, by norm_num [strangeModel]⟩)
  · exact if_neg strange_one

/-- What an update does. -/
theorem strange_update {M : ℕ} {s s' : VP 2 2} (h : FastUpdate P 1 (strangeDoc M) 0 strangeModel s s') :
    ∃ (psi sm : Vec 2 ℝ), (∀ k, P.psi (s.gamma k) = some (psi k)) ∧ 0 ≤ sm 0 ∧ 0 ≤ sm 1 ∧ sm 0 + sm 1 = 1 ∧
      sm 0 * P.exp (100 * ((s.phi 1 0 + M * s.phi 1 1) / (1 + M))) =
        sm 1 * P.exp (100 * ((s.phi 0 0 + M * s.phi 0 1) / (1 + M))) ∧
      s'.phi 0 0 * (1 / 5 * P.exp (psi 0 + (1 - sm 0)) + 4 / 5 * P.exp (psi 1 + -sm 1)) =
        1 / 5 * P.exp (psi 0 + (1 - sm 0)) ∧ Swing s' ∧ ∀ k, s'.phi k 1 = 0 := by
  obtain ⟨psi, sm, es, hpsi, ⟨hsm, hsm2⟩, ⟨mx, ⟨k0, c0, hmx⟩, hmx2, hes⟩, hprop, hcnt⟩ := h
  have h100 : mx = 100 := by
    refine le_antisymm ?_ (by simpa [strangeModel] using hmx2 0 0)
    rw [← hmx]
    simp only [strangeModel]
    split <;> norm_num
  subst h100
  have hes' : ∀ k c, es k c = if k = c then 1 else 0 := fun k c => by
    rcases hes with ⟨_, h⟩ | ⟨h, _⟩
    · have := h k c
      simp only [strangeModel] at this
      split at this <;> rename_i hkc
      · rw [if_pos hkc]; linarith
      · rw [if_neg hkc]; linarith
    · norm_num at h
  have hsum1 : sm 0 + sm 1 = 1 := by have := hsm.2; rwa [Fin.sum_univ_two] at this
  have hsc := hsm2 0 1
  simp only [strangeModel, strangeDoc, Fin.sum_univ_two] at hsc
  norm_num at hsc
  have hp0 := (hprop 0).1 0
  have hp1 := (hprop 0).1 1
  have hq := (hprop 0).2.1 ⟨0, mul_ne_zero (by norm_num [strangeModel]) (P.exp_pos _).ne'⟩
  have hz : ∀ k, s'.phi k 1 = 0 := (hprop 1).2.2 fun k => by simp [strangeModel]
  simp only [hes', strangeModel, Fin.sum_univ_two] at hp0 hp1 hq
  norm_num at hp0 hp1 hq
  refine ⟨psi, sm, hpsi, hsm.1 0, hsm.1 1, hsum1, hsc, ?_, ⟨fun k => ?_, hq, fun k => ?_⟩, hz⟩
  · norm_num
    exact hp0
  · have hA0 := P.exp_pos (psi 0 + (1 - sm 0))
    have hB0 := P.exp_pos (psi 1 + -sm 1)
    fin_cases k
    · change 0 ≤ s'.phi 0 0
      by_contra hc
      push Not at hc
      nlinarith
    · change 0 ≤ s'.phi 1 0
      by_contra hc
      push Not at hc
      nlinarith
  · have := hcnt k
    simp only [strangeModel, strangeDoc, Fin.sum_univ_two, hz] at this
    norm_num at this
    exact this

/-- With undecided classes the first topic gets less than half of the word. -/
theorem strange_even (hP : Accurate P) {p0 p1 t0 t1 x0 B : ℝ} (hB : 1 ≤ B) (hB' : B ≤ 100) (h0 : |p0 + (1 - t0)| ≤ B)
    (h1 : |p1 + -t1| ≤ B) (hd : p0 + (1 - t0) - (p1 + -t1) + B / 250 ≤ 57 / 50)
    (hx : x0 * (1 / 5 * P.exp (p0 + (1 - t0)) + 4 / 5 * P.exp (p1 + -t1)) = 1 / 5 * P.exp (p0 + (1 - t0))) : x0 ≤ 9 / 20 := by
  have hA0 := P.exp_pos (p0 + (1 - t0))
  have hB0 := P.exp_pos (p1 + -t1)
  have hr := exp_ratio hP hB hB' h0 h1 hd
  have he : Real.exp (57 / 50) ≤ 36 / 11 := by
    have h1 := Real.exp_one_lt_d9
    have h2 := Real.exp_bound_div_one_sub_of_interval (x := 7 / 50) (by norm_num) (by norm_num)
    have e : (57 / 50 : ℝ) = 1 + 7 / 50 := by norm_num
    rw [e, Real.exp_add]
    calc Real.exp 1 * Real.exp (7 / 50) ≤ 2.7182818286 * (1 / (1 - 7 / 50)) :=
          mul_le_mul h1.le h2 (Real.exp_pos _).le (by norm_num)
      _ ≤ 36 / 11 := by norm_num
  have hr' := hr.trans (mul_le_mul_of_nonneg_right he hB0.le)
  by_contra hc
  push Not at hc
  nlinarith

/-- The first iteration. -/
theorem strange_first (hP : Accurate P) {M : ℕ} (hM : M ≤ 9999) {s : VP 2 2}
    (h : FastUpdate P 1 (strangeDoc M) 0 strangeModel ⟨fun _ _ => 1 / 2, fun _ => 10 + (1 + M) / 2⟩ s) :
    s.phi 0 0 ≤ 9 / 20 ∧ Swing s ∧ ∀ k, s.phi k 1 = 0 := by
  obtain ⟨psi, sm, h1, s0, s1, ss, hsc, hx, hsw, hz⟩ := strange_update h
  refine ⟨?_, hsw, hz⟩
  have e : psi 0 = psi 1 := by
    have a := h1 0
    have b := h1 1
    dsimp only at a b
    rw [a] at b
    exact Option.some.inj b
  have hs : sm 0 = sm 1 := mul_right_cancel₀ (P.exp_pos _).ne' hsc
  have hM' : (M : ℝ) ≤ 9999 := by exact_mod_cast hM
  have hM0 : (0 : ℝ) ≤ M := Nat.cast_nonneg M
  obtain ⟨v, hv, hva⟩ := hP.psi (10 + (1 + M) / 2) (by positivity)
  have := h1 0
  dsimp only at this
  rw [hv, Option.some.injEq] at this
  rw [abs_le] at hva
  have low := FastExp.psi_mono (x := 10) (y := 10 + (1 + M) / 2) (by norm_num) (by linarith)
  have high := FastExp.psi_mono (x := 10 + (1 + M) / 2) (y := 2 ^ 13) (by positivity) (by norm_num; linarith)
  have low' := Digamma.log_le_psi (x := 10) (by norm_num)
  have high' := Digamma.psi_le_log (x := 2 ^ 13) (by norm_num)
  rw [Real.log_pow] at high'
  have l2 := Real.log_two_lt_d9
  have l1 : Real.log 2 ≤ Real.log 10 := Real.log_le_log (by norm_num) (by norm_num)
  have l3 := Real.log_two_gt_d9
  simp only [Digamma.psi] at low high low' high'
  norm_num at hva low' high' l2 l3
  have v0 : 0 ≤ v := by linarith
  have v1 : v ≤ 10 := by norm_num at high; linarith
  refine strange_even hP (B := 11) (by norm_num) (by norm_num) (abs_le.2 ⟨by linarith, by linarith⟩)
    (abs_le.2 ⟨by linarith, by linarith⟩) (by linarith) hx

/-- The second iteration, with many unknown words. -/
theorem strange_second (hP : Accurate P) {s s' : VP 2 2} (hs : Swing s) (hz : ∀ k, s.phi k 1 = 0)
    (h : FastUpdate P 1 (strangeDoc 9999) 0 strangeModel s s') : s'.phi 0 0 ≤ 9 / 20 := by
  obtain ⟨psi, sm, h1, s0, s1, ss, hsc, hx, -, -⟩ := strange_update h
  obtain ⟨hp, hpr⟩ := swing_psi hP hs h1
  obtain ⟨q1, q2⟩ := hpr 0
  obtain ⟨q3, q4⟩ := hpr 1
  have q5 := abs_le.1 hp
  have n0 := hs.nonneg 0
  have n1 := hs.nonneg 1
  have n2 := hs.sum
  simp only [hz] at hsc
  norm_num at hsc
  have a0 : |100 * (s.phi 0 0 / 10000)| ≤ 1 := abs_le.2 ⟨by linarith, by linarith⟩
  have a1 : |100 * (s.phi 1 0 / 10000)| ≤ 1 := abs_le.2 ⟨by linarith, by linarith⟩
  have hr := exp_ratio hP (B := 1) le_rfl (by norm_num) a1 a0 (d := 1 / 60) (by linarith)
  have he : Real.exp (1 / 60) ≤ 60 / 59 := by
    have h2 := Real.exp_bound_div_one_sub_of_interval (x := 1 / 60) (by norm_num) (by norm_num)
    norm_num at h2 ⊢
    exact h2
  have hE := P.exp_pos (100 * (s.phi 0 0 / 10000))
  have hr' := hr.trans (mul_le_mul_of_nonneg_right he hE.le)
  -- the classes are nearly undecided
  have ht : sm 1 * 59 ≤ sm 0 * 60 := by
    by_contra hc
    push Not at hc
    nlinarith
  refine strange_even hP (B := 4) (by norm_num) (by norm_num) (abs_le.2 ⟨by linarith, by linarith⟩)
    (abs_le.2 ⟨by linarith, by linarith⟩) ?_ hx
  norm_num at q5
  linarith

/-- The second iteration, without unknown words. -/
theorem strange_second_known (hP : Accurate P) {s s' : VP 2 2} (hs : Swing s) (h0 : s.phi 0 0 ≤ 9 / 20)
    (h : FastUpdate P 1 (strangeDoc 0) 0 strangeModel s s') : 11 / 20 ≤ s'.phi 0 0 := by
  obtain ⟨psi, sm, h1, s0, s1, ss, hsc, hx, -, -⟩ := strange_update h
  obtain ⟨hp, hpr⟩ := swing_psi hP hs h1
  norm_num at hsc
  exact (swing_core hP (hs.nonneg 0) (hs.nonneg 1) hs.sum s0 s1 ss hsc hp (hpr 0) (hpr 1) hx).1 h0

theorem strange_start (M : ℕ) : (⟨fun _ _ => 1 / ((2 : ℕ) : ℝ), fun k => strangeModel.alpha k +
    (∑ n : Fin 2, ((strangeDoc M n : ℕ) : ℝ)) / ((2 : ℕ) : ℝ)⟩ : VP 2 2) = ⟨fun _ _ => 1 / 2, fun _ => 10 + (1 + M) / 2⟩ := by
  congr 1
  funext k
  simp only [strangeModel, strangeDoc, Fin.sum_univ_two]
  norm_num

/-- C130, the full statement is false: the fast supervised step averages over all words of a document, and those that no
topic knows pull the average towards zero.  The topics of a known word are others with than without them, also
without a tolerance. -/
theorem C130_fast_differs (hP : Accurate P) {cl draw : ℝ} {s s' : VP 2 2} {r r' : Report}
    (h : fast P ⟨2, 0, cl⟩ 1 draw (strangeDoc 9999) 0 strangeModel = some (s, r))
    (h' : fast P ⟨2, 0, cl⟩ 1 draw (knownWords strangeModel (strangeDoc 9999)) 0 strangeModel = some (s', r')) :
    s.gamma 0 ≤ 10 + 9 / 20 ∧ 10 + 11 / 20 ≤ s'.gamma 0 := by
  rw [strange_words] at h'
  have two : ∀ {M : ℕ} {s : VP 2 2} {r : Report}, M ≤ 9999 → fast P ⟨2, 0, cl⟩ 1 draw (strangeDoc M) 0 strangeModel = some (s, r) →
      ∃ t, t.phi 0 0 ≤ 9 / 20 ∧ Swing t ∧ (∀ k, t.phi k 1 = 0) ∧ FastUpdate P 1 (strangeDoc M) 0 strangeModel t s := by
    intro M s r hM h
    have h1 := C38_fast (y := (0 : Fin 2)) strange_valid (by norm_num) h
    rw [strange_start] at h1
    obtain ⟨f, j, f0, fs, rfl, j1, j2, j3⟩ := h1
    have hX : ∃ n, strangeDoc M n ≠ 0 := ⟨0, by simp [strangeDoc]⟩
    have hj : j = 2 := by
      by_contra hne
      have : change (fun i => (f i).gamma) j < 0 := j2 (by dsimp only at j1 ⊢; omega)
      have nn : ∀ (g : ℕ → Vec 2 ℝ) i, 0 ≤ change g i := fun g i => by
        cases i <;> (rw [change]; positivity)
      exact absurd this (not_lt.2 (nn _ _))
    subst hj
    obtain ⟨a, b, c⟩ := strange_first hP hM (f0 ▸ (fs 0 (by norm_num)).1 hX)
    exact ⟨f 1, a, b, c, (fs 1 (by norm_num)).1 hX⟩
  obtain ⟨t, _, t2, t3, t4⟩ := two le_rfl h
  obtain ⟨t', u1, u2, _, u4⟩ := two (by norm_num) h'
  have a := strange_second hP t2 t3 t4
  have b := strange_second_known hP u2 u1 u4
  obtain ⟨_, _, _, _, _, _, _, _, w, _⟩ := strange_update t4
  obtain ⟨_, _, _, _, _, _, _, _, w', _⟩ := strange_update u4
  rw [w.gam, w'.gam]
  exact ⟨by linarith, by linarith⟩

/-! ### The hypotheses are met -/

example : ∃ s r s' r', fast fastPrims ⟨2, 0, 0⟩ 1 0 (strangeDoc 9999) 0 strangeModel = some (s, r) ∧
    fast fastPrims ⟨2, 0, 0⟩ 1 0 (knownWords strangeModel (strangeDoc 9999)) 0 strangeModel = some (s', r') ∧
    s.gamma 0 ≠ s'.gamma 0 := by
  obtain ⟨s, r, h⟩ := C35_fast_defined (P := fastPrims) (cfg := ⟨2, 0, 0⟩) (w := 1) (draw := 0) (X := strangeDoc 9999)
    (y := (0 : Fin 2)) strange_valid (by norm_num) (Or.inl ⟨0, by simp [strangeDoc]⟩)
  obtain ⟨s', r', h'⟩ := C35_fast_defined (P := fastPrims) (cfg := ⟨2, 0, 0⟩) (w := 1) (draw := 0) (X := strangeDoc 0)
    (y := (0 : Fin 2)) strange_valid (by norm_num) (Or.inl ⟨0, by simp [strangeDoc]⟩)
  rw [← strange_words 9999] at h'
  obtain ⟨a, b⟩ := C130_fast_differs accurate_actual h h'
  exact ⟨s, r, s', r', h, h', by intro hc; linarith⟩

/-- The model and the document of `C130_fast_differs`, for the theorems of Verif/Props/Unknown.lean. -/
example : strangeModel.Valid ∧ Symmetric strangeModel ∧ ¬ strangeModel.Known 1 ∧ strangeDoc 3 1 ≠ 0 ∧
    RunsOnce 10 (1 / 100) (strangeDoc 3) strangeModel :=
  ⟨strange_valid, ⟨10, fun _ => rfl⟩, strange_one, by simp [strangeDoc], by norm_num, by
    simp [strangeModel, strangeDoc, Fin.sum_univ_two]; norm_num⟩

end Verif.EStep
