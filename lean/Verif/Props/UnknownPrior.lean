import Verif.Props.UnknownFast

/-! Property C130: with a prior that differs between the topics, words that no topic knows change the result even
without a tolerance. -/
namespace Verif.EStep

open MathUtils Finset

variable {P : Prims}

/-- Two topics with different priors that know the first word equally well, and the second one not at all. -/
noncomputable def slanted : Model 2 2 1 where
  alpha := fun k => if k = 0 then 1 else 2
  beta := fun _ n => if n = 0 then 1 / 2 else 0
  eta := fun _ _ => 0

theorem slanted_valid : slanted.Valid where
  alpha_pos k := by simp only [slanted]; split <;> norm_num
  beta_nonneg k n := by simp only [slanted]; split <;> norm_num

theorem slanted_one : ¬ slanted.Known 1 := by
  rintro ⟨k, hk⟩
  simp [slanted] at hk

theorem slanted_words (M : ℕ) :
    knownWords slanted (fun n => if n = 0 then 1 else M) = fun n : Fin 2 => if n = 0 then 1 else 0 := by
  funext n
  fin_cases n
  · exact if_pos ⟨0, by norm_num [slanted]⟩
  · exact if_neg slanted_one

theorem slanted_update {M : ℕ} {s s' : VP 2 2}
    (h : UnsupervisedUpdate P (fun n => if n = 0 then 1 else M) slanted s s') :
    ∃ psi : Vec 2 ℝ, (∀ k, P.psi (s.gamma k) = some (psi k)) ∧
      s'.phi 0 0 * (P.exp (psi 0) + P.exp (psi 1)) = P.exp (psi 0) ∧ s'.gamma 0 = 1 + s'.phi 0 0 := by
  obtain ⟨psi, hpsi, hprop, hcnt⟩ := h
  refine ⟨psi, hpsi, ?_, ?_⟩
  · have := (hprop 0).1 0
    simp only [slanted, Fin.sum_univ_two] at this
    norm_num at this
    linarith
  · have h1 : ∀ k, s'.phi k 1 = 0 := (hprop 1).2.2 fun k => by simp [slanted]
    have := hcnt 0
    simp only [slanted, Fin.sum_univ_two, h1] at this
    norm_num at this
    exact this

theorem slanted_start (M : ℕ) : (⟨fun _ _ => 1 / ((2 : ℕ) : ℝ), fun k => slanted.alpha k +
    (∑ n : Fin 2, (((fun n => if n = 0 then 1 else M : Vec 2 ℕ) n : ℕ) : ℝ)) / ((2 : ℕ) : ℝ)⟩ : VP 2 2) =
      ⟨fun _ _ => 1 / 2, fun k => (if k = 0 then 0 else 1) + (3 + M) / 2⟩ := by
  congr 1
  funext k
  simp only [slanted, Fin.sum_univ_two]
  fin_cases k <;> norm_num <;> ring

theorem slanted_psi (hP : Accurate P) {g p q : ℝ} (hg : 1 ≤ g) (hp : P.psi g = some p) (hq : P.psi (g + 1) = some q) :
    |p| ≤ g + 1 ∧ |q| ≤ g + 1 ∧ |p - q + 1 / g| ≤ 1 / 500000 := by
  have bound : ∀ {x v : ℝ}, 1 ≤ x → P.psi x = some v → |v - logDeriv Real.Gamma x| ≤ 1 / 1000000 ∧ |v| ≤ x + 1 / 1000000 := by
    intro x v hx hv
    obtain ⟨v', h1, h2⟩ := hP.psi x (by linarith)
    obtain rfl : v = v' := Option.some.inj (hv.symm.trans h1)
    refine ⟨h2, ?_⟩
    have a := Digamma.psi_le_log (x := x) (by linarith)
    have b := Digamma.log_le_psi (x := x) (by linarith)
    have c := Real.log_le_sub_one_of_pos (x := x) (by linarith)
    have d := Real.log_nonneg hx
    have e : 1 / x ≤ 1 := by rw [div_le_one (by linarith)]; exact hx
    have f := abs_le.1 h2
    change Digamma.psi x ≤ _ at a
    change _ ≤ Digamma.psi x at b
    have hps : logDeriv Real.Gamma x = Digamma.psi x := rfl
    rw [hps] at f
    exact abs_le.2 ⟨by linarith [f.1], by linarith [f.2]⟩
  obtain ⟨a1, a2⟩ := bound hg hp
  obtain ⟨b1, b2⟩ := bound (by linarith) hq
  refine ⟨by linarith, ?_, ?_⟩
  · obtain ⟨v', h1, h2⟩ := hP.psi (g + 1) (by linarith)
    obtain rfl : q = v' := Option.some.inj (hq.symm.trans h1)
    have a := Digamma.psi_le_log (x := g + 1) (by linarith)
    have b := Digamma.log_le_psi (x := g + 1) (by linarith)
    have c := Real.log_le_sub_one_of_pos (x := g + 1) (by linarith)
    have d := Real.log_nonneg (x := g + 1) (by linarith)
    have e : 1 / (g + 1) ≤ 1 := by rw [div_le_one (by linarith)]; linarith
    have f := abs_le.1 h2
    have hps : logDeriv Real.Gamma (g + 1) = Digamma.psi (g + 1) := rfl
    rw [hps] at f
    exact abs_le.2 ⟨by linarith [f.1], by linarith [f.2]⟩
  · have hs := Digamma.psi_add_one (x := g) (Digamma.pos_ne_neg (by linarith))
    have e1 : logDeriv Real.Gamma g = Digamma.psi g := rfl
    have e2 : logDeriv Real.Gamma (g + 1) = Digamma.psi (g + 1) := rfl
    rw [e1] at a1
    rw [e2] at b1
    have c := abs_le.1 a1
    have d := abs_le.1 b1
    exact abs_le.2 ⟨by linarith [c.1, d.2], by linarith [c.2, d.1]⟩

/-- **C130**, the full statement is false: with the prior (1, 2) nine words that no topic knows move the first iteration
of a document with one known word, also without early stop, because `gamma` starts from the number of all
words. -/
theorem C130_asymmetric (hP : Accurate P) {cl draw tol : ℝ} (ht : tol ≤ 0) {s s' : VP 2 2} {r r' : Report}
    (h : unsupervised P ⟨1, tol, cl⟩ draw (fun n => if n = 0 then 1 else 9) slanted = some (s, r))
    (h' : unsupervised P ⟨1, tol, cl⟩ draw (knownWords slanted fun n => if n = 0 then 1 else 9) slanted = some (s', r')) :
    1 + 4 / 9 ≤ s.gamma 0 ∧ s'.gamma 0 ≤ 1 + 5 / 13 := by
  rw [slanted_words] at h'
  have one : ∀ {M : ℕ} {s : VP 2 2} {r : Report}, unsupervised P ⟨1, tol, cl⟩ draw (fun n => if n = 0 then 1 else M) slanted = some (s, r) →
      ∃ p q : ℝ, P.psi ((3 + M) / 2) = some p ∧ P.psi ((3 + M) / 2 + 1) = some q ∧
        s.phi 0 0 * (P.exp p + P.exp q) = P.exp p ∧ s.gamma 0 = 1 + s.phi 0 0 := by
    intro M s r h
    have h1 := C38_unsupervised slanted_valid (by norm_num) h
    rw [slanted_start] at h1
    obtain ⟨f, j, f0, fs, rfl, j1, j2, j3⟩ := h1
    have hj : j = 1 := by
      by_contra hne
      have : change (fun i => (f i).gamma) j < tol := j2 (by dsimp only at j1 ⊢; omega)
      have nn : ∀ (g : ℕ → Vec 2 ℝ) i, 0 ≤ change g i := fun g i => by
        cases i <;> (rw [change]; positivity)
      exact absurd (this.trans_le ht) (not_lt.2 (nn _ _))
    subst hj
    obtain ⟨psi, a, b, c⟩ := slanted_update (f0 ▸ fs 0 (by norm_num))
    refine ⟨psi 0, psi 1, ?_, ?_, b, c⟩
    · have := a 0
      simpa using this
    · have := a 1
      simp only [one_ne_zero, if_false] at this
      rw [add_comm]
      exact this
  constructor
  · obtain ⟨p, q, a, b, c, d⟩ := one h
    push_cast at a b
    norm_num at a b
    obtain ⟨e1, e2, e3⟩ := slanted_psi hP (g := 6) (by norm_num) a (by norm_num; exact b)
    have e4 := abs_le.1 e3
    have hr := exp_ratio hP (x := q) (y := p) (d := 1 / 5) (B := 7) (by norm_num) (by norm_num) (by linarith) (by linarith)
      (by linarith [e4.1])
    have hx := Real.exp_bound_div_one_sub_of_interval (x := 1 / 5) (by norm_num) (by norm_num)
    norm_num at hx
    have hp := P.exp_pos p
    have hq := P.exp_pos q
    have : P.exp q ≤ 5 / 4 * P.exp p := hr.trans (mul_le_mul_of_nonneg_right (by norm_num; exact hx) hp.le)
    have : 4 / 9 ≤ s.phi 0 0 := by
      by_contra hc
      nlinarith
    linarith
  · obtain ⟨p, q, a, b, c, d⟩ := one h'
    push_cast at a b
    norm_num at a b
    obtain ⟨e1, e2, e3⟩ := slanted_psi hP (g := 3 / 2) (by norm_num) a (by norm_num; exact b)
    have e4 := abs_le.1 e3
    have hr := exp_ratio hP (x := p) (y := q) (d := -(3 / 5)) (B := 5 / 2) (by norm_num) (by norm_num) (by linarith) (by linarith)
      (by linarith [e4.2])
    have hx : Real.exp (-(3 / 5)) ≤ 5 / 8 := by
      have := Real.add_one_le_exp (3 / 5 : ℝ)
      rw [Real.exp_neg, inv_le_comm₀ (Real.exp_pos _) (by norm_num)]
      norm_num at this ⊢
      exact this
    have hp := P.exp_pos p
    have hq := P.exp_pos q
    have : P.exp p ≤ 5 / 8 * P.exp q := hr.trans (mul_le_mul_of_nonneg_right hx hq.le)
    have : s'.phi 0 0 ≤ 5 / 13 := by
      by_contra hc
      nlinarith
    linarith

/-- Both runs of `C130_asymmetric` return, with `fast_exp` and `digamma` as they are. -/
example : ∃ s r s' r', unsupervised fastPrims ⟨1, 0, 0⟩ 0 (fun n => if n = 0 then 1 else 9) slanted = some (s, r) ∧
    unsupervised fastPrims ⟨1, 0, 0⟩ 0 (knownWords slanted fun n => if n = 0 then 1 else 9) slanted = some (s', r') ∧
    s'.gamma 0 < s.gamma 0 := by
  obtain ⟨s, r, h, _⟩ := C35_unsupervised_defined (P := fastPrims) (cfg := ⟨1, 0, 0⟩) (draw := 0)
    (X := fun n => if n = 0 then 1 else 9) slanted_valid (by norm_num)
  obtain ⟨s', r', h', _⟩ := C35_unsupervised_defined (P := fastPrims) (cfg := ⟨1, 0, 0⟩) (draw := 0)
    (X := knownWords slanted fun n => if n = 0 then 1 else 9) slanted_valid (by norm_num)
  obtain ⟨a, b⟩ := C130_asymmetric accurate_actual le_rfl h h'
  exact ⟨s, r, s', r', h, h', by linarith⟩

end Verif.EStep
