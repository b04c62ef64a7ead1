import Verif.Props.Decision

/-
C117: the guide says that `lda.predict(X)` is
`(lda.transform(X).transpose() * lda.model_parameters()->eta).argmax(axis=1)` (docs/site/getting-started.md:94-96).
-/
namespace Verif.Decision

open MathUtils MStep EStep

variable {K C D V : ℕ}

/-- The score of class `c` in the formula of the guide. -/
def guideScore (eta : Mat K C ℝ) (g : Vec K ℝ) (c : Fin C) : ℝ := ∑ k, g k * eta k c

/-- What the prior `alpha` contributes to it. -/
def priorScore (alpha : Vec K ℝ) (eta : Mat K C ℝ) (c : Fin C) : ℝ := ∑ k, alpha k * eta k c

theorem isFirstMax_unique {f : Fin C → ℝ} {p q : Fin C} (hp : IsFirstMax f p) (hq : IsFirstMax f q) : p = q := by
  rcases lt_trichotomy p q with h | h | h
  · exact absurd (hq.2 p h) (not_lt.2 (hp.1 q))
  · exact h
  · exact absurd (hp.2 q h) (not_lt.2 (hq.1 p))

theorem isFirstMax_scale {f g : Fin C → ℝ} {n b : ℝ} (hn : 0 < n) (h : ∀ c, n * f c = g c - b) (p : Fin C) :
    IsFirstMax f p ↔ IsFirstMax g p := by
  have e : ∀ c, g c = n * f c + b := fun c => by linarith [h c]
  unfold IsFirstMax
  simp only [e, add_le_add_iff_right, add_lt_add_iff_right, mul_le_mul_iff_right₀ hn, mul_lt_mul_iff_right₀ hn]

/-- **C117**, what is predicted: the class with the largest score of the guide, less what the prior contributes. -/
theorem C117_predict_partial (hC : 0 < C) (alpha : Vec K ℝ) (eta : Mat K C ℝ) (X : Mat K D ℝ)
    (hX : ∀ d, 0 < ∑ k, (X k d - alpha k)) :
    ∃ ps, predict (decisionFunction alpha eta X) = some ps ∧ ps.length = D ∧
      ∀ (d : Fin D) (p : Fin C), ps[d.val]? = some p ↔
        IsFirstMax (fun c => guideScore eta (fun k => X k d) c - priorScore alpha eta c) p := by
  obtain ⟨ps, h1, h2, h3⟩ := C60_predict hC alpha eta X fun d => (hX d).ne'
  refine ⟨ps, h1, h2, fun d => ?_⟩
  have key : ∀ p, IsFirstMax (fun c => ∑ k, eta k c * share alpha (fun k => X k d) k) p ↔
      IsFirstMax (fun c => guideScore eta (fun k => X k d) c - priorScore alpha eta c) p := by
    refine isFirstMax_scale (b := 0) (hX d) fun c => ?_
    have hne := (hX d).ne'
    rw [Finset.mul_sum, guideScore, priorScore, ← Finset.sum_sub_distrib, sub_zero]
    refine Finset.sum_congr rfl fun k _ => ?_
    simp only [share]
    field_simp
  intro p
  constructor
  · exact fun h => (key p).1 (h3 d p h)
  · intro h
    have hd : d.val < ps.length := by rw [h2]; exact d.2
    have hq : ps[d.val]? = some ps[d.val] := List.getElem?_eq_getElem hd
    rw [hq, isFirstMax_unique ((key _).1 (h3 d _ hq)) h]

/-- **C117** (partial): the formula of the guide is right if the prior contributes the same to every class. -/
theorem C117_guide_partial (hC : 0 < C) (alpha : Vec K ℝ) (eta : Mat K C ℝ) (X : Mat K D ℝ)
    (hX : ∀ d, 0 < ∑ k, (X k d - alpha k)) (he : ∀ c c', priorScore alpha eta c = priorScore alpha eta c') :
    ∃ ps, predict (decisionFunction alpha eta X) = some ps ∧ ps.length = D ∧
      ∀ (d : Fin D) (p : Fin C), ps[d.val]? = some p ↔ IsFirstMax (guideScore eta fun k => X k d) p := by
  obtain ⟨ps, h1, h2, h3⟩ := C117_predict_partial hC alpha eta X hX
  refine ⟨ps, h1, h2, fun d p => (h3 d p).trans ?_⟩
  refine isFirstMax_scale (n := 1) (b := priorScore alpha eta ⟨0, hC⟩) one_pos (fun c => ?_) p
  rw [one_mul, he c ⟨0, hC⟩]

/-- **C117** (partial): and for every document for which its best class is ahead by more than the contributions of the
prior differ, as it is for long enough documents if one class is best for their topics. -/
theorem C117_margin_partial (hC : 0 < C) (alpha : Vec K ℝ) (eta : Mat K C ℝ) (X : Mat K D ℝ)
    (hX : ∀ d, 0 < ∑ k, (X k d - alpha k)) (d : Fin D) (p : Fin C)
    (hp : ∀ c, c ≠ p → priorScore alpha eta p - priorScore alpha eta c <
      guideScore eta (fun k => X k d) p - guideScore eta (fun k => X k d) c) :
    ∃ ps, predict (decisionFunction alpha eta X) = some ps ∧ ps[d.val]? = some p := by
  obtain ⟨ps, h1, _, h3⟩ := C117_predict_partial hC alpha eta X hX
  refine ⟨ps, h1, (h3 d p).2 ⟨fun c => ?_, fun c hc => ?_⟩⟩
  · by_cases h : c = p
    · rw [h]
    · linarith [hp c h]
  · simp only
    linarith [hp c (ne_of_lt hc)]

/-! ### The formula of the guide is not what is computed -/

/-- Two topics, each with a word of its own, and two classes. -/
noncomputable def guideModel : Model 2 2 2 where
  alpha := fun _ => 1 / 10
  beta := fun k n => if k = n then 1 else 0
  eta := fun k c => if k = 0 then (if c = 0 then 1 else 0) else (if c = 0 then 0 else 20)

/-- The first word, once. -/
def guideDoc : Vec 2 ℕ := fun n => if n = 0 then 1 else 0

theorem guideModel_valid : guideModel.Valid :=
  ⟨fun k => by norm_num [guideModel], fun k n => by simp only [guideModel]; split_ifs <;> norm_num⟩

/-- **C117 is false**: with the default number of iterations and tolerance, `transform` of a document that consists of
the first word gives parameters for which the guide's formula says class 1; `predict` says class 0. -/
theorem C117_negation (P : Prims) (draw : ℝ) : ∃ s r, unsupervised P ⟨10, 1 / 100, 0⟩ draw guideDoc guideModel = some (s, r) ∧
    predict (decisionFunction guideModel.alpha guideModel.eta fun k (_ : Fin 1) => s.gamma k) = some [0] ∧
    IsFirstMax (guideScore guideModel.eta s.gamma) 1 := by
  obtain ⟨s, r, h, _⟩ := C35_unsupervised_defined (P := P) (cfg := ⟨10, 1 / 100, 0⟩) (draw := draw) (X := guideDoc)
    guideModel_valid (by norm_num)
  have hr : RunsOnce 10 (1 / 100) guideDoc guideModel := by
    refine ⟨by norm_num, ?_⟩
    norm_num [guideDoc, guideModel, Fin.sum_univ_two]
  obtain ⟨s1, psi, _, hp, _⟩ := (C38_unsupervised guideModel_valid (by norm_num) h).ran guideModel_valid rfl hr
  have hphi : s.phi 1 0 = 0 := by
    have := (hp 0).1 1
    have h0 := P.exp_pos (psi 0)
    simp only [guideModel, Fin.sum_univ_two] at this
    norm_num at this
    rcases this with h | h
    · exact h
    · exact absurd h h0.ne'
  have hsum : s.phi 0 0 = 1 := by
    have := (C35_unsupervised guideModel_valid (by norm_num) h).2.1 0 ⟨0, by norm_num [guideModel]⟩
    rw [Fin.sum_univ_two, hphi, add_zero] at this
    exact this
  have g0 : s.gamma 0 = 11 / 10 := by
    rw [(C37_unsupervised guideModel_valid (by norm_num) h 0).1, Fin.sum_univ_two, hsum]
    norm_num [guideModel, guideDoc]
  have g1 : s.gamma 1 = 1 / 10 := by
    rw [(C37_unsupervised guideModel_valid (by norm_num) h 1).1, Fin.sum_univ_two, hphi]
    norm_num [guideModel, guideDoc]
  refine ⟨s, r, h, ?_, ?_⟩
  · obtain ⟨ps, h1, h2, h3⟩ := C117_predict_partial (D := 1) (by norm_num) guideModel.alpha guideModel.eta
      (fun k _ => s.gamma k) fun d => by rw [Fin.sum_univ_two, g0, g1]; norm_num [guideModel]
    have h4 : ps[(0 : Fin 1).val]? = some 0 := by
      refine (h3 0 0).2 ⟨fun c => ?_, fun c hc => absurd hc (by simp)⟩
      simp only [guideScore, priorScore, Fin.sum_univ_two, g0, g1]
      fin_cases c <;> norm_num [guideModel]
    rw [h1]
    match ps, h2, h4 with
    | [a], _, h4 => simpa using h4
  · refine ⟨fun c => ?_, fun c hc => ?_⟩
    · simp only [guideScore, Fin.sum_univ_two, g0, g1]
      fin_cases c <;> norm_num [guideModel]
    · obtain rfl : c = 0 := by omega
      simp only [guideScore, Fin.sum_univ_two, g0, g1]
      norm_num [guideModel]

/-- The hypotheses of `C117_guide_partial`: an `eta` of which the classes share the influence evenly, and two
documents. -/
example : (∀ d : Fin 2, 0 < ∑ k : Fin 2, ((fun k (d : Fin 2) => if k = d then (3 : ℝ) else 1 / 10) k d - 1 / 10)) ∧
    (∀ c c' : Fin 2, priorScore (fun _ : Fin 2 => 1 / 10) (fun k c => if k = c then (1 : ℝ) else -1) c =
      priorScore (fun _ : Fin 2 => 1 / 10) (fun k c => if k = c then (1 : ℝ) else -1) c') := by
  constructor
  · intro d
    fin_cases d <;> norm_num [Fin.sum_univ_two]
  · intro c c'
    fin_cases c <;> fin_cases c' <;> norm_num [priorScore, Fin.sum_univ_two]

/-- The hypothesis of `C117_margin_partial`: with `guideModel`, a document with the first word 30 times. -/
example : ∀ c : Fin 2, c ≠ 0 → priorScore guideModel.alpha guideModel.eta 0 - priorScore guideModel.alpha guideModel.eta c <
    guideScore guideModel.eta (fun k => if k = 0 then 301 / 10 else 1 / 10) 0 -
      guideScore guideModel.eta (fun k => if k = 0 then 301 / 10 else 1 / 10) c := by
  intro c hc
  obtain rfl : c = 1 := by omega
  norm_num [priorScore, guideScore, guideModel, Fin.sum_univ_two]

end Verif.Decision
