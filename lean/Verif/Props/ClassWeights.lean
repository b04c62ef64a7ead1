import Verif.Props.Logistic
import Verif.Lemmas.Gibbs

/-! Properties C59 and C79 (see /verif/properties.jsonl). -/
namespace Verif.Optim

open MathUtils EStep Finset

variable {K C : ℕ}

/-! ### C59 -/

theorem countLabel_fold (y : List ℤ) : ∀ (acc : List ℕ), (∀ a ∈ y, 0 ≤ a ∧ a.toNat < acc.length) →
    ∃ out, y.foldlM countLabel acc = some out ∧ out.length = acc.length ∧
      ∀ c : ℕ, c < acc.length → out[c]? = some (acc.getD c 0 + y.count (c : ℤ)) := by
  induction y with
  | nil =>
    intro acc _
    refine ⟨acc, rfl, rfl, ?_⟩
    intro c hc
    simp [List.getD_eq_getElem?_getD, List.getElem?_eq_getElem hc]
  | cons a y ih =>
    intro acc h
    have ha := h a (by simp)
    obtain ⟨out, h1, h2, h3⟩ := ih (acc.set a.toNat (acc.getD a.toNat 0 + 1)) (by
      intro b hb
      simpa using h b (by simp [hb]))
    refine ⟨out, ?_, by simpa using h2, ?_⟩
    · rw [List.foldlM_cons, countLabel, if_pos ha]
      exact h1
    · intro c hc
      rw [h3 c (by simpa using hc)]
      congr 1
      by_cases hac : a = (c : ℤ)
      · subst hac
        simp [List.getD_eq_getElem?_getD, hc]
        omega
      · have hne : ¬ a.toNat = c := by omega
        rw [List.count_cons_of_ne hac]
        simp [List.getD_eq_getElem?_getD, hne]

theorem numClasses_spec {y : List ℤ} (h : y ≠ []) :
    ∃ C, numClasses y = some C ∧ C - 1 ∈ y ∧ ∀ a ∈ y, a < C := by
  cases y with
  | nil => exact absurd rfl h
  | cons b y =>
    refine ⟨_, rfl, ?_, ?_⟩
    · have : ∀ (l : List ℤ) (b : ℤ), l.foldl max b = b ∨ l.foldl max b ∈ l := by
        intro l
        induction l with
        | nil => simp
        | cons x l ih =>
          intro b
          simp only [List.foldl_cons, List.mem_cons]
          rcases ih (max b x) with h | h
          · rcases max_choice b x with h' | h'
            · left; rw [h, h']
            · right; left; rw [h, h']
          · right; right; exact h
      rcases this y b with h | h
      · simp [h]
      · rw [add_sub_cancel_right]; exact List.mem_cons_of_mem _ h
    · have : ∀ (l : List ℤ) (b : ℤ), b ≤ l.foldl max b ∧ ∀ a ∈ l, a ≤ l.foldl max b := by
        intro l
        induction l with
        | nil => simp
        | cons x l ih =>
          intro b
          have := ih (max b x)
          refine ⟨(le_max_left b x).trans this.1, ?_⟩
          intro a ha
          rcases List.mem_cons.1 ha with rfl | ha
          · exact (le_max_right b a).trans this.1
          · exact this.2 a ha
      intro a ha
      have h1 := this y b
      rcases List.mem_cons.1 ha with rfl | ha
      · have := h1.1; omega
      · have := h1.2 a ha; omega

/-- **C59**: the default weights are `N / (C n_c)`, where `C` is one more than the largest label.  The
weights of classes without documents are not finite. -/
theorem C59_weights {y : List ℤ} (hne : y ≠ []) (hy : ∀ a ∈ y, 0 ≤ a) :
    ∃ (Cy : List (Option ℝ)) (C : ℕ), defaultWeights y = some Cy ∧ Cy.length = C ∧
      (C : ℤ) - 1 ∈ y ∧ (∀ a ∈ y, a < C) ∧
      (∀ a ∈ y, weightAt Cy a = some ((y.length : ℝ) / (C * (y.count a : ℝ)))) ∧
      ∀ c : ℕ, c < C → (c : ℤ) ∉ y → Cy[c]? = some none := by
  obtain ⟨C, h1, h2, h3⟩ := numClasses_spec hne
  have hC : 0 < C := by have := hy _ h2; omega
  obtain ⟨out, h4, h5, h6⟩ := countLabel_fold y (List.replicate C.toNat 0) (by
    intro a ha
    have := h3 a ha
    have := hy a ha
    simp; omega)
  rw [List.length_replicate] at h5 h6
  have hget : ∀ c : ℕ, c < C.toNat → out[c]? = some (y.count (c : ℤ)) := by
    intro c hc
    have := h6 c hc
    simpa [List.getD_eq_getElem?_getD, List.getElem?_replicate, hc] using this
  refine ⟨out.map (weightOf y.length C), C.toNat, ?_, by simp [h5], ?_, ?_, ?_, ?_⟩
  · rw [defaultWeights, h1, Option.bind_some, if_neg (by omega), h4]
    rfl
  · rw [Int.toNat_of_nonneg hC.le]; exact h2
  · rw [Int.toNat_of_nonneg hC.le]; exact h3
  · intro a ha
    have ha0 := hy a ha
    have hlt := h3 a ha
    have hcount : 0 < y.count a := List.count_pos_iff.2 ha
    have := hget a.toNat (by omega)
    rw [Int.toNat_of_nonneg ha0] at this
    simp only [weightAt, ha0, if_true, List.getElem?_map, this, Option.map_some, weightOf, hcount.ne',
      if_false, Option.join_some]
    have hcast : ((C.toNat : ℕ) : ℝ) = ((C : ℤ) : ℝ) := by
      rw [← Int.cast_natCast, Int.toNat_of_nonneg hC.le]
    rw [hcast, mul_comm]
  · intro c hc hn
    have := hget c hc
    simp [List.getElem?_map, this, weightOf, List.count_eq_zero.2 hn]

/-- The total weight of the documents satisfying `p`. -/
noncomputable def totalWeight (Cy : List (Option ℝ)) (y : List ℤ) (p : ℤ → Bool) : ℝ :=
  ((y.filter p).map fun a => (weightAt Cy a).getD 0).sum

/-- **C59**: the documents of every class that occurs have the same total weight `N / C`. -/
theorem C59_balanced {y : List ℤ} (hy : ∀ a ∈ y, 0 ≤ a) {Cy : List (Option ℝ)}
    (h : defaultWeights y = some Cy) {a : ℤ} (ha : a ∈ y) :
    totalWeight Cy y (· = a) = (y.length : ℝ) / Cy.length := by
  have hne : y ≠ [] := List.ne_nil_of_mem ha
  obtain ⟨Cy', C, h1, rfl, h3, h4, h5, _⟩ := C59_weights hne hy
  have := Option.some.inj (h.symm.trans h1)
  subst this
  have hf : y.filter (· = a) = List.replicate (y.count a) a := by
    have := List.filter_beq (l := y) a
    rw [← this]
    congr 1
  rw [totalWeight, hf, List.map_replicate, List.sum_replicate, h5 a ha, Option.getD_some, nsmul_eq_mul]
  have hc : (y.count a : ℝ) ≠ 0 := by
    have : 0 < y.count a := List.count_pos_iff.2 ha
    positivity
  have hC : (Cy.length : ℝ) ≠ 0 := by
    have := hy _ h3
    have : 0 < Cy.length := by omega
    positivity
  field_simp

theorem sum_filter_eq (l : List ℤ) (f : ℤ → ℝ) (n : ℕ) (h : ∀ a ∈ l, 0 ≤ a ∧ a < n) :
    (l.map f).sum = ∑ c ∈ Finset.range n, ((l.filter (· = (c : ℤ))).map f).sum := by
  induction l with
  | nil => simp
  | cons a l ih =>
    have ha := h a (by simp)
    have e : ∀ c ∈ Finset.range n, (((a :: l).filter (· = (c : ℤ))).map f).sum =
        (if a = (c : ℤ) then f a else 0) + ((l.filter (· = (c : ℤ))).map f).sum := by
      intro c _
      by_cases hc : a = (c : ℤ) <;> simp [hc]
    rw [List.map_cons, List.sum_cons, ih fun b hb => h b (by simp [hb]), Finset.sum_congr rfl e,
      Finset.sum_add_distrib]
    congr 1
    rw [Finset.sum_eq_single a.toNat]
    · simp [Int.toNat_of_nonneg ha.1]
    · intro b _ hb
      rw [if_neg]; omega
    · intro hn
      exfalso
      apply hn
      rw [Finset.mem_range]; omega

/-- **C59**: the total weight is the number of documents when every class below the largest label
occurs. -/
theorem C59_total {y : List ℤ} (hy : ∀ a ∈ y, 0 ≤ a) {Cy : List (Option ℝ)}
    (h : defaultWeights y = some Cy) (hall : ∀ c : ℕ, c < Cy.length → (c : ℤ) ∈ y) :
    totalWeight Cy y (fun _ => true) = y.length := by
  have hne : y ≠ [] := by
    rintro rfl
    simp [defaultWeights, numClasses] at h
  obtain ⟨Cy', C, h1, rfl, h3, h4, h5, _⟩ := C59_weights hne hy
  have := Option.some.inj (h.symm.trans h1)
  subst this
  have hC : (Cy.length : ℝ) ≠ 0 := by
    have := hy _ h3
    have : 0 < Cy.length := by omega
    positivity
  rw [totalWeight, List.filter_true, sum_filter_eq y _ Cy.length fun a ha => ⟨hy a ha, h4 a ha⟩]
  have : ∀ c ∈ Finset.range Cy.length, ((y.filter (· = (c : ℤ))).map
      fun a => (weightAt Cy a).getD 0).sum = (y.length : ℝ) / Cy.length := by
    intro c hc
    exact C59_balanced hy h (hall c (Finset.mem_range.1 hc))
  rw [Finset.sum_congr rfl this, Finset.sum_const, Finset.card_range, nsmul_eq_mul]
  field_simp

/-- **C59**: the weights of absent classes are never used: the objective and its gradient are defined at
every `eta` whose columns include the labels, and are those for the finite weights `N / (C n_c)`. -/
theorem C59_absent_unused {data : List (Vec K ℝ × Fin C)} (hne : data ≠ []) (L : ℝ) :
    ∃ (pr : Problem K C) (w : Fin C → ℝ) (n : ℕ),
      logisticDefault C (data.map Prod.fst) (data.map fun d => (d.2 : ℤ)) L = some pr ∧
      (∃ d ∈ data, (d.2 : ℕ) + 1 = n) ∧ (∀ d ∈ data, (d.2 : ℕ) < n) ∧
      (∀ d ∈ data, w d.2 = (data.length : ℝ) / (n * (data.map Prod.snd).count d.2)) ∧
      (∀ d ∈ data, 0 < w d.2) ∧
      (∀ eta, pr.value eta = some (logisticObjective data w L eta)) ∧
      ∀ eta, ∃ g, pr.gradient eta = some g ∧ IsGradient (logisticObjective data w L) eta g := by
  have hcount : ∀ c : Fin C, (data.map fun d => (d.2 : ℤ)).count (c : ℤ) = (data.map Prod.snd).count c := by
    intro c
    have : (data.map fun d => (d.2 : ℤ)) = (data.map Prod.snd).map fun c : Fin C => ((c : ℕ) : ℤ) := by
      simp [Function.comp_def]
    rw [this]
    exact List.count_map_of_injective (data.map Prod.snd) (fun c : Fin C => ((c : ℕ) : ℤ)) (fun a b h => by
      simpa [Fin.ext_iff] using h) c
  obtain ⟨Cy, n, h1, _, h3, h4, h5, _⟩ := C59_weights (y := data.map fun d => (d.2 : ℤ))
    (by simpa using hne) (by
      intro a ha
      obtain ⟨d, _, rfl⟩ := List.mem_map.1 ha
      exact Int.natCast_nonneg _)
  let w : Fin C → ℝ := fun c => (data.length : ℝ) / (n * (data.map Prod.snd).count c)
  have hw : Weighs Cy w (data.map Prod.snd) := by
    intro c hc
    obtain ⟨d, hd, rfl⟩ := List.mem_map.1 hc
    have := h5 d.2 (List.mem_map.2 ⟨d, hd, rfl⟩)
    rw [hcount, List.length_map] at this
    simp only [weightAt, Int.natCast_nonneg, if_true, Int.toNat_natCast] at this
    rw [Option.join_eq_some_iff] at this
    exact this
  refine ⟨logistic C (data.map Prod.fst) (data.map fun d => (d.2 : ℤ)) Cy L, w, n, ?_, ?_, ?_, ?_, ?_, ?_,
    ?_⟩
  · simp [logisticDefault, h1]
  · obtain ⟨d, hd, h⟩ := List.mem_map.1 h3
    exact ⟨d, hd, by omega⟩
  · intro d hd
    have := h4 d.2 (List.mem_map.2 ⟨d, hd, rfl⟩)
    omega
  · exact fun _ _ => rfl
  · intro d hd
    have h6 : 0 < (data.map Prod.snd).count d.2 := List.count_pos_iff.2 (List.mem_map.2 ⟨d, hd, rfl⟩)
    have h7 : 0 < data.length := List.length_pos_of_mem hd
    have h8 : 0 < n := by
      have := h4 d.2 (List.mem_map.2 ⟨d, hd, rfl⟩)
      omega
    positivity
  · exact C57_value hw
  · exact C57_gradient hw

/-- Without any label, or with a negative one, computing the weights is undefined. -/
theorem C59_undefined : defaultWeights [] = none ∧
    ∀ (y : List ℤ) (a : ℤ), a ∈ y → a < 0 → defaultWeights y = none := by
  refine ⟨rfl, ?_⟩
  intro y a ha hneg
  have key : ∀ (l : List ℤ) (acc : List ℕ), a ∈ l → l.foldlM countLabel acc = none := by
    intro l
    induction l with
    | nil => simp
    | cons b l ih =>
      intro acc h
      rw [List.foldlM_cons]
      rcases List.mem_cons.1 h with rfl | h
      · rw [countLabel, if_neg (by omega)]; rfl
      · cases countLabel acc b with
        | none => rfl
        | some acc' => exact ih acc' h
  unfold defaultWeights
  cases numClasses y with
  | none => rfl
  | some C =>
    simp only [Option.bind_some]
    split
    · rfl
    · rw [key y _ ha]; rfl

/-- The hypotheses can be met: labels 0, 2, 2 (class 1 is absent). -/
example : ∃ Cy, defaultWeights [0, 2, 2] = some Cy ∧ Cy.length = 3 ∧ weightAt Cy 0 = some 1 ∧
    weightAt Cy 2 = some (1 / 2) ∧ Cy[1]? = some none := by
  obtain ⟨Cy, C, h1, h2, h3, h4, h5, h6⟩ := C59_weights (y := [0, 2, 2]) (by simp) (by simp)
  have hC : C = 3 := by
    have := h4 2 (by simp)
    simp at h3
    omega
  subst hC
  refine ⟨Cy, h1, h2, ?_, ?_, h6 1 (by omega) (by simp)⟩
  · rw [h5 0 (by simp)]; norm_num [List.count_cons]
  · rw [h5 2 (by simp)]; norm_num [List.count_cons]

/-! ### C79 -/

/-- The tangent of log-sum-exp is below it. -/
theorem lse_tangent (s t : Vec C ℝ) (y : Fin C) :
    Real.log (∑ c, Real.exp (t c)) + ∑ c, (∑ c, Real.exp (t c))⁻¹ * Real.exp (t c) * (s c - t c) ≤
      Real.log (∑ c, Real.exp (s c)) := by
  have hZ := sum_exp_pos t y
  have hq1 : ∑ c, (∑ c, Real.exp (t c))⁻¹ * Real.exp (t c) = 1 := by
    rw [← Finset.mul_sum, inv_mul_cancel₀ hZ.ne']
  have h := gibbs (q := fun c => (∑ c, Real.exp (t c))⁻¹ * Real.exp (t c)) (w := fun c => Real.exp (s c))
    (fun c => by positivity) hq1 (fun c => (Real.exp_pos _).le)
    (fun c hc => absurd hc (Real.exp_pos _).ne')
  refine le_trans (le_of_eq ?_) h
  have e : ∀ c, (∑ c, Real.exp (t c))⁻¹ * Real.exp (t c) *
      (Real.log (Real.exp (s c)) - Real.log ((∑ c, Real.exp (t c))⁻¹ * Real.exp (t c))) =
      (∑ c, Real.exp (t c))⁻¹ * Real.exp (t c) * (s c - t c) +
        (∑ c, Real.exp (t c))⁻¹ * Real.exp (t c) * Real.log (∑ c, Real.exp (t c)) := by
    intro c
    rw [Real.log_mul (inv_pos.2 hZ).ne' (Real.exp_pos _).ne', Real.log_inv, Real.log_exp, Real.log_exp]
    ring
  rw [Finset.sum_congr rfl fun c _ => e c, Finset.sum_add_distrib, ← Finset.sum_mul, hq1]
  ring

theorem IsGradient.apply_eq {r c : ℕ} {f : Mat r c ℝ → ℝ} {x g1 g2 : Mat r c ℝ}
    (h1 : IsGradient f x g1) (h2 : IsGradient f x g2) (h : Mat r c ℝ) :
    ∑ i, ∑ j, g1 i j * h i j = ∑ i, ∑ j, g2 i j * h i j := by
  rw [isGradient_iff] at h1 h2
  rw [← linear_apply, ← linear_apply, h1.unique h2]

/-- **C79**: the objective is above its quadratic lower bound at every point: it is convex, and strongly
so with a positive penalty. -/
theorem C79_convex {w : Fin C → ℝ} {L : ℝ} (data : List (Vec K ℝ × Fin C)) (hw : ∀ d ∈ data, 0 ≤ w d.2)
    {eta g : Mat K C ℝ} (hg : IsGradient (logisticObjective data w L) eta g) (eta' : Mat K C ℝ) :
    logisticObjective data w L eta + (∑ k, ∑ c, g k c * (eta' k c - eta k c)) +
      L / 2 * (∑ k, ∑ c, (eta' k c - eta k c) ^ 2) ≤ logisticObjective data w L eta' := by
  rw [hg.apply_eq (isGradient_logistic data w L eta) fun k c => eta' k c - eta k c]
  have hobj : ∀ eta, logisticObjective data w L eta =
      - (data.map (logisticTerm w eta)).sum + L / 2 * ∑ k, ∑ c, eta k c ^ 2 := fun _ => rfl
  rw [hobj, hobj]
  -- the penalty
  have hpen : L / 2 * ∑ k, ∑ c, eta' k c ^ 2 = L / 2 * (∑ k, ∑ c, eta k c ^ 2) +
      (∑ k, ∑ c, eta k c * L * (eta' k c - eta k c)) +
      L / 2 * ∑ k, ∑ c, (eta' k c - eta k c) ^ 2 := by
    simp only [Finset.mul_sum, ← Finset.sum_add_distrib]
    refine Finset.sum_congr rfl fun k _ => Finset.sum_congr rfl fun c _ => ?_
    ring
  -- the documents
  have hdoc : ∀ d ∈ data, logisticTerm w eta' d ≤ logisticTerm w eta d +
      ∑ k, ∑ c, (w d.2 * ((if c = d.2 then d.1 k else 0) -
        (∑ c, Real.exp (∑ k, eta k c * d.1 k))⁻¹ *
          (Real.exp (∑ k, eta k c * d.1 k) * d.1 k))) * (eta' k c - eta k c) := by
    intro d hd
    have h := lse_tangent (fun c => ∑ k, eta' k c * d.1 k) (fun c => ∑ k, eta k c * d.1 k) d.2
    have hw' := hw d hd
    have e1 : ∑ k, ∑ c, (w d.2 * ((if c = d.2 then d.1 k else 0) -
        (∑ c, Real.exp (∑ k, eta k c * d.1 k))⁻¹ *
          (Real.exp (∑ k, eta k c * d.1 k) * d.1 k))) * (eta' k c - eta k c) =
        w d.2 * (((∑ k, eta' k d.2 * d.1 k) - ∑ k, eta k d.2 * d.1 k) -
          ∑ c, (∑ c, Real.exp (∑ k, eta k c * d.1 k))⁻¹ * Real.exp (∑ k, eta k c * d.1 k) *
            ((∑ k, eta' k c * d.1 k) - ∑ k, eta k c * d.1 k)) := by
      rw [mul_sub, mul_sub]
      have a1 : ∀ k c, (w d.2 * ((if c = d.2 then d.1 k else 0) -
          (∑ c, Real.exp (∑ k, eta k c * d.1 k))⁻¹ *
            (Real.exp (∑ k, eta k c * d.1 k) * d.1 k))) * (eta' k c - eta k c) =
          (if c = d.2 then w d.2 * (eta' k c * d.1 k) - w d.2 * (eta k c * d.1 k) else 0) -
          w d.2 * ((∑ c, Real.exp (∑ k, eta k c * d.1 k))⁻¹ * Real.exp (∑ k, eta k c * d.1 k) *
            (eta' k c * d.1 k - eta k c * d.1 k)) := by
        intro k c
        split <;> ring
      simp only [a1, Finset.sum_sub_distrib]
      congr 1
      · simp [Finset.mul_sum]
      · rw [Finset.sum_comm]
        simp only [Finset.mul_sum, ← Finset.sum_sub_distrib, mul_sub]
    rw [e1]
    simp only [logisticTerm]
    nlinarith [mul_le_mul_of_nonneg_left h hw']
  have hsum : (data.map (logisticTerm w eta')).sum ≤ (data.map (logisticTerm w eta)).sum +
      ∑ k, ∑ c, (data.map fun d => w d.2 * ((if c = d.2 then d.1 k else 0) -
        (∑ c, Real.exp (∑ k, eta k c * d.1 k))⁻¹ *
          (Real.exp (∑ k, eta k c * d.1 k) * d.1 k))).sum * (eta' k c - eta k c) := by
    clear hobj hpen hg hw
    induction data with
    | nil => simp
    | cons d ds ih =>
      have h1 := hdoc d (by simp)
      have h2 := ih fun d hd => hdoc d (by simp [hd])
      simp only [List.map_cons, List.sum_cons, add_mul, Finset.sum_add_distrib]
      linarith
  have hneg : ∀ k c, (data.map fun d => - (w d.2 * ((if c = d.2 then d.1 k else 0) -
        (∑ c, Real.exp (∑ k, eta k c * d.1 k))⁻¹ *
          (Real.exp (∑ k, eta k c * d.1 k) * d.1 k)))).sum =
      - (data.map fun d => w d.2 * ((if c = d.2 then d.1 k else 0) -
        (∑ c, Real.exp (∑ k, eta k c * d.1 k))⁻¹ *
          (Real.exp (∑ k, eta k c * d.1 k) * d.1 k))).sum := by
    intro k c
    generalize data = l
    induction l with
    | nil => simp
    | cons a l ih => simp only [List.map_cons, List.sum_cons, ih]; ring
  simp only [hneg, add_mul, Finset.sum_add_distrib, neg_mul, Finset.sum_neg_distrib]
  rw [hpen]
  linarith

/-- **C79**: where the gradient vanishes the objective is smallest; with a positive penalty nowhere
else. -/
theorem C79_minimum {w : Fin C → ℝ} {L : ℝ} (data : List (Vec K ℝ × Fin C)) (hw : ∀ d ∈ data, 0 ≤ w d.2)
    (hL : 0 ≤ L) {eta : Mat K C ℝ} (hg : IsGradient (logisticObjective data w L) eta fun _ _ => 0)
    (eta' : Mat K C ℝ) : logisticObjective data w L eta ≤ logisticObjective data w L eta' ∧
      (0 < L → eta' ≠ eta → logisticObjective data w L eta < logisticObjective data w L eta') := by
  have h := C79_convex data hw hg eta'
  simp only [zero_mul, Finset.sum_const_zero, add_zero] at h
  have hsq : 0 ≤ ∑ k, ∑ c, (eta' k c - eta k c) ^ 2 := by positivity
  refine ⟨?_, ?_⟩
  · have := mul_nonneg (by linarith : 0 ≤ L / 2) hsq
    linarith
  · intro hL' hne
    obtain ⟨k, hk⟩ := Function.ne_iff.1 hne
    obtain ⟨c, hc⟩ := Function.ne_iff.1 hk
    have hpos : 0 < ∑ k, ∑ c, (eta' k c - eta k c) ^ 2 := by
      refine Finset.sum_pos' (fun i _ => Finset.sum_nonneg fun j _ => sq_nonneg _) ⟨k, mem_univ k, ?_⟩
      refine Finset.sum_pos' (fun j _ => sq_nonneg _) ⟨c, mem_univ c, ?_⟩
      have : eta' k c - eta k c ≠ 0 := sub_ne_zero.2 hc
      positivity
    have := mul_pos (by linarith : 0 < L / 2) hpos
    linarith

/-- The hypotheses can be met: for two documents with the same topics and different classes the zero
matrix is the minimum. -/
example (eta' : Mat 1 2 ℝ) :
    logisticObjective [(![1], 0), (![1], 1)] (fun _ : Fin 2 => 1) 1 (fun _ _ => 0) ≤
      logisticObjective [(![1], 0), (![1], 1)] (fun _ : Fin 2 => 1) 1 eta' := by
  refine (C79_minimum _ (fun _ _ => by norm_num) (by norm_num)
    ((isGradient_logistic _ _ _ _).congr_grad ?_) eta').1
  intro k c
  fin_cases c <;> norm_num

end Verif.Optim
