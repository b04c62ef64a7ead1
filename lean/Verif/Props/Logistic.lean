import Verif.Lemmas.Gradient
import Verif.Props.Descent

/-! Properties C57 and C58 (see /verif/properties.jsonl). -/
namespace Verif.Optim

open MathUtils EStep Finset

variable {K C : ℕ}

theorem weightAt_fin (Cy : List (Option ℝ)) {w : ℝ} {y : Fin C} (h : Cy[(y : ℕ)]? = some (some w)) :
    weightAt Cy (y : ℤ) = some w := by
  simp [weightAt, h]

theorem entryAt_fin (t : Vec C ℝ) (y : Fin C) : entryAt t (y : ℤ) = some (t y) := by
  simp [entryAt, y.isLt]

theorem logc_pos {x : ℝ} (h : 0 < x) : logc x = some (Real.log x) := by simp [logc, h]

theorem sum_exp_pos (t : Vec C ℝ) (y : Fin C) : 0 < ∑ c, Real.exp (t c) :=
  Finset.sum_pos (fun _ _ => Real.exp_pos _) ⟨y, mem_univ y⟩

/-- A class has at most the mass of all of them. -/
theorem le_log_sum {t q : Vec C ℝ} (hq : ∀ c, 0 ≤ q c) (y : Fin C) :
    t y ≤ Real.log (∑ c, Real.exp (t c) * (1 + q c)) := by
  rw [Real.le_log_iff_exp_le]
  · have h1 : Real.exp (t y) ≤ Real.exp (t y) * (1 + q y) := by
      have := mul_nonneg (Real.exp_pos (t y)).le (hq y)
      linarith [mul_add (Real.exp (t y)) 1 (q y)]
    refine h1.trans (Finset.single_le_sum (f := fun c => Real.exp (t c) * (1 + q c)) ?_ (mem_univ y))
    intro c _
    have := hq c
    positivity
  · refine Finset.sum_pos (fun c _ => ?_) ⟨y, mem_univ y⟩
    have := hq c
    positivity

theorem sum_le_zero {l : List ℝ} (h : ∀ x ∈ l, x ≤ 0) : l.sum ≤ 0 := by
  induction l with
  | nil => simp
  | cons a l ih =>
    rw [List.sum_cons]
    have h1 := h a (by simp)
    have h2 := ih fun x hx => h x (by simp [hx])
    linarith

/-! ### C57 -/

/-- The contribution of one document. -/
noncomputable def logisticTerm (w : Fin C → ℝ) (eta : Mat K C ℝ) (d : Vec K ℝ × Fin C) : ℝ :=
  w d.2 * ((∑ k, eta k d.2 * d.1 k) - Real.log (∑ c, Real.exp (∑ k, eta k c * d.1 k)))

theorem logisticLoop_eq {Cy : List (Option ℝ)} {w : Fin C → ℝ} (eta : Mat K C ℝ)
    (data : List (Vec K ℝ × Fin C)) (hw : Weighs Cy w (data.map Prod.snd)) (acc : ℝ) :
    logisticLoop Cy eta (data.map fun d => (d.2 : ℤ)) (data.map Prod.fst) acc =
      some (acc + (data.map (logisticTerm w eta)).sum) := by
  induction data generalizing acc with
  | nil => simp [logisticLoop]
  | cons d ds ih =>
    have h1 := weightAt_fin Cy (hw d.2 (by simp))
    have h2 := sum_exp_pos (scores eta d.1) d.2
    have h3 : Weighs Cy w (ds.map Prod.snd) := fun c hc => hw c (by
      rw [List.map_cons]; exact List.mem_cons_of_mem _ hc)
    simp only [List.map_cons, logisticLoop, h1, Option.bind_some, entryAt_fin, logc_pos h2]
    rw [ih h3]
    simp only [logisticTerm, scores, List.sum_cons]
    congr 1
    ring

/-- **C57**: `value()` is the documented objective. -/
theorem C57_value {Cy : List (Option ℝ)} {w : Fin C → ℝ} {L : ℝ} {data : List (Vec K ℝ × Fin C)}
    (hw : Weighs Cy w (data.map Prod.snd)) (eta : Mat K C ℝ) :
    (logistic C (data.map Prod.fst) (data.map fun d => (d.2 : ℤ)) Cy L).value eta =
      some (logisticObjective data w L eta) := by
  simp only [logistic, logisticValue, logisticLoop_eq eta data hw, Option.map_some, logisticObjective,
    squaredNorm, zero_add]
  congr 2
  ring

theorem logisticGradLoop_eq {Cy : List (Option ℝ)} {w : Fin C → ℝ} (eta : Mat K C ℝ)
    (data : List (Vec K ℝ × Fin C)) (hw : Weighs Cy w (data.map Prod.snd)) (g : Mat K C ℝ) :
    logisticGradLoop Cy eta (data.map fun d => (d.2 : ℤ)) (data.map Prod.fst) g =
      some fun k c => g k c + (data.map fun d => - (w d.2 * ((if c = d.2 then d.1 k else 0) -
        (∑ c, Real.exp (∑ k, eta k c * d.1 k))⁻¹ *
          (Real.exp (∑ k, eta k c * d.1 k) * d.1 k)))).sum := by
  induction data generalizing g with
  | nil => simp [logisticGradLoop]
  | cons d ds ih =>
    have h1 := weightAt_fin Cy (hw d.2 (by simp))
    have h2 := sum_exp_pos (scores eta d.1) d.2
    have h3 : Weighs Cy w (ds.map Prod.snd) := fun c hc => hw c (by
      rw [List.map_cons]; exact List.mem_cons_of_mem _ hc)
    have h4 : (0 : ℤ) ≤ (d.2 : ℕ) ∧ ((d.2 : ℕ) : ℤ) < C := by simp [d.2.isLt]
    simp only [List.map_cons, logisticGradLoop, h1, Option.bind_some, subCol, h4, and_self, if_true,
      h2.ne', if_false]
    rw [ih h3]
    congr 1
    funext k c
    simp only [List.sum_cons, scores, Nat.cast_inj, Fin.val_inj]
    by_cases hc : c = d.2 <;> simp [hc] <;> ring

theorem isGradient_logistic (data : List (Vec K ℝ × Fin C)) (w : Fin C → ℝ) (L : ℝ) (eta : Mat K C ℝ) :
    IsGradient (logisticObjective data w L) eta fun k c =>
      (data.map fun d => - (w d.2 * ((if c = d.2 then d.1 k else 0) -
        (∑ c, Real.exp (∑ k, eta k c * d.1 k))⁻¹ *
          (Real.exp (∑ k, eta k c * d.1 k) * d.1 k)))).sum + eta k c * L := by
  have hterm : ∀ d ∈ data, IsGradient (fun eta => logisticTerm w eta d) eta
      (fun k c => w d.2 * ((if c = d.2 then d.1 k else 0) -
        (∑ c, Real.exp (∑ k, eta k c * d.1 k))⁻¹ *
          (Real.exp (∑ k, eta k c * d.1 k) * d.1 k))) := by
    intro d _
    have hz := (sum_exp_pos (scores eta d.1) d.2).ne'
    refine (((IsGradient.score d.1 d.2).sub ((IsGradient.sum (s := univ)
      (F := fun c eta => Real.exp (∑ k, eta k c * d.1 k)) (fun c _ =>
        (IsGradient.score d.1 c).exp)).log hz)).const_mul (w d.2)).congr_grad ?_
    intro k c
    congr 3
    rw [Finset.sum_eq_single c]
    · simp
    · intro b _ hb; simp [hb.symm]
    · simp
  refine (((IsGradient.list_sum hterm).neg).add ((IsGradient.sumSq (x := eta)).const_mul
    (L / 2))).congr_grad ?_
  intro k c
  have : ∀ l : List ℝ, - l.sum = (l.map fun a => -a).sum := by
    intro l
    induction l with
    | nil => simp
    | cons a l ih => simp only [List.map_cons, List.sum_cons, ← ih]; ring
  rw [this, List.map_map]
  simp only [Function.comp_def]
  ring

/-- **C57**: `gradient()` is the gradient of `value()`, at every `eta`. -/
theorem C57_gradient {Cy : List (Option ℝ)} {w : Fin C → ℝ} {L : ℝ} {data : List (Vec K ℝ × Fin C)}
    (hw : Weighs Cy w (data.map Prod.snd)) (eta : Mat K C ℝ) :
    ∃ g, (logistic C (data.map Prod.fst) (data.map fun d => (d.2 : ℤ)) Cy L).gradient eta = some g ∧
      IsGradient (logisticObjective data w L) eta g := by
  refine ⟨_, ?_, isGradient_logistic data w L eta⟩
  simp only [logistic, logisticGradient, logisticGradLoop_eq eta data hw, Option.map_some, zero_add]

/-- **C57**: the objective is not negative for weights and a penalty that are not. -/
theorem C57_nonneg {w : Fin C → ℝ} {L : ℝ} (data : List (Vec K ℝ × Fin C))
    (hw : ∀ d ∈ data, 0 ≤ w d.2) (hL : 0 ≤ L) (eta : Mat K C ℝ) : 0 ≤ logisticObjective data w L eta := by
  have h1 : 0 ≤ L / 2 * ∑ k, ∑ c, eta k c ^ 2 := by positivity
  have h2 : (data.map (logisticTerm w eta)).sum ≤ 0 := by
    apply sum_le_zero
    intro x hx
    obtain ⟨d, hd, rfl⟩ := List.mem_map.1 hx
    have := le_log_sum (t := fun c => ∑ k, eta k c * d.1 k) (q := fun _ => 0) (fun _ => le_rfl) d.2
    simp only [add_zero, mul_one] at this
    exact mul_nonpos_of_nonneg_of_nonpos (hw d hd) (by linarith)
  have h3 : logisticObjective data w L eta =
      - (data.map (logisticTerm w eta)).sum + L / 2 * ∑ k, ∑ c, eta k c ^ 2 := rfl
  rw [h3]
  linarith

/-- A label that is not a column of `eta`, or has no finite weight, is undefined behaviour or not a
number: nothing is claimed then. -/
theorem C57_undefined {Cy : List (Option ℝ)} {L : ℝ} {X : List (Vec K ℝ)} {y : List ℤ} {a : ℤ}
    (ha : a ∈ y) (hbad : a < 0 ∨ (C : ℤ) ≤ a ∨ weightAt Cy a = none) (eta : Mat K C ℝ) :
    (logistic C X y Cy L).value eta = none ∧ (logistic C X y Cy L).gradient eta = none := by
  have h1 : ∀ (y : List ℤ) (X : List (Vec K ℝ)), a ∈ y → ∀ acc, logisticLoop Cy eta y X acc = none := by
    intro y
    induction y with
    | nil => simp
    | cons b y ih =>
      intro X hm acc
      cases X with
      | nil => rfl
      | cons x X =>
        rw [logisticLoop]
        rcases List.mem_cons.1 hm with rfl | hm
        · rcases hbad with h | h | h
          · have : ¬ (0 ≤ a ∧ a < C) := by omega
            cases weightAt Cy a <;> simp [entryAt, this]
          · have : ¬ (0 ≤ a ∧ a < C) := by omega
            cases weightAt Cy a <;> simp [entryAt, this]
          · simp [h]
        · cases weightAt Cy b with
          | none => rfl
          | some w =>
            cases entryAt (scores eta x) b with
            | none => rfl
            | some t =>
              cases logc (∑ c, Real.exp (scores eta x c)) with
              | none => rfl
              | some l => exact ih X hm _
  have h2 : ∀ (y : List ℤ) (X : List (Vec K ℝ)), a ∈ y → ∀ g, logisticGradLoop Cy eta y X g = none := by
    intro y
    induction y with
    | nil => simp
    | cons b y ih =>
      intro X hm g
      cases X with
      | nil => rfl
      | cons x X =>
        rw [logisticGradLoop]
        rcases List.mem_cons.1 hm with rfl | hm
        · rcases hbad with h | h | h
          · have : ¬ (0 ≤ a ∧ a < C) := by omega
            cases weightAt Cy a <;> simp [subCol, this]
          · have : ¬ (0 ≤ a ∧ a < C) := by omega
            cases weightAt Cy a <;> simp [subCol, this]
          · simp [h]
        · cases weightAt Cy b with
          | none => rfl
          | some w =>
            simp only [Option.bind_some]
            cases subCol g b w x with
            | none => rfl
            | some g' =>
              simp only [Option.bind_some]
              split
              · rfl
              · exact ih X hm _
  simp [logistic, logisticValue, logisticGradient, h1 y X ha, h2 y X ha]

/-- Two documents of different classes. -/
noncomputable def logisticDemo : List (Vec 2 ℝ × Fin 2) := [(![1, 0], 0), (![1 / 2, 1 / 2], 1)]

theorem logisticDemo_weighs : Weighs [some 1, some 3] ![1, 3] (logisticDemo.map Prod.snd) := by
  intro c hc
  fin_cases c <;> simp

/-- The hypotheses can be met: two documents of different classes. -/
example (eta : Mat 2 2 ℝ) :
    ∃ g, (logistic 2 (logisticDemo.map Prod.fst) (logisticDemo.map fun d => (d.2 : ℤ)) [some 1, some 3]
      (1 / 100)).gradient eta = some g ∧ IsGradient (logisticObjective logisticDemo ![1, 3] (1 / 100)) eta g :=
  C57_gradient logisticDemo_weighs eta

/-! ### C58 -/

/-- The contribution of one document to the second order objective. -/
noncomputable def secondTerm (w : Fin C → ℝ) (eta : Mat K C ℝ) (d : Vec K ℝ × Mat K K ℝ × Fin C) : ℝ :=
  w d.2.2 * ((∑ k, eta k d.2.2 * d.1 k) - Real.log (∑ c, Real.exp (∑ k, eta k c * d.1 k) *
    (1 + 1 / 2 * ∑ k, ∑ l, eta k c * d.2.1 k l * eta l c)))

theorem quad_eq (eta : Mat K C ℝ) (V : Mat K K ℝ) (c : Fin C) :
    quad eta V c = ∑ k, ∑ l, eta k c * V k l * eta l c := by
  simp only [quad, Finset.sum_mul]
  exact Finset.sum_comm

theorem second_pos {V : Mat K K ℝ} (hV : PSD V) (eta : Mat K C ℝ) (x : Vec K ℝ) (y : Fin C) :
    0 < ∑ c, Real.exp (scores eta x c) * (1 + 0.5 * quad eta V c) := by
  refine Finset.sum_pos (fun c _ => ?_) ⟨y, mem_univ y⟩
  have := hV (fun k => eta k c)
  rw [quad_eq]
  positivity

theorem secondLoop_eq {Cy : List (Option ℝ)} {w : Fin C → ℝ} (eta : Mat K C ℝ)
    (data : List (Vec K ℝ × Mat K K ℝ × Fin C)) (hw : Weighs Cy w (data.map fun d => d.2.2))
    (hV : ∀ d ∈ data, PSD d.2.1) (acc : ℝ) :
    secondLoop Cy eta (data.map fun d => (d.2.2 : ℤ)) (data.map Prod.fst) (data.map fun d => d.2.1) acc =
      some (acc + (data.map (secondTerm w eta)).sum) := by
  induction data generalizing acc with
  | nil => simp [secondLoop]
  | cons d ds ih =>
    have h1 := weightAt_fin Cy (hw d.2.2 (by simp))
    have h2 := second_pos (hV d (by simp)) eta d.1 d.2.2
    have h3 : Weighs Cy w (ds.map fun d => d.2.2) := fun c hc => hw c (by
      rw [List.map_cons]; exact List.mem_cons_of_mem _ hc)
    simp only [List.map_cons, secondLoop, h1, Option.bind_some, entryAt_fin, logc_pos h2]
    rw [ih h3 fun d hd => hV d (by simp [hd])]
    simp only [secondTerm, List.sum_cons, quad_eq, scores]
    congr 1
    have : (0.5 : ℝ) = 1 / 2 := by norm_num
    rw [this]
    ring

/-- **C58**: `value()` is the documented objective. -/
theorem C58_value {Cy : List (Option ℝ)} {w : Fin C → ℝ} {L : ℝ}
    {data : List (Vec K ℝ × Mat K K ℝ × Fin C)} (hw : Weighs Cy w (data.map fun d => d.2.2))
    (hV : ∀ d ∈ data, PSD d.2.1) (eta : Mat K C ℝ) :
    (secondOrder C (data.map Prod.fst) (data.map fun d => d.2.1) (data.map fun d => (d.2.2 : ℤ)) Cy
      L).value eta = some (secondObjective data w L eta) := by
  simp only [secondOrder, secondValue, secondLoop_eq eta data hw hV, Option.map_some, secondObjective,
    squaredNorm, zero_add]
  congr 2
  ring

/-- The gradient of one factor of the second order objective. -/
theorem isGradient_quad (eta : Mat K C ℝ) (V : Mat K K ℝ) (c : Fin C) :
    IsGradient (fun eta => ∑ k, ∑ l, eta k c * V k l * eta l c) eta
      (fun k c' => if c' = c then (∑ l, eta l c * V l k) + ∑ l, eta l c * V k l else 0) := by
  have h : ∀ k l, IsGradient (fun eta : Mat K C ℝ => eta k c * V k l * eta l c) eta
      (fun k' c' => (eta k c * V k l) * (if k' = l ∧ c' = c then 1 else 0) +
        eta l c * (V k l * if k' = k ∧ c' = c then 1 else 0)) := by
    intro k l
    have h1 := (IsGradient.entry (x := eta) k c).const_mul (V k l)
    have h2 := h1.mul (IsGradient.entry (x := eta) l c)
    have e : (fun eta : Mat K C ℝ => eta k c * V k l * eta l c) =
        fun eta => V k l * eta k c * eta l c := by funext eta; ring
    rw [e]
    refine h2.congr_grad ?_
    intro i j
    ring
  refine (IsGradient.sum (s := univ) fun k _ => IsGradient.sum (s := univ) fun l _ => h k l).congr_grad ?_
  intro k' c'
  by_cases hc : c' = c
  · subst hc
    simp only [and_true, if_true, Finset.sum_add_distrib, mul_ite, mul_one, mul_zero]
    congr 1
    · simp
    · rw [Finset.sum_comm]
      simp
  · simp [hc]

theorem secondGradLoop_eq {Cy : List (Option ℝ)} {w : Fin C → ℝ} (eta : Mat K C ℝ)
    (data : List (Vec K ℝ × Mat K K ℝ × Fin C)) (hw : Weighs Cy w (data.map fun d => d.2.2))
    (hV : ∀ d ∈ data, PSD d.2.1) (g : Mat K C ℝ) :
    secondGradLoop Cy eta (data.map fun d => (d.2.2 : ℤ)) (data.map Prod.fst) (data.map fun d => d.2.1) g =
      some fun k c => g k c + (data.map fun d => - (w d.2.2 * ((if c = d.2.2 then d.1 k else 0) -
        (secondNormalizer eta d.1 d.2.1)⁻¹ * secondGradDoc eta d.1 d.2.1 k c))).sum := by
  induction data generalizing g with
  | nil => simp [secondGradLoop]
  | cons d ds ih =>
    have h1 := weightAt_fin Cy (hw d.2.2 (by simp))
    have h2 := second_pos (hV d (by simp)) eta d.1 d.2.2
    have h3 : Weighs Cy w (ds.map fun d => d.2.2) := fun c hc => hw c (by
      rw [List.map_cons]; exact List.mem_cons_of_mem _ hc)
    have h4 : (0 : ℤ) ≤ (d.2.2 : ℕ) ∧ ((d.2.2 : ℕ) : ℤ) < C := by simp [d.2.2.isLt]
    have h5 : secondNormalizer eta d.1 d.2.1 ≠ 0 := by
      have : secondNormalizer eta d.1 d.2.1 =
          ∑ c, Real.exp (scores eta d.1 c) * (1 + 0.5 * quad eta d.2.1 c) := by
        simp only [secondNormalizer, Finset.mul_sum, mul_add, mul_one, Finset.sum_add_distrib]
        congr 1
        exact Finset.sum_congr rfl fun c _ => by ring
      rw [this]; exact h2.ne'
    simp only [List.map_cons, secondGradLoop, h1, Option.bind_some, subCol, h4, and_self, if_true,
      h5, if_false]
    rw [ih h3 fun d hd => hV d (by simp [hd])]
    congr 1
    funext k c
    simp only [List.sum_cons, Nat.cast_inj, Fin.val_inj]
    by_cases hc : c = d.2.2 <;> simp [hc] <;> ring

/-- **C58**: `gradient()` is the gradient of `value()`, at every `eta`. -/
theorem C58_gradient {Cy : List (Option ℝ)} {w : Fin C → ℝ} {L : ℝ}
    {data : List (Vec K ℝ × Mat K K ℝ × Fin C)} (hw : Weighs Cy w (data.map fun d => d.2.2))
    (hV : ∀ d ∈ data, PSD d.2.1) (eta : Mat K C ℝ) :
    ∃ g, (secondOrder C (data.map Prod.fst) (data.map fun d => d.2.1) (data.map fun d => (d.2.2 : ℤ)) Cy
      L).gradient eta = some g ∧ IsGradient (secondObjective data w L) eta g := by
  refine ⟨_, by simp only [secondOrder, secondGradient, secondGradLoop_eq eta data hw hV,
    Option.map_some, zero_add]; rfl, ?_⟩
  have hhalf : (0.5 : ℝ) = 1 / 2 := by norm_num
  have hterm : ∀ d ∈ data, IsGradient (fun eta => secondTerm w eta d) eta
      (fun k c => w d.2.2 * ((if c = d.2.2 then d.1 k else 0) -
        (secondNormalizer eta d.1 d.2.1)⁻¹ * secondGradDoc eta d.1 d.2.1 k c)) := by
    intro d hd
    have hz := second_pos (hV d hd) eta d.1 d.2.2
    simp only [quad_eq, scores, hhalf] at hz
    have hn : secondNormalizer eta d.1 d.2.1 = ∑ c, Real.exp (∑ k, eta k c * d.1 k) *
        (1 + 1 / 2 * ∑ k, ∑ l, eta k c * d.2.1 k l * eta l c) := by
      simp only [secondNormalizer, Finset.mul_sum, mul_add, mul_one, Finset.sum_add_distrib, quad_eq,
        scores, hhalf]
      congr 1
      refine Finset.sum_congr rfl fun c _ => Finset.sum_congr rfl fun k _ =>
        Finset.sum_congr rfl fun l _ => by ring
    have hsum : IsGradient (fun eta => ∑ c, Real.exp (∑ k, eta k c * d.1 k) *
          (1 + 1 / 2 * ∑ k, ∑ l, eta k c * d.2.1 k l * eta l c)) eta (secondGradDoc eta d.1 d.2.1) := by
      refine (IsGradient.sum (s := univ) fun c _ => ((IsGradient.score d.1 c).exp).mul
        ((IsGradient.const 1).add ((isGradient_quad eta d.2.1 c).const_mul (1 / 2)))).congr_grad ?_
      intro k c
      rw [Finset.sum_eq_single c]
      · simp only [if_true, secondGradDoc, quad_eq, scores, hhalf]
        ring
      · intro b _ hb; simp [hb.symm]
      · simp
    refine (((IsGradient.score d.1 d.2.2).sub (hsum.log hz.ne')).const_mul (w d.2.2)).congr_grad ?_
    intro k c
    rw [hn]
  refine (((IsGradient.list_sum hterm).neg).add ((IsGradient.sumSq (x := eta)).const_mul
    (L / 2))).congr_grad ?_
  intro k c
  have : ∀ l : List ℝ, - l.sum = (l.map fun a => -a).sum := by
    intro l
    induction l with
    | nil => simp
    | cons a l ih => simp only [List.map_cons, List.sum_cons, ← ih]; ring
  rw [this, List.map_map]
  simp only [Function.comp_def]
  ring

/-- **C58**: the objective is not negative. -/
theorem C58_nonneg {w : Fin C → ℝ} {L : ℝ} (data : List (Vec K ℝ × Mat K K ℝ × Fin C))
    (hw : ∀ d ∈ data, 0 ≤ w d.2.2) (hV : ∀ d ∈ data, PSD d.2.1) (hL : 0 ≤ L) (eta : Mat K C ℝ) :
    0 ≤ secondObjective data w L eta := by
  have h1 : 0 ≤ L / 2 * ∑ k, ∑ c, eta k c ^ 2 := by positivity
  have h2 : (data.map (secondTerm w eta)).sum ≤ 0 := by
    apply sum_le_zero
    intro x hx
    obtain ⟨d, hd, rfl⟩ := List.mem_map.1 hx
    have := le_log_sum (t := fun c => ∑ k, eta k c * d.1 k)
      (q := fun c => 1 / 2 * ∑ k, ∑ l, eta k c * d.2.1 k l * eta l c)
      (fun c => mul_nonneg (by norm_num) (hV d hd fun k => eta k c)) d.2.2
    exact mul_nonpos_of_nonneg_of_nonpos (hw d hd) (by linarith)
  have h3 : secondObjective data w L eta =
      - (data.map (secondTerm w eta)).sum + L / 2 * ∑ k, ∑ c, eta k c ^ 2 := rfl
  rw [h3]
  linarith

/-- The hypothesis on the variances is needed: a variance that is not positive semidefinite makes
`value()` take the logarithm of a number that is not positive. -/
theorem C58_needs_psd : (secondOrder 1 [![0]] [fun _ _ => -2] [0] [some 1] 0 : Problem 1 1).value
    (fun _ _ => 1) = none := by
  norm_num [secondOrder, secondValue, secondLoop, weightAt, entryAt, scores, logc, quad]

/-- Two documents with variances that are positive semidefinite, one of them not symmetric. -/
noncomputable def secondDemo : List (Vec 2 ℝ × Mat 2 2 ℝ × Fin 2) :=
  [(![1, 0], ![![1, 1], ![0, 1]], 0), (![1 / 2, 1 / 2], ![![1 / 4, 1 / 4], ![1 / 4, 1 / 4]], 1)]

theorem secondDemo_psd : ∀ d ∈ secondDemo, PSD d.2.1 := by
  intro d hd
  simp only [secondDemo, List.mem_cons, List.not_mem_nil, or_false] at hd
  rcases hd with rfl | rfl
  · intro u; simp [Fin.sum_univ_two]; nlinarith [sq_nonneg (u 0 + u 1), sq_nonneg (u 0), sq_nonneg (u 1)]
  · intro u; simp [Fin.sum_univ_two]; nlinarith [sq_nonneg (u 0 + u 1)]

/-- The hypotheses can be met. -/
example (eta : Mat 2 2 ℝ) : 0 ≤ secondObjective secondDemo ![1, 3] (1 / 100) eta :=
  C58_nonneg secondDemo (fun d _ => by
    generalize d.2.2 = c
    fin_cases c <;> simp) secondDemo_psd (by norm_num) eta

/-! ### The descents of the M steps terminate -/

/-- **C55** and **C56** for multinomial logistic regression: gradient descent with the default Armijo
parameters terminates on every dataset. -/
theorem C56_logistic_terminates {Cy : List (Option ℝ)} {w : Fin C → ℝ} {L : ℝ}
    {data : List (Vec K ℝ × Fin C)} (hw : Weighs Cy w (data.map Prod.snd)) (limit : ℕ) (tol : ℝ)
    (eta : Mat K C ℝ) :
    ∃ eta' s', Minimize (ArmijoSearch (1 / 1000) (1 / 2))
      (logistic C (data.map Prod.fst) (data.map fun d => (d.2 : ℤ)) Cy L)
      (mStepProgress limit tol) eta (none, []) eta' s' :=
  C56_terminates (C57_value hw) (C57_gradient hw) (by norm_num) (by norm_num) (by norm_num) eta

/-- **C55** and **C56** for the second order approximation. -/
theorem C56_second_terminates {Cy : List (Option ℝ)} {w : Fin C → ℝ} {L : ℝ}
    {data : List (Vec K ℝ × Mat K K ℝ × Fin C)} (hw : Weighs Cy w (data.map fun d => d.2.2))
    (hV : ∀ d ∈ data, PSD d.2.1) (limit : ℕ) (tol : ℝ) (eta : Mat K C ℝ) :
    ∃ eta' s', Minimize (ArmijoSearch (1 / 1000) (1 / 2))
      (secondOrder C (data.map Prod.fst) (data.map fun d => d.2.1) (data.map fun d => (d.2.2 : ℤ)) Cy L)
      (mStepProgress limit tol) eta (none, []) eta' s' :=
  C56_terminates (C58_value hw hV) (C58_gradient hw hV) (by norm_num) (by norm_num) (by norm_num) eta

end Verif.Optim
