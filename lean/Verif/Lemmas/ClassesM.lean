import Verif.Lemmas.Classes

/-! Renumbering the classes commutes with the minimisation in the supervised maximisation steps. -/
namespace Verif.Optim

open MathUtils EStep Finset

variable {K C : ℕ} (π : Equiv.Perm (Fin C))

theorem cols_symm (x : Mat K C ℝ) : cols π.symm (cols π x) = x := by
  funext k c
  simp [cols]

theorem cols_injective : Function.Injective (cols (K := K) π) := fun a b h => by
  have := congrArg (cols π.symm) h
  rwa [cols_symm, cols_symm] at this

theorem dot_cols (a b : Mat K C ℝ) : dot (cols π a) (cols π b) = dot a b := by
  unfold dot
  exact Finset.sum_congr rfl fun i _ => Equiv.sum_comp π fun j => a i j * b i j

theorem move_cols (x : Mat K C ℝ) (a : ℝ) (p : Mat K C ℝ) : move (cols π x) a (cols π p) = cols π (move x a p) := rfl

theorem squaredNorm_cols (x : Mat K C ℝ) : squaredNorm (cols π x) = squaredNorm x := by
  unfold squaredNorm
  exact Finset.sum_congr rfl fun i _ => Equiv.sum_comp π fun j => x i j ^ 2

/-- The second problem is the first one with renumbered classes. -/
structure Renumbered (pr pr' : Problem K C) : Prop where
  value : ∀ x, pr'.value (cols π x) = pr.value x
  gradient : ∀ x, pr'.gradient (cols π x) = (pr.gradient x).map (cols π)

theorem Renumbered.symm {pr pr' : Problem K C} (h : Renumbered π pr pr') : Renumbered π.symm pr' pr where
  value x := by
    have := h.value (cols π.symm x)
    rw [show cols π (cols π.symm x) = x from cols_symm π.symm x] at this
    exact this.symm
  gradient x := by
    have := h.gradient (cols π.symm x)
    rw [show cols π (cols π.symm x) = x from cols_symm π.symm x] at this
    rw [this, Option.map_map]
    have e : cols π.symm ∘ cols (K := K) π = id := funext fun y => cols_symm π y
    rw [e, Option.map_id]
    rfl

variable {π}

theorem ArmijoLoop.cols {f f' : Mat K C ℝ → Option ℝ} (hf : ∀ x, f' (cols π x) = f x) {x p : Mat K C ℝ}
    {v0 d tau a v a' v' : ℝ} (h : ArmijoLoop f x p v0 d tau a v a' v') :
    ArmijoLoop f' (EStep.cols π x) (EStep.cols π p) v0 d tau a v a' v' := by
  induction h with
  | exit h => exact .exit h
  | again h1 h2 _ ih => exact .again h1 (by rw [move_cols, hf]; exact h2) ih

theorem ArmijoSearch_cols {f f' : Mat K C ℝ → Option ℝ} (hf : ∀ x, f' (cols π x) = f x) {b tau : ℝ}
    {x g p x' : Mat K C ℝ} {v : ℝ} (h : ArmijoSearch b tau f x g p x' v) :
    ArmijoSearch b tau f' (cols π x) (cols π g) (cols π p) (cols π x') v := by
  obtain ⟨v0, a, h1, h2, h3, rfl⟩ := h
  refine ⟨v0, a, by rw [hf]; exact h1, h2, ?_, rfl⟩
  rw [dot_cols]
  exact h3.cols hf

theorem DescentLoop.cols {S : Type} {pr pr' : Problem K C} (hp : Renumbered π pr pr') {progress : Progress S}
    (hpr : ∀ s v g g' i, progress s v g i = progress s v g' i) {b tau : ℝ} {x x' : Mat K C ℝ} {v : ℝ}
    {g : Option (Mat K C ℝ)} {i : ℕ} {s s' : S}
    (h : DescentLoop (ArmijoSearch b tau) pr progress x v g i s x' s') :
    DescentLoop (ArmijoSearch b tau) pr' progress (EStep.cols π x) v (g.map (EStep.cols π)) i s
      (EStep.cols π x') s' := by
  induction h with
  | stop h => exact .stop (by rw [hpr _ _ _ _ _]; exact h)
  | again h1 h2 h3 _ ih =>
    refine .again (by rw [hpr _ _ _ _ _]; exact h1) (by rw [hp.gradient, h2]; rfl) ?_ ih
    exact ArmijoSearch_cols hp.value h3

/-- Minimising the renumbered problem gives the renumbered minimum. -/
theorem Minimize_cols {S : Type} {pr pr' : Problem K C} (hp : Renumbered π pr pr') {progress : Progress S}
    (hpr : ∀ s v g g' i, progress s v g i = progress s v g' i) {b tau : ℝ} {x x' : Mat K C ℝ} {s s' : S}
    (h : Minimize (ArmijoSearch b tau) pr progress x s x' s') :
    Minimize (ArmijoSearch b tau) pr' progress (cols π x) s (cols π x') s' := by
  obtain ⟨v, h1, h2⟩ := h
  exact ⟨v, by rw [hp.value]; exact h1, h2.cols hp hpr⟩

/-! ### The objectives -/

theorem scores_cols (eta : Mat K C ℝ) (x : Vec K ℝ) : scores (cols π eta) x = fun c => scores eta x (π c) := rfl

theorem entryAt_relabel (t : Vec C ℝ) (y : ℤ) : entryAt (fun c => t (π c)) (relabel π y) = entryAt t y := by
  by_cases h : 0 ≤ y ∧ y < C
  · have h' := (relabel_range π y).2 h
    rw [entryAt, entryAt, dif_pos h, dif_pos h']
    congr 1
    have e : (⟨(relabel π y).toNat, by omega⟩ : Fin C) = π.symm ⟨y.toNat, by omega⟩ := by
      apply Fin.ext
      simp [relabel, dif_pos h]
    rw [e, Equiv.apply_symm_apply]
  · have h' := fun e => h ((relabel_range π y).1 e)
    rw [entryAt, entryAt, dif_neg h, dif_neg h']

theorem subCol_relabel (g : Mat K C ℝ) (y : ℤ) (w : ℝ) (x : Vec K ℝ) :
    subCol (cols π g) (relabel π y) w x = (subCol g y w x).map (cols π) := by
  by_cases h : 0 ≤ y ∧ y < C
  · have h' := (relabel_range π y).2 h
    rw [subCol, subCol, if_pos h, if_pos h', Option.map_some]
    congr 1
    funext k c
    have e : ((c : ℕ) : ℤ) = relabel π y ↔ (((π c : Fin C) : ℕ) : ℤ) = y := by
      rw [← relabel_class π c]
      exact (relabel_injective π).eq_iff
    simp only [cols, e]
  · have h' := fun e => h ((relabel_range π y).1 e)
    rw [subCol, subCol, if_neg h, if_neg h', Option.map_none]

/-- The weights of the documents are the same under the two numberings. -/
def SameWeights (π : Equiv.Perm (Fin C)) (y : List ℤ) (Cy Cy' : List (Option ℝ)) : Prop :=
  ∀ a ∈ y, weightAt Cy' (relabel π a) = weightAt Cy a

theorem logisticLoop_cols {Cy Cy' : List (Option ℝ)} (eta : Mat K C ℝ) :
    ∀ (y : List ℤ) (X : List (Vec K ℝ)) (acc : ℝ), SameWeights π y Cy Cy' →
      logisticLoop Cy' (cols π eta) (y.map (relabel π)) X acc = logisticLoop Cy eta y X acc := by
  intro y
  induction y with
  | nil => intro X acc _; rfl
  | cons a y ih =>
    intro X acc hw
    cases X with
    | nil => rfl
    | cons x X =>
      rw [List.map_cons, logisticLoop, logisticLoop, hw a List.mem_cons_self, scores_cols]
      have e : ∑ c, Real.exp (scores eta x (π c)) = ∑ c, Real.exp (scores eta x c) :=
        Equiv.sum_comp π fun c => Real.exp (scores eta x c)
      simp only [entryAt_relabel, e]
      cases weightAt Cy a with
      | none => rfl
      | some w =>
        cases entryAt (scores eta x) a with
        | none => rfl
        | some t =>
          cases logc (∑ c, Real.exp (scores eta x c)) with
          | none => rfl
          | some l => exact ih X _ fun b hb => hw b (List.mem_cons_of_mem _ hb)

theorem logisticGradLoop_cols {Cy Cy' : List (Option ℝ)} (eta : Mat K C ℝ) :
    ∀ (y : List ℤ) (X : List (Vec K ℝ)) (g : Mat K C ℝ), SameWeights π y Cy Cy' →
      logisticGradLoop Cy' (cols π eta) (y.map (relabel π)) X (cols π g) =
        (logisticGradLoop Cy eta y X g).map (cols π) := by
  intro y
  induction y with
  | nil => intro X acc _; rfl
  | cons a y ih =>
    intro X g hw
    cases X with
    | nil => rfl
    | cons x X =>
      rw [List.map_cons, logisticGradLoop, logisticGradLoop, hw a List.mem_cons_self, scores_cols]
      have e : ∑ c, Real.exp (scores eta x (π c)) = ∑ c, Real.exp (scores eta x c) :=
        Equiv.sum_comp π fun c => Real.exp (scores eta x c)
      simp only [subCol_relabel, e]
      cases weightAt Cy a with
      | none => rfl
      | some w =>
        simp only [Option.bind_some]
        cases subCol g a w x with
        | none => rfl
        | some g' =>
          simp only [Option.map_some, Option.bind_some]
          split
          · rfl
          · exact ih X (fun k c => g' k c + w * (x k * Real.exp (scores eta x c)) / ∑ c, Real.exp (scores eta x c))
              fun b hb => hw b (List.mem_cons_of_mem _ hb)

theorem logistic_renumbered {Cy Cy' : List (Option ℝ)} {y : List ℤ} (hw : SameWeights π y Cy Cy')
    (X : List (Vec K ℝ)) (L : ℝ) :
    Renumbered π (logistic C X y Cy L) (logistic C X (y.map (relabel π)) Cy' L) where
  value x := by
    simp only [logistic, logisticValue, logisticLoop_cols x y X 0 hw, squaredNorm_cols]
  gradient x := by
    have := logisticGradLoop_cols x y X (fun _ _ => 0) hw
    simp only [logistic, logisticGradient]
    rw [show (fun _ _ => 0 : Mat K C ℝ) = cols π fun _ _ => 0 from rfl, this, Option.map_map, Option.map_map]
    rfl

theorem quad_cols (eta : Mat K C ℝ) (V : Mat K K ℝ) : quad (cols π eta) V = fun c => quad eta V (π c) := rfl

theorem secondNormalizer_cols (eta : Mat K C ℝ) (x : Vec K ℝ) (V : Mat K K ℝ) :
    secondNormalizer (cols π eta) x V = secondNormalizer eta x V := by
  unfold secondNormalizer
  rw [scores_cols, quad_cols, Equiv.sum_comp π fun c => Real.exp (scores eta x c),
    Equiv.sum_comp π fun c => Real.exp (scores eta x c) * quad eta V c]

theorem secondGradDoc_cols (eta : Mat K C ℝ) (x : Vec K ℝ) (V : Mat K K ℝ) :
    secondGradDoc (cols π eta) x V = cols π (secondGradDoc eta x V) := rfl

theorem secondLoop_cols {Cy Cy' : List (Option ℝ)} (eta : Mat K C ℝ) :
    ∀ (y : List ℤ) (X : List (Vec K ℝ)) (W : List (Mat K K ℝ)) (acc : ℝ), SameWeights π y Cy Cy' →
      secondLoop Cy' (cols π eta) (y.map (relabel π)) X W acc = secondLoop Cy eta y X W acc := by
  intro y
  induction y with
  | nil => intro X W acc _; rfl
  | cons a y ih =>
    intro X W acc hw
    cases X with
    | nil => rfl
    | cons x X =>
      cases W with
      | nil => rfl
      | cons v W =>
        rw [List.map_cons, secondLoop, secondLoop, hw a List.mem_cons_self, scores_cols, quad_cols]
        have e : ∑ c, Real.exp (scores eta x (π c)) * (1 + 0.5 * quad eta v (π c)) =
            ∑ c, Real.exp (scores eta x c) * (1 + 0.5 * quad eta v c) :=
          Equiv.sum_comp π fun c => Real.exp (scores eta x c) * (1 + 0.5 * quad eta v c)
        simp only [entryAt_relabel, e]
        cases weightAt Cy a with
        | none => rfl
        | some w =>
          cases entryAt (scores eta x) a with
          | none => rfl
          | some t =>
            cases logc (∑ c, Real.exp (scores eta x c) * (1 + 0.5 * quad eta v c)) with
            | none => rfl
            | some l => exact ih X W _ fun b hb => hw b (List.mem_cons_of_mem _ hb)

theorem secondGradLoop_cols {Cy Cy' : List (Option ℝ)} (eta : Mat K C ℝ) :
    ∀ (y : List ℤ) (X : List (Vec K ℝ)) (W : List (Mat K K ℝ)) (g : Mat K C ℝ), SameWeights π y Cy Cy' →
      secondGradLoop Cy' (cols π eta) (y.map (relabel π)) X W (cols π g) =
        (secondGradLoop Cy eta y X W g).map (cols π) := by
  intro y
  induction y with
  | nil => intro X W acc _; rfl
  | cons a y ih =>
    intro X W g hw
    cases X with
    | nil => rfl
    | cons x X =>
      cases W with
      | nil => rfl
      | cons v W =>
        rw [List.map_cons, secondGradLoop, secondGradLoop, hw a List.mem_cons_self, secondNormalizer_cols,
          secondGradDoc_cols]
        simp only [subCol_relabel]
        cases weightAt Cy a with
        | none => rfl
        | some w =>
          simp only [Option.bind_some]
          cases subCol g a w x with
          | none => rfl
          | some g' =>
            simp only [Option.map_some, Option.bind_some]
            split
            · rfl
            · exact ih X W (fun k c => g' k c + w * (1 / secondNormalizer eta x v) * secondGradDoc eta x v k c)
                fun b hb => hw b (List.mem_cons_of_mem _ hb)

theorem secondOrder_renumbered {Cy Cy' : List (Option ℝ)} {y : List ℤ} (hw : SameWeights π y Cy Cy')
    (X : List (Vec K ℝ)) (W : List (Mat K K ℝ)) (L : ℝ) :
    Renumbered π (secondOrder C X W y Cy L) (secondOrder C X W (y.map (relabel π)) Cy' L) where
  value x := by
    simp only [secondOrder, secondValue, secondLoop_cols x y X W 0 hw, squaredNorm_cols]
  gradient x := by
    have := secondGradLoop_cols x y X W (fun _ _ => 0) hw
    simp only [secondOrder, secondGradient]
    rw [show (fun _ _ => 0 : Mat K C ℝ) = cols π fun _ _ => 0 from rfl, this, Option.map_map, Option.map_map]
    rfl

/-! ### The weights -/

/-- The highest number given to a document is the same in both numberings. -/
def SameTop (π : Equiv.Perm (Fin C)) (y : List ℤ) : Prop :=
  ∀ t ∈ y, (∀ a ∈ y, a ≤ t) → (∃ b ∈ y, relabel π b = t) ∧ ∀ a ∈ y, relabel π a ≤ t

/-- It is so if every class has a document. -/
theorem sameTop_of_all {y : List ℤ} (h : ∀ c : Fin C, (c : ℤ) ∈ y) (π : Equiv.Perm (Fin C)) : SameTop π y := by
  intro t ht hmax
  have hle : ∀ a ∈ y, relabel π a ≤ t := by
    intro a ha
    by_cases hr : 0 ≤ a ∧ a < C
    · have := (relabel_range π a).2 hr
      have h1 := hmax _ (h ⟨C - 1, by omega⟩)
      simp only at h1
      omega
    · rw [relabel, dif_neg hr]
      exact hmax a ha
  refine ⟨?_, hle⟩
  by_cases hr : 0 ≤ t ∧ t < C
  · refine ⟨_, h (π ⟨t.toNat, by omega⟩), ?_⟩
    rw [relabel_class]
    simp; omega
  · exact ⟨t, ht, by rw [relabel, dif_neg hr]⟩

theorem count_relabel (y : List ℤ) (a : ℤ) : (y.map (relabel π)).count (relabel π a) = y.count a :=
  List.count_map_of_injective y (relabel π) (relabel_injective π) a

theorem sameWeights_default {y : List ℤ} (hne : y ≠ []) (hy : ∀ a ∈ y, 0 ≤ a ∧ a < (C : ℤ)) (ht : SameTop π y) :
    ∃ Cy Cy', defaultWeights y = some Cy ∧ defaultWeights (y.map (relabel π)) = some Cy' ∧
      SameWeights π y Cy Cy' := by
  obtain ⟨Cy, n, h1, h2, h3, h4, h5, _⟩ := C59_weights hne fun a ha => (hy a ha).1
  obtain ⟨Cy', n', g1, g2, g3, g4, g5, _⟩ := C59_weights (y := y.map (relabel π)) (by simpa using hne) (by
    intro a ha
    obtain ⟨b, hb, rfl⟩ := List.mem_map.1 ha
    exact ((relabel_range π b).2 (hy b hb)).1)
  refine ⟨Cy, Cy', h1, g1, fun a ha => ?_⟩
  obtain ⟨⟨b, hb, hbt⟩, hle⟩ := ht _ h3 fun a ha => by have := h4 a ha; omega
  have hn : n = n' := by
    have e1 := g4 _ (List.mem_map.2 ⟨b, hb, rfl⟩)
    obtain ⟨u, hu, hu'⟩ := List.mem_map.1 g3
    have e2 := hle u hu
    omega
  rw [h5 a ha, g5 _ (List.mem_map.2 ⟨a, ha, rfl⟩), count_relabel, List.length_map, hn]

end Verif.Optim

namespace Verif.MStep

open MathUtils EStep Optim Finset

variable {K V C : ℕ} {π : Equiv.Perm (Fin C)}

theorem labelsOk_relabel {y : List ℤ} : LabelsOk C (y.map (relabel π)) ↔ LabelsOk C y := by
  simp only [LabelsOk, List.forall_mem_map, relabel_range]

theorem descend_cols {pr pr' : Problem K C} (hp : Renumbered π pr pr') (cfg : SupCfg) (eta : Mat K C ℝ) :
    descend cfg pr' (cols π eta) = (descend cfg pr eta).map fun r => (cols π r.1, r.2) := by
  have hpr : ∀ (s : Option ℝ × List ℝ) v g g' i, mStepProgress cfg.iterations cfg.tolerance s v g i =
      mStepProgress cfg.iterations cfg.tolerance s v g' i := fun _ _ _ _ _ => rfl
  cases h : descend cfg pr eta with
  | some r =>
    obtain ⟨o, ho⟩ := descend_eq_some.1 (show descend cfg pr eta = some (r.1, r.2) from h)
    exact descend_eq_some.2 ⟨o, Minimize_cols hp hpr ho⟩
  | none =>
    cases h' : descend cfg pr' (cols π eta) with
    | none => rfl
    | some r =>
      obtain ⟨o, ho⟩ := descend_eq_some.1 (show descend cfg pr' (cols π eta) = some (r.1, r.2) from h')
      have := descend_eq_some.2 ⟨o, Minimize_cols hp.symm hpr ho⟩
      rw [cols_symm, h] at this
      cases this

/-- The minimisation of `FastSupervisedMStep` with renumbered classes. -/
theorem logistic_descend_relabel (X : List (Vec K ℝ)) {y : List ℤ} (ht : SameTop π y) (cfg : SupCfg)
    (eta : Mat K C ℝ) :
    ((logisticDefault C X (y.map (relabel π)) cfg.penalty).bind fun pr => descend cfg pr (cols π eta)) =
      ((logisticDefault C X y cfg.penalty).bind fun pr => descend cfg pr eta).map fun r => (cols π r.1, r.2) := by
  by_cases hl : LabelsOk C y
  · by_cases hne : y = []
    · subst hne
      simp [logisticDefault, C59_undefined.1]
    · obtain ⟨Cy, Cy', h1, h2, h3⟩ := sameWeights_default hne hl ht
      simp only [logisticDefault, h1, h2, Option.map_some, Option.bind_some]
      exact descend_cols (logistic_renumbered h3 X cfg.penalty) cfg eta
  · rw [descend_bad_label hl, descend_bad_label fun e => hl (labelsOk_relabel.1 e)]
    rfl

/-- The minimisation of `SupervisedMStep` with renumbered classes. -/
theorem supDescend_relabel (cfg : SupCfg) (z : List (Option (Vec K ℝ))) (v : List (Option (Mat K K ℝ)))
    {y : List ℤ} (ht : SameTop π y) (eta : Mat K C ℝ) :
    supDescend cfg z v (y.map (relabel π)) (cols π eta) =
      (supDescend cfg z v y eta).map fun r => (cols π r.1, r.2) := by
  have hs : LabelsOk C y → ((defaultWeights (y.map (relabel π))).isSome ↔ (defaultWeights y).isSome) := by
    intro hl
    rw [defaultWeights_isSome hl, defaultWeights_isSome (labelsOk_relabel.2 hl)]
    simp
  have hbad : (if LabelsOk C (y.map (relabel π)) ∧ (defaultWeights (y.map (relabel π))).isSome then
      some (cols π eta, [(none : Option ℝ)]) else none) =
      (if LabelsOk C y ∧ (defaultWeights y).isSome then some (eta, [(none : Option ℝ)]) else none).map
        fun r => (cols π r.1, r.2) := by
    by_cases hl : LabelsOk C y
    · simp only [hl, labelsOk_relabel.2 hl, true_and, hs hl]
      split <;> rfl
    · rw [if_neg fun e => hl (labelsOk_relabel.1 e.1), if_neg fun e => hl e.1]
      rfl
  unfold supDescend
  cases readAll z with
  | none => exact hbad
  | some zs =>
    cases readAll v with
    | none => exact hbad
    | some vs =>
      simp only
      by_cases hl : LabelsOk C y
      · by_cases hne : y = []
        · subst hne
          simp [secondOrderDefault, C59_undefined.1]
        · obtain ⟨Cy, Cy', h1, h2, h3⟩ := sameWeights_default hne hl ht
          simp only [secondOrderDefault, h1, h2, Option.map_some, Option.bind_some,
            descend_cols (secondOrder_renumbered h3 zs vs cfg.penalty) cfg eta, Option.map_map]
          rfl
      · have e1 := descend_bad_label_second (X := zs) (W := vs) (L := cfg.penalty) hl cfg eta
        have e2 := descend_bad_label_second (X := zs) (W := vs) (y := y.map (relabel π)) (L := cfg.penalty)
          (fun e => hl (labelsOk_relabel.1 e)) cfg (cols π eta)
        have f1 := congrArg (Option.map fun r : Mat K C ℝ × List ℝ => (r.1, r.2.map some)) e1
        have f2 := congrArg (Option.map fun r : Mat K C ℝ × List ℝ => (r.1, r.2.map some)) e2
        simp only [Option.map_bind, Function.comp_def, Option.map_none] at f1 f2
        rw [f1, f2]
        rfl

end Verif.MStep
