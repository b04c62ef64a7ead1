import Verif.Lemmas.Symmetry
import Verif.Lemmas.ClassesM

/-! Renumbering the topics and the words commutes with the maximisation steps. -/
namespace Verif.Optim

open MathUtils EStep Finset

variable {K C : ℕ} (σ : Equiv.Perm (Fin K))

/-- A matrix with renumbered rows: the topics of `eta`. -/
def rows {c : ℕ} {A : Type} (x : Mat K c A) : Mat K c A := fun k j => x (σ k) j

theorem rows_symm {c : ℕ} {A : Type} (x : Mat K c A) : rows σ.symm (rows σ x) = x := by
  funext k j
  simp [rows]

theorem dot_rows (a b : Mat K C ℝ) : dot (rows σ a) (rows σ b) = dot a b := by
  unfold dot
  exact Equiv.sum_comp σ fun i => ∑ j, a i j * b i j

theorem move_rows (x : Mat K C ℝ) (a : ℝ) (p : Mat K C ℝ) : move (rows σ x) a (rows σ p) = rows σ (move x a p) := rfl

theorem squaredNorm_rows (x : Mat K C ℝ) : squaredNorm (rows σ x) = squaredNorm x := by
  unfold squaredNorm
  exact Equiv.sum_comp σ fun i => ∑ j, x i j ^ 2

/-- The second problem is the first one with renumbered topics. -/
structure RenumberedRows (pr pr' : Problem K C) : Prop where
  value : ∀ x, pr'.value (rows σ x) = pr.value x
  gradient : ∀ x, pr'.gradient (rows σ x) = (pr.gradient x).map (rows σ)

theorem RenumberedRows.symm {pr pr' : Problem K C} (h : RenumberedRows σ pr pr') : RenumberedRows σ.symm pr' pr where
  value x := by
    have := h.value (rows σ.symm x)
    rw [show rows σ (rows σ.symm x) = x from rows_symm σ.symm x] at this
    exact this.symm
  gradient x := by
    have := h.gradient (rows σ.symm x)
    rw [show rows σ (rows σ.symm x) = x from rows_symm σ.symm x] at this
    rw [this, Option.map_map]
    have e : rows σ.symm ∘ rows (c := C) (A := ℝ) σ = id := funext fun y => rows_symm σ y
    rw [e, Option.map_id]
    rfl

variable {σ}

theorem ArmijoLoop.rows {f f' : Mat K C ℝ → Option ℝ} (hf : ∀ x, f' (Optim.rows σ x) = f x) {x p : Mat K C ℝ}
    {v0 d tau a v a' v' : ℝ} (h : ArmijoLoop f x p v0 d tau a v a' v') :
    ArmijoLoop f' (Optim.rows σ x) (Optim.rows σ p) v0 d tau a v a' v' := by
  induction h with
  | exit h => exact .exit h
  | again h1 h2 _ ih => exact .again h1 (by rw [move_rows, hf]; exact h2) ih

theorem ArmijoSearch_rows {f f' : Mat K C ℝ → Option ℝ} (hf : ∀ x, f' (rows σ x) = f x) {b tau : ℝ}
    {x g p x' : Mat K C ℝ} {v : ℝ} (h : ArmijoSearch b tau f x g p x' v) :
    ArmijoSearch b tau f' (rows σ x) (rows σ g) (rows σ p) (rows σ x') v := by
  obtain ⟨v0, a, h1, h2, h3, rfl⟩ := h
  refine ⟨v0, a, by rw [hf]; exact h1, h2, ?_, rfl⟩
  rw [dot_rows]
  exact h3.rows hf

theorem DescentLoop.rows {S : Type} {pr pr' : Problem K C} (hp : RenumberedRows σ pr pr') {progress : Progress S}
    (hpr : ∀ s v g g' i, progress s v g i = progress s v g' i) {b tau : ℝ} {x x' : Mat K C ℝ} {v : ℝ}
    {g : Option (Mat K C ℝ)} {i : ℕ} {s s' : S}
    (h : DescentLoop (ArmijoSearch b tau) pr progress x v g i s x' s') :
    DescentLoop (ArmijoSearch b tau) pr' progress (Optim.rows σ x) v (g.map (Optim.rows σ)) i s
      (Optim.rows σ x') s' := by
  induction h with
  | stop h => exact .stop (by rw [hpr _ _ _ _ _]; exact h)
  | again h1 h2 h3 _ ih =>
    refine .again (by rw [hpr _ _ _ _ _]; exact h1) (by rw [hp.gradient, h2]; rfl) ?_ ih
    exact ArmijoSearch_rows hp.value h3

/-- Minimising the renumbered problem gives the renumbered minimum. -/
theorem Minimize_rows {S : Type} {pr pr' : Problem K C} (hp : RenumberedRows σ pr pr') {progress : Progress S}
    (hpr : ∀ s v g g' i, progress s v g i = progress s v g' i) {b tau : ℝ} {x x' : Mat K C ℝ} {s s' : S}
    (h : Minimize (ArmijoSearch b tau) pr progress x s x' s') :
    Minimize (ArmijoSearch b tau) pr' progress (rows σ x) s (rows σ x') s' := by
  obtain ⟨v, h1, h2⟩ := h
  exact ⟨v, by rw [hp.value]; exact h1, h2.rows hp hpr⟩

/-! ### The objectives -/

/-- A vector over the topics, renumbered. -/
def along {n : ℕ} {A : Type} (σ : Equiv.Perm (Fin n)) (x : Vec n A) : Vec n A := fun k => x (σ k)

/-- A matrix over the topics, renumbered in both directions. -/
def alongBoth {n : ℕ} (σ : Equiv.Perm (Fin n)) (V : Mat n n ℝ) : Mat n n ℝ := fun k l => V (σ k) (σ l)

theorem scores_rows (eta : Mat K C ℝ) (x : Vec K ℝ) : scores (rows σ eta) (along σ x) = scores eta x := by
  funext c
  exact Equiv.sum_comp σ fun k => eta k c * x k

theorem subCol_rows (g : Mat K C ℝ) (y : ℤ) (w : ℝ) (x : Vec K ℝ) :
    subCol (rows σ g) y w (along σ x) = (subCol g y w x).map (rows σ) := by
  unfold subCol
  split <;> rfl

theorem logisticLoop_rows (Cy : List (Option ℝ)) (eta : Mat K C ℝ) :
    ∀ (y : List ℤ) (X : List (Vec K ℝ)) (acc : ℝ),
      logisticLoop Cy (rows σ eta) y (X.map (along σ)) acc = logisticLoop Cy eta y X acc := by
  intro y
  induction y with
  | nil => intro X acc; rfl
  | cons a y ih =>
    intro X acc
    cases X with
    | nil => rfl
    | cons x X =>
      rw [List.map_cons, logisticLoop, logisticLoop, scores_rows]
      simp only [ih]

theorem logisticGradLoop_rows (Cy : List (Option ℝ)) (eta : Mat K C ℝ) :
    ∀ (y : List ℤ) (X : List (Vec K ℝ)) (g : Mat K C ℝ),
      logisticGradLoop Cy (rows σ eta) y (X.map (along σ)) (rows σ g) =
        (logisticGradLoop Cy eta y X g).map (rows σ) := by
  intro y
  induction y with
  | nil => intro X acc; rfl
  | cons a y ih =>
    intro X g
    cases X with
    | nil => rfl
    | cons x X =>
      rw [List.map_cons, logisticGradLoop, logisticGradLoop, scores_rows]
      simp only [subCol_rows]
      cases weightAt Cy a with
      | none => rfl
      | some w =>
        simp only [Option.bind_some]
        cases subCol g a w x with
        | none => rfl
        | some g' =>
          simp only [Option.map_some, Option.bind_some]
          split
          · rfl
          · exact ih X (fun k c => g' k c + w * (x k * Real.exp (scores eta x c)) / ∑ c, Real.exp (scores eta x c))

theorem logistic_rows (Cy : List (Option ℝ)) (y : List ℤ) (X : List (Vec K ℝ)) (L : ℝ) :
    RenumberedRows σ (logistic C X y Cy L) (logistic C (X.map (along σ)) y Cy L) where
  value x := by
    simp only [logistic, logisticValue, logisticLoop_rows Cy x y X 0, squaredNorm_rows]
  gradient x := by
    have := logisticGradLoop_rows (σ := σ) Cy x y X (fun _ _ => 0)
    simp only [logistic, logisticGradient]
    rw [show (fun _ _ => 0 : Mat K C ℝ) = rows σ fun _ _ => 0 from rfl, this, Option.map_map, Option.map_map]
    rfl

theorem mul_rows (eta : Mat K C ℝ) (V : Mat K K ℝ) (c : Fin C) (l : Fin K) :
    ∑ k, rows σ eta k c * alongBoth σ V k l = ∑ k, eta k c * V k (σ l) :=
  Equiv.sum_comp σ fun k => eta k c * V k (σ l)

theorem mul_rows' (eta : Mat K C ℝ) (V : Mat K K ℝ) (c : Fin C) (l : Fin K) :
    ∑ k, rows σ eta k c * alongBoth σ V l k = ∑ k, eta k c * V (σ l) k :=
  Equiv.sum_comp σ fun k => eta k c * V (σ l) k

theorem quad_rows (eta : Mat K C ℝ) (V : Mat K K ℝ) : quad (rows σ eta) (alongBoth σ V) = quad eta V := by
  funext c
  simp only [quad, mul_rows]
  exact Equiv.sum_comp σ fun l => (∑ k, eta k c * V k l) * eta l c

theorem secondNormalizer_rows (eta : Mat K C ℝ) (x : Vec K ℝ) (V : Mat K K ℝ) :
    secondNormalizer (rows σ eta) (along σ x) (alongBoth σ V) = secondNormalizer eta x V := by
  unfold secondNormalizer
  rw [scores_rows, quad_rows]

theorem secondGradDoc_rows (eta : Mat K C ℝ) (x : Vec K ℝ) (V : Mat K K ℝ) :
    secondGradDoc (rows σ eta) (along σ x) (alongBoth σ V) = rows σ (secondGradDoc eta x V) := by
  funext k c
  simp only [secondGradDoc, scores_rows, quad_rows, mul_rows, mul_rows']
  rfl

theorem secondLoop_rows (Cy : List (Option ℝ)) (eta : Mat K C ℝ) :
    ∀ (y : List ℤ) (X : List (Vec K ℝ)) (W : List (Mat K K ℝ)) (acc : ℝ),
      secondLoop Cy (rows σ eta) y (X.map (along σ)) (W.map (alongBoth σ)) acc = secondLoop Cy eta y X W acc := by
  intro y
  induction y with
  | nil => intro X W acc; rfl
  | cons a y ih =>
    intro X W acc
    cases X with
    | nil => rfl
    | cons x X =>
      cases W with
      | nil => rfl
      | cons v W =>
        rw [List.map_cons, List.map_cons, secondLoop, secondLoop, scores_rows, quad_rows]
        simp only [ih]

theorem secondGradLoop_rows (Cy : List (Option ℝ)) (eta : Mat K C ℝ) :
    ∀ (y : List ℤ) (X : List (Vec K ℝ)) (W : List (Mat K K ℝ)) (g : Mat K C ℝ),
      secondGradLoop Cy (rows σ eta) y (X.map (along σ)) (W.map (alongBoth σ)) (rows σ g) =
        (secondGradLoop Cy eta y X W g).map (rows σ) := by
  intro y
  induction y with
  | nil => intro X W acc; rfl
  | cons a y ih =>
    intro X W g
    cases X with
    | nil => rfl
    | cons x X =>
      cases W with
      | nil => rfl
      | cons v W =>
        rw [List.map_cons, List.map_cons, secondGradLoop, secondGradLoop, secondNormalizer_rows, secondGradDoc_rows]
        simp only [subCol_rows]
        cases weightAt Cy a with
        | none => rfl
        | some w =>
          simp only [Option.bind_some]
          cases subCol g a w x with
          | none => rfl
          | some g' =>
            simp only [Option.map_some, Option.bind_some]
            split
            · rfl
            · exact ih X W (fun k c => g' k c + w * (1 / secondNormalizer eta x v) * secondGradDoc eta x v k c)

theorem secondOrder_rows (Cy : List (Option ℝ)) (y : List ℤ) (X : List (Vec K ℝ)) (W : List (Mat K K ℝ)) (L : ℝ) :
    RenumberedRows σ (secondOrder C X W y Cy L) (secondOrder C (X.map (along σ)) (W.map (alongBoth σ)) y Cy L) where
  value x := by
    simp only [secondOrder, secondValue, secondLoop_rows Cy x y X W 0, squaredNorm_rows]
  gradient x := by
    have := secondGradLoop_rows (σ := σ) Cy x y X W (fun _ _ => 0)
    simp only [secondOrder, secondGradient]
    rw [show (fun _ _ => 0 : Mat K C ℝ) = rows σ fun _ _ => 0 from rfl, this, Option.map_map, Option.map_map]
    rfl

end Verif.Optim

namespace Verif.MStep

open MathUtils EStep Optim Finset

variable {K V C : ℕ} {σ : Equiv.Perm (Fin K)}

theorem descend_rows {pr pr' : Problem K C} (hp : RenumberedRows σ pr pr') (cfg : SupCfg) (eta : Mat K C ℝ) :
    descend cfg pr' (rows σ eta) = (descend cfg pr eta).map fun r => (rows σ r.1, r.2) := by
  have hpr : ∀ (s : Option ℝ × List ℝ) v g g' i, mStepProgress cfg.iterations cfg.tolerance s v g i =
      mStepProgress cfg.iterations cfg.tolerance s v g' i := fun _ _ _ _ _ => rfl
  cases h : descend cfg pr eta with
  | some r =>
    obtain ⟨o, ho⟩ := descend_eq_some.1 (show descend cfg pr eta = some (r.1, r.2) from h)
    exact descend_eq_some.2 ⟨o, Minimize_rows hp hpr ho⟩
  | none =>
    cases h' : descend cfg pr' (rows σ eta) with
    | none => rfl
    | some r =>
      obtain ⟨o, ho⟩ := descend_eq_some.1 (show descend cfg pr' (rows σ eta) = some (r.1, r.2) from h')
      have := descend_eq_some.2 ⟨o, Minimize_rows hp.symm hpr ho⟩
      rw [rows_symm, h] at this
      cases this

/-- The minimisation of `FastSupervisedMStep` with renumbered topics. -/
theorem logistic_descend_rows (X : List (Vec K ℝ)) (y : List ℤ) (cfg : SupCfg) (eta : Mat K C ℝ) :
    ((logisticDefault C (X.map (along σ)) y cfg.penalty).bind fun pr => descend cfg pr (rows σ eta)) =
      ((logisticDefault C X y cfg.penalty).bind fun pr => descend cfg pr eta).map fun r => (rows σ r.1, r.2) := by
  simp only [logisticDefault]
  cases defaultWeights y with
  | none => rfl
  | some Cy => exact descend_rows (logistic_rows Cy y X cfg.penalty) cfg eta

theorem readAll_map_opt {α β : Type} (f : α → β) (l : List (Option α)) :
    readAll (l.map (Option.map f)) = (readAll l).map (List.map f) := by
  induction l with
  | nil => rfl
  | cons a l ih =>
    cases a with
    | none => rfl
    | some a =>
      simp only [List.map_cons, Option.map_some, readAll, ih, Option.map_map]
      rfl

/-- The minimisation of `SupervisedMStep` with renumbered topics. -/
theorem supDescend_rows (cfg : SupCfg) (z : List (Option (Vec K ℝ))) (v : List (Option (Mat K K ℝ)))
    (y : List ℤ) (eta : Mat K C ℝ) :
    supDescend cfg (z.map (Option.map (along σ))) (v.map (Option.map (alongBoth σ))) y (rows σ eta) =
      (supDescend cfg z v y eta).map fun r => (rows σ r.1, r.2) := by
  unfold supDescend
  rw [readAll_map_opt, readAll_map_opt]
  cases readAll z with
  | none =>
    simp only [Option.map_none]
    split <;> rfl
  | some zs =>
    cases readAll v with
    | none =>
      simp only [Option.map_none, Option.map_some]
      split <;> rfl
    | some vs =>
      simp only [Option.map_some, secondOrderDefault]
      cases defaultWeights y with
      | none => rfl
      | some Cy =>
        simp only [Option.map_some, Option.bind_some, descend_rows (secondOrder_rows Cy y zs vs cfg.penalty) cfg eta,
          Option.map_map]
        rfl

end Verif.MStep
