import Verif.Lemmas.Symmetry
import Verif.Props.Schedule

/-! Renumbering the classes commutes with the parts of the expectation and maximisation steps. -/
namespace Verif.EStep

open MathUtils Finset

variable {K V C : ℕ}

/-- A matrix with its columns renumbered: column `c` of the new one is column `π c` of the old one. -/
def cols (π : Equiv.Perm (Fin C)) (eta : Mat K C ℝ) : Mat K C ℝ := fun k c => eta k (π c)

/-- The model with its classes renumbered: class `c` of the new one is class `π c` of the old one. -/
def Model.classes (π : Equiv.Perm (Fin C)) (m : Model K V C) : Model K V C := ⟨m.alpha, m.beta, cols π m.eta⟩

/-- The new label of a document with label `y`.  A label that is not one of the classes (no label) stays as it
is. -/
def relabel (π : Equiv.Perm (Fin C)) (y : ℤ) : ℤ :=
  if h : 0 ≤ y ∧ y < C then ((π.symm ⟨y.toNat, by omega⟩ : Fin C) : ℤ) else y

theorem relabel_class (π : Equiv.Perm (Fin C)) (c : Fin C) : relabel π ((π c : Fin C) : ℤ) = (c : ℤ) := by
  have h : 0 ≤ (((π c : Fin C) : ℕ) : ℤ) ∧ (((π c : Fin C) : ℕ) : ℤ) < C := by
    have := (π c).isLt
    omega
  rw [relabel, dif_pos h]
  simp

theorem relabel_range (π : Equiv.Perm (Fin C)) (y : ℤ) :
    (0 ≤ relabel π y ∧ relabel π y < C) ↔ (0 ≤ y ∧ y < C) := by
  unfold relabel
  split
  · rename_i h
    have := (π.symm ⟨y.toNat, by omega⟩).isLt
    exact ⟨fun _ => h, fun _ => by omega⟩
  · rfl

theorem relabel_symm (π : Equiv.Perm (Fin C)) (y : ℤ) : relabel π.symm (relabel π y) = y := by
  by_cases h : 0 ≤ y ∧ y < C
  · have e : relabel π y = ((π.symm ⟨y.toNat, by omega⟩ : Fin C) : ℤ) := by rw [relabel, dif_pos h]
    rw [e, relabel_class]
    simp; omega
  · have e : relabel π y = y := by rw [relabel, dif_neg h]
    rw [e, relabel, dif_neg h]

theorem relabel_injective (π : Equiv.Perm (Fin C)) : Function.Injective (relabel π) := by
  intro a b h
  have := congrArg (relabel π.symm) h
  rwa [relabel_symm, relabel_symm] at this

theorem relabel_neg (π : Equiv.Perm (Fin C)) (y : ℤ) : relabel π y < 0 ↔ y < 0 := by
  have := relabel_range π y
  by_cases h : 0 ≤ y ∧ y < C
  · have := this.2 h
    omega
  · rw [relabel, dif_neg h]

variable (π : Equiv.Perm (Fin C)) (P : Prims)

theorem colAt_classes (m : Mat K C ℝ) (y : ℤ) : colAt (cols π m) (relabel π y) = colAt m y := by
  by_cases h : 0 ≤ y ∧ y < C
  · have h' := (relabel_range π y).2 h
    rw [colAt, colAt, dif_pos h, dif_pos h']
    congr 1
    funext k
    have e : (⟨(relabel π y).toNat, by omega⟩ : Fin C) = π.symm ⟨y.toNat, by omega⟩ := by
      apply Fin.ext
      simp [relabel, dif_pos h]
    rw [e, cols, Equiv.apply_symm_apply]
  · have h' := fun e => h ((relabel_range π y).1 e)
    rw [colAt, colAt, dif_neg h, dif_neg h']

theorem maxCoeff_classes (m : Mat K C ℝ) : maxCoeff (cols π m) = maxCoeff m := by
  unfold maxCoeff
  split
  · rename_i h
    rw [Option.some.injEq]
    refine le_antisymm (Finset.sup'_le h _ fun p _ => ?_) (Finset.sup'_le h _ fun p _ => ?_)
    · exact Finset.le_sup' (fun p : Fin K × Fin C => m p.1 p.2) (mem_univ (p.1, π p.2))
    · have := Finset.le_sup' (fun p : Fin K × Fin C => cols π m p.1 p.2) (mem_univ (p.1, π.symm p.2))
      dsimp only [cols] at this
      rwa [Equiv.apply_symm_apply] at this
  · rfl

theorem etaScaled_classes (eta : Mat K C ℝ) : etaScaled (cols π eta) = (etaScaled eta).map (cols π) := by
  unfold etaScaled
  rw [maxCoeff_classes, Option.map_map]
  congr 1
  funext m
  simp only [Function.comp]
  split <;> rfl

theorem softmaxEtaZ_classes (Xr : Vec V ℝ) (eta : Mat K C ℝ) (phi : Mat K V ℝ) :
    softmaxEtaZ P Xr (cols π eta) phi = (softmaxEtaZ P Xr eta phi).map fun v c => v (π c) := by
  have e : ∑ c, P.exp (∑ k, cols π eta k c * sumColsScaled phi Xr (fun _ => 0) k) =
      ∑ c, P.exp (∑ k, eta k c * sumColsScaled phi Xr (fun _ => 0) k) :=
    Equiv.sum_comp π fun c => P.exp (∑ k, eta k c * sumColsScaled phi Xr (fun _ => 0) k)
  unfold softmaxEtaZ
  simp only [e]
  split <;> rfl

theorem approximatePhi_classes (Xr : Vec V ℝ) (nw : ℕ) (y : ℤ) (beta : Mat K V ℝ) (eta : Mat K C ℝ)
    (gamma : Vec K ℝ) (w : ℝ) (phi : Mat K V ℝ) :
    approximatePhi P Xr nw (relabel π y) beta (cols π eta) gamma w phi =
      approximatePhi P Xr nw y beta eta gamma w phi := by
  unfold approximatePhi
  split
  · rfl
  · rw [softmaxEtaZ_classes, etaScaled_classes]
    cases mapOpt P.psi gamma with
    | none => rfl
    | some psi =>
      cases softmaxEtaZ P Xr eta phi with
      | none => rfl
      | some sm =>
        cases etaScaled eta with
        | none => rfl
        | some es =>
          simp only [Option.map_some, Option.bind_some, colAt_classes]
          cases colAt es y with
          | none => rfl
          | some ey =>
            have e : ∀ k, ∑ c, cols π es k c * sm (π c) = ∑ c, es k c * sm c :=
              fun k => Equiv.sum_comp π fun c => es k c * sm c
            simp only [Option.bind_some, e]

theorem factor_classes (Xr : Vec V ℝ) (eta : Mat K C ℝ) (phi : Mat K V ℝ) (n : Fin V) :
    factor P Xr (cols π eta) phi n = fun c => factor P Xr eta phi n (π c) := rfl

theorem divide_classes (p f : Vec C ℝ) :
    divide (fun c => p (π c)) (fun c => f (π c)) = (divide p f).map fun v c => v (π c) := by
  unfold divide
  have e : (∀ c, f (π c) ≠ 0) ↔ ∀ c, f c ≠ 0 :=
    ⟨fun h c => by simpa using h (π.symm c), fun h c => h _⟩
  simp only [e]
  split <;> rfl

theorem hOf_classes (Xr : Vec V ℝ) (eta : Mat K C ℝ) (p : Vec C ℝ) (n : Fin V) :
    hOf P Xr (cols π eta) (fun c => p (π c)) n = hOf P Xr eta p n := by
  funext k
  exact Equiv.sum_comp π fun c => P.exp (eta k c * Xr n) * p c

theorem foldl_classes (l : List (Fin V)) (f : Fin V → Vec C ℝ) (g : Fin V → Bool) (p : Vec C ℝ) :
    l.foldl (fun p n => if g n then p else fun c => p c * f n (π c)) (fun c => p (π c)) =
      fun c => l.foldl (fun p n => if g n then p else fun c => p c * f n c) p (π c) := by
  induction l generalizing p with
  | nil => rfl
  | cons n l ih =>
    rw [List.foldl_cons, List.foldl_cons, ← ih]
    congr 1
    split <;> rfl

theorem computeH_classes (X : Vec V ℕ) (Xr : Vec V ℝ) (eta : Mat K C ℝ) (phi : Mat K V ℝ)
    (h : Option (Vec K ℝ)) : computeH P X Xr (cols π eta) phi h = computeH P X Xr eta phi h := by
  unfold computeH
  have e := foldl_classes π (List.finRange V) (fun n => factor P Xr eta phi n) (fun n => decide (X n = 0)) fun _ => 1
  simp only [decide_eq_true_eq] at e
  simp only [factor_classes]
  cases (List.finRange V).reverse.find? (fun n => decide (X n ≠ 0)) with
  | none => rfl
  | some n =>
    simp only [e]
    rw [divide_classes, Option.map_map]
    congr 1
    funext p
    exact congrArg some (hOf_classes π P Xr eta p n)

/-- The state of the sweep with renumbered classes. -/
def Sweep.classes (s : Sweep K V C) : Sweep K V C := { s with products := fun c => s.products (π c) }

theorem sweepWord_classes (X : Vec V ℕ) (Xr : Vec V ℝ) (beta : Mat K V ℝ) (eta : Mat K C ℝ) (ey : Vec K ℝ)
    (fp : ℕ) (s : Sweep K V C) (n : Fin V) :
    sweepWord P X Xr beta (cols π eta) ey fp (s.classes π) n =
      (sweepWord P X Xr beta eta ey fp s n).map (Sweep.classes π) := by
  unfold sweepWord
  split
  · rfl
  · simp only [factor_classes, Sweep.classes]
    rw [divide_classes]
    cases divide s.products (factor P Xr eta s.phi n) with
    | none => rfl
    | some p =>
      simp only [Option.map_some, Option.bind_some, hOf_classes]
      cases fixedPoints P (X n) (Xr n) (fun k => beta k n) ey s.psi (hOf P Xr eta p n) fp
          (fun k => s.phi k n) with
      | none => rfl
      | some col =>
        simp only [Option.bind_some]
        cases mapOpt P.psi fun k => s.gamma k + X n * (col k - s.phi k n) with
        | none => rfl
        | some psi => rfl

theorem sweepWords_classes (X : Vec V ℕ) (Xr : Vec V ℝ) (beta : Mat K V ℝ) (eta : Mat K C ℝ) (ey : Vec K ℝ)
    (fp : ℕ) (l : List (Fin V)) (s : Sweep K V C) :
    sweepWords P X Xr beta (cols π eta) ey fp l (s.classes π) =
      (sweepWords P X Xr beta eta ey fp l s).map (Sweep.classes π) := by
  induction l generalizing s with
  | nil => rfl
  | cons n l ih =>
    rw [sweepWords, sweepWords, sweepWord_classes]
    cases sweepWord P X Xr beta eta ey fp s n with
    | none => rfl
    | some s' => exact ih s'

theorem supervisedPhiGamma_classes (X : Vec V ℕ) (Xr : Vec V ℝ) (y : ℤ) (beta : Mat K V ℝ) (eta : Mat K C ℝ)
    (fp : ℕ) (s : VP K V × Option (Vec K ℝ)) :
    supervisedPhiGamma P X Xr (relabel π y) beta (cols π eta) fp s =
      supervisedPhiGamma P X Xr y beta eta fp s := by
  unfold supervisedPhiGamma
  cases mapOpt P.psi s.1.gamma with
  | none => rfl
  | some psi =>
    simp only [Option.bind_some, colAt_classes]
    cases colAt eta y with
    | none => rfl
    | some ey =>
      have e := foldl_classes π (List.finRange V) (fun n => factor P Xr eta s.1.phi n) (fun _ => false) fun _ => 1
      simp only [Bool.false_eq_true, if_false] at e
      simp only [Option.bind_some, factor_classes, e]
      have h := sweepWords_classes π P X Xr beta eta ey fp (List.finRange V)
        { phi := s.1.phi, gamma := s.1.gamma, psi := psi,
          products := (List.finRange V).foldl (fun p n c => p c * factor P Xr eta s.1.phi n c) fun _ => 1,
          h := s.2 }
      simp only [Sweep.classes] at h
      rw [h, Option.map_map]
      rfl

theorem multinomialPhi_classes (y : ℤ) (beta : Mat K V ℝ) (eta : Mat K C ℝ) (gamma : Vec K ℝ) (ew : ℝ) :
    multinomialPhi P (relabel π y) beta (cols π eta) gamma ew = multinomialPhi P y beta eta gamma ew := by
  unfold multinomialPhi
  rw [colAt_classes]

theorem correspondencePhi_classes (y : ℤ) (beta : Mat K V ℝ) (eta : Mat K C ℝ) (gamma : Vec K ℝ) (tau : Vec V ℝ) :
    correspondencePhi P (relabel π y) beta (cols π eta) gamma tau = correspondencePhi P y beta eta gamma tau := by
  unfold correspondencePhi
  rw [colAt_classes]

theorem correspondenceTau_classes (y : ℤ) (eta : Mat K C ℝ) (phi : Mat K V ℝ) :
    correspondenceTau P (relabel π y) (cols π eta) phi = correspondenceTau P y eta phi := by
  unfold correspondenceTau
  rw [colAt_classes]

theorem sumLogs_classes (eta : Mat K C ℝ) : sumLogs (cols π eta) = sumLogs eta := by
  unfold sumLogs
  have e : (∀ k c, 0 < cols π eta k c) ↔ ∀ k c, 0 < eta k c :=
    ⟨fun h k c => by simpa [cols] using h k (π.symm c), fun h k c => h _ _⟩
  have e' : ∀ k, ∑ c, Real.log (cols π eta k c) = ∑ c, Real.log (eta k c) :=
    fun k => Equiv.sum_comp π fun c => Real.log (eta k c)
  simp only [e, e']

theorem supervisedLikelihood_classes (X : Vec V ℕ) (y : ℤ) (alpha : Vec K ℝ) (beta : Mat K V ℝ) (eta : Mat K C ℝ)
    (phi : Mat K V ℝ) (gamma : Vec K ℝ) (h : Option (Vec K ℝ)) :
    supervisedLikelihood P X (relabel π y) alpha beta (cols π eta) phi gamma h =
      supervisedLikelihood P X y alpha beta eta phi gamma h := by
  unfold supervisedLikelihood
  rw [colAt_classes]

theorem supervisedLikelihood'_classes (X : Vec V ℕ) (y : ℤ) (alpha : Vec K ℝ) (beta : Mat K V ℝ)
    (eta : Mat K C ℝ) (phi : Mat K V ℝ) (gamma : Vec K ℝ) :
    supervisedLikelihood' P X (relabel π y) alpha beta (cols π eta) phi gamma =
      supervisedLikelihood' P X y alpha beta eta phi gamma := by
  unfold supervisedLikelihood'
  rw [computeH_classes, colAt_classes]
  cases computeH P X (ratio X) eta phi none with
  | none => rfl
  | some h => exact supervisedLikelihood_classes π P X y alpha beta eta phi gamma h

theorem multinomialLikelihood_classes (X : Vec V ℕ) (y : ℤ) (alpha : Vec K ℝ) (beta : Mat K V ℝ)
    (eta : Mat K C ℝ) (phi : Mat K V ℝ) (gamma : Vec K ℝ) (prior mu portion : ℝ) :
    multinomialLikelihood P X (relabel π y) alpha beta (cols π eta) phi gamma prior mu portion =
      multinomialLikelihood P X y alpha beta eta phi gamma prior mu portion := by
  unfold multinomialLikelihood
  rw [colAt_classes, sumLogs_classes]

theorem correspondenceLikelihood_classes (X : Vec V ℕ) (y : ℤ) (alpha : Vec K ℝ) (beta : Mat K V ℝ)
    (eta : Mat K C ℝ) (phi : Mat K V ℝ) (gamma : Vec K ℝ) (tau : Vec V ℝ) (mu portion : ℝ) :
    correspondenceLikelihood P X (relabel π y) alpha beta (cols π eta) phi gamma tau mu portion =
      correspondenceLikelihood P X y alpha beta eta phi gamma tau mu portion := by
  unfold correspondenceLikelihood
  rw [colAt_classes, sumLogs_classes]

end Verif.EStep
