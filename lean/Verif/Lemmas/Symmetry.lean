import Verif.Lemmas.EStep

/-! Renumbering the topics or the words commutes with the parts of the expectation steps. -/
namespace Verif.EStep

open MathUtils Finset

variable {K V C : ℕ}

/-- The model with its topics renumbered: topic `k` of the new one is topic `σ k` of the old one. -/
def Model.topics (σ : Equiv.Perm (Fin K)) (m : Model K V C) : Model K V C :=
  ⟨fun k => m.alpha (σ k), fun k => m.beta (σ k), fun k => m.eta (σ k)⟩

/-- Variational parameters with renumbered topics. -/
def VP.topics (σ : Equiv.Perm (Fin K)) (s : VP K V) : VP K V :=
  ⟨fun k => s.phi (σ k), fun k => s.gamma (σ k)⟩

/-- The model with its vocabulary renumbered. -/
def Model.words (τ : Equiv.Perm (Fin V)) (m : Model K V C) : Model K V C :=
  ⟨m.alpha, fun k n => m.beta k (τ n), m.eta⟩

/-- Variational parameters with renumbered words. -/
def VP.words (τ : Equiv.Perm (Fin V)) (s : VP K V) : VP K V := ⟨fun k n => s.phi k (τ n), s.gamma⟩

theorem mapOpt_perm {n : ℕ} (σ : Equiv.Perm (Fin n)) (f : ℝ → Option ℝ) (v : Vec n ℝ) :
    mapOpt f (fun i => v (σ i)) = (mapOpt f v).map fun w i => w (σ i) := by
  refine Option.ext fun a => ?_
  rw [mapOpt_eq, Option.map_eq_some_iff]
  constructor
  · intro h
    refine ⟨fun i => a (σ.symm i), mapOpt_eq.2 fun i => ?_, by funext i; simp⟩
    simpa using h (σ.symm i)
  · rintro ⟨w, h, rfl⟩ i
    exact mapOpt_eq.1 h (σ i)

theorem colAt_rows {r c : ℕ} (σ : Equiv.Perm (Fin r)) (m : Mat r c ℝ) (y : ℤ) :
    colAt (fun k => m (σ k)) y = (colAt m y).map fun v k => v (σ k) := by
  unfold colAt
  split <;> rfl

theorem normalizeCols_rows {r c : ℕ} (σ : Equiv.Perm (Fin r)) (w : Mat r c ℝ) :
    normalizeCols (fun k n => w (σ k) n) = fun k n => normalizeCols w (σ k) n := by
  funext k n
  rw [normalizeCols_apply, normalizeCols_apply, Equiv.sum_comp σ fun k => w k n]

theorem normalizeCols_cols {r c : ℕ} (τ : Equiv.Perm (Fin c)) (w : Mat r c ℝ) :
    normalizeCols (fun k n => w k (τ n)) = fun k n => normalizeCols w k (τ n) := by
  funext k n
  rw [normalizeCols_apply, normalizeCols_apply]

theorem maxCoeff_rows {r c : ℕ} (σ : Equiv.Perm (Fin r)) (m : Mat r c ℝ) :
    maxCoeff (fun k => m (σ k)) = maxCoeff m := by
  unfold maxCoeff
  split
  · rename_i h
    rw [Option.some.injEq]
    refine le_antisymm (Finset.sup'_le h _ fun p _ => ?_) (Finset.sup'_le h _ fun p _ => ?_)
    · exact Finset.le_sup' (fun p : Fin r × Fin c => m p.1 p.2) (mem_univ (σ p.1, p.2))
    · have := Finset.le_sup' (fun p : Fin r × Fin c => m (σ p.1) p.2) (mem_univ (σ.symm p.1, p.2))
      dsimp only at this
      rwa [Equiv.apply_symm_apply] at this
  · rfl

theorem sumColsScaled_rows {r c : ℕ} (σ : Equiv.Perm (Fin r)) (x : Mat r c ℝ) (y : Vec c ℝ) (a : Vec r ℝ) :
    sumColsScaled (fun k => x (σ k)) y (fun k => a (σ k)) = fun k => sumColsScaled x y a (σ k) := by
  funext k
  rw [sumColsScaled_apply, sumColsScaled_apply]

theorem sumColsScaled_cols {r c : ℕ} (τ : Equiv.Perm (Fin c)) (x : Mat r c ℝ) (y : Vec c ℝ) (a : Vec r ℝ) :
    sumColsScaled (fun k n => x k (τ n)) (fun n => y (τ n)) a = sumColsScaled x y a := by
  funext k
  rw [sumColsScaled_apply, sumColsScaled_apply, Equiv.sum_comp τ fun n => y n * x k n]

theorem numWords_words (τ : Equiv.Perm (Fin V)) (X : Vec V ℕ) : numWords (fun n => X (τ n)) = numWords X :=
  Equiv.sum_comp τ X

theorem ratio_words (τ : Equiv.Perm (Fin V)) (X : Vec V ℕ) : ratio (fun n => X (τ n)) = fun n => ratio X (τ n) := by
  unfold ratio
  rw [numWords_words]

theorem initial_topics (σ : Equiv.Perm (Fin K)) (X : Vec V ℕ) (alpha : Vec K ℝ) :
    initial X (fun k => alpha (σ k)) = (initial X alpha).topics σ := rfl

theorem initial_words (τ : Equiv.Perm (Fin V)) (X : Vec V ℕ) (alpha : Vec K ℝ) :
    initial (fun n => X (τ n)) alpha = (initial X alpha).words τ := by
  unfold initial VP.words
  rw [numWords_words]

theorem converged_topics (σ : Equiv.Perm (Fin K)) (old new : Vec K ℝ) (tol : ℝ) :
    converged (fun k => old (σ k)) (fun k => new (σ k)) tol = converged old new tol := by
  unfold converged
  rw [Equiv.sum_comp σ fun k => |old k - new k|]

/-- A loop whose body commutes with a renumbering commutes with it. -/
theorem loop_perm {S : Type} {step step' : S → Option S} {gam : S → Vec K ℝ} {tol : ℝ} (σ : Equiv.Perm (Fin K))
    (T : S → S) (hg : ∀ s, gam (T s) = fun k => gam s (σ k)) (hstep : ∀ s, step' (T s) = (step s).map T) :
    ∀ (i : ℕ) (old : Vec K ℝ) (s : S),
      loop step' gam tol i (fun k => old (σ k)) (T s) = (loop step gam tol i old s).map T := by
  intro i
  induction i with
  | zero => intro old s; rfl
  | succ i ih =>
    intro old s
    rw [loop, loop, hg, converged_topics]
    split
    · rfl
    · rw [hstep]
      cases h : step s with
      | none => rfl
      | some s' => exact ih _ _

/-! ### Topics -/

section Topics

variable (σ : Equiv.Perm (Fin K)) (P : Prims)

theorem unsupervisedPhi_topics (beta : Mat K V ℝ) (gamma : Vec K ℝ) :
    unsupervisedPhi P (fun k => beta (σ k)) (fun k => gamma (σ k)) =
      (unsupervisedPhi P beta gamma).map fun phi k => phi (σ k) := by
  unfold unsupervisedPhi
  rw [mapOpt_perm, Option.map_map, Option.map_map]
  congr 1
  funext psi
  exact normalizeCols_rows σ fun k n => beta k n * P.exp (psi k)

theorem unsupervisedStep_topics (X : Vec V ℕ) (m : Model K V C) (s : VP K V) :
    unsupervisedStep P X (m.topics σ) (s.topics σ) = (unsupervisedStep P X m s).map (VP.topics σ) := by
  unfold unsupervisedStep
  simp only [Model.topics, VP.topics]
  rw [unsupervisedPhi_topics, Option.map_map, Option.map_map]
  congr 1
  funext phi
  exact congrArg (VP.mk _) (sumColsScaled_rows σ _ _ _)

theorem softmaxEtaZ_topics (Xr : Vec V ℝ) (eta : Mat K C ℝ) (phi : Mat K V ℝ) :
    softmaxEtaZ P Xr (fun k => eta (σ k)) (fun k => phi (σ k)) = softmaxEtaZ P Xr eta phi := by
  have h := sumColsScaled_rows σ phi Xr (fun _ => 0)
  have e : ∀ c, ∑ k, eta (σ k) c * sumColsScaled (fun k => phi (σ k)) Xr (fun _ => 0) k =
      ∑ k, eta k c * sumColsScaled phi Xr (fun _ => 0) k := by
    intro c
    rw [h]
    exact Equiv.sum_comp σ fun k => eta k c * sumColsScaled phi Xr (fun _ => 0) k
  unfold softmaxEtaZ
  simp only [e]

theorem etaScaled_topics (eta : Mat K C ℝ) :
    etaScaled (fun k => eta (σ k)) = (etaScaled eta).map fun es k => es (σ k) := by
  unfold etaScaled
  rw [maxCoeff_rows, Option.map_map]
  congr 1
  funext m
  simp only [Function.comp]
  split <;> rfl

theorem approximatePhi_topics (Xr : Vec V ℝ) (nw : ℕ) (y : ℤ) (beta : Mat K V ℝ) (eta : Mat K C ℝ)
    (gamma : Vec K ℝ) (w : ℝ) (phi : Mat K V ℝ) :
    approximatePhi P Xr nw y (fun k => beta (σ k)) (fun k => eta (σ k)) (fun k => gamma (σ k)) w (fun k => phi (σ k)) =
      (approximatePhi P Xr nw y beta eta gamma w phi).map fun phi k => phi (σ k) := by
  unfold approximatePhi
  split
  · rfl
  · rw [mapOpt_perm, softmaxEtaZ_topics, etaScaled_topics]
    cases mapOpt P.psi gamma with
    | none => rfl
    | some psi =>
      cases softmaxEtaZ P Xr eta phi with
      | none => rfl
      | some sm =>
        cases etaScaled eta with
        | none => rfl
        | some es =>
          simp only [Option.map_some, Option.bind_some, colAt_rows]
          cases colAt es y with
          | none => rfl
          | some ey =>
            simp only [Option.map_some, Option.bind_some]
            exact congrArg some (normalizeCols_rows σ fun k n =>
              beta k n * P.exp (psi k + w * (ey k - ∑ c, es k c * sm c)))

theorem fastStep_topics (w : ℝ) (X : Vec V ℕ) (y : ℤ) (m : Model K V C) (s : VP K V) :
    fastStep P w X y (m.topics σ) (s.topics σ) = (fastStep P w X y m s).map (VP.topics σ) := by
  unfold fastStep
  simp only [Model.topics, VP.topics]
  rw [approximatePhi_topics, Option.map_map, Option.map_map]
  congr 1
  funext phi
  exact congrArg (VP.mk _) (sumColsScaled_rows σ _ _ _)

theorem multinomialPhi_topics (y : ℤ) (beta : Mat K V ℝ) (eta : Mat K C ℝ) (gamma : Vec K ℝ) (ew : ℝ) :
    multinomialPhi P y (fun k => beta (σ k)) (fun k => eta (σ k)) (fun k => gamma (σ k)) ew =
      (multinomialPhi P y beta eta gamma ew).map fun phi k => phi (σ k) := by
  unfold multinomialPhi
  rw [mapOpt_perm, Equiv.sum_comp σ gamma, colAt_rows]
  cases mapOpt P.psi gamma with
  | none => rfl
  | some t1 =>
    cases P.psi (∑ k, gamma k) with
    | none => rfl
    | some d =>
      cases colAt eta y with
      | none => rfl
      | some ey =>
        simp only [Option.map_some, Option.bind_some, mapOpt_perm]
        cases mapOpt logc ey with
        | none => rfl
        | some le =>
          simp only [Option.map_some, Option.bind_some]
          exact congrArg some (normalizeCols_rows σ fun k n => beta k n * P.exp (ew * le k + t1 k - (d + 1)))

theorem multinomialStep_topics (ew : ℝ) (X : Vec V ℕ) (y : ℤ) (m : Model K V C) (s : VP K V) :
    multinomialStep P ew X y (m.topics σ) (s.topics σ) = (multinomialStep P ew X y m s).map (VP.topics σ) := by
  unfold multinomialStep
  simp only [Model.topics, VP.topics]
  rw [multinomialPhi_topics, Option.map_map, Option.map_map]
  congr 1
  funext phi
  exact congrArg (VP.mk _) (sumColsScaled_rows σ _ _ _)

theorem correspondencePhi_topics (y : ℤ) (beta : Mat K V ℝ) (eta : Mat K C ℝ) (gamma : Vec K ℝ) (tau : Vec V ℝ) :
    correspondencePhi P y (fun k => beta (σ k)) (fun k => eta (σ k)) (fun k => gamma (σ k)) tau =
      (correspondencePhi P y beta eta gamma tau).map fun phi k => phi (σ k) := by
  unfold correspondencePhi
  rw [mapOpt_perm, colAt_rows]
  cases mapOpt P.psi gamma with
  | none => rfl
  | some t1 =>
    cases colAt eta y with
    | none => rfl
    | some ey =>
      simp only [Option.map_some, Option.bind_some, mapOpt_perm]
      cases mapOpt logc ey with
      | none => rfl
      | some le =>
        simp only [Option.map_some, Option.bind_some]
        exact congrArg some (normalizeCols_rows σ fun k n => beta k n * P.exp (t1 k) * P.exp (le k * tau n))

theorem correspondenceTau_topics (y : ℤ) (eta : Mat K C ℝ) (phi : Mat K V ℝ) :
    correspondenceTau P y (fun k => eta (σ k)) (fun k => phi (σ k)) = correspondenceTau P y eta phi := by
  unfold correspondenceTau
  rw [colAt_rows]
  cases colAt eta y with
  | none => rfl
  | some ey =>
    simp only [Option.map_some, Option.bind_some, mapOpt_perm]
    cases mapOpt logc ey with
    | none => rfl
    | some le =>
      simp only [Option.map_some, Option.bind_some]
      have e : ∀ n, ∑ k, phi (σ k) n * le (σ k) = ∑ k, phi k n * le k :=
        fun n => Equiv.sum_comp σ fun k => phi k n * le k
      simp only [e]

theorem correspondenceStep_topics (X : Vec V ℕ) (y : ℤ) (m : Model K V C) (s : VP K V × Vec V ℝ) :
    correspondenceStep P X y (m.topics σ) (s.1.topics σ, s.2) =
      (correspondenceStep P X y m s).map fun r => (r.1.topics σ, r.2) := by
  unfold correspondenceStep
  simp only [Model.topics, VP.topics]
  rw [correspondencePhi_topics]
  cases correspondencePhi P y m.beta m.eta s.1.gamma s.2 with
  | none => rfl
  | some phi =>
    simp only [Option.map_some, Option.bind_some, correspondenceTau_topics, Option.map_map]
    congr 1
    funext tau
    exact congrArg (fun g => (VP.mk (fun k => phi (σ k)) g, tau)) (sumColsScaled_rows σ _ _ _)

theorem factor_topics (Xr : Vec V ℝ) (eta : Mat K C ℝ) (phi : Mat K V ℝ) :
    factor P Xr (fun k => eta (σ k)) (fun k => phi (σ k)) = factor P Xr eta phi := by
  funext n c
  exact Equiv.sum_comp σ fun k => P.exp (eta k c * Xr n) * phi k n

theorem fixedPoint_topics (x : ℕ) (xr : ℝ) (bcol ey psi h col : Vec K ℝ) :
    fixedPoint P x xr (fun k => bcol (σ k)) (fun k => ey (σ k)) (fun k => psi (σ k)) (fun k => h (σ k))
      (fun k => col (σ k)) = (fixedPoint P x xr bcol ey psi h col).map fun v k => v (σ k) := by
  unfold fixedPoint
  rw [Equiv.sum_comp σ fun k => h k * col k]
  split
  · rfl
  · dsimp only
    rw [Equiv.sum_comp σ fun k =>
      bcol k * P.exp (psi k + xr * ey k - h k * (1 / (∑ k, h k * col k) / x))]
    split
    · rfl
    · rfl

theorem fixedPoints_topics (x : ℕ) (xr : ℝ) (bcol ey psi h : Vec K ℝ) : ∀ (i : ℕ) (col : Vec K ℝ),
    fixedPoints P x xr (fun k => bcol (σ k)) (fun k => ey (σ k)) (fun k => psi (σ k)) (fun k => h (σ k)) i
      (fun k => col (σ k)) = (fixedPoints P x xr bcol ey psi h i col).map fun v k => v (σ k) := by
  intro i
  induction i with
  | zero => intro col; rfl
  | succ i ih =>
    intro col
    rw [fixedPoints, fixedPoints, fixedPoint_topics]
    cases fixedPoint P x xr bcol ey psi h col with
    | none => rfl
    | some v => exact ih v

/-- A state of the sweep with renumbered topics. -/
def Sweep.topics (s : Sweep K V C) : Sweep K V C :=
  ⟨fun k => s.phi (σ k), fun k => s.gamma (σ k), fun k => s.psi (σ k), s.products, s.h.map fun h k => h (σ k)⟩

theorem sweepWord_topics (X : Vec V ℕ) (Xr : Vec V ℝ) (beta : Mat K V ℝ) (eta : Mat K C ℝ) (ey : Vec K ℝ) (fp : ℕ)
    (s : Sweep K V C) (n : Fin V) :
    sweepWord P X Xr (fun k => beta (σ k)) (fun k => eta (σ k)) (fun k => ey (σ k)) fp (s.topics σ) n =
      (sweepWord P X Xr beta eta ey fp s n).map (Sweep.topics σ) := by
  unfold sweepWord
  split
  · rfl
  · simp only [Sweep.topics, factor_topics]
    cases divide s.products (factor P Xr eta s.phi n) with
    | none => rfl
    | some p =>
      simp only [Option.bind_some]
      have hh : hOf P Xr (fun k => eta (σ k)) p n = fun k => hOf P Xr eta p n (σ k) := rfl
      rw [hh, fixedPoints_topics σ P (X n) (Xr n) (fun k => beta k n) ey s.psi (hOf P Xr eta p n) fp fun k => s.phi k n]
      cases fixedPoints P (X n) (Xr n) (fun k => beta k n) ey s.psi (hOf P Xr eta p n) fp (fun k => s.phi k n) with
      | none => rfl
      | some col =>
        simp only [Option.map_some, Option.bind_some]
        have hs : setCol (fun k => s.phi (σ k)) n (fun k => col (σ k)) = fun k => setCol s.phi n col (σ k) := rfl
        rw [mapOpt_perm σ P.psi fun k => s.gamma k + X n * (col k - s.phi k n), hs, factor_topics]
        cases mapOpt P.psi (fun k => s.gamma k + X n * (col k - s.phi k n)) with
        | none => rfl
        | some psi => rfl

theorem sweepWords_topics (X : Vec V ℕ) (Xr : Vec V ℝ) (beta : Mat K V ℝ) (eta : Mat K C ℝ) (ey : Vec K ℝ) (fp : ℕ) :
    ∀ (ns : List (Fin V)) (s : Sweep K V C),
    sweepWords P X Xr (fun k => beta (σ k)) (fun k => eta (σ k)) (fun k => ey (σ k)) fp ns (s.topics σ) =
      (sweepWords P X Xr beta eta ey fp ns s).map (Sweep.topics σ) := by
  intro ns
  induction ns with
  | nil => intro s; rfl
  | cons n ns ih =>
    intro s
    rw [sweepWords, sweepWords, sweepWord_topics]
    cases sweepWord P X Xr beta eta ey fp s n with
    | none => rfl
    | some s' => exact ih s'

/-- What the supervised loop carries, with renumbered topics. -/
def supTopics (s : VP K V × Option (Vec K ℝ)) : VP K V × Option (Vec K ℝ) :=
  (s.1.topics σ, s.2.map fun h k => h (σ k))

theorem supervisedPhiGamma_topics (X : Vec V ℕ) (Xr : Vec V ℝ) (y : ℤ) (beta : Mat K V ℝ) (eta : Mat K C ℝ) (fp : ℕ)
    (s : VP K V × Option (Vec K ℝ)) :
    supervisedPhiGamma P X Xr y (fun k => beta (σ k)) (fun k => eta (σ k)) fp (supTopics σ s) =
      (supervisedPhiGamma P X Xr y beta eta fp s).map (supTopics σ) := by
  unfold supervisedPhiGamma supTopics
  simp only [VP.topics, factor_topics]
  rw [mapOpt_perm, colAt_rows]
  cases mapOpt P.psi s.1.gamma with
  | none => rfl
  | some psi =>
    cases colAt eta y with
    | none => rfl
    | some ey =>
      simp only [Option.map_some, Option.bind_some]
      have := sweepWords_topics σ P X Xr beta eta ey fp (List.finRange V)
        { phi := s.1.phi, gamma := s.1.gamma, psi := psi, products := (List.finRange V).foldl
            (fun p n c => p c * factor P Xr eta s.1.phi n c) (fun _ => 1), h := s.2 }
      unfold Sweep.topics at this
      dsimp only at this
      rw [this, Option.map_map, Option.map_map]
      rfl

theorem unsupervisedLikelihood_topics (X : Vec V ℕ) (alpha : Vec K ℝ) (beta phi : Mat K V ℝ) (gamma : Vec K ℝ) :
    unsupervisedLikelihood P X (fun k => alpha (σ k)) (fun k => beta (σ k)) (fun k => phi (σ k)) (fun k => gamma (σ k)) =
      unsupervisedLikelihood P X alpha beta phi gamma := by
  unfold unsupervisedLikelihood
  rw [mapOpt_perm, Equiv.sum_comp σ gamma]
  cases mapOpt P.psi gamma with
  | none => rfl
  | some pg =>
    simp only [Option.map_some, Option.bind_some]
    cases P.psi (∑ k, gamma k) with
    | none => rfl
    | some ps =>
      simp only [Option.bind_some, Option.some.injEq]
      rw [Equiv.sum_comp σ fun k => (alpha k - 1) * (pg k - ps), Equiv.sum_comp σ fun k => alpha k,
        Equiv.sum_comp σ fun k => lgamma (alpha k), Equiv.sum_comp σ fun k => (gamma k - 1) * (pg k - ps),
        Equiv.sum_comp σ fun k => lgamma (gamma k)]
      have e1 : ∀ n, ∑ k, phi (σ k) n * (if X n ≠ 0 then (1 : ℝ) else 0) * (pg (σ k) - ps) =
          ∑ k, phi k n * (if X n ≠ 0 then (1 : ℝ) else 0) * (pg k - ps) :=
        fun n => Equiv.sum_comp σ fun k => phi k n * (if X n ≠ 0 then (1 : ℝ) else 0) * (pg k - ps)
      have e2 : ∀ n, ∑ k, phi (σ k) n * (X n : ℝ) * Real.log (beta (σ k) n + tiny) =
          ∑ k, phi k n * (X n : ℝ) * Real.log (beta k n + tiny) :=
        fun n => Equiv.sum_comp σ fun k => phi k n * (X n : ℝ) * Real.log (beta k n + tiny)
      have e3 : ∀ n, ∑ k, phi (σ k) n * (if X n ≠ 0 then (1 : ℝ) else 0) *
            Real.log (phi (σ k) n * (if X n ≠ 0 then (1 : ℝ) else 0) + tiny) =
          ∑ k, phi k n * (if X n ≠ 0 then (1 : ℝ) else 0) * Real.log (phi k n * (if X n ≠ 0 then (1 : ℝ) else 0) + tiny) :=
        fun n => Equiv.sum_comp σ fun k => phi k n * (if X n ≠ 0 then (1 : ℝ) else 0) *
            Real.log (phi k n * (if X n ≠ 0 then (1 : ℝ) else 0) + tiny)
      simp only [e1, e2, e3]

theorem supervisedLikelihood_topics (X : Vec V ℕ) (y : ℤ) (alpha : Vec K ℝ) (beta : Mat K V ℝ) (eta : Mat K C ℝ)
    (phi : Mat K V ℝ) (gamma : Vec K ℝ) (h : Option (Vec K ℝ)) :
    supervisedLikelihood P X y (fun k => alpha (σ k)) (fun k => beta (σ k)) (fun k => eta (σ k)) (fun k => phi (σ k))
        (fun k => gamma (σ k)) (h.map fun h k => h (σ k)) =
      supervisedLikelihood P X y alpha beta eta phi gamma h := by
  unfold supervisedLikelihood
  rw [colAt_rows, unsupervisedLikelihood_topics]
  cases colAt eta y with
  | none => rfl
  | some ey =>
    cases (List.finRange V).reverse.find? (fun n => 0 < X n) with
    | none => rfl
    | some n =>
      cases h with
      | none => rfl
      | some h =>
        simp only [Option.map_some, Option.bind_some]
        rw [Equiv.sum_comp σ fun k => h k * phi k n]
        have e : ∀ n, ∑ k, ey (σ k) * phi (σ k) n = ∑ k, ey k * phi k n :=
          fun n => Equiv.sum_comp σ fun k => ey k * phi k n
        simp only [e]

theorem computeH_topics (X : Vec V ℕ) (Xr : Vec V ℝ) (eta : Mat K C ℝ) (phi : Mat K V ℝ) (h : Option (Vec K ℝ)) :
    computeH P X Xr (fun k => eta (σ k)) (fun k => phi (σ k)) (h.map fun h k => h (σ k)) =
      (computeH P X Xr eta phi h).map fun o => o.map fun h k => h (σ k) := by
  unfold computeH
  rw [factor_topics]
  cases (List.finRange V).reverse.find? (fun n => X n ≠ 0) with
  | none => rfl
  | some n =>
    dsimp only
    rw [Option.map_map]
    rfl

theorem supervisedLikelihood'_topics (X : Vec V ℕ) (y : ℤ) (alpha : Vec K ℝ) (beta : Mat K V ℝ) (eta : Mat K C ℝ)
    (phi : Mat K V ℝ) (gamma : Vec K ℝ) :
    supervisedLikelihood' P X y (fun k => alpha (σ k)) (fun k => beta (σ k)) (fun k => eta (σ k)) (fun k => phi (σ k))
        (fun k => gamma (σ k)) = supervisedLikelihood' P X y alpha beta eta phi gamma := by
  unfold supervisedLikelihood'
  have := computeH_topics σ P X (ratio X) eta phi none
  rw [Option.map_none] at this
  rw [this, colAt_rows]
  cases computeH P X (ratio X) eta phi none with
  | none => simp only [Option.map_none, Option.map_map]; rfl
  | some h => exact supervisedLikelihood_topics σ P X y alpha beta eta phi gamma h

theorem sumLogs_topics (eta : Mat K C ℝ) : sumLogs (fun k => eta (σ k)) = sumLogs eta := by
  unfold sumLogs
  have e : (∀ k c, 0 < eta (σ k) c) ↔ ∀ k c, 0 < eta k c :=
    ⟨fun h k c => by simpa using h (σ.symm k) c, fun h k c => h _ c⟩
  simp only [e]
  rw [Equiv.sum_comp σ fun k => ∑ c, Real.log (eta k c)]

theorem multinomialLikelihood_topics (X : Vec V ℕ) (y : ℤ) (alpha : Vec K ℝ) (beta : Mat K V ℝ) (eta : Mat K C ℝ)
    (phi : Mat K V ℝ) (gamma : Vec K ℝ) (prior mu portion : ℝ) :
    multinomialLikelihood P X y (fun k => alpha (σ k)) (fun k => beta (σ k)) (fun k => eta (σ k)) (fun k => phi (σ k))
        (fun k => gamma (σ k)) prior mu portion =
      multinomialLikelihood P X y alpha beta eta phi gamma prior mu portion := by
  unfold multinomialLikelihood
  rw [colAt_rows, unsupervisedLikelihood_topics, sumLogs_topics]
  cases colAt eta y with
  | none => rfl
  | some ey =>
    simp only [Option.map_some, Option.bind_some, mapOpt_perm]
    cases mapOpt logc ey with
    | none => rfl
    | some le =>
      simp only [Option.map_some, Option.bind_some]
      have e : ∀ n, ∑ k, phi (σ k) n * (X n : ℝ) * le (σ k) = ∑ k, phi k n * (X n : ℝ) * le k :=
        fun n => Equiv.sum_comp σ fun k => phi k n * (X n : ℝ) * le k
      simp only [e]

theorem correspondenceLikelihood_topics (X : Vec V ℕ) (y : ℤ) (alpha : Vec K ℝ) (beta : Mat K V ℝ) (eta : Mat K C ℝ)
    (phi : Mat K V ℝ) (gamma : Vec K ℝ) (tau : Vec V ℝ) (mu portion : ℝ) :
    correspondenceLikelihood P X y (fun k => alpha (σ k)) (fun k => beta (σ k)) (fun k => eta (σ k))
        (fun k => phi (σ k)) (fun k => gamma (σ k)) tau mu portion =
      correspondenceLikelihood P X y alpha beta eta phi gamma tau mu portion := by
  unfold correspondenceLikelihood
  rw [colAt_rows, unsupervisedLikelihood_topics, sumLogs_topics]
  cases colAt eta y with
  | none => rfl
  | some ey =>
    simp only [Option.map_some, Option.bind_some, mapOpt_perm]
    cases mapOpt logc ey with
    | none => rfl
    | some le =>
      simp only [Option.map_some, Option.bind_some]
      have e : ∀ n, ∑ k, phi (σ k) n * ((X n : ℝ) * tau n) * le (σ k) = ∑ k, phi k n * ((X n : ℝ) * tau n) * le k :=
        fun n => Equiv.sum_comp σ fun k => phi k n * ((X n : ℝ) * tau n) * le k
      simp only [e]

end Topics

/-! ### Words -/

section Words

variable (τ : Equiv.Perm (Fin V)) (P : Prims)

/-- A loop whose body commutes with a change of the state that leaves `gamma` alone commutes with it. -/
theorem loop_map {S : Type} {step step' : S → Option S} {gam : S → Vec K ℝ} {tol : ℝ} (T : S → S)
    (hg : ∀ s, gam (T s) = gam s) (hstep : ∀ s, step' (T s) = (step s).map T) (i : ℕ) (old : Vec K ℝ) (s : S) :
    loop step' gam tol i old (T s) = (loop step gam tol i old s).map T :=
  loop_perm (Equiv.refl _) T hg hstep i old s

theorem computeGamma_words (X : Vec V ℕ) (alpha : Vec K ℝ) (phi : Mat K V ℝ) :
    computeGamma (fun n => X (τ n)) alpha (fun k n => phi k (τ n)) = computeGamma X alpha phi :=
  sumColsScaled_cols τ phi (fun n => (X n : ℝ)) alpha

theorem unsupervisedStep_words (X : Vec V ℕ) (m : Model K V C) (s : VP K V) :
    unsupervisedStep P (fun n => X (τ n)) (m.words τ) (s.words τ) = (unsupervisedStep P X m s).map (VP.words τ) := by
  unfold unsupervisedStep unsupervisedPhi
  simp only [Model.words, VP.words, Option.map_map]
  congr 1
  funext psi
  have h := normalizeCols_cols τ fun k n => m.beta k n * P.exp (psi k)
  simp only [Function.comp, h, computeGamma_words]
  rfl

theorem softmaxEtaZ_words (Xr : Vec V ℝ) (eta : Mat K C ℝ) (phi : Mat K V ℝ) :
    softmaxEtaZ P (fun n => Xr (τ n)) eta (fun k n => phi k (τ n)) = softmaxEtaZ P Xr eta phi := by
  unfold softmaxEtaZ
  rw [sumColsScaled_cols]

theorem fastStep_words (w : ℝ) (X : Vec V ℕ) (y : ℤ) (m : Model K V C) (s : VP K V) :
    fastStep P w (fun n => X (τ n)) y (m.words τ) (s.words τ) = (fastStep P w X y m s).map (VP.words τ) := by
  unfold fastStep approximatePhi
  simp only [Model.words, VP.words, numWords_words, ratio_words, softmaxEtaZ_words]
  split
  · simp only [Option.map_some, computeGamma_words]
    rfl
  · cases mapOpt P.psi s.gamma with
    | none => rfl
    | some psi =>
      cases softmaxEtaZ P (ratio X) m.eta s.phi with
      | none => rfl
      | some sm =>
        cases etaScaled m.eta with
        | none => rfl
        | some es =>
          simp only [Option.bind_some]
          cases colAt es y with
          | none => rfl
          | some ey =>
            have h := normalizeCols_cols τ fun k n => m.beta k n * P.exp (psi k + w * (ey k - ∑ c, es k c * sm c))
            simp only [Option.bind_some, Option.map_some, h, computeGamma_words]
            rfl

theorem multinomialStep_words (ew : ℝ) (X : Vec V ℕ) (y : ℤ) (m : Model K V C) (s : VP K V) :
    multinomialStep P ew (fun n => X (τ n)) y (m.words τ) (s.words τ) =
      (multinomialStep P ew X y m s).map (VP.words τ) := by
  unfold multinomialStep multinomialPhi
  simp only [Model.words, VP.words]
  cases mapOpt P.psi s.gamma with
  | none => rfl
  | some t1 =>
    cases P.psi (∑ k, s.gamma k) with
    | none => rfl
    | some d =>
      cases colAt m.eta y with
      | none => rfl
      | some ey =>
        simp only [Option.bind_some]
        cases mapOpt logc ey with
        | none => rfl
        | some le =>
          have h := normalizeCols_cols τ fun k n => m.beta k n * P.exp (ew * le k + t1 k - (d + 1))
          simp only [Option.bind_some, Option.map_some, h, computeGamma_words]
          rfl

/-- What the correspondence loop carries, with renumbered words. -/
def corWords (s : VP K V × Vec V ℝ) : VP K V × Vec V ℝ := (s.1.words τ, fun n => s.2 (τ n))

theorem correspondenceStep_words (X : Vec V ℕ) (y : ℤ) (m : Model K V C) (s : VP K V × Vec V ℝ) :
    correspondenceStep P (fun n => X (τ n)) y (m.words τ) (corWords τ s) =
      (correspondenceStep P X y m s).map (corWords τ) := by
  unfold correspondenceStep correspondencePhi correspondenceTau corWords
  simp only [Model.words, VP.words]
  cases mapOpt P.psi s.1.gamma with
  | none => rfl
  | some t1 =>
    cases colAt m.eta y with
    | none => rfl
    | some ey =>
      simp only [Option.bind_some]
      cases mapOpt logc ey with
      | none => rfl
      | some le =>
        have h := normalizeCols_cols τ fun k n => m.beta k n * P.exp (t1 k) * P.exp (le k * s.2 n)
        have h2 := normalizeCols_rows τ fun n (_ : Fin 1) => P.exp (∑ k, normalizeCols
          (fun k n => m.beta k n * P.exp (t1 k) * P.exp (le k * s.2 n)) k n * le k)
        simp only [Option.bind_some, Option.map_some, h, h2, computeGamma_words]

theorem unsupervisedLikelihood_words (X : Vec V ℕ) (alpha : Vec K ℝ) (beta phi : Mat K V ℝ) (gamma : Vec K ℝ) :
    unsupervisedLikelihood P (fun n => X (τ n)) alpha (fun k n => beta k (τ n)) (fun k n => phi k (τ n)) gamma =
      unsupervisedLikelihood P X alpha beta phi gamma := by
  unfold unsupervisedLikelihood
  cases mapOpt P.psi gamma with
  | none => rfl
  | some pg =>
    simp only [Option.bind_some]
    cases P.psi (∑ k, gamma k) with
    | none => rfl
    | some ps =>
      simp only [Option.bind_some, Option.some.injEq]
      rw [Equiv.sum_comp τ fun n => ∑ k, phi k n * (if X n ≠ 0 then (1 : ℝ) else 0) * (pg k - ps),
        Equiv.sum_comp τ fun n => ∑ k, phi k n * (X n : ℝ) * Real.log (beta k n + tiny),
        Equiv.sum_comp τ fun n => ∑ k, phi k n * (if X n ≠ 0 then (1 : ℝ) else 0) *
          Real.log (phi k n * (if X n ≠ 0 then (1 : ℝ) else 0) + tiny)]

theorem multinomialLikelihood_words (X : Vec V ℕ) (y : ℤ) (alpha : Vec K ℝ) (beta : Mat K V ℝ) (eta : Mat K C ℝ)
    (phi : Mat K V ℝ) (gamma : Vec K ℝ) (prior mu portion : ℝ) :
    multinomialLikelihood P (fun n => X (τ n)) y alpha (fun k n => beta k (τ n)) eta (fun k n => phi k (τ n)) gamma
        prior mu portion = multinomialLikelihood P X y alpha beta eta phi gamma prior mu portion := by
  unfold multinomialLikelihood
  rw [unsupervisedLikelihood_words, numWords_words]
  have e : ∀ le : Vec K ℝ, ∑ n, ∑ k, phi k (τ n) * (X (τ n) : ℝ) * le k = ∑ n, ∑ k, phi k n * (X n : ℝ) * le k :=
    fun le => Equiv.sum_comp τ fun n => ∑ k, phi k n * (X n : ℝ) * le k
  simp only [e]

theorem correspondenceLikelihood_words (X : Vec V ℕ) (y : ℤ) (alpha : Vec K ℝ) (beta : Mat K V ℝ) (eta : Mat K C ℝ)
    (phi : Mat K V ℝ) (gamma : Vec K ℝ) (tau : Vec V ℝ) (mu portion : ℝ) :
    correspondenceLikelihood P (fun n => X (τ n)) y alpha (fun k n => beta k (τ n)) eta (fun k n => phi k (τ n)) gamma
        (fun n => tau (τ n)) mu portion = correspondenceLikelihood P X y alpha beta eta phi gamma tau mu portion := by
  unfold correspondenceLikelihood
  rw [unsupervisedLikelihood_words, numWords_words]
  have e : ∀ le : Vec K ℝ, ∑ n, ∑ k, phi k (τ n) * ((X (τ n) : ℝ) * tau (τ n)) * le k =
      ∑ n, ∑ k, phi k n * ((X n : ℝ) * tau n) * le k :=
    fun le => Equiv.sum_comp τ fun n => ∑ k, phi k n * ((X n : ℝ) * tau n) * le k
  rw [Equiv.sum_comp τ fun n => tau n * (X n : ℝ) * Real.log (tau n + tiny)]
  simp only [e]

end Words

end Verif.EStep
