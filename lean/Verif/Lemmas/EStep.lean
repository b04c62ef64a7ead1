import Verif.Spec.EStep
import Verif.Props.MathUtils
import Verif.Props.FastExp

/-! Lemmas on the expectation steps. -/
namespace Verif.EStep

open MathUtils Finset

variable {K V C : ℕ}

/-- `fast_exp` and `digamma` as they are in the library. -/
noncomputable def fastPrims : Prims where
  exp := fun x => (FastExp.C29_total x).choose
  psi := FastExp.digamma
  exp_pos := fun x => (FastExp.C29_total x).choose_spec.2
  exp_zero := by
    have h := (FastExp.C29_total 0).choose_spec.1
    have h0 : FastExp.fastExp 0 = some 1 := by
      rw [FastExp.fastExp_nonneg 0 le_rfl, FastExp.fastExpPos_small 0 le_rfl (by norm_num)]
      have e : FastExp.halve 0 = (0, 0) := by rw [FastExp.halve]; norm_num
      have : FastExp.idx 0 = 0 := by simp [FastExp.idx, e]
      simp [this, e, FastExp.T_zero]
    exact Option.some.inj (h.symm.trans h0)
  psi_some := FastExp.C32_positive

theorem fastPrims_exp (x : ℝ) : FastExp.fastExp x = some (fastPrims.exp x) :=
  (FastExp.C29_total x).choose_spec.1

/-- The exact exponential together with some function in place of digamma. -/
noncomputable def exactPrims (psi : ℝ → ℝ) : Prims where
  exp := Real.exp
  psi := fun x => some (psi x)
  exp_pos := Real.exp_pos
  exp_zero := Real.exp_zero
  psi_some := fun x _ => ⟨psi x, rfl⟩

theorem mapOpt_eq {n : ℕ} {f : ℝ → Option ℝ} {v w : Vec n ℝ} :
    mapOpt f v = some w ↔ ∀ i, f (v i) = some (w i) := by
  unfold mapOpt
  split
  · rename_i h
    rw [Option.some.injEq]
    constructor
    · rintro rfl i; simp
    · intro hw
      funext i
      simp [hw i]
  · rename_i h
    constructor
    · intro h'; exact absurd h' (by simp)
    · intro hw; exact absurd (fun i => by rw [hw i]; rfl) h

theorem mapOpt_total {n : ℕ} {f : ℝ → Option ℝ} {v : Vec n ℝ} (h : ∀ i, ∃ w, f (v i) = some w) :
    ∃ w, mapOpt f v = some w := by
  choose w hw using h
  exact ⟨w, mapOpt_eq.2 hw⟩

theorem mapOpt_psi (P : Prims) {n : ℕ} {v : Vec n ℝ} (h : ∀ i, 0 < v i) : ∃ w, mapOpt P.psi v = some w :=
  mapOpt_total fun i => P.psi_some _ (h i)

theorem logc_eq {x l : ℝ} : logc x = some l ↔ 0 < x ∧ l = Real.log x := by
  unfold logc
  split <;> rename_i h <;> simp [h, eq_comm]

theorem logc_pos {x : ℝ} (h : 0 < x) : logc x = some (Real.log x) := logc_eq.2 ⟨h, rfl⟩

theorem mapOpt_logc {n : ℕ} {v : Vec n ℝ} (h : ∀ i, 0 < v i) :
    mapOpt logc v = some fun i => Real.log (v i) := mapOpt_eq.2 fun i => logc_pos (h i)

theorem mapOpt_logc_eq {n : ℕ} {v w : Vec n ℝ} (h : mapOpt logc v = some w) :
    (∀ i, 0 < v i) ∧ w = fun i => Real.log (v i) :=
  ⟨fun i => (logc_eq.1 (mapOpt_eq.1 h i)).1, funext fun i => (logc_eq.1 (mapOpt_eq.1 h i)).2⟩

theorem colAt_eq {r c : ℕ} {m : Mat r c ℝ} {y : ℤ} {v : Vec r ℝ} :
    colAt m y = some v ↔ ∃ i : Fin c, (i : ℤ) = y ∧ v = fun k => m k i := by
  unfold colAt
  split
  · rename_i h
    rw [Option.some.injEq]
    constructor
    · rintro rfl
      exact ⟨⟨y.toNat, by omega⟩, by simp; omega, rfl⟩
    · rintro ⟨i, hi, rfl⟩
      funext k
      congr
      omega
  · rename_i h
    constructor
    · intro h'; exact absurd h' (by simp)
    · rintro ⟨i, hi, _⟩
      exact absurd ⟨by omega, by omega⟩ h

theorem colAt_fin {r c : ℕ} (m : Mat r c ℝ) (i : Fin c) : colAt m (i : ℤ) = some fun k => m k i :=
  colAt_eq.2 ⟨i, rfl, rfl⟩

theorem numWords_cast (X : Vec V ℕ) : (numWords X : ℝ) = ∑ n, (X n : ℝ) := by
  unfold numWords; push_cast; rfl

theorem computeGamma_apply (X : Vec V ℕ) (alpha : Vec K ℝ) (phi : Mat K V ℝ) (k : Fin K) :
    computeGamma X alpha phi k = alpha k + ∑ n, (X n : ℝ) * phi k n := by
  unfold computeGamma
  rw [sumColsScaled_apply]

/-! ### The loop -/

variable {S : Type}

theorem loop_inv {step : S → Option S} {gam : S → Vec K ℝ} {tol : ℝ} (I : S → Prop)
    (hstep : ∀ s s', I s → step s = some s' → I s') :
    ∀ (i : ℕ) (old : Vec K ℝ) (s r : S), I s → loop step gam tol i old s = some r → I r := by
  intro i
  induction i with
  | zero => intro old s r hs h; simp only [loop, Option.some.injEq] at h; exact h ▸ hs
  | succ i ih =>
    intro old s r hs h
    rw [loop] at h
    split at h
    · simp only [Option.some.injEq] at h; exact h ▸ hs
    · rw [Option.bind_eq_some_iff] at h
      obtain ⟨s', h1, h2⟩ := h
      exact ih _ s' r (hstep s s' hs h1) h2

theorem loop_total {step : S → Option S} {gam : S → Vec K ℝ} {tol : ℝ} (I : S → Prop)
    (hstep : ∀ s, I s → ∃ s', step s = some s' ∧ I s') :
    ∀ (i : ℕ) (old : Vec K ℝ) (s : S), I s → ∃ r, loop step gam tol i old s = some r ∧ I r := by
  intro i
  induction i with
  | zero => intro old s hs; exact ⟨s, rfl, hs⟩
  | succ i ih =>
    intro old s hs
    rw [loop]
    split
    · exact ⟨s, rfl, hs⟩
    · obtain ⟨s', h1, h2⟩ := hstep s hs
      rw [h1]
      exact ih _ s' h2

/-- Two loops whose states stay related stop at the same time. -/
theorem loop_sim {S' : Type} {step : S → Option S} {step' : S' → Option S'} {gam : S → Vec K ℝ}
    {gam' : S' → Vec K ℝ} {tol : ℝ} (R : S → S' → Prop) (hg : ∀ s s', R s s' → gam s = gam' s')
    (hstep : ∀ s s', R s s' → Option.Rel R (step s) (step' s')) :
    ∀ (i : ℕ) (old : Vec K ℝ) (s : S) (s' : S'), R s s' →
      Option.Rel R (loop step gam tol i old s) (loop step' gam' tol i old s') := by
  intro i
  induction i with
  | zero => intro old s s' h; exact .some h
  | succ i ih =>
    intro old s s' h
    rw [loop, loop, hg s s' h]
    split
    · exact .some h
    · have := hstep s s' h
      revert this
      cases h1 : step s <;> cases h2 : step' s' <;> intro this <;> cases this
      · exact .none
      · rename_i hr
        exact ih _ _ _ hr

theorem converged_iff (hK : 0 < K) (old new : Vec K ℝ) (tol : ℝ) :
    converged old new tol = true ↔ (∑ k, |new k - old k|) / K < tol := by
  unfold converged
  rw [decide_eq_true_eq]
  simp only [ne_eq, hK.ne', not_false_eq_true, true_and]
  simp only [abs_sub_comm]

/-- The loop returns the first converged iterate. -/
theorem loop_spec (hK : 0 < K) {step : S → Option S} {gam : S → Vec K ℝ} {tol : ℝ} :
    ∀ (i : ℕ) (old : Vec K ℝ) (s r : S), loop step gam tol i old s = some r →
      ∃ (f : ℕ → S) (j : ℕ), f 0 = s ∧ (∀ t < j, step (f t) = some (f (t + 1))) ∧ r = f j ∧ j ≤ i ∧
        (∀ t < j, ¬ (∑ k, |gam (f t) k - (if t = 0 then old else gam (f (t - 1))) k|) / K < tol) ∧
        (j < i → (∑ k, |gam (f j) k - (if j = 0 then old else gam (f (j - 1))) k|) / K < tol) := by
  intro i
  induction i with
  | zero =>
    intro old s r h
    simp only [loop, Option.some.injEq] at h
    exact ⟨fun _ => s, 0, rfl, by simp, h.symm, le_rfl, by simp, by simp⟩
  | succ i ih =>
    intro old s r h
    rw [loop] at h
    split at h
    · rename_i hc
      simp only [Option.some.injEq] at h
      refine ⟨fun _ => s, 0, rfl, by simp, h.symm, by omega, by simp, fun _ => ?_⟩
      simpa using (converged_iff hK _ _ _).1 hc
    · rename_i hc
      rw [converged_iff hK] at hc
      rw [Option.bind_eq_some_iff] at h
      obtain ⟨s', h1, h2⟩ := h
      obtain ⟨f, j, f0, fs, fr, fj, fn, fc⟩ := ih _ s' r h2
      refine ⟨fun t => if t = 0 then s else f (t - 1), j + 1, rfl, ?_, by simpa using fr, by omega, ?_, ?_⟩
      · intro t ht
        cases t with
        | zero => simp [h1, f0]
        | succ t => simpa using fs t (by omega)
      · intro t ht
        cases t with
        | zero => simpa using hc
        | succ t =>
          have := fn t (by omega)
          cases t with
          | zero => simpa using this
          | succ t => simpa using this
      · intro hj
        have := fc (by omega)
        cases j with
        | zero => simpa using this
        | succ j => simpa using this

/-- The same in the words of the specification. -/
theorem loop_reaches (hK : 0 < K) {step : S → Option S} {gam : S → Vec K ℝ} {tol : ℝ} {limit : ℕ}
    {s r : S} (h : loop step gam tol limit (fun _ => 0) s = some r) (I : S → Prop) (hs : I s)
    (R : S → S → Prop) (hstep : ∀ a b, I a → step a = some b → I b ∧ R a b) :
    Reaches R s r limit tol gam := by
  obtain ⟨f, j, f0, fs, fr, fj, fn, fc⟩ := loop_spec hK limit _ s r h
  have e : ∀ t, (∑ k, |gam (f t) k - (if t = 0 then fun _ => 0 else gam (f (t - 1))) k|) / K =
      change (fun i => gam (f i)) t := by
    intro t
    cases t with
    | zero => simp [change]
    | succ t => simp [change]
  simp only [e] at fn fc
  have hI : ∀ t ≤ j, I (f t) := by
    intro t
    induction t with
    | zero => intro _; rw [f0]; exact hs
    | succ t ih => intro ht; exact (hstep _ _ (ih (by omega)) (fs t (by omega))).1
  exact ⟨f, j, f0, fun t ht => (hstep _ _ (hI t ht.le) (fs t ht)).2, fr, fj, fc, fn⟩

/-! ### Normalised columns -/

theorem normalizeCols_proportional {w : Mat K V ℝ} (h : ∀ k n, 0 ≤ w k n) :
    Proportional (normalizeCols w) w := by
  intro n
  have key : (∑ j, w j n) = 0 ↔ ∀ k, w k n = 0 := by
    rw [Finset.sum_eq_zero_iff_of_nonneg fun k _ => h k n]
    simp
  refine ⟨fun k => ?_, fun hw => ?_, fun hw k => ?_⟩
  · rw [normalizeCols_apply]
    split
    · rename_i h0; rw [key.1 h0 k, zero_mul]
    · rename_i h0; field_simp
  · have h0 : (∑ j, w j n) ≠ 0 := by
      rw [Ne, key]; push Not; exact hw
    exact ((C27_normalize_cols w n).1 h0).1
  · rw [normalizeCols_apply, if_pos (key.2 hw), hw k]

theorem Proportional.nonneg {phi w : Mat K V ℝ} (hp : Proportional phi w) (h : ∀ k n, 0 ≤ w k n) (k : Fin K)
    (n : Fin V) : 0 ≤ phi k n := by
  obtain ⟨h1, h2, h3⟩ := hp n
  by_cases hw : ∀ k, w k n = 0
  · rw [h3 hw k]
  · have hpos : 0 < ∑ j, w j n := by
      push Not at hw
      obtain ⟨j, hj⟩ := hw
      exact Finset.sum_pos' (fun i _ => h i n) ⟨j, mem_univ j, lt_of_le_of_ne (h j n) (Ne.symm hj)⟩
    have := h1 k
    by_contra hc
    push Not at hc
    have : phi k n * (∑ j, w j n) < 0 := mul_neg_of_neg_of_pos hc hpos
    linarith [h k n]

/-- What all four steps with independent columns share. -/
theorem Proportional.dist {m : Model K V C} (hm : m.Valid) {phi : Mat K V ℝ} {e : Mat K V ℝ}
    (he : ∀ k n, 0 < e k n) (hp : Proportional phi (fun k n => m.beta k n * e k n)) :
    (∀ k n, 0 ≤ phi k n) ∧ (∀ n, m.Known n → ∑ k, phi k n = 1) ∧ (∀ n, ¬ m.Known n → ∀ k, phi k n = 0) := by
  refine ⟨hp.nonneg fun k n => mul_nonneg (hm.beta_nonneg k n) (he k n).le, fun n hn => ?_, fun n hn k => ?_⟩
  · obtain ⟨k, hk⟩ := hn
    exact (hp n).2.1 ⟨k, (mul_pos hk (he k n)).ne'⟩
  · refine (hp n).2.2 (fun j => ?_) k
    have : m.beta j n = 0 := by
      by_contra hc
      exact hn ⟨j, lt_of_le_of_ne (hm.beta_nonneg j n) (Ne.symm hc)⟩
    simp only [this, zero_mul]

/-! ### One update of each step -/

theorem computeGamma_counts (X : Vec V ℕ) (alpha : Vec K ℝ) (phi : Mat K V ℝ) :
    Counts X alpha ⟨phi, computeGamma X alpha phi⟩ := fun k => computeGamma_apply X alpha phi k

theorem counts_pos {X : Vec V ℕ} {m : Model K V C} (hm : m.Valid) {s : VP K V} (hc : Counts X m.alpha s)
    (hphi : ∀ k n, 0 ≤ s.phi k n) (k : Fin K) : m.alpha k ≤ s.gamma k ∧ 0 < s.gamma k := by
  have h0 : 0 ≤ ∑ n, (X n : ℝ) * s.phi k n :=
    Finset.sum_nonneg fun n _ => mul_nonneg (Nat.cast_nonneg _) (hphi k n)
  have h1 := hm.alpha_pos k
  rw [hc k]
  constructor <;> linarith

theorem unsupervisedStep_update {P : Prims} {X : Vec V ℕ} {m : Model K V C} (hm : m.Valid)
    {s s' : VP K V} (h : unsupervisedStep P X m s = some s') : UnsupervisedUpdate P X m s s' := by
  unfold unsupervisedStep unsupervisedPhi at h
  rw [Option.map_map, Option.map_eq_some_iff] at h
  obtain ⟨psi, h1, rfl⟩ := h
  refine ⟨psi, mapOpt_eq.1 h1, normalizeCols_proportional fun k n => ?_, computeGamma_counts _ _ _⟩
  exact mul_nonneg (hm.beta_nonneg k n) (P.exp_pos _).le

theorem unsupervisedStep_total {P : Prims} {X : Vec V ℕ} {m : Model K V C} {s : VP K V}
    (hg : ∀ k, 0 < s.gamma k) : ∃ s', unsupervisedStep P X m s = some s' := by
  obtain ⟨psi, h⟩ := mapOpt_psi P hg
  exact ⟨_, by unfold unsupervisedStep unsupervisedPhi; rw [h]; rfl⟩

theorem maxCoeff_spec {r c : ℕ} {m : Mat r c ℝ} {x : ℝ} (h : maxCoeff m = some x) :
    (∃ k i, m k i = x) ∧ ∀ k i, m k i ≤ x := by
  unfold maxCoeff at h
  split at h
  · rename_i hne
    rw [Option.some.injEq] at h
    subst h
    obtain ⟨p, _, hp⟩ := Finset.exists_mem_eq_sup' hne (fun p : Fin r × Fin c => m p.1 p.2)
    exact ⟨⟨p.1, p.2, hp.symm⟩, fun k i => Finset.le_sup' (fun p : Fin r × Fin c => m p.1 p.2) (mem_univ (k, i))⟩
  · exact absurd h (by simp)

theorem maxCoeff_total {r c : ℕ} (m : Mat r c ℝ) (i : Fin r) (j : Fin c) : ∃ x, maxCoeff m = some x := by
  unfold maxCoeff
  rw [dif_pos ⟨(i, j), mem_univ _⟩]
  exact ⟨_, rfl⟩

theorem etaScaled_spec {eta es : Mat K C ℝ} (h : etaScaled eta = some es) : IsScaled eta es := by
  unfold etaScaled at h
  rw [Option.map_eq_some_iff] at h
  obtain ⟨mx, h1, rfl⟩ := h
  obtain ⟨h2, h3⟩ := maxCoeff_spec h1
  refine ⟨mx, h2, h3, ?_⟩
  split
  · rename_i hp
    exact Or.inl ⟨hp, fun k c => by field_simp⟩
  · rename_i hp
    exact Or.inr ⟨not_lt.1 hp, rfl⟩

theorem softmaxEtaZ_spec {P : Prims} {X : Vec V ℕ} {eta : Mat K C ℝ} {phi : Mat K V ℝ} {sm : Vec C ℝ}
    (h : softmaxEtaZ P (ratio X) eta phi = some sm) : IsSoftmax P X eta phi sm := by
  unfold softmaxEtaZ at h
  simp only at h
  have e : ∀ k, sumColsScaled phi (ratio X) (fun _ => 0) k = (∑ n, (X n : ℝ) * phi k n) / ∑ n, (X n : ℝ) := by
    intro k
    rw [sumColsScaled_apply, zero_add, Finset.sum_div]
    refine Finset.sum_congr rfl fun n _ => ?_
    unfold ratio
    rw [numWords_cast]
    ring
  simp only [e] at h
  split at h
  · exact absurd h (by simp)
  · rename_i hs
    rw [Option.some.injEq] at h
    subst h
    refine ⟨⟨fun c => ?_, ?_⟩, fun c d => by ring⟩
    · exact div_nonneg (P.exp_pos _).le (Finset.sum_nonneg fun c _ => (P.exp_pos _).le)
    · rw [← Finset.sum_div, div_self hs]

theorem softmaxEtaZ_total {P : Prims} (Xr : Vec V ℝ) (eta : Mat K C ℝ) (phi : Mat K V ℝ) (y : Fin C) :
    ∃ sm, softmaxEtaZ P Xr eta phi = some sm := by
  unfold softmaxEtaZ
  simp only
  rw [if_neg (Finset.sum_pos (fun c _ => P.exp_pos _) ⟨y, mem_univ y⟩).ne']
  exact ⟨_, rfl⟩

theorem fastStep_update {P : Prims} {w : ℝ} {X : Vec V ℕ} {y : Fin C} {m : Model K V C} (hm : m.Valid)
    (hX : numWords X ≠ 0) {s s' : VP K V} (h : fastStep P w X (y : ℤ) m s = some s') :
    FastUpdate P w X y m s s' := by
  unfold fastStep approximatePhi at h
  rw [if_neg hX, Option.map_eq_some_iff] at h
  obtain ⟨phi, h1, rfl⟩ := h
  simp only [Option.bind_eq_some_iff, Option.some.injEq] at h1
  obtain ⟨psi, hpsi, sm, hsm, es, hes, ey, hey, rfl⟩ := h1
  rw [colAt_fin, Option.some.injEq] at hey
  subst hey
  refine ⟨psi, sm, es, mapOpt_eq.1 hpsi, softmaxEtaZ_spec hsm, etaScaled_spec hes, ?_, computeGamma_counts _ _ _⟩
  simp only [mul_comm (sm _)]
  exact normalizeCols_proportional fun k n => mul_nonneg (hm.beta_nonneg k n) (P.exp_pos _).le

theorem fastStep_total {P : Prims} {w : ℝ} {X : Vec V ℕ} {y : Fin C} {m : Model K V C} {s : VP K V}
    (hK : 0 < K) (hg : ∀ k, 0 < s.gamma k) : ∃ s', fastStep P w X (y : ℤ) m s = some s' := by
  obtain ⟨psi, h1⟩ := mapOpt_psi P hg
  obtain ⟨sm, h2⟩ := softmaxEtaZ_total (P := P) (ratio X) m.eta s.phi y
  obtain ⟨mx, h3⟩ := maxCoeff_total m.eta ⟨0, hK⟩ y
  unfold fastStep approximatePhi etaScaled
  split
  · exact ⟨_, rfl⟩
  · rw [h1, h2, h3]
    simp [colAt_fin]

theorem fastStep_empty {P : Prims} {w : ℝ} {X : Vec V ℕ} {y : ℤ} {m : Model K V C} {s : VP K V}
    (hX : numWords X = 0) : fastStep P w X y m s = some ⟨s.phi, computeGamma X m.alpha s.phi⟩ := by
  unfold fastStep approximatePhi
  rw [if_pos hX]
  rfl

theorem multinomialStep_update {P : Prims} {ew : ℝ} {X : Vec V ℕ} {y : Fin C} {m : Model K V C}
    (hm : m.Valid) {s s' : VP K V} (h : multinomialStep P ew X (y : ℤ) m s = some s') :
    MultinomialUpdate P ew X y m s s' := by
  unfold multinomialStep multinomialPhi at h
  rw [Option.map_eq_some_iff] at h
  obtain ⟨phi, h1, rfl⟩ := h
  simp only [Option.bind_eq_some_iff, Option.some.injEq] at h1
  obtain ⟨psi, hpsi, d, hd, ey, hey, le, hle, rfl⟩ := h1
  rw [colAt_fin, Option.some.injEq] at hey
  subst hey
  obtain ⟨_, rfl⟩ := mapOpt_logc_eq hle
  refine ⟨psi, d, mapOpt_eq.1 hpsi, hd, ?_, computeGamma_counts _ _ _⟩
  have e : ∀ k, psi k - d - 1 + ew * Real.log (m.eta k y) = ew * Real.log (m.eta k y) + psi k - (d + 1) := by
    intro k; ring
  simp only [e]
  exact normalizeCols_proportional fun k n => mul_nonneg (hm.beta_nonneg k n) (P.exp_pos _).le

theorem multinomialStep_total {P : Prims} {ew : ℝ} {X : Vec V ℕ} {y : Fin C} {m : Model K V C} {s : VP K V}
    (hK : 0 < K) (he : ∀ k, 0 < m.eta k y) (hg : ∀ k, 0 < s.gamma k) :
    ∃ s', multinomialStep P ew X (y : ℤ) m s = some s' := by
  obtain ⟨psi, h1⟩ := mapOpt_psi P hg
  obtain ⟨d, h2⟩ := P.psi_some (∑ k, s.gamma k) (Finset.sum_pos (fun k _ => hg k) ⟨⟨0, hK⟩, mem_univ _⟩)
  unfold multinomialStep multinomialPhi
  rw [h1, h2, colAt_fin]
  simp [mapOpt_logc he]

theorem tau_spec {f : Vec V ℝ} (h : ∀ n, 0 < f n) :
    (∀ n, normalizeCols (fun n (_ : Fin 1) => f n) n 0 * ∑ l, f l = f n) ∧
    (0 < V → ∑ n, normalizeCols (fun n (_ : Fin 1) => f n) n 0 = 1) := by
  have := C27_normalize_cols (fun n (_ : Fin 1) => f n) 0
  by_cases hV : 0 < V
  · have hs : (∑ n, f n) ≠ 0 := (Finset.sum_pos (fun n _ => h n) ⟨⟨0, hV⟩, mem_univ _⟩).ne'
    obtain ⟨h1, h2⟩ := this.1 hs
    exact ⟨h2, fun _ => h1⟩
  · exact ⟨fun n => absurd n.2 (by omega), fun h => absurd h hV⟩

theorem correspondenceStep_update {P : Prims} {X : Vec V ℕ} {y : Fin C} {m : Model K V C}
    (hm : m.Valid) {s s' : VP K V × Vec V ℝ} (h : correspondenceStep P X (y : ℤ) m s = some s') :
    CorrespondenceUpdate P X y m s s' := by
  unfold correspondenceStep correspondencePhi correspondenceTau at h
  simp only [Option.bind_eq_some_iff, Option.some.injEq, Option.map_eq_some_iff] at h
  obtain ⟨phi, ⟨psi, hpsi, ey, hey, le, hle, rfl⟩, tau, ⟨ey', hey', le', hle', rfl⟩, rfl⟩ := h
  rw [colAt_fin, Option.some.injEq] at hey hey'
  subst hey hey'
  obtain ⟨_, rfl⟩ := mapOpt_logc_eq hle
  obtain ⟨_, rfl⟩ := mapOpt_logc_eq hle'
  refine ⟨psi, mapOpt_eq.1 hpsi, ?_, computeGamma_counts _ _ _, ?_⟩
  · simp only [← mul_assoc, mul_comm (s.2 _)]
    exact normalizeCols_proportional fun k n =>
      mul_nonneg (mul_nonneg (hm.beta_nonneg k n) (P.exp_pos _).le) (P.exp_pos _).le
  · exact tau_spec fun n => P.exp_pos _

theorem correspondenceStep_total {P : Prims} {X : Vec V ℕ} {y : Fin C} {m : Model K V C}
    {s : VP K V × Vec V ℝ} (he : ∀ k, 0 < m.eta k y) (hg : ∀ k, 0 < s.1.gamma k) :
    ∃ s', correspondenceStep P X (y : ℤ) m s = some s' := by
  obtain ⟨psi, h1⟩ := mapOpt_psi P hg
  unfold correspondenceStep correspondencePhi correspondenceTau
  rw [h1, colAt_fin]
  simp [mapOpt_logc he]

/-! ### The initial parameters -/

theorem initial_counts (X : Vec V ℕ) (alpha : Vec K ℝ) : Counts X alpha (initial X alpha) := by
  intro k
  unfold initial
  simp only
  rw [numWords_cast, ← Finset.sum_mul]
  ring

theorem initial_dist (hK : 0 < K) (X : Vec V ℕ) (alpha : Vec K ℝ) (n : Fin V) :
    IsDist fun k => (initial X alpha).phi k n := by
  unfold initial
  refine ⟨fun k => by positivity, ?_⟩
  simp only [Finset.sum_const, card_univ, Fintype.card_fin, nsmul_eq_mul]
  have : (K : ℝ) ≠ 0 := by exact_mod_cast hK.ne'
  field_simp

theorem initial_phi_nonneg (X : Vec V ℕ) (alpha : Vec K ℝ) (k : Fin K) (n : Fin V) :
    0 ≤ (initial X alpha).phi k n := by
  unfold initial; positivity

end Verif.EStep
