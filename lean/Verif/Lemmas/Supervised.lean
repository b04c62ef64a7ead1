import Verif.Lemmas.EStep
import Mathlib.Algebra.BigOperators.Fin

/-! Lemmas on the supervised expectation step, in particular the running products. -/
namespace Verif.EStep

open MathUtils Finset

variable {K V C : ℕ}

theorem IsDist.sum_mul_pos {n : ℕ} {v e : Vec n ℝ} (h : IsDist v) (he : ∀ k, 0 < e k) :
    0 < ∑ k, e k * v k := by
  have h1 : 0 ≤ ∑ k, e k * v k := Finset.sum_nonneg fun k _ => mul_nonneg (he k).le (h.1 k)
  refine lt_of_le_of_ne h1 fun h0 => ?_
  have := (Finset.sum_eq_zero_iff_of_nonneg fun k _ => mul_nonneg (he k).le (h.1 k)).1 h0.symm
  have hz : ∀ k, v k = 0 := fun k => by
    have := this k (mem_univ k)
    exact (mul_eq_zero.1 this).resolve_left (he k).ne'
  have := h.2
  simp [hz] at this

theorem factor_pos {P : Prims} {Xr : Vec V ℝ} {eta : Mat K C ℝ} {phi : Mat K V ℝ} {n : Fin V}
    (h : IsDist fun k => phi k n) (c : Fin C) : 0 < factor P Xr eta phi n c :=
  h.sum_mul_pos fun _ => P.exp_pos _

theorem factor_absent {P : Prims} {X : Vec V ℕ} {eta : Mat K C ℝ} {phi : Mat K V ℝ} {n : Fin V}
    (h : IsDist fun k => phi k n) (hX : X n = 0) (c : Fin C) : factor P (ratio X) eta phi n c = 1 := by
  unfold factor ratio
  simp only [hX, Nat.cast_zero, zero_div, mul_zero, P.exp_zero, one_mul]
  exact h.2

theorem factor_setCol_ne {P : Prims} {Xr : Vec V ℝ} {eta : Mat K C ℝ} {phi : Mat K V ℝ} {n l : Fin V}
    (v : Vec K ℝ) (h : l ≠ n) (c : Fin C) :
    factor P Xr eta (setCol phi n v) l c = factor P Xr eta phi l c := by
  unfold factor setCol
  refine Finset.sum_congr rfl fun k _ => ?_
  rw [Function.update_of_ne h]

theorem factor_doc (P : Prims) (X : Vec V ℕ) (eta : Mat K C ℝ) (phi : Mat K V ℝ) (n : Fin V) (c : Fin C) :
    factor P (ratio X) eta phi n c =
      ∑ j, phi j n * P.exp ((X n : ℝ) / (∑ i, (X i : ℝ)) * eta j c) := by
  unfold factor ratio
  refine Finset.sum_congr rfl fun k _ => ?_
  rw [numWords_cast, mul_comm, mul_comm (eta k c)]

theorem prod_factor_present {P : Prims} {X : Vec V ℕ} {eta : Mat K C ℝ} {phi : Mat K V ℝ}
    (h : ∀ n, IsDist fun k => phi k n) (c : Fin C) (n : Fin V) :
    (∏ l ∈ univ.erase n, factor P (ratio X) eta phi l c) =
    ∏ l ∈ univ.filter (fun l => X l ≠ 0 ∧ l ≠ n), factor P (ratio X) eta phi l c := by
  symm
  apply Finset.prod_subset
  · intro l; simp
  · intro l hl hl'
    simp only [mem_filter, mem_univ, true_and, not_and, not_not, mem_erase, ne_eq, and_true] at hl hl'
    by_contra hc
    by_cases h0 : X l = 0
    · exact hc (factor_absent (h l) h0 c)
    · exact hl (hl' h0)

/-- The `h` computed from the product of all factors over that of the word. -/
theorem hOf_doc {P : Prims} {X : Vec V ℕ} {eta : Mat K C ℝ} {phi : Mat K V ℝ}
    (h : ∀ n, IsDist fun k => phi k n) (n : Fin V) {p : Vec C ℝ}
    (hp : ∀ c, p c = (∏ l, factor P (ratio X) eta phi l c) / factor P (ratio X) eta phi n c) :
    hOf P (ratio X) eta p n = hDoc P X eta phi n := by
  funext k
  unfold hOf hDoc
  refine Finset.sum_congr rfl fun c _ => ?_
  have : p c = ∏ l ∈ univ.filter (fun l => X l ≠ 0 ∧ l ≠ n), factor P (ratio X) eta phi l c := by
    rw [hp, ← prod_factor_present h, ← Finset.mul_prod_erase univ _ (mem_univ n),
      mul_div_cancel_left₀ _ (factor_pos (h n) c).ne']
  rw [this, mul_comm]
  congr 1
  · exact Finset.prod_congr rfl fun l _ => factor_doc P X eta phi l c
  · unfold ratio; rw [numWords_cast, mul_comm]

theorem hDoc_pos {P : Prims} {X : Vec V ℕ} {eta : Mat K C ℝ} {phi : Mat K V ℝ}
    (h : ∀ n, IsDist fun k => phi k n) (n : Fin V) (y : Fin C) (k : Fin K) : 0 < hDoc P X eta phi n k := by
  unfold hDoc
  refine Finset.sum_pos (fun c _ => mul_pos (Finset.prod_pos fun l _ => ?_) (P.exp_pos _)) ⟨y, mem_univ y⟩
  rw [← factor_doc]
  exact factor_pos (h l) c

theorem hDoc_congr {P : Prims} {X : Vec V ℕ} {eta : Mat K C ℝ} {phi phi' : Mat K V ℝ} {n : Fin V}
    (h : ∀ k l, l ≠ n → phi k l = phi' k l) : hDoc P X eta phi n = hDoc P X eta phi' n := by
  funext k
  unfold hDoc
  refine Finset.sum_congr rfl fun c _ => ?_
  congr 1
  refine Finset.prod_congr rfl fun l hl => Finset.sum_congr rfl fun j _ => ?_
  simp only [mem_filter] at hl
  rw [h j l hl.2.2]

/-! ### The fixed point iterations -/

theorem fixedPoint_spec {P : Prims} {x : ℕ} {N : ℝ} {bcol ey psi h col col' : Vec K ℝ} (hb : ∀ k, 0 ≤ bcol k)
    (hf : fixedPoint P x ((x : ℝ) / N) bcol ey psi h col = some col') :
    ColumnUpdate P x N bcol ey psi h col col' ∧ IsDist col' := by
  unfold fixedPoint at hf
  split at hf
  · exact absurd hf (by simp)
  rename_i h0
  simp only at hf
  split at hf
  · exact absurd hf (by simp)
  rename_i h1
  rw [Option.some.injEq] at hf
  have hs : ∑ k, col' k = 1 := by
    subst hf
    rw [← Finset.sum_div, div_self h1]
  have hnn : ∀ k, 0 ≤ bcol k * P.exp (psi k + (x : ℝ) / N * ey k - h k * (1 / (∑ k, h k * col k) / x)) :=
    fun k => mul_nonneg (hb k) (P.exp_pos _).le
  refine ⟨⟨h0, hs, ∑ k, bcol k * P.exp (psi k + (x : ℝ) / N * ey k - h k * (1 / (∑ k, h k * col k) / x)),
    fun k => ?_⟩, fun k => ?_, hs⟩
  · subst hf
    simp only
    rw [div_mul_cancel₀ _ h1]
    congr 3
    rw [div_div, mul_one_div]
  · subst hf
    exact div_nonneg (hnn k) (Finset.sum_nonneg fun k _ => hnn k)

theorem fixedPoints_spec {P : Prims} {x : ℕ} {N : ℝ} {bcol ey psi h : Vec K ℝ} (hb : ∀ k, 0 ≤ bcol k) :
    ∀ (fp : ℕ) (col col' : Vec K ℝ), IsDist col →
      fixedPoints P x ((x : ℝ) / N) bcol ey psi h fp col = some col' →
      Times (ColumnUpdate P x N bcol ey psi h) fp col col' ∧ IsDist col' := by
  intro fp
  induction fp with
  | zero =>
    intro col col' hd hf
    simp only [fixedPoints, Option.some.injEq] at hf
    subst hf
    exact ⟨.zero _, hd⟩
  | succ fp ih =>
    intro col col' hd hf
    rw [fixedPoints, Option.bind_eq_some_iff] at hf
    obtain ⟨c1, h1, h2⟩ := hf
    obtain ⟨hu, hd1⟩ := fixedPoint_spec hb h1
    obtain ⟨ht, hd2⟩ := ih c1 col' hd1 h2
    exact ⟨.succ hu ht, hd2⟩

theorem fixedPoints_total {P : Prims} {x : ℕ} {N : ℝ} {bcol ey psi h : Vec K ℝ} (hb : ∀ k, 0 ≤ bcol k)
    (hb' : ∃ k, 0 < bcol k) (hh : ∀ k, 0 < h k) :
    ∀ (fp : ℕ) (col : Vec K ℝ), IsDist col →
      ∃ col', fixedPoints P x ((x : ℝ) / N) bcol ey psi h fp col = some col' := by
  intro fp
  induction fp with
  | zero => intro col _; exact ⟨col, rfl⟩
  | succ fp ih =>
    intro col hd
    have : ∃ c1, fixedPoint P x ((x : ℝ) / N) bcol ey psi h col = some c1 := by
      unfold fixedPoint
      rw [if_neg (hd.sum_mul_pos hh).ne']
      simp only
      rw [if_neg]
      · exact ⟨_, rfl⟩
      · obtain ⟨k, hk⟩ := hb'
        exact (Finset.sum_pos' (fun k _ => mul_nonneg (hb k) (P.exp_pos _).le)
          ⟨k, mem_univ k, mul_pos hk (P.exp_pos _)⟩).ne'
    obtain ⟨c1, h1⟩ := this
    obtain ⟨_, hd1⟩ := fixedPoint_spec hb h1
    rw [fixedPoints, h1]
    exact ih c1 hd1

/-! ### The loop over the words -/

/-- What holds between the words. -/
structure SweepInv (P : Prims) (X : Vec V ℕ) (m : Model K V C) (s : Sweep K V C) : Prop where
  dist : ∀ n, IsDist fun k => s.phi k n
  counts : Counts X m.alpha ⟨s.phi, s.gamma⟩
  psi : ∀ k, P.psi (s.gamma k) = some (s.psi k)
  products : ∀ c, s.products c = ∏ n, factor P (ratio X) m.eta s.phi n c

theorem divide_eq {p f q : Vec C ℝ} (h : divide p f = some q) : ∀ c, q c = p c / f c := by
  unfold divide at h
  split at h
  · simp only [Option.some.injEq] at h
    subst h
    intro c; rfl
  · exact absurd h (by simp)

theorem divide_total {p f : Vec C ℝ} (h : ∀ c, f c ≠ 0) : ∃ q, divide p f = some q := by
  unfold divide
  rw [if_pos h]
  exact ⟨_, rfl⟩

theorem setCol_same (phi : Mat K V ℝ) (n : Fin V) (v : Vec K ℝ) (k : Fin K) : setCol phi n v k n = v k := by
  simp [setCol]

theorem setCol_ne (phi : Mat K V ℝ) {n l : Fin V} (v : Vec K ℝ) (k : Fin K) (h : l ≠ n) :
    setCol phi n v k l = phi k l := by
  simp [setCol, h]

theorem setCol_dist {phi : Mat K V ℝ} {n : Fin V} {v : Vec K ℝ} (h : ∀ n, IsDist fun k => phi k n)
    (hv : IsDist v) (l : Fin V) : IsDist fun k => setCol phi n v k l := by
  by_cases hl : l = n
  · subst hl
    simpa only [setCol_same] using hv
  · simpa only [setCol_ne _ _ _ hl] using h l

theorem setCol_counts {X : Vec V ℕ} {alpha : Vec K ℝ} {phi : Mat K V ℝ} {gamma : Vec K ℝ}
    (h : Counts X alpha ⟨phi, gamma⟩) (n : Fin V) (v : Vec K ℝ) :
    Counts X alpha ⟨setCol phi n v, fun k => gamma k + X n * (v k - phi k n)⟩ := by
  intro k
  simp only
  have h1 := h k
  simp only at h1
  rw [h1, ← Finset.add_sum_erase univ (fun l => (X l : ℝ) * phi k l) (mem_univ n),
    ← Finset.add_sum_erase univ (fun l => (X l : ℝ) * setCol phi n v k l) (mem_univ n), setCol_same]
  have : ∑ l ∈ univ.erase n, (X l : ℝ) * setCol phi n v k l = ∑ l ∈ univ.erase n, (X l : ℝ) * phi k l := by
    refine Finset.sum_congr rfl fun l hl => ?_
    rw [setCol_ne _ _ _ (Finset.ne_of_mem_erase hl)]
  rw [this]
  ring

theorem sweepWord_spec {P : Prims} {X : Vec V ℕ} {y : Fin C} {m : Model K V C} (hm : m.Valid) {fp : ℕ}
    {s s' : Sweep K V C} {n : Fin V} (hI : SweepInv P X m s) (hX : X n ≠ 0)
    (h : sweepWord P X (ratio X) m.beta m.eta (fun k => m.eta k y) fp s n = some s') :
    SweepInv P X m s' ∧ WordUpdate P X y m fp n ⟨s.phi, s.gamma⟩ ⟨s'.phi, s'.gamma⟩ ∧
      s'.h = some (hDoc P X m.eta s.phi n) := by
  unfold sweepWord at h
  rw [if_neg hX] at h
  simp only [Option.bind_eq_some_iff, Option.some.injEq] at h
  obtain ⟨p, hp, col, hcol, psi, hpsi, rfl⟩ := h
  have hp' := divide_eq hp
  have hh : hOf P (ratio X) m.eta p n = hDoc P X m.eta s.phi n :=
    hOf_doc hI.dist n fun c => by rw [hp', hI.products]
  rw [hh] at hcol
  have hr : ratio X n = (X n : ℝ) / ∑ i, (X i : ℝ) := by unfold ratio; rw [numWords_cast]
  rw [hr] at hcol
  obtain ⟨ht, hd⟩ := fixedPoints_spec (fun k => hm.beta_nonneg k n) fp _ _ (hI.dist n) hcol
  refine ⟨⟨setCol_dist hI.dist hd, setCol_counts hI.counts n col, mapOpt_eq.1 hpsi, fun c => ?_⟩, ?_, by rw [hh]⟩
  · simp only
    rw [hp', hI.products, ← Finset.mul_prod_erase univ _ (mem_univ n),
      mul_div_cancel_left₀ _ (factor_pos (hI.dist n) c).ne',
      ← Finset.mul_prod_erase univ (fun l => factor P (ratio X) m.eta (setCol s.phi n col) l c) (mem_univ n),
      mul_comm]
    congr 1
    exact Finset.prod_congr rfl fun l hl => (factor_setCol_ne col (Finset.ne_of_mem_erase hl) c).symm
  · refine ⟨s.psi, hI.psi, ?_, fun k l hl => setCol_ne _ _ _ hl, fun k => ?_⟩
    · simpa only [setCol_same] using ht
    · simp only [setCol_same]

theorem sweepWord_total {P : Prims} {X : Vec V ℕ} {y : Fin C} {m : Model K V C} (hm : m.Valid) {fp : ℕ}
    {s : Sweep K V C} {n : Fin V} (hI : SweepInv P X m s) (hk : X n ≠ 0 → m.Known n) :
    ∃ s', sweepWord P X (ratio X) m.beta m.eta (fun k => m.eta k y) fp s n = some s' := by
  unfold sweepWord
  split
  · exact ⟨s, rfl⟩
  rename_i hX
  obtain ⟨p, hp⟩ := divide_total (p := s.products)
    (fun c => (factor_pos (P := P) (Xr := ratio X) (eta := m.eta) (hI.dist n) c).ne')
  have hh : hOf P (ratio X) m.eta p n = hDoc P X m.eta s.phi n :=
    hOf_doc hI.dist n fun c => by rw [divide_eq hp, hI.products]
  rw [hp, Option.bind_some]
  simp only
  rw [hh]
  have hr : ratio X n = (X n : ℝ) / ∑ i, (X i : ℝ) := by unfold ratio; rw [numWords_cast]
  rw [hr]
  obtain ⟨col, hcol⟩ := fixedPoints_total (P := P) (x := X n) (N := ∑ i, (X i : ℝ))
    (ey := fun k => m.eta k y) (psi := s.psi) (h := hDoc P X m.eta s.phi n)
    (fun k => hm.beta_nonneg k n) (hk hX) (hDoc_pos hI.dist n y) fp _ (hI.dist n)
  rw [hcol, Option.bind_some]
  obtain ⟨_, hd⟩ := fixedPoints_spec (fun k => hm.beta_nonneg k n) fp _ _ (hI.dist n) hcol
  have hpos := counts_pos hm (setCol_counts hI.counts n col) fun k l => (setCol_dist hI.dist hd l).1 k
  obtain ⟨psi, hpsi⟩ := mapOpt_psi P fun k => (hpos k).2
  simp only at hpsi
  rw [hpsi]
  exact ⟨_, rfl⟩

/-- What is known of `h` after some words have been processed. -/
def LastH (P : Prims) (X : Vec V ℕ) (m : Model K V C) (ns : List (Fin V)) (phi : Mat K V ℝ)
    (h0 h : Option (Vec K ℝ)) : Prop :=
  (ns = [] ∧ h = h0) ∨ ∃ n, ns.getLast? = some n ∧ h = some (hDoc P X m.eta phi n)

theorem sweepWords_spec {P : Prims} {X : Vec V ℕ} {y : Fin C} {m : Model K V C} (hm : m.Valid) {fp : ℕ} :
    ∀ (ns : List (Fin V)) (s s' : Sweep K V C), SweepInv P X m s →
      sweepWords P X (ratio X) m.beta m.eta (fun k => m.eta k y) fp ns s = some s' →
      SweepInv P X m s' ∧
      WordUpdates P X y m fp (ns.filter (fun n => X n ≠ 0)) ⟨s.phi, s.gamma⟩ ⟨s'.phi, s'.gamma⟩ ∧
      LastH P X m (ns.filter (fun n => X n ≠ 0)) s'.phi s.h s'.h := by
  intro ns
  induction ns with
  | nil =>
    intro s s' hI h
    simp only [sweepWords, Option.some.injEq] at h
    subst h
    exact ⟨hI, .nil _, Or.inl ⟨rfl, rfl⟩⟩
  | cons n ns ih =>
    intro s s' hI h
    rw [sweepWords, Option.bind_eq_some_iff] at h
    obtain ⟨s1, h1, h2⟩ := h
    by_cases hX : X n = 0
    · have : s1 = s := by
        unfold sweepWord at h1
        rw [if_pos hX] at h1
        exact (Option.some.inj h1).symm
      subst this
      have e : (n :: ns).filter (fun n => X n ≠ 0) = ns.filter (fun n => X n ≠ 0) := by simp [hX]
      rw [e]
      exact ih s1 s' hI h2
    · have e : (n :: ns).filter (fun n => X n ≠ 0) = n :: ns.filter (fun n => X n ≠ 0) := by simp [hX]
      rw [e]
      obtain ⟨hI1, hu, hh⟩ := sweepWord_spec hm hI hX h1
      obtain ⟨hI2, hus, hl⟩ := ih s1 s' hI1 h2
      refine ⟨hI2, .cons hu hus, Or.inr ?_⟩
      rcases hl with ⟨he, hl⟩ | ⟨l, hl1, hl2⟩
      · refine ⟨n, by rw [he]; rfl, ?_⟩
        rw [hl, hh]
        congr 1
        apply hDoc_congr
        intro k l hln
        have e1 : (⟨s1.phi, s1.gamma⟩ : VP K V) = ⟨s'.phi, s'.gamma⟩ := by
          rw [he] at hus
          generalize (⟨s1.phi, s1.gamma⟩ : VP K V) = a at hus
          generalize (⟨s'.phi, s'.gamma⟩ : VP K V) = b at hus
          cases hus
          rfl
        have e2 : s1.phi = s'.phi := congrArg VP.phi e1
        rw [← e2]
        obtain ⟨_, _, _, h3, _⟩ := hu
        exact (h3 k l hln).symm
      · refine ⟨l, ?_, hl2⟩
        rw [List.getLast?_cons, hl1]
        rfl

theorem sweepWords_total {P : Prims} {X : Vec V ℕ} {y : Fin C} {m : Model K V C} (hm : m.Valid) {fp : ℕ}
    (hk : ∀ n, X n ≠ 0 → m.Known n) :
    ∀ (ns : List (Fin V)) (s : Sweep K V C), SweepInv P X m s →
      ∃ s', sweepWords P X (ratio X) m.beta m.eta (fun k => m.eta k y) fp ns s = some s' := by
  intro ns
  induction ns with
  | nil => intro s _; exact ⟨s, rfl⟩
  | cons n ns ih =>
    intro s hI
    obtain ⟨s1, h1⟩ := sweepWord_total (y := y) (fp := fp) hm hI (hk n)
    rw [sweepWords, h1, Option.bind_some]
    by_cases hX : X n = 0
    · have : s1 = s := by
        unfold sweepWord at h1
        rw [if_pos hX] at h1
        exact (Option.some.inj h1).symm
      exact ih s1 (this ▸ hI)
    · exact ih s1 (sweepWord_spec hm hI hX h1).1

theorem foldl_mul_apply (l : List (Fin V)) (f : Fin V → Vec C ℝ) (p : Vec C ℝ) (c : Fin C) :
    l.foldl (fun p n c => p c * f n c) p c = p c * (l.map fun n => f n c).prod := by
  induction l generalizing p with
  | nil => simp
  | cons a l ih => rw [List.foldl_cons, ih, List.map_cons, List.prod_cons, mul_assoc]

theorem sweep_init {P : Prims} {X : Vec V ℕ} {m : Model K V C} {s : VP K V} {psi : Vec K ℝ}
    (hd : ∀ n, IsDist fun k => s.phi k n) (hc : Counts X m.alpha s) (hpsi : mapOpt P.psi s.gamma = some psi)
    (h : Option (Vec K ℝ)) :
    SweepInv P X m ⟨s.phi, s.gamma, psi, (List.finRange V).foldl
      (fun p n c => p c * factor P (ratio X) m.eta s.phi n c) (fun _ => 1), h⟩ := by
  refine ⟨hd, hc, mapOpt_eq.1 hpsi, fun c => ?_⟩
  simp only
  rw [foldl_mul_apply _ (fun n c => factor P (ratio X) m.eta s.phi n c), one_mul, Fin.prod_univ_def]

/-- One sweep, as a relation. -/
theorem supervisedPhiGamma_spec {P : Prims} {X : Vec V ℕ} {y : Fin C} {m : Model K V C} (hm : m.Valid)
    {fp : ℕ} {s s' : VP K V × Option (Vec K ℝ)} (hd : ∀ n, IsDist fun k => s.1.phi k n)
    (hc : Counts X m.alpha s.1)
    (h : supervisedPhiGamma P X (ratio X) (y : ℤ) m.beta m.eta fp s = some s') :
    (∀ n, IsDist fun k => s'.1.phi k n) ∧ Counts X m.alpha s'.1 ∧
      WordUpdates P X y m fp (present X) s.1 s'.1 ∧ LastH P X m (present X) s'.1.phi s.2 s'.2 := by
  unfold supervisedPhiGamma at h
  rw [colAt_fin] at h
  simp only [Option.bind_eq_some_iff, Option.some.injEq, Option.map_eq_some_iff] at h
  obtain ⟨psi, hpsi, ey, rfl, r, hr, rfl⟩ := h
  have hI := sweep_init hd hc hpsi s.2
  obtain ⟨h1, h2, h3⟩ := sweepWords_spec hm _ _ _ hI hr
  exact ⟨h1.dist, h1.counts, h2, h3⟩

theorem supervisedPhiGamma_total {P : Prims} {X : Vec V ℕ} {y : Fin C} {m : Model K V C} (hm : m.Valid)
    {fp : ℕ} {s : VP K V × Option (Vec K ℝ)} (hd : ∀ n, IsDist fun k => s.1.phi k n)
    (hc : Counts X m.alpha s.1) (hk : ∀ n, X n ≠ 0 → m.Known n) :
    ∃ s', supervisedPhiGamma P X (ratio X) (y : ℤ) m.beta m.eta fp s = some s' := by
  have hpos := counts_pos hm hc fun k n => (hd n).1 k
  obtain ⟨psi, hpsi⟩ := mapOpt_psi P fun k => (hpos k).2
  unfold supervisedPhiGamma
  rw [colAt_fin, hpsi]
  simp only [Option.bind_some]
  have hI := sweep_init hd hc hpsi s.2
  obtain ⟨r, hr⟩ := sweepWords_total (y := y) (fp := fp) hm hk (List.finRange V) _ hI
  rw [hr]
  exact ⟨_, rfl⟩

end Verif.EStep
