import Verif.Lemmas.Range

/-! Property C131: fitting the classifier with an exponential of limited range. -/
namespace Verif.Optim

open MathUtils EStep Finset

variable {r c K C : ℕ} {R : ExpRange} {Cy : List (Option ℝ)} {w : Fin C → ℝ} {data : List (Vec K ℝ × Fin C)} {L : ℝ}

/-! ### The line search -/

/-- Where the loop of the search ends: at one of the trial positions, with the value there. -/
theorem extArmijoLoop_spec {f : Mat r c ℝ → Option Ext} {x p : Mat r c ℝ} {v0 : Ext} {D tau a a' : ℝ} {v v' : Ext}
    (h : ExtArmijoLoop f x p v0 D tau a v a' v') : ¬ eGt v' (eSub v0 (.fin (a' * D))) ∧
      ((a' = a ∧ v' = v) ∨ ∃ n : ℕ, a' = a * tau ^ (n + 1) ∧ f (move x a' p) = some v') := by
  induction h with
  | exit hx => exact ⟨hx, Or.inl ⟨rfl, rfl⟩⟩
  | again h1 h2 _ ih =>
    refine ⟨ih.1, Or.inr ?_⟩
    rcases ih.2 with ⟨rfl, rfl⟩ | ⟨n, rfl, hn⟩
    · exact ⟨0, by simp, h2⟩
    · exact ⟨n + 1, by ring, hn⟩

theorem extArmijoLoop_reaches {f : Mat r c ℝ → Option Ext} {x p : Mat r c ℝ} {v0 : Ext} {D tau : ℝ} (n : ℕ) :
    ∀ {a : ℝ} {v : Ext}, (∀ m ≤ n, ∃ u, f (move x (a * tau ^ (m + 1)) p) = some u) →
      (∀ u, f (move x (a * tau ^ (n + 1)) p) = some u → ¬ eGt u (eSub v0 (.fin (a * tau ^ (n + 1) * D)))) →
      ∃ a' v', ExtArmijoLoop f x p v0 D tau a v a' v' := by
  induction n with
  | zero =>
    intro a v h1 h2
    by_cases hv : eGt v (eSub v0 (.fin (a * D)))
    · obtain ⟨u, hu⟩ := h1 0 le_rfl
      have := h2 u hu
      rw [zero_add, pow_one] at hu this
      exact ⟨_, _, .again hv hu (.exit this)⟩
    · exact ⟨_, _, .exit hv⟩
  | succ n ih =>
    intro a v h1 h2
    by_cases hv : eGt v (eSub v0 (.fin (a * D)))
    · obtain ⟨u, hu⟩ := h1 0 (by omega)
      rw [zero_add, pow_one] at hu
      have e : ∀ m, a * tau * tau ^ (m + 1) = a * tau ^ (m + 1 + 1) := fun m => by ring
      obtain ⟨a', v', h⟩ := ih (a := a * tau) (v := u) (fun m hm => by rw [e]; exact h1 (m + 1) (by omega))
        (fun u hu => by rw [e] at hu ⊢; exact h2 u hu)
      exact ⟨a', v', .again hv hu h⟩
    · exact ⟨_, _, .exit hv⟩

theorem dot_self_zero {g : Mat r c ℝ} (h : dot g g ≤ 0) (i : Fin r) (j : Fin c) : g i j = 0 := by
  have h1 : ∀ i, 0 ≤ ∑ j, g i j * g i j := fun i => Finset.sum_nonneg fun j _ => mul_self_nonneg _
  have h2 := (Finset.sum_eq_zero_iff_of_nonneg fun i _ => h1 i).1 (le_antisymm h (Finset.sum_nonneg fun i _ => h1 i)) i (mem_univ i)
  have h3 := (Finset.sum_eq_zero_iff_of_nonneg fun j _ => mul_self_nonneg (g i j)).1 h2 j (mem_univ j)
  exact mul_self_eq_zero.1 h3

theorem dot_self_nonneg (g : Mat r c ℝ) : 0 ≤ dot g g :=
  Finset.sum_nonneg fun i _ => Finset.sum_nonneg fun j _ => mul_self_nonneg _

/-- The problem of the theorems. -/
noncomputable abbrev problem (R : ExpRange) (data : List (Vec K ℝ × Fin C)) (Cy : List (Option ℝ)) (L : ℝ) : ExtProblem K C :=
  limitedLogistic R C (data.map Prod.fst) (data.map fun d => (d.2 : ℤ)) Cy L

/-- What a balanced position has for a value. -/
theorem value_balanced (hw : Weighs Cy w (data.map Prod.snd)) (hpos : ∀ d ∈ data, 0 < w d.2) (hx : ∀ d ∈ data, ∀ k, 0 ≤ d.1 k)
    {eta : Mat K C ℝ} (he : Balanced eta) :
    ((∀ d ∈ data, Fits R (scores eta d.1)) ∧ (problem R data Cy L).value eta = some (.fin (keptObjective R data w L eta))) ∨
      (problem R data Cy L).value eta = some .pinf := by
  by_cases hf : ∀ d ∈ data, Fits R (scores eta d.1)
  · exact Or.inl ⟨hf, value_fits hw hf⟩
  · right
    push Not at hf
    obtain ⟨d, hd, hn⟩ := hf
    have h := balanced_fits (R := R) he hx
    exact value_bursts hw hpos h ⟨d, hd, (h d hd).resolve_left hn⟩

/-- A search from a balanced position with a finite value. -/
theorem search_balanced (hw : Weighs Cy w (data.map Prod.snd)) (hpos : ∀ d ∈ data, 0 < w d.2) (hx : ∀ d ∈ data, ∀ k, 0 ≤ d.1 k)
    (hL0 : 0 ≤ L) (hL : L ≤ 1) {eta eta' : Mat K C ℝ} {v : Ext} {b : ℝ} (hb : 0 < b) (he : Balanced eta)
    (hf : ∀ d ∈ data, Fits R (scores eta d.1))
    (h : ExtArmijo b (1 / 2) (problem R data Cy L).value eta (keptGradient R data w L eta) eta' v) :
    Balanced eta' ∧ (∀ d ∈ data, Fits R (scores eta' d.1)) ∧ v = .fin (keptObjective R data w L eta') ∧
      keptObjective R data w L eta' ≤ keptObjective R data w L eta := by
  obtain ⟨v0, a, h0, _, hl, rfl⟩ := h
  have hv0 : v0 = .fin (keptObjective R data w L eta) := by
    have := value_fits (L := L) hw hf
    exact Option.some.inj (h0.symm.trans this)
  subst hv0
  set g := keptGradient R data w L eta with hg
  obtain ⟨hx1, hcase⟩ := extArmijoLoop_spec hl
  have hD : 0 ≤ b * dot g g := mul_nonneg hb.le (dot_self_nonneg g)
  rcases hcase with ⟨rfl, rfl⟩ | ⟨n, rfl, hn⟩
  · -- the gradient is zero
    have hz : dot g g ≤ 0 := by
      have : ¬ keptObjective R data w L eta > keptObjective R data w L eta + -(1 / (1 / 2) * (b * dot g g)) := hx1
      by_contra hc
      push Not at hc
      have := mul_pos hb hc
      exact ‹¬ _› (by linarith)
    have hm : move eta (1 / (1 / 2)) g = eta := by
      funext i j
      unfold move
      rw [dot_self_zero hz, mul_zero, sub_zero]
    rw [hm]
    exact ⟨he, hf, rfl, le_rfl⟩
  · have e : (1 / (1 / 2) : ℝ) * (1 / 2) ^ (n + 1) = (1 / 2) ^ n := by rw [pow_succ]; ring
    rw [e] at hn hx1 ⊢
    have ha0 : (0 : ℝ) ≤ (1 / 2) ^ n := by positivity
    have ha1 : ((1 / 2 : ℝ)) ^ n ≤ 1 := pow_le_one₀ (by norm_num) (by norm_num)
    have hbal : Balanced (move eta ((1 / 2) ^ n) g) := balanced_move he hf hL hL0 ha0 ha1
    rcases value_balanced (R := R) (L := L) hw hpos hx hbal with ⟨hf', hv'⟩ | hv'
    · have hv : v = .fin (keptObjective R data w L (move eta ((1 / 2) ^ n) g)) := Option.some.inj (hn.symm.trans hv')
      subst hv
      refine ⟨hbal, hf', rfl, ?_⟩
      have : ¬ keptObjective R data w L (move eta ((1 / 2) ^ n) g) > keptObjective R data w L eta + -((1 / 2) ^ n * (b * dot g g)) := hx1
      have h2 : 0 ≤ (1 / 2) ^ n * (b * dot g g) := mul_nonneg ha0 hD
      linarith
    · exfalso
      have hv : v = .pinf := Option.some.inj (hn.symm.trans hv')
      subst hv
      exact hx1 trivial

/-! ### C131: the descent from balanced weights -/

theorem descent_balanced (hw : Weighs Cy w (data.map Prod.snd)) (hpos : ∀ d ∈ data, 0 < w d.2) (hx : ∀ d ∈ data, ∀ k, 0 ≤ d.1 k)
    (hL0 : 0 ≤ L) (hL : L ≤ 1) {b : ℝ} (hb : 0 < b) {limit : ℕ} {tol : ℝ} {eta eta' : Mat K C ℝ} {v init : Ext} {i : ℕ} {es : List Ext}
    (h : ExtDescent (problem R data Cy L) b (1 / 2) limit tol eta v i init eta' es) (he : Balanced eta)
    (hf : ∀ d ∈ data, Fits R (scores eta d.1)) (hv : v = .fin (keptObjective R data w L eta)) :
    Balanced eta' ∧ (∀ d ∈ data, Fits R (scores eta' d.1)) ∧ ∃ vs : List ℝ, es = vs.map (fun a => .fin (-a)) ∧ vs.Pairwise (· ≥ ·) ∧
      vs.head? = some (keptObjective R data w L eta) ∧ vs.getLast? = some (keptObjective R data w L eta') := by
  induction h with
  | @stop x v init i _ =>
    subst hv
    exact ⟨he, hf, [keptObjective R data w L x], rfl, by simp, rfl, rfl⟩
  | @again x x' xf g v v' init i es _ h2 h3 h4 ih =>
    subst hv
    have hg : g = keptGradient R data w L x := Option.some.inj (h2.symm.trans (gradient_fits hw hf))
    subst hg
    obtain ⟨s1, s2, s3, s4⟩ := search_balanced hw hpos hx hL0 hL hb he hf h3
    obtain ⟨i1, i2, vs, rfl, i4, i5, i6⟩ := ih s1 s2 s3
    refine ⟨i1, i2, keptObjective R data w L x :: vs, rfl, ?_, rfl, ?_⟩
    · refine List.pairwise_cons.2 ⟨fun a ha => ?_, i4⟩
      cases vs with
      | nil => simp at ha
      | cons u us =>
        have hu : u = keptObjective R data w L x' := by simpa using i5
        rcases List.mem_cons.1 ha with rfl | ha
        · exact hu ▸ s4
        · exact le_trans ((List.pairwise_cons.1 i4).1 a ha) (hu ▸ s4)
    · cases vs with
      | nil => simp at i5
      | cons u us => rw [List.getLast?_cons_cons]; exact i6

/-- What the limited range does to the objective of balanced parameters. -/
theorem kept_accuracy (hpos : ∀ d ∈ data, 0 < w d.2) (hx : ∀ d ∈ data, ∀ k, 0 ≤ d.1 k) {eta : Mat K C ℝ} (he : Balanced eta) :
    keptObjective R data w L eta ≤ logisticObjective data w L eta ∧
      logisticObjective data w L eta ≤ keptObjective R data w L eta + (data.map fun d => w d.2).sum * (C * Real.exp R.lo) := by
  have hterm : ∀ d ∈ data, logisticTerm w eta d ≤ keptTerm R w eta d ∧ keptTerm R w eta d - w d.2 * (C * Real.exp R.lo) ≤ logisticTerm w eta d := by
    intro d hd
    have h1 := one_le_sum (R := R) he (hx d hd) d.2
    set s := ∑ c, expSmall R (scores eta d.1 c) with hs
    have hS : s ≤ ∑ c, Real.exp (scores eta d.1 c) := Finset.sum_le_sum fun c _ => expSmall_le R _
    have hS' : ∑ c, Real.exp (scores eta d.1 c) ≤ s + C * Real.exp R.lo := by
      rw [hs]
      calc ∑ c, Real.exp (scores eta d.1 c) ≤ ∑ c, (expSmall R (scores eta d.1 c) + Real.exp R.lo) := by
            refine Finset.sum_le_sum fun c _ => ?_
            unfold expSmall
            split_ifs with hc
            · rw [zero_add]; exact Real.exp_le_exp.2 hc.le
            · linarith [Real.exp_pos R.lo]
        _ = _ := by rw [Finset.sum_add_distrib]; simp
    have l1 : Real.log s ≤ Real.log (∑ c, Real.exp (scores eta d.1 c)) := Real.log_le_log (by linarith) hS
    have l2 : Real.log (∑ c, Real.exp (scores eta d.1 c)) ≤ Real.log s + C * Real.exp R.lo := by
      have hq : 0 ≤ C * Real.exp R.lo := by positivity
      have h3 : ∑ c, Real.exp (scores eta d.1 c) ≤ s * (1 + C * Real.exp R.lo) := by nlinarith
      have h4 := Real.log_le_log (by linarith) h3
      rw [Real.log_mul (by linarith) (by linarith)] at h4
      have h5 := Real.log_le_sub_one_of_pos (show 0 < 1 + C * Real.exp R.lo by linarith)
      linarith
    have hw0 := (hpos d hd).le
    have e1 : logisticTerm w eta d = w d.2 * (scores eta d.1 d.2 - Real.log (∑ c, Real.exp (scores eta d.1 c))) := rfl
    have e2 : keptTerm R w eta d = w d.2 * (scores eta d.1 d.2 - Real.log s) := rfl
    rw [e1, e2]
    constructor
    · exact mul_le_mul_of_nonneg_left (by linarith) hw0
    · nlinarith
  have hsum : (data.map (logisticTerm w eta)).sum ≤ (data.map (keptTerm R w eta)).sum ∧
      (data.map (keptTerm R w eta)).sum - (data.map fun d => w d.2).sum * (C * Real.exp R.lo) ≤ (data.map (logisticTerm w eta)).sum := by
    clear hpos hx he
    induction data with
    | nil => simp
    | cons d ds ih =>
      obtain ⟨a, b⟩ := hterm d (by simp)
      obtain ⟨c, e⟩ := ih fun d' hd' => hterm d' (by simp [hd'])
      simp only [List.map_cons, List.sum_cons]
      constructor <;> nlinarith
  have e : logisticObjective data w L eta = -(data.map (logisticTerm w eta)).sum + L / 2 * squaredNorm eta := rfl
  rw [e]
  unfold keptObjective
  constructor <;> linarith [hsum.1, hsum.2]

/-- **C131** (partial: weights whose sum over the classes is not negative in any topic, such as all zero, and a penalty
of at most one).  From a finite value every value reported is finite and not above the one before, the objective at
the final position is finite and, up to what the exponential loses, not above that at the first one. -/
theorem C131_descends_partial (hw : Weighs Cy w (data.map Prod.snd)) (hpos : ∀ d ∈ data, 0 < w d.2) (hx : ∀ d ∈ data, ∀ k, 0 ≤ d.1 k)
    (hL0 : 0 ≤ L) (hL : L ≤ 1) {limit : ℕ} {tol u : ℝ} {eta eta' : Mat K C ℝ} {es : List Ext} (he : ∀ k, 0 ≤ ∑ c, eta k c)
    (hu : (problem R data Cy L).value eta = some (.fin u)) (h : ExtMStep (problem R data Cy L) limit tol eta eta' es) :
    (∀ k, 0 ≤ ∑ c, eta' k c) ∧ ∃ (u' : ℝ) (vs : List ℝ), (problem R data Cy L).value eta' = some (.fin u') ∧ 0 ≤ u' ∧ u' ≤ u ∧
      es = vs.map (fun a => .fin (-a)) ∧ vs.Pairwise (· ≥ ·) ∧ vs.head? = some u ∧ vs.getLast? = some u' ∧
      logisticObjective data w L eta' ≤ logisticObjective data w L eta + (data.map fun d => w d.2).sum * (C * Real.exp R.lo) := by
  obtain ⟨v, hv, hdesc⟩ := h
  have hv' : v = .fin u := Option.some.inj (hv.symm.trans hu)
  subst hv'
  rcases value_balanced (R := R) (L := L) hw hpos hx he with ⟨hf, hvf⟩ | hvf
  swap
  · rw [hu] at hvf
    cases hvf
  have huk : u = keptObjective R data w L eta := by
    rw [hu] at hvf
    injection hvf with hvf
    injection hvf
  obtain ⟨d1, d2, vs, d3, d4, d5, d6⟩ := descent_balanced hw hpos hx hL0 hL (by norm_num) hdesc he hf (by rw [huk])
  have hle : keptObjective R data w L eta' ≤ keptObjective R data w L eta := by
    cases vs with
    | nil => simp at d5
    | cons q qs =>
      have hq : q = keptObjective R data w L eta := by simpa using d5
      rcases List.mem_cons.1 (List.mem_of_getLast? d6) with hm | hm
      · rw [hm, hq]
      · exact hq ▸ (List.pairwise_cons.1 d4).1 _ hm
  refine ⟨d1, keptObjective R data w L eta', vs, value_fits hw d2, keptObjective_nonneg hpos hL0 d2, by rw [huk]; exact hle, d3, d4,
    by rw [huk]; exact d5, d6, ?_⟩
  have a1 := (kept_accuracy (R := R) (L := L) hpos hx he).1
  have a2 := (kept_accuracy (R := R) (L := L) hpos hx d1).2
  linarith

/-! ### C131: the descent ends -/

/-- The objective with the exponentials that count at `eta`. -/
noncomputable def frozen (R : ExpRange) (data : List (Vec K ℝ × Fin C)) (w : Fin C → ℝ) (L : ℝ) (eta : Mat K C ℝ) (z : Mat K C ℝ) : ℝ :=
  -(data.map fun d => w d.2 * ((∑ k, z k d.2 * d.1 k) -
    Real.log (∑ c ∈ univ.filter fun c => ¬ scores eta d.1 c < R.lo, Real.exp (∑ k, z k c * d.1 k)))).sum +
      L / 2 * ∑ k, ∑ c, z k c ^ 2

theorem kept_sum (eta : Mat K C ℝ) (x : Vec K ℝ) : ∑ c ∈ univ.filter fun c => ¬ scores eta x c < R.lo, Real.exp (∑ k, eta k c * x k) =
    ∑ c, expSmall R (scores eta x c) := by
  rw [Finset.sum_filter]
  refine Finset.sum_congr rfl fun c _ => ?_
  unfold expSmall
  by_cases hc : scores eta x c < R.lo
  · rw [if_neg (not_not.2 hc), if_pos hc]
  · rw [if_pos hc, if_neg hc]; rfl

theorem frozen_self (eta : Mat K C ℝ) : frozen R data w L eta eta = keptObjective R data w L eta := by
  unfold frozen keptObjective
  simp only [kept_sum]
  unfold squaredNorm
  congr 1
  ring

theorem frozen_gradient {eta : Mat K C ℝ} (hf : ∀ d ∈ data, Fits R (scores eta d.1)) :
    IsGradient (frozen R data w L eta) eta (keptGradient R data w L eta) := by
  have hterm : ∀ d ∈ data, IsGradient (fun z : Mat K C ℝ => w d.2 * ((∑ k, z k d.2 * d.1 k) -
      Real.log (∑ c ∈ univ.filter fun c => ¬ scores eta d.1 c < R.lo, Real.exp (∑ k, z k c * d.1 k)))) eta
      (fun k c => (if c = d.2 then w d.2 * d.1 k else 0) -
        w d.2 * (d.1 k * expSmall R (scores eta d.1 c)) / (∑ c, expSmall R (scores eta d.1 c))) := by
    intro d hd
    have hz : (∑ c ∈ univ.filter fun c => ¬ scores eta d.1 c < R.lo, Real.exp (∑ k, eta k c * d.1 k)) ≠ 0 := by
      rw [kept_sum]; exact (hf d hd).2.2.ne'
    refine (((IsGradient.score d.1 d.2).sub ((IsGradient.sum (s := univ.filter fun c => ¬ scores eta d.1 c < R.lo)
      (F := fun c z => Real.exp (∑ k, z k c * d.1 k)) (fun c _ =>
        (IsGradient.score d.1 c).exp)).log hz)).const_mul (w d.2)).congr_grad ?_
    intro k c
    rw [kept_sum]
    have : ∑ b ∈ univ.filter fun c => ¬ scores eta d.1 c < R.lo, Real.exp (∑ k, eta k b * d.1 k) * (if c = b then d.1 k else 0) =
        expSmall R (scores eta d.1 c) * d.1 k := by
      rw [Finset.sum_filter, Finset.sum_eq_single c]
      · unfold expSmall
        by_cases hc : scores eta d.1 c < R.lo
        · rw [if_neg (not_not.2 hc), if_pos hc, zero_mul]
        · rw [if_pos hc, if_neg hc, if_pos rfl]; rfl
      · intro b _ hb
        simp [hb.symm]
      · simp
    rw [this]
    by_cases hc : c = d.2 <;> simp [hc] <;> ring
  refine (((IsGradient.list_sum hterm).neg).add ((IsGradient.sumSq (x := eta)).const_mul (L / 2))).congr_grad ?_
  intro k c
  have : ∀ l : List ℝ, - l.sum = (l.map fun a => -a).sum := by
    intro l
    induction l with
    | nil => simp
    | cons a l ih => simp only [List.map_cons, List.sum_cons, ← ih]; ring
  rw [this, List.map_map]
  unfold keptGradient
  simp only [Function.comp_def, neg_sub]
  ring

end Verif.Optim
