import Verif.Model.Range
import Verif.Props.Logistic

/-! Lemmas on the logistic objective with an exponential of limited range. -/
namespace Verif.Optim

open MathUtils EStep Finset

variable {r c K C : ℕ} {R : ExpRange}

theorem expSmall_nonneg (R : ExpRange) (x : ℝ) : 0 ≤ expSmall R x := by
  unfold expSmall
  split_ifs
  · exact le_rfl
  · exact (Real.exp_pos x).le

theorem expSmall_le (R : ExpRange) (x : ℝ) : expSmall R x ≤ Real.exp x := by
  unfold expSmall
  split_ifs
  · exact (Real.exp_pos x).le
  · exact le_rfl

/-- The sum of the exponentials is a positive finite number. -/
def Fits (R : ExpRange) (t : Vec C ℝ) : Prop :=
  (∀ c, t c < R.hi) ∧ ∑ c, expSmall R (t c) < Real.exp R.hi ∧ 0 < ∑ c, expSmall R (t c)

/-- The sum of the exponentials overflows. -/
def Bursts (R : ExpRange) (t : Vec C ℝ) : Prop := (∃ c, R.hi ≤ t c) ∨ Real.exp R.hi ≤ ∑ c, expSmall R (t c)

theorem expSum_fits {t : Vec C ℝ} (h : Fits R t) : expSum R t = .fin (∑ c, expSmall R (t c)) := by
  unfold expSum
  rw [if_neg]
  rintro (⟨c, hc⟩ | hc)
  · exact absurd (h.1 c) (not_lt.2 hc)
  · exact absurd h.2.1 (not_lt.2 hc)

theorem expSum_bursts {t : Vec C ℝ} (h : Bursts R t) : expSum R t = .pinf := by
  unfold expSum
  exact if_pos h

theorem fits_or {t : Vec C ℝ} (h : 0 < ∑ c, expSmall R (t c)) : Fits R t ∨ Bursts R t := by
  by_cases hb : Bursts R t
  · exact Or.inr hb
  · left
    unfold Bursts at hb
    push Not at hb
    exact ⟨hb.1, hb.2, h⟩

theorem eLog_fits {t : Vec C ℝ} (h : Fits R t) : eLog (expSum R t) = .fin (Real.log (∑ c, expSmall R (t c))) := by
  rw [expSum_fits h]
  unfold eLog
  simp only
  rw [if_neg h.2.2.ne', if_neg (not_lt.2 h.2.2.le)]

theorem eLog_bursts {t : Vec C ℝ} (h : Bursts R t) : eLog (expSum R t) = .pinf := by
  rw [expSum_bursts h]; rfl

/-- The scores of all classes underflow. -/
theorem eLog_zero {t : Vec C ℝ} (h : ∀ c, t c < R.lo) : eLog (expSum R t) = .ninf := by
  have h0 : ∑ c, expSmall R (t c) = 0 := Finset.sum_eq_zero fun c _ => by unfold expSmall; rw [if_pos (h c)]
  unfold expSum
  rw [if_neg]
  · unfold eLog
    simp only
    rw [if_pos h0]
  · rintro (⟨c, hc⟩ | hc)
    · have := h c
      have := R.lo_neg
      have := R.hi_pos
      linarith
    · rw [h0] at hc
      exact absurd (Real.exp_pos R.hi) (not_lt.2 hc)

theorem mul_pinf {w : ℝ} (h : 0 < w) : Ieee.mul (.fin w : Ext) .pinf = .pinf := by
  show Ieee.infMul true w = _
  unfold Ieee.infMul
  rw [if_neg h.ne', if_pos (by simp [h])]

theorem mul_ninf {w : ℝ} (h : 0 < w) : Ieee.mul (.fin w : Ext) .ninf = .ninf := by
  show Ieee.infMul false w = _
  unfold Ieee.infMul
  rw [if_neg h.ne', if_neg (by simp [h])]

/-- What a document adds to the likelihood if its exponentials are in range. -/
noncomputable def keptTerm (R : ExpRange) (w : Fin C → ℝ) (eta : Mat K C ℝ) (d : Vec K ℝ × Fin C) : ℝ :=
  w d.2 * (scores eta d.1 d.2 - Real.log (∑ c, expSmall R (scores eta d.1 c)))

/-- The objective if all exponentials are in range. -/
noncomputable def keptObjective (R : ExpRange) (data : List (Vec K ℝ × Fin C)) (w : Fin C → ℝ) (L : ℝ) (eta : Mat K C ℝ) : ℝ :=
  -(data.map (keptTerm R w eta)).sum + L * squaredNorm eta / 2

variable {Cy : List (Option ℝ)} {w : Fin C → ℝ} {data : List (Vec K ℝ × Fin C)} {eta : Mat K C ℝ} {L : ℝ}

theorem weighs_tail {d : Vec K ℝ × Fin C} {ds : List (Vec K ℝ × Fin C)} (hw : Weighs Cy w ((d :: ds).map Prod.snd)) :
    Weighs Cy w (ds.map Prod.snd) := fun c hc => hw c (by rw [List.map_cons]; exact List.mem_cons_of_mem _ hc)

theorem limitedLoop_cons {d : Vec K ℝ × Fin C} {ds : List (Vec K ℝ × Fin C)} (hw : Weighs Cy w ((d :: ds).map Prod.snd))
    (acc : Ext) : limitedLoop R Cy eta ((d :: ds).map fun d => (d.2 : ℤ)) ((d :: ds).map Prod.fst) acc =
      limitedLoop R Cy eta (ds.map fun d => (d.2 : ℤ)) (ds.map Prod.fst)
        (eSub (Ieee.add acc (.fin (w d.2 * scores eta d.1 d.2))) (Ieee.mul (.fin (w d.2)) (eLog (expSum R (scores eta d.1))))) := by
  have h1 := weightAt_fin Cy (hw d.2 (by simp))
  simp only [List.map_cons, limitedLoop, h1, Option.bind_some, entryAt_fin]

theorem limitedLoop_fits (hw : Weighs Cy w (data.map Prod.snd)) (h : ∀ d ∈ data, Fits R (scores eta d.1)) (acc : ℝ) :
    limitedLoop R Cy eta (data.map fun d => (d.2 : ℤ)) (data.map Prod.fst) (.fin acc) =
      some (.fin (acc + (data.map (keptTerm R w eta)).sum)) := by
  induction data generalizing acc with
  | nil => simp [limitedLoop]
  | cons d ds ih =>
    rw [limitedLoop_cons hw, eLog_fits (h d (by simp))]
    show limitedLoop R Cy eta _ _ (.fin (acc + w d.2 * scores eta d.1 d.2 + -(w d.2 * _))) = _
    rw [ih (weighs_tail hw) fun d' hd' => h d' (by simp [hd'])]
    simp only [List.map_cons, List.sum_cons, keptTerm]
    congr 2
    ring

theorem limitedLoop_ninf (hw : Weighs Cy w (data.map Prod.snd)) (hpos : ∀ d ∈ data, 0 < w d.2)
    (h : ∀ d ∈ data, Fits R (scores eta d.1) ∨ Bursts R (scores eta d.1)) :
    limitedLoop R Cy eta (data.map fun d => (d.2 : ℤ)) (data.map Prod.fst) .ninf = some .ninf := by
  induction data with
  | nil => simp [limitedLoop]
  | cons d ds ih =>
    rw [limitedLoop_cons hw]
    have : eSub (Ieee.add .ninf (.fin (w d.2 * scores eta d.1 d.2))) (Ieee.mul (.fin (w d.2)) (eLog (expSum R (scores eta d.1)))) =
        (.ninf : Ext) := by
      rcases h d (by simp) with hf | hb
      · rw [eLog_fits hf]; rfl
      · rw [eLog_bursts hb, mul_pinf (hpos d (by simp))]; rfl
    rw [this]
    exact ih (weighs_tail hw) (fun d' hd' => hpos d' (by simp [hd'])) fun d' hd' => h d' (by simp [hd'])

theorem limitedLoop_bursts (hw : Weighs Cy w (data.map Prod.snd)) (hpos : ∀ d ∈ data, 0 < w d.2)
    (h : ∀ d ∈ data, Fits R (scores eta d.1) ∨ Bursts R (scores eta d.1)) (hb : ∃ d ∈ data, Bursts R (scores eta d.1))
    (acc : ℝ) : limitedLoop R Cy eta (data.map fun d => (d.2 : ℤ)) (data.map Prod.fst) (.fin acc) = some .ninf := by
  induction data generalizing acc with
  | nil => obtain ⟨d, hd, _⟩ := hb; simp at hd
  | cons d ds ih =>
    rw [limitedLoop_cons hw]
    by_cases hd : Bursts R (scores eta d.1)
    · rw [eLog_bursts hd, mul_pinf (hpos d (by simp))]
      show limitedLoop R Cy eta _ _ .ninf = _
      exact limitedLoop_ninf (weighs_tail hw) (fun d' hd' => hpos d' (by simp [hd'])) fun d' hd' => h d' (by simp [hd'])
    · have hf := (h d (by simp)).resolve_right hd
      rw [eLog_fits hf]
      show limitedLoop R Cy eta _ _ (.fin (acc + w d.2 * scores eta d.1 d.2 + -(w d.2 * _))) = _
      refine ih (weighs_tail hw) (fun d' hd' => hpos d' (by simp [hd'])) (fun d' hd' => h d' (by simp [hd'])) ?_ _
      obtain ⟨e, he, hb⟩ := hb
      rcases List.mem_cons.1 he with rfl | he
      · exact absurd hb hd
      · exact ⟨e, he, hb⟩

theorem value_fits (hw : Weighs Cy w (data.map Prod.snd)) (h : ∀ d ∈ data, Fits R (scores eta d.1)) :
    limitedValue R (data.map Prod.fst) (data.map fun d => (d.2 : ℤ)) Cy L eta = some (.fin (keptObjective R data w L eta)) := by
  unfold limitedValue
  rw [limitedLoop_fits hw h, Option.map_some, zero_add]
  rfl

theorem value_bursts (hw : Weighs Cy w (data.map Prod.snd)) (hpos : ∀ d ∈ data, 0 < w d.2)
    (h : ∀ d ∈ data, Fits R (scores eta d.1) ∨ Bursts R (scores eta d.1)) (hb : ∃ d ∈ data, Bursts R (scores eta d.1)) :
    limitedValue R (data.map Prod.fst) (data.map fun d => (d.2 : ℤ)) Cy L eta = some .pinf := by
  unfold limitedValue
  rw [limitedLoop_bursts hw hpos h hb]
  rfl

/-! ### Balanced parameters -/

/-- The weights of the classes do not have a negative sum in any topic. -/
def Balanced (eta : Mat K C ℝ) : Prop := ∀ k, 0 ≤ ∑ c, eta k c

theorem some_score_nonneg (he : Balanced eta) {x : Vec K ℝ} (hx : ∀ k, 0 ≤ x k) (y : Fin C) : ∃ c, 0 ≤ scores eta x c := by
  by_contra hc
  push Not at hc
  have h1 : ∑ c, scores eta x c < 0 := Finset.sum_neg (fun c _ => hc c) ⟨y, mem_univ y⟩
  have h2 : ∑ c, scores eta x c = ∑ k, (∑ c, eta k c) * x k := by
    unfold scores
    rw [Finset.sum_comm]
    exact Finset.sum_congr rfl fun k _ => by rw [Finset.sum_mul]
  rw [h2] at h1
  exact absurd (Finset.sum_nonneg fun k _ => mul_nonneg (he k) (hx k)) (not_le.2 h1)

theorem one_le_sum (he : Balanced eta) {x : Vec K ℝ} (hx : ∀ k, 0 ≤ x k) (y : Fin C) :
    1 ≤ ∑ c, expSmall R (scores eta x c) := by
  obtain ⟨c, hc⟩ := some_score_nonneg he hx y
  have h1 : 1 ≤ expSmall R (scores eta x c) := by
    unfold expSmall
    rw [if_neg (not_lt.2 (R.lo_neg.le.trans hc))]
    exact Real.one_le_exp hc
  exact h1.trans (Finset.single_le_sum (f := fun c => expSmall R (scores eta x c)) (fun c _ => expSmall_nonneg R _) (mem_univ c))

theorem balanced_fits (he : Balanced eta) (hx : ∀ d ∈ data, ∀ k, 0 ≤ d.1 k) :
    ∀ d ∈ data, Fits R (scores eta d.1) ∨ Bursts R (scores eta d.1) := fun d hd =>
  fits_or (lt_of_lt_of_le one_pos (one_le_sum he (hx d hd) d.2))

/-- A score is not above the logarithm of the sum. -/
theorem score_le_log {t : Vec C ℝ} (hs : 0 < ∑ c, expSmall R (t c)) (y : Fin C) : t y ≤ Real.log (∑ c, expSmall R (t c)) := by
  rw [Real.le_log_iff_exp_le hs]
  by_cases hy : t y < R.lo
  · obtain ⟨c, hc, hc0⟩ := Finset.exists_lt_of_sum_lt (s := univ) (f := fun _ : Fin C => (0 : ℝ)) (g := fun c => expSmall R (t c))
      (by simpa using hs)
    have hlo : R.lo ≤ t c := by
      by_contra h
      push Not at h
      unfold expSmall at hc0
      rw [if_pos h] at hc0
      exact lt_irrefl _ hc0
    have : expSmall R (t c) = Real.exp (t c) := by unfold expSmall; rw [if_neg (not_lt.2 hlo)]
    calc Real.exp (t y) ≤ Real.exp (t c) := Real.exp_le_exp.2 (hy.le.trans hlo)
      _ = expSmall R (t c) := this.symm
      _ ≤ _ := Finset.single_le_sum (f := fun c => expSmall R (t c)) (fun c _ => expSmall_nonneg R _) (mem_univ c)
  · have : expSmall R (t y) = Real.exp (t y) := by unfold expSmall; rw [if_neg hy]
    rw [← this]
    exact Finset.single_le_sum (f := fun c => expSmall R (t c)) (fun c _ => expSmall_nonneg R _) (mem_univ y)

theorem keptObjective_nonneg (hpos : ∀ d ∈ data, 0 < w d.2) (hL : 0 ≤ L) (h : ∀ d ∈ data, Fits R (scores eta d.1)) :
    0 ≤ keptObjective R data w L eta := by
  have h1 : 0 ≤ L * squaredNorm eta / 2 := by unfold squaredNorm; positivity
  have h2 : (data.map (keptTerm R w eta)).sum ≤ 0 := by
    apply sum_le_zero
    intro x hx
    obtain ⟨d, hd, rfl⟩ := List.mem_map.1 hx
    have := score_le_log (h d hd).2.2 d.2
    exact mul_nonpos_of_nonneg_of_nonpos (hpos d hd).le (by linarith)
  unfold keptObjective
  linarith

/-! ### The gradient -/

/-- The gradient if all exponentials are in range. -/
noncomputable def keptGradient (R : ExpRange) (data : List (Vec K ℝ × Fin C)) (w : Fin C → ℝ) (L : ℝ) (eta : Mat K C ℝ) : Mat K C ℝ :=
  fun k c => (data.map fun d => w d.2 * (d.1 k * expSmall R (scores eta d.1 c)) / (∑ c, expSmall R (scores eta d.1 c)) -
    if c = d.2 then w d.2 * d.1 k else 0).sum + eta k c * L

theorem gradLoop_fits (hw : Weighs Cy w (data.map Prod.snd)) (h : ∀ d ∈ data, Fits R (scores eta d.1)) (g : Mat K C ℝ) :
    limitedGradLoop R Cy eta (data.map fun d => (d.2 : ℤ)) (data.map Prod.fst) g =
      some fun k c => g k c + (data.map fun d => w d.2 * (d.1 k * expSmall R (scores eta d.1 c)) /
        (∑ c, expSmall R (scores eta d.1 c)) - if c = d.2 then w d.2 * d.1 k else 0).sum := by
  induction data generalizing g with
  | nil => simp [limitedGradLoop]
  | cons d ds ih =>
    have h1 := weightAt_fin Cy (hw d.2 (by simp))
    have h4 : (0 : ℤ) ≤ (d.2 : ℕ) ∧ ((d.2 : ℕ) : ℤ) < C := by simp [d.2.isLt]
    have hd := h d (by simp)
    simp only [List.map_cons, limitedGradLoop, h1, Option.bind_some, subCol, h4, and_self, if_true, expSum_fits hd,
      hd.2.2.ne', if_false]
    rw [ih (weighs_tail hw) fun d' hd' => h d' (by simp [hd'])]
    congr 1
    funext k c
    simp only [List.sum_cons, Nat.cast_inj, Fin.val_inj]
    by_cases hc : c = d.2 <;> simp [hc] <;> ring

theorem gradient_fits (hw : Weighs Cy w (data.map Prod.snd)) (h : ∀ d ∈ data, Fits R (scores eta d.1)) :
    limitedGradient R (data.map Prod.fst) (data.map fun d => (d.2 : ℤ)) Cy L eta = some (keptGradient R data w L eta) := by
  unfold limitedGradient
  rw [gradLoop_fits hw h]
  simp only [Option.map_some, zero_add]
  rfl

theorem sum_list_comm {ι : Type} (l : List ι) (f : ι → Fin C → ℝ) : ∑ c, (l.map fun d => f d c).sum = (l.map fun d => ∑ c, f d c).sum := by
  induction l with
  | nil => simp
  | cons a l ih => simp only [List.map_cons, List.sum_cons, Finset.sum_add_distrib, ih]

/-- The classes share what a document adds to the gradient. -/
theorem keptGradient_rows (h : ∀ d ∈ data, Fits R (scores eta d.1)) (k : Fin K) :
    ∑ c, keptGradient R data w L eta k c = (∑ c, eta k c) * L := by
  unfold keptGradient
  rw [Finset.sum_add_distrib, Finset.sum_mul, sum_list_comm]
  have : (data.map fun d => ∑ c, (w d.2 * (d.1 k * expSmall R (scores eta d.1 c)) / (∑ c, expSmall R (scores eta d.1 c)) -
      if c = d.2 then w d.2 * d.1 k else 0)) = data.map fun _ => (0 : ℝ) := by
    refine List.map_congr_left fun d hd => ?_
    have hs := (h d hd).2.2.ne'
    rw [Finset.sum_sub_distrib, Finset.sum_ite_eq' univ d.2, if_pos (mem_univ _), ← Finset.sum_div, ← Finset.mul_sum,
      ← Finset.mul_sum]
    field_simp
    ring
  rw [this]
  simp

theorem balanced_move (he : Balanced eta) (h : ∀ d ∈ data, Fits R (scores eta d.1)) (hL : L ≤ 1) (hL0 : 0 ≤ L) {a : ℝ} (ha0 : 0 ≤ a)
    (ha : a ≤ 1) : Balanced (move eta a (keptGradient R data w L eta)) := by
  intro k
  unfold move
  rw [Finset.sum_sub_distrib, ← Finset.mul_sum, keptGradient_rows h]
  have := he k
  have h1 : a * L ≤ 1 := mul_le_one₀ ha hL0 hL
  nlinarith

end Verif.Optim
