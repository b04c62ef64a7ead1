import Verif.Props.RangeEnds
import Mathlib.Analysis.SpecialFunctions.Log.Deriv
import Mathlib.Analysis.Complex.ExponentialBounds

/-! Property C131: a step that leads to NaN is taken. -/
namespace Verif.Optim

open MathUtils EStep Finset

/-- Two documents, each with one topic only, and of different classes. -/
noncomputable def nanData : List (Vec 2 ℝ × Fin 2) := [(![1, 0], 0), (![0, 1], 1)]

/-- The weights before the M step. -/
noncomputable def nanEta : Mat 2 2 ℝ := ![![1, 1], ![-1, -1]]

/-- The weights after it. -/
noncomputable def nanAfter : Mat 2 2 ℝ := ![![-(1997 / 2), -(1999 / 2)], ![1997 / 2, 1999 / 2]]

theorem nan_weighs : Weighs [some 1, some 1] (fun _ : Fin 2 => (1 : ℝ)) (nanData.map Prod.snd) := by
  intro y hy
  fin_cases y <;> rfl

theorem nan_scores0 (eta : Mat 2 2 ℝ) (c : Fin 2) : scores eta ![1, 0] c = eta 0 c := by
  unfold scores; rw [Fin.sum_univ_two]; simp

theorem nan_scores1 (eta : Mat 2 2 ℝ) (c : Fin 2) : scores eta ![0, 1] c = eta 1 c := by
  unfold scores; rw [Fin.sum_univ_two]; simp

theorem double_small {x : ℝ} (h : -700 ≤ x) : expSmall doubleRange x = Real.exp x := by
  unfold expSmall
  rw [if_neg]
  have := Real.log_two_gt_d9
  show ¬ x < -(1075 * Real.log 2)
  linarith

theorem nan_fits : ∀ d ∈ nanData, Fits doubleRange (scores nanEta d.1) := by
  have l := Real.log_two_gt_d9
  have hhi : (700 : ℝ) ≤ doubleRange.hi := by show (700 : ℝ) ≤ 1024 * Real.log 2; linarith
  have key : ∀ (t : Vec 2 ℝ) (b : ℝ), (∀ c, t c = b) → -700 ≤ b → b ≤ 1 → Fits doubleRange t := by
    intro t b ht h0 h1
    have hs : ∑ c, expSmall doubleRange (t c) = 2 * Real.exp b := by
      rw [Fin.sum_univ_two, ht, ht, double_small h0]; ring
    refine ⟨fun c => by rw [ht]; linarith, ?_, by rw [hs]; positivity⟩
    rw [hs]
    have h2 : (2 : ℝ) ≤ Real.exp 1 := by have := Real.add_one_le_exp (1 : ℝ); linarith
    calc 2 * Real.exp b ≤ Real.exp 1 * Real.exp 1 := by
          exact mul_le_mul h2 (Real.exp_le_exp.2 h1) (Real.exp_pos _).le (Real.exp_pos _).le
      _ = Real.exp (1 + 1) := (Real.exp_add _ _).symm
      _ < _ := Real.exp_lt_exp.2 (by linarith)
  intro d hd
  simp only [nanData, List.mem_cons, List.not_mem_nil, or_false] at hd
  rcases hd with rfl | rfl
  · exact key _ 1 (fun c => by rw [nan_scores0]; fin_cases c <;> rfl) (by norm_num) le_rfl
  · exact key _ (-1) (fun c => by rw [nan_scores1]; fin_cases c <;> rfl) (by norm_num) (by norm_num)

theorem nan_gradient : keptGradient doubleRange nanData (fun _ => 1) 1000 nanEta = ![![1999 / 2, 2001 / 2], ![-(1999 / 2), -(2001 / 2)]] := by
  have h0 : ∀ c : Fin 2, expSmall doubleRange (nanEta 0 c) = Real.exp 1 := fun c => by
    fin_cases c <;> exact double_small (by norm_num [nanEta])
  have h1 : ∀ c : Fin 2, expSmall doubleRange (nanEta 1 c) = Real.exp (-1) := fun c => by
    fin_cases c <;> exact double_small (by norm_num [nanEta])
  have e0 : Real.exp 1 ≠ 0 := (Real.exp_pos _).ne'
  have e1 : Real.exp (-1) ≠ 0 := (Real.exp_pos _).ne'
  have q0 : Real.exp 1 / (Real.exp 1 + Real.exp 1) = 1 / 2 := by field_simp; norm_num
  have q1 : Real.exp (-1) / (Real.exp (-1) + Real.exp (-1)) = 1 / 2 := by field_simp; norm_num
  funext k c
  unfold keptGradient nanData
  simp only [List.map_cons, List.map_nil, List.sum_cons, List.sum_nil, Fin.sum_univ_two, nan_scores0, nan_scores1, h0, h1]
  fin_cases k <;> fin_cases c <;> simp [nanEta, q0, q1] <;> norm_num

theorem nan_move : move nanEta 1 (keptGradient doubleRange nanData (fun _ => 1) 1000 nanEta) = nanAfter := by
  rw [nan_gradient]
  funext k c
  unfold move nanEta nanAfter
  fin_cases k <;> fin_cases c <;> simp <;> norm_num

theorem nan_value : (problem doubleRange nanData [some 1, some 1] 1000).value nanAfter = some .nan := by
  have l1 := Real.log_two_gt_d9
  have l2 := Real.log_two_lt_d9
  have z : eLog (expSum doubleRange (scores nanAfter ![1, 0])) = .ninf := by
    refine eLog_zero fun c => ?_
    rw [nan_scores0]
    show _ < -(1075 * Real.log 2)
    fin_cases c <;> simp [nanAfter] <;> linarith
  have b : eLog (expSum doubleRange (scores nanAfter ![0, 1])) = .pinf := by
    refine eLog_bursts (Or.inl ⟨0, ?_⟩)
    rw [nan_scores1]
    show 1024 * Real.log 2 ≤ _
    simp [nanAfter]
    linarith
  have hw := nan_weighs
  unfold problem limitedLogistic limitedValue nanData
  dsimp only
  rw [limitedLoop_cons (w := fun _ => (1 : ℝ)) hw, limitedLoop_cons (w := fun _ => (1 : ℝ)) (weighs_tail hw), z, b, mul_ninf one_pos, mul_pinf one_pos]
  rfl

/-- C131, the full statement is false: with a penalty of 1000, two documents and all weights of absolute value one, the
line search accepts the first step, where the objective is NaN; the M step ends there, whatever the number of
iterations allowed (at least one) and the tolerance, and the documented objective has grown. -/
theorem C131_nan {limit : ℕ} {tol : ℝ} (hl : 1 ≤ limit) (eta' : Mat 2 2 ℝ) (es : List Ext) :
    (ExtMStep (problem doubleRange nanData [some 1, some 1] 1000) limit tol nanEta eta' es ↔
      eta' = nanAfter ∧ ∃ u : ℝ, (problem doubleRange nanData [some 1, some 1] 1000).value nanEta = some (.fin u) ∧ es = [.fin (-u), .nan]) ∧
    (problem doubleRange nanData [some 1, some 1] 1000).value nanAfter = some .nan ∧
    logisticObjective nanData (fun _ => 1) 1000 nanEta < logisticObjective nanData (fun _ => 1) 1000 nanAfter := by
  set pr := problem doubleRange nanData [some 1, some 1] 1000 with hpr
  set g := keptGradient doubleRange nanData (fun _ => 1) 1000 nanEta with hg
  set v0 := keptObjective doubleRange nanData (fun _ => 1) 1000 nanEta with hv0
  have hval : pr.value nanEta = some (.fin v0) := value_fits nan_weighs nan_fits
  have hgrad : pr.gradient nanEta = some g := gradient_fits nan_weighs nan_fits
  have hnn : 0 ≤ v0 := keptObjective_nonneg (fun _ _ => one_pos) (by norm_num) nan_fits
  have hD : 0 < dot g g := by
    rw [hg, nan_gradient]
    unfold dot
    simp only [Fin.sum_univ_two]
    norm_num
  have hgo : goesOn limit tol .pinf (.fin v0) 0 := by
    refine ⟨hl, ?_⟩
    have : eDiv (eSub .pinf (.fin v0)) (.fin v0) = .pinf := by
      show (if v0 < 0 then _ else _) = _
      exact if_neg (not_lt.2 hnn)
    rw [this]
    trivial
  have hno : ∀ i, ¬ goesOn limit tol (.fin v0) .nan i := fun i h => h.2
  have hgt : eGt (.fin v0) (eSub (.fin v0) (.fin (1 / (1 / 2) * (1 / 1000 * dot g g)))) := by
    show v0 > v0 + -(1 / (1 / 2) * (1 / 1000 * dot g g))
    linarith
  have hone : (1 / (1 / 2) * (1 / 2) : ℝ) = 1 := by norm_num
  have harm : ∀ x' v', ExtArmijo (1 / 1000) (1 / 2) pr.value nanEta g x' v' ↔ x' = nanAfter ∧ v' = .nan := by
    intro x' v'
    constructor
    · rintro ⟨u, a, hu, -, hloop, rfl⟩
      have : u = .fin v0 := Option.some.inj (hu.symm.trans hval)
      subst this
      cases hloop with
      | exit h => exact absurd hgt h
      | again _ hv hl =>
        rw [hone] at hv hl
        rw [hg, nan_move, nan_value] at hv
        have := Option.some.inj hv
        subst this
        cases hl with
        | exit _ => exact ⟨nan_move, rfl⟩
        | again h _ _ => exact absurd h (by simp [eGt])
    · rintro ⟨rfl, rfl⟩
      refine ⟨_, 1, hval, by norm_num, .again hgt (v' := .nan) ?_ ?_, nan_move.symm⟩
      · rw [hone, hg, nan_move]; exact nan_value
      · rw [hone]; exact .exit (by simp [eGt])
  refine ⟨⟨?_, ?_⟩, nan_value, ?_⟩
  · rintro ⟨v, hv, h⟩
    have : v = .fin v0 := Option.some.inj (hv.symm.trans hval)
    subst this
    cases h with
    | stop h => exact absurd hgo h
    | again _ hg' ha hrest =>
      have := Option.some.inj (hg'.symm.trans hgrad)
      subst this
      obtain ⟨rfl, rfl⟩ := (harm _ _).1 ha
      cases hrest with
      | stop _ => exact ⟨rfl, v0, hval, rfl⟩
      | again h _ _ _ => exact absurd h (hno _)
  · rintro ⟨rfl, u, hu, rfl⟩
    have : Ieee.fin u = .fin v0 := Option.some.inj (hu.symm.trans hval)
    obtain rfl : u = v0 := by injection this
    exact ⟨_, hval, .again hgo hgrad ((harm _ _).2 ⟨rfl, rfl⟩) (.stop (hno _))⟩
  · have l2 := Real.log_two_lt_d9
    have h1 : ∀ (eta : Mat 2 2 ℝ), logisticObjective nanData (fun _ => 1) 1000 eta =
        -(eta 0 0 - Real.log (Real.exp (eta 0 0) + Real.exp (eta 0 1)) + (eta 1 1 - Real.log (Real.exp (eta 1 0) + Real.exp (eta 1 1)))) +
          500 * (eta 0 0 ^ 2 + eta 0 1 ^ 2 + (eta 1 0 ^ 2 + eta 1 1 ^ 2)) := by
      intro eta
      unfold logisticObjective nanData
      simp only [List.map_cons, List.map_nil, List.sum_cons, List.sum_nil, Fin.sum_univ_two]
      simp
      norm_num
    have e1 : ∀ x : ℝ, Real.log (Real.exp x + Real.exp x) = Real.log 2 + x := fun x => by
      rw [← two_mul, Real.log_mul (by norm_num) (Real.exp_pos _).ne', Real.log_exp]
    have e2 : ∀ x y : ℝ, x ≤ Real.log (Real.exp x + Real.exp y) := fun x y => by
      conv_lhs => rw [← Real.log_exp x]
      exact Real.log_le_log (Real.exp_pos _) (by linarith [Real.exp_pos y])
    have e3 : ∀ x y : ℝ, y ≤ Real.log (Real.exp x + Real.exp y) := fun x y => by rw [add_comm]; exact e2 y x
    have a1 := e2 (nanAfter 0 0) (nanAfter 0 1)
    have a2 := e3 (nanAfter 1 0) (nanAfter 1 1)
    rw [h1, h1]
    have n00 : nanEta 0 0 = 1 := rfl
    have n01 : nanEta 0 1 = 1 := rfl
    have n10 : nanEta 1 0 = -1 := rfl
    have n11 : nanEta 1 1 = -1 := rfl
    have b00 : nanAfter 0 0 = -(1997 / 2) := rfl
    have b10 : nanAfter 1 0 = 1997 / 2 := rfl
    have sq : 500 * (nanEta 0 0 ^ 2 + nanEta 0 1 ^ 2 + (nanEta 1 0 ^ 2 + nanEta 1 1 ^ 2)) = 2000 := by
      rw [n00, n01, n10, n11]; norm_num
    have sq' : 3000 ≤ 500 * (nanAfter 0 0 ^ 2 + nanAfter 0 1 ^ 2 + (nanAfter 1 0 ^ 2 + nanAfter 1 1 ^ 2)) := by
      rw [b00, b10]
      have := sq_nonneg (nanAfter 0 1)
      have := sq_nonneg (nanAfter 1 1)
      norm_num
      linarith
    rw [sq, n00, n01, n10, n11, e1, e1]
    linarith

/-- The hypotheses of `C131_descends_partial` and `C131_ends_partial` hold for these documents from all zero weights,
with a penalty of one, in both formats. -/
example (R : ExpRange) (hR : Real.log 2 < R.hi) (limit : ℕ) (tol : ℝ) : ∃ (eta' : Mat 2 2 ℝ) (es : List Ext),
    ExtMStep (problem R nanData [some 1, some 1] 1) limit tol (fun _ _ => 0) eta' es ∧
    logisticObjective nanData (fun _ => 1) 1 eta' ≤ logisticObjective nanData (fun _ => 1) 1 (fun _ _ => 0) + 4 * Real.exp R.lo := by
  have hx : ∀ d ∈ nanData, ∀ k, 0 ≤ d.1 k := by
    intro d hd k
    simp only [nanData, List.mem_cons, List.not_mem_nil, or_false] at hd
    rcases hd with rfl | rfl <;> fin_cases k <;> simp
  have h0 : ∀ k : Fin 2, (0 : ℝ) ≤ ∑ c : Fin 2, (fun _ _ => 0 : Mat 2 2 ℝ) k c := fun k => by simp
  obtain ⟨eta', es, h⟩ := C131_ends_partial (R := R) (L := 1) nan_weighs (fun _ _ => one_pos) hx zero_le_one le_rfl limit tol h0
  have hz : ∀ (x : Vec 2 ℝ) c, scores (fun _ _ => 0 : Mat 2 2 ℝ) x c = 0 := fun x c => by simp [scores]
  have hf : ∀ d ∈ nanData, Fits R (scores (fun _ _ => 0 : Mat 2 2 ℝ) d.1) := by
    intro d _
    have hs : ∑ c, expSmall R (scores (fun _ _ => 0 : Mat 2 2 ℝ) d.1 c) = 2 := by
      simp only [hz]
      unfold expSmall
      rw [if_neg (not_lt.2 R.lo_neg.le)]
      simp
    refine ⟨fun c => by rw [hz]; exact R.hi_pos, ?_, by rw [hs]; norm_num⟩
    rw [hs, ← Real.exp_log (show (0 : ℝ) < 2 by norm_num)]
    exact Real.exp_lt_exp.2 hR
  obtain ⟨_, _, _, _, _, _, _, _, _, _, hle⟩ := C131_descends_partial nan_weighs (fun _ _ => one_pos) hx zero_le_one le_rfl h0
    (value_fits nan_weighs hf) h
  refine ⟨eta', es, h, hle.trans (le_of_eq ?_)⟩
  simp [nanData]
  ring

/-- The hypotheses of `C131_overflow` and `C131_underflow` hold for these documents. -/
example (limit : ℕ) (tol : ℝ) :
    ExtMStep (problem doubleRange nanData [some 1, some 1] 1) limit tol (fun _ _ => 710) (fun _ _ => 710) [.ninf] ∧
    ExtMStep (problem doubleRange nanData [some 1, some 1] 1) limit tol (fun _ _ => -746) (fun _ _ => -746) [.pinf] := by
  have l2 := Real.log_two_lt_d9
  have hx : ∀ d ∈ nanData, (∀ k, 0 ≤ d.1 k) ∧ ∑ k, d.1 k = 1 := by
    intro d hd
    simp only [nanData, List.mem_cons, List.not_mem_nil, or_false] at hd
    rcases hd with rfl | rfl <;> refine ⟨fun k => ?_, by simp⟩ <;> fin_cases k <;> simp
  refine ⟨(C131_overflow (c := 0) nan_weighs (fun _ _ => one_pos) hx (by simp [nanData]) (fun k => ?_) _ _).2 ⟨rfl, rfl⟩,
    (C131_underflow nan_weighs (fun _ _ => one_pos) hx (by simp [nanData]) (fun k c => ?_) _ _).2 ⟨rfl, rfl⟩⟩
  · show 1024 * Real.log 2 ≤ 710
    linarith
  · show -746 < -(1075 * Real.log 2)
    linarith

end Verif.Optim
