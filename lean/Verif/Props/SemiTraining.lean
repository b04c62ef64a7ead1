import Verif.Model.SemiRun
import Verif.Props.Unseen

/-! Properties C118 and C154 for training with `SemiSupervisedEStep` and `SemiSupervisedMStep`. -/
namespace Verif.Train

open MathUtils EStep MStep Optim Pool Finset

variable {K V C n W : ℕ} {corpus : ℕ → Doc V} {alpha : Vec K ℝ} {beta0 : Mat K V ℝ} {P : Prims} {cfg ucfg : EStep.Cfg}
  {orders : List (ℕ → ℕ)} {l : Left (VP K V)} {logs : List (List (Obs (VP K V)))} {c0 : Fin C}

/-- The E step of semi supervised LDA: the shares of the topics in a word, and `gamma`. -/
theorem semi_result (hK : 0 < K) (hal : ∀ k, 0 < alpha k) (hcls : ∀ i < n, (corpus i).cls < (C : ℤ))
    (hit : ∀ i < n, Iterates cfg.iterations cfg.tolerance alpha (corpus i).words)
    (hit' : ∀ i < n, Iterates ucfg.iterations ucfg.tolerance alpha (corpus i).words) (any : VP K V)
    {q : Params K V C} {t : EStep.FastState} {i : ℕ} {beta : Mat K V ℝ} (hi : i < n) (hqa : q.alpha = alpha)
    (hb : q.beta.IsReal beta) (ha : Agrees corpus n beta0 beta) :
    Shares (corpus i).words beta (libResults (semiResult P cfg ucfg) any corpus (q, t) i).phi ∧
    ∀ k, (libResults (semiResult P cfg ucfg) any corpus (q, t) i).gamma k = q.alpha k +
        ∑ w, ((corpus i).words w : ℝ) * (libResults (semiResult P cfg ucfg) any corpus (q, t) i).phi k w ∧
      q.alpha k ≤ (libResults (semiResult P cfg ucfg) any corpus (q, t) i).gamma k := by
  subst hqa
  have hm := valid_of (C := C) hal ha q.eta
  by_cases hy : (corpus i).cls < 0
  · have hsh : Shares (corpus i).words beta
        (libResults (fun (_ : EStep.FastState) X _ m => unsupervisedRun P ucfg X m) any corpus (q, t) i).phi :=
      careful_lda (P := P) (cfg := ucfg) hK hal hit' any q t i beta hi rfl hb ha
    have e0 : libResults (semiResult P cfg ucfg) any corpus (q, t) i =
        libResults (fun (_ : EStep.FastState) X _ m => unsupervisedRun P ucfg X m) any corpus (q, t) i := by
      simp only [libResults, semiResult, hy, if_true]
    obtain ⟨s, r, h, _⟩ := C35_unsupervised_defined (P := P) (cfg := ucfg) (draw := 0) (X := (corpus i).words) hm hK
    have e : libResults (fun (_ : EStep.FastState) X _ m => unsupervisedRun P ucfg X m) any corpus (q, t) i = s := by
      simp only [libResults, realBeta_of hb, Option.bind_some, run_of_unsupervised h, Option.getD_some]
    rw [e0]
    refine ⟨hsh, fun k => ?_⟩
    rw [e]
    exact C37_unsupervised hm hK h k
  · obtain ⟨y, hy'⟩ : ∃ y : Fin C, (corpus i).cls = (y : ℤ) :=
      ⟨⟨(corpus i).cls.toNat, by have := hcls i hi; omega⟩, by have := hcls i hi; simp; omega⟩
    obtain ⟨s, r, h⟩ := C35_fast_defined (P := P) (cfg := cfg) (draw := cfg.computeLikelihood) (X := (corpus i).words)
      (y := y) (w := t.weight) hm hK (Or.inr (lt_irrefl _))
    have e : libResults (semiResult P cfg ucfg) any corpus (q, t) i = s := by
      have hny : ¬ ((y : ℕ) : ℤ) < 0 := by omega
      simp only [libResults, semiResult, realBeta_of hb, Option.bind_some, hy', hny, if_false, run_of_fast h,
        Option.getD_some]
    rw [e]
    refine ⟨?_, C37_fast hm h⟩
    by_cases hX : ∃ n, (corpus i).words n ≠ 0
    · obtain ⟨s1, h1⟩ := (C38_fast hm hK h).ran hm rfl (hit i hi)
      obtain ⟨psi, sm, es, _, _, _, h2, _⟩ := h1.1 hX
      exact shares_of_proportional ha.1.1 (fun k n => P.exp_pos _) h2
    · push Not at hX
      exact fun k w => ⟨(fast_between hm h).1 k w, fun hw => absurd (hX w) hw⟩

/-- **C118**: semi supervised LDA. -/
theorem C118_semi (mcfg : SupCfg) (hK : 0 < K) (hal : ∀ k, 0 < alpha k) (hb0 : RowStochastic beta0)
    (hcls : ∀ i < n, (corpus i).cls < (C : ℤ)) (hlab : ∃ i < n, 0 ≤ (corpus i).cls)
    (huse : ∀ k, ∃ w, 0 < beta0 k w ∧ Occurs corpus n w)
    (hit : ∀ i < n, Iterates cfg.iterations cfg.tolerance alpha (corpus i).words)
    (hit' : ∀ i < n, Iterates ucfg.iterations ucfg.tolerance alpha (corpus i).words) (any : VP K V) {q : Params K V C}
    (hqa : q.alpha = alpha) (hqb : q.beta.IsReal beta0) {t : EStep.FastState}
    (ho : ∀ p ∈ orders, ((List.range n).map p).Perm (List.range n)) (hne : orders ≠ [])
    {m : Params K V C × EStep.FastState × Option (MStep.FastState K V)}
    (hc : Calls (fitCalls (semiSupervised mcfg corpus) EStep.FastState.eStep
      (libResults (semiResult P cfg ucfg) any corpus) W n orders) .empty (q, t, some .init) l m logs) :
    m.2.2 ≠ none ∧ m.1.alpha = alpha ∧ ∃ beta, m.1.beta.IsReal beta ∧ RowStochastic beta ∧
      ∀ k w, 0 < beta k w ↔ 0 < beta0 k w ∧ Occurs corpus n w :=
  C118_fit_semi mcfg hcls hlab huse
    (fun _ _ _ _ hi hqa hb ha => (semi_result hK hal hcls hit hit' any hi hqa hb ha).1)
    ⟨hqa, beta0, hqb, hb0, fun _ _ _ => Iff.rfl⟩ ho hne hc

/-- **C154**: semi supervised LDA.  No document is predicted to have a class that no document of the corpus has, if every
topic knows a word of some document with a class. -/
theorem C154_semi_predict_partial {mcfg : SupCfg} (hK : 0 < K) (hal : ∀ k, 0 < alpha k) (hb0 : RowStochastic beta0)
    (hcls : ∀ i < n, (corpus i).cls < (C : ℤ))
    (huse : ∀ k, ∃ w, 0 < beta0 k w ∧ ∃ i < n, 0 ≤ (corpus i).cls ∧ (corpus i).words w ≠ 0)
    (hit : ∀ i < n, Iterates cfg.iterations cfg.tolerance alpha (corpus i).words)
    (hit' : ∀ i < n, Iterates ucfg.iterations ucfg.tolerance alpha (corpus i).words) (any : VP K V)
    (hL : 0 ≤ mcfg.penalty) (hL1 : mcfg.penalty ≤ 1) (hiter : mcfg.iterations ≠ 0)
    (hc : ∀ i < n, (corpus i).cls ≠ (c0 : ℤ)) {q : Params K V C} (hqa : q.alpha = alpha) (hqb : q.beta.IsReal beta0)
    (hqe : ∀ k c, q.eta k c = 0) {t : EStep.FastState}
    (ho : ∀ p ∈ orders, ((List.range n).map p).Perm (List.range n)) (hne : orders ≠ [])
    {m : Params K V C × EStep.FastState × Option (MStep.FastState K V)}
    (hcalls : Calls (fitCalls (semiSupervised mcfg corpus) EStep.FastState.eStep
      (libResults (semiResult P cfg ucfg) any corpus) W n orders) .empty (q, t, some .init) l m logs)
    {D : ℕ} (X : Mat K D ℝ) (hX : ∀ d k, alpha k ≤ X k d) (hX' : ∀ d, ∃ k, alpha k < X k d) :
    m.2.2 ≠ none ∧ (∀ k, m.1.eta k c0 < 0) ∧
      ∃ ps, Decision.predict (Decision.decisionFunction m.1.alpha m.1.eta X) = some ps ∧ ps.length = D ∧ c0 ∉ ps := by
  have hstart : Good alpha (Agrees corpus n beta0) q := ⟨hqa, beta0, hqb, hb0, fun _ _ _ => Iff.rfl⟩
  have huse' : ∀ k, ∃ w, 0 < beta0 k w ∧ Occurs corpus n w := fun k => by
    obtain ⟨w, hw, i, hi, -, hwi⟩ := huse k
    exact ⟨w, hw, i, hi, hwi⟩
  have hlab : ∃ i < n, 0 ≤ (corpus i).cls := by
    obtain ⟨-, -, i, hi, h0, -⟩ := huse ⟨0, hK⟩
    exact ⟨i, hi, h0⟩
  obtain ⟨h1, h2, -, h4⟩ := unseen_semi (G := Good alpha (Agrees corpus n beta0)) (c0 := c0)
    (fun q t eta hq => good_mono (good_step (t := t) huse' (fun _ _ _ _ hi hqa hb ha =>
      (semi_result (P := P) hK hal hcls hit hit' any hi hqa hb ha).1) hq rfl eta))
    (fun q t i hq hi k => by
      obtain ⟨h1, b, h2, h3⟩ := hq
      exact ((semi_result hK hal hcls hit hit' any hi h1 h2 h3).2 k).2) hcls hlab hL hL1 hc hstart
    (fun k => (hqe k c0).le) ho hne hcalls
  have hneg : ∀ k, m.1.eta k c0 < 0 := fun k => h4 k ⟨hiter, fun q t hq => by
    obtain ⟨w, hw, i, hi, h0, hwi⟩ := huse k
    obtain ⟨g1, b, g2, g3⟩ := hq
    obtain ⟨s1, s2⟩ := semi_result (P := P) (t := t) hK hal hcls hit hit' any hi g1 g2 g3
    refine ⟨i, hi, h0, ?_⟩
    have hpos := ((s1 k w).2 hwi).2 ((g3.2 k w ⟨i, hi, hwi⟩).2 hw)
    have : 0 < ∑ v, ((corpus i).words v : ℝ) * (libResults (semiResult P cfg ucfg) any corpus (q, t) i).phi k v :=
      Finset.sum_pos' (fun j _ => mul_nonneg (Nat.cast_nonneg _) (s1 k j).1)
        ⟨w, mem_univ w, mul_pos (by exact_mod_cast Nat.pos_of_ne_zero hwi) hpos⟩
    rw [(s2 k).1]
    linarith⟩
  have hz := (C148_centred mcfg corpus n _ _).2 q t W orders m l logs ho hcalls fun k => by simp [hqe]
  refine ⟨h1, hneg, ?_⟩
  rw [h2.1]
  refine unseen_predict (fun k => ?_) X hX hX'
  rw [hz]
  exact mul_neg_of_pos_of_neg (by exact_mod_cast c0.pos) (hneg k)

/-- The three documents: one of the first and one of the last of three classes, one without a class. -/
def someOfThree (i : ℕ) : Doc 4 := ⟨(threeDocs i).words, if i = 1 then -1 else if i = 2 then 2 else 0⟩

/-- The hypotheses of `C118_semi` and `C154_semi_predict_partial` can be met. -/
example (any : VP 2 4) : ∃ (m : Params 2 4 3 × EStep.FastState × Option (MStep.FastState 2 4))
    (logs : List (List (Obs (VP 2 4)))) (beta : Mat 2 4 ℝ) (ps : List (Fin 3)),
    Calls (fitCalls (semiSupervised ⟨10, 1 / 100, 1 / 100⟩ someOfThree) EStep.FastState.eStep
      (libResults (semiResult fastPrims demoCfg demoCfg) any someOfThree) 3 3 [id, fun i => 2 - i]) .empty
      (⟨fun _ => 1, .matrix fun k w => .fin (twoOfFour k w), fun _ _ => 0⟩, ⟨1, .constant, 0⟩, some .init) .empty m logs ∧
    m.1.beta.IsReal beta ∧ RowStochastic beta ∧
    Decision.predict (Decision.decisionFunction m.1.alpha m.1.eta (fun k d => if k = d then 3 else 1 : Mat 2 2 ℝ)) = some ps ∧
    ps.length = 2 ∧ 1 ∉ ps := by
  obtain ⟨m, logs, hc⟩ := calls_exist (semiSupervised (C := 3) ⟨10, 1 / 100, 1 / 100⟩ someOfThree) EStep.FastState.eStep
    (libResults (semiResult fastPrims demoCfg demoCfg) any someOfThree) (W := 3)
    (by norm_num) 3 [id, fun i => 2 - i]
    (⟨fun _ => 1, .matrix fun k w => .fin (twoOfFour k w), fun _ _ => 0⟩, ⟨1, .constant, 0⟩, some .init)
  have hcls : ∀ i < 3, (someOfThree i).cls < ((3 : ℕ) : ℤ) := fun i _ => by
    simp only [someOfThree]; split_ifs <;> simp
  have ho : ∀ p ∈ [id, fun i => 2 - i], ((List.range 3).map p).Perm (List.range 3) := by
    intro p hp
    rcases List.mem_pair.1 hp with rfl | rfl
    · simp
    · decide
  have hword : (someOfThree 0).words 0 ≠ 0 := by simp [someOfThree, threeDocs]
  obtain ⟨-, -, ps, h1, h2, h3⟩ := C154_semi_predict_partial (c0 := (1 : Fin 3)) (P := fastPrims) (cfg := demoCfg)
    (ucfg := demoCfg) (mcfg := ⟨10, 1 / 100, 1 / 100⟩) (corpus := someOfThree) (n := 3) (t := ⟨1, .constant, 0⟩)
    (alpha := fun _ => 1) (beta0 := twoOfFour) (by norm_num) (fun _ => one_pos) twoOfFour_stochastic hcls
    (fun k => ⟨0, by fin_cases k <;> simp [twoOfFour], 0, by norm_num, by simp [someOfThree], hword⟩)
    (fun i _ => threeDocs_iterates i) (fun i _ => threeDocs_iterates i) any (by norm_num) (by norm_num) (by norm_num)
    (fun i _ => by simp only [someOfThree]; split_ifs <;> simp)
    (q := ⟨fun _ => 1, .matrix fun k w => .fin (twoOfFour k w), fun _ _ => 0⟩) rfl rfl (fun _ _ => rfl) ho (by simp) hc
    (fun k d => if k = d then 3 else 1) (fun d k => by by_cases h : k = d <;> simp [h]) (fun d => ⟨d, by simp⟩)
  obtain ⟨-, -, beta, b1, b2, -⟩ := C118_semi (P := fastPrims) (cfg := demoCfg) (ucfg := demoCfg) (corpus := someOfThree)
    (n := 3) (t := ⟨1, .constant, 0⟩) (alpha := fun _ => 1) (beta0 := twoOfFour) ⟨10, 1 / 100, 1 / 100⟩ (by norm_num)
    (fun _ => one_pos) twoOfFour_stochastic hcls ⟨0, by norm_num, by simp [someOfThree]⟩
    (fun k => ⟨0, by fin_cases k <;> simp [twoOfFour], 0, by norm_num, hword⟩)
    (fun i _ => threeDocs_iterates i) (fun i _ => threeDocs_iterates i) any
    (q := ⟨fun _ => 1, .matrix fun k w => .fin (twoOfFour k w), fun _ _ => 0⟩) rfl rfl ho (by simp) hc
  exact ⟨m, logs, beta, ps, hc, b1, b2, h1, h2, h3⟩

end Verif.Train
