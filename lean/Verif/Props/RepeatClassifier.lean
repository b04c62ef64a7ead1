import Verif.Props.Repeat
import Verif.Props.Centred

/-! Property C144 for the classifiers that are trained by gradient descent. -/
namespace Verif.Optim

open MathUtils Finset

variable {K C : ℕ}

theorem copies_sum {A : Type} (f : A → ℝ) (r : ℕ) (l : List A) :
    (((List.replicate r l).flatten).map f).sum = r * (l.map f).sum := by
  induction r with
  | zero => simp
  | succ r ih =>
    rw [List.replicate_succ, List.flatten_cons, List.map_append, List.sum_append, ih]
    push_cast
    ring

/-- **C144**: if every document occurs `r` times and the penalty is multiplied by `r`, the objective of the classifier is
multiplied by `r`.  In particular its minima are the same. -/
theorem C144_objective {r : ℕ} (hr : 0 < r) {data data' : List (Vec K ℝ × Fin C)} (hne : data ≠ [])
    (hp : data'.Perm (List.replicate r data).flatten) (L : ℝ) :
    ∃ pr pr' : Problem K C, logisticDefault C (data.map Prod.fst) (data.map fun d => (d.2 : ℤ)) L = some pr ∧
      logisticDefault C (data'.map Prod.fst) (data'.map fun d => (d.2 : ℤ)) (r * L) = some pr' ∧
      ∀ eta, ∃ v, pr.value eta = some v ∧ pr'.value eta = some (r * v) := by
  have hmem : ∀ d, d ∈ data' ↔ d ∈ data := by
    intro d
    rw [hp.mem_iff, List.mem_flatten]
    constructor
    · rintro ⟨l, hl, hd⟩
      rwa [(List.mem_replicate.1 hl).2] at hd
    · exact fun hd => ⟨data, List.mem_replicate.2 ⟨hr.ne', rfl⟩, hd⟩
  have hne' : data' ≠ [] := by
    obtain ⟨d, hd⟩ := List.exists_mem_of_ne_nil data hne
    exact List.ne_nil_of_mem ((hmem d).2 hd)
  obtain ⟨pr, w, n, h1, ⟨d, hd, hdn⟩, h3, h4, -, h6, -⟩ := C59_absent_unused hne L
  obtain ⟨pr', w', n', h1', ⟨d', hd', hdn'⟩, h3', h4', -, h6', -⟩ := C59_absent_unused hne' (r * L)
  refine ⟨pr, pr', h1, h1', fun eta => ⟨_, h6 eta, ?_⟩⟩
  have hn : n' = n := by
    have a1 := h3 d' ((hmem d').1 hd')
    have a2 := h3' d ((hmem d).2 hd)
    omega
  have hlen : data'.length = r * data.length := by simp [hp.length_eq]
  have hcount : ∀ c, (data'.map Prod.snd).count c = r * (data.map Prod.snd).count c := by
    intro c
    rw [(hp.map Prod.snd).count_eq, List.map_flatten, List.map_replicate, List.count_flatten, List.map_replicate,
      List.sum_replicate, smul_eq_mul]
  have hw : ∀ d ∈ data, w' d.2 = w d.2 := by
    intro d hd
    rw [h4 d hd, h4' d ((hmem d).2 hd), hn, hlen, hcount]
    have : (r : ℝ) ≠ 0 := by exact_mod_cast hr.ne'
    push_cast
    rw [mul_left_comm, mul_div_mul_left _ _ this]
  rw [h6' eta, logisticObjective, logisticObjective, (hp.map _).sum_eq, copies_sum]
  congr 1
  rw [List.map_congr_left fun d hd => by rw [hw d hd]]
  ring

/-- The hypotheses can be met: two documents, each of them three times. -/
example (a b : Vec K ℝ × Fin C) : [a, b] ≠ [] ∧ [a, a, a, b, b, b].Perm (List.replicate 3 [a, b]).flatten := by
  refine ⟨by simp, ?_⟩
  simp only [List.replicate, List.flatten_cons, List.flatten_nil, List.cons_append, List.nil_append]
  refine .cons _ ((List.perm_append_comm (l₁ := [a, a]) (l₂ := [b])).append_right [b, b] |>.trans ?_)
  exact .cons _ (.cons _ (List.perm_append_comm (l₁ := [a]) (l₂ := [b])|>.append_right [b]))

end Verif.Optim

namespace Verif.Train

open MathUtils EStep MStep Optim Finset

/-- **C144**, what does not hold: from zeros, one step of the descent on `r` copies of a document ends at `r` times the
weights, although there is no penalty and the minima of the objective are the same. -/
theorem C144_descent (tol : ℝ) {r : ℕ} (hr : 0 < r) (hr' : r ≤ 500) :
    ∃ (s s' : MStep.FastState 1 1) (out : MOut 1 1 2),
      fastHistory (C := 2) ⟨1, tol, 0⟩ ((List.replicate r oneTopic).map .doc) = some s ∧
      fastM ⟨1, tol, 0⟩ (fun _ _ => 0) s = some (out, s') ∧ out.eta = fun _ => ![(r : ℝ) / 2, -(r : ℝ) / 2] := by
  obtain ⟨s, hs⟩ := fastHistory_epochs (K := 1) (V := 1) (C := 2) ⟨1, tol, 0⟩ [] (by simp) (List.replicate r oneTopic)
  rw [List.flatMap_nil, List.nil_append] at hs
  have hsince := since_docs (B := Mat 1 2 ℝ) (List.replicate r oneTopic)
  let data : List (Vec 1 ℝ × Fin 2) := List.replicate r (fun _ => 1, 0)
  have e0 : topicShare oneTopic.1 oneTopic.2.2.gamma = fun _ => 1 := by
    funext k; fin_cases k; simp [topicShare, oneTopic]; norm_num
  have ex : (List.replicate r oneTopic).map (fun d => topicShare d.1 d.2.2.gamma) = data.map Prod.fst := by
    simp only [List.map_replicate, e0, data]
  have ey : (List.replicate r oneTopic).map (fun d => d.2.1.cls) = data.map fun d => (d.2 : ℤ) := by
    simp only [List.map_replicate, data]
    rfl
  obtain ⟨Cy, n, h1, h2, h3, h4, h5, -⟩ := C59_weights (y := List.replicate r (0 : ℤ)) (by simp; omega)
    (fun a ha => by rw [(List.mem_replicate.1 ha).2])
  have hn : n = 1 := by
    have := (List.mem_replicate.1 h3).2
    omega
  have hwt := h5 0 (List.mem_replicate.2 ⟨by omega, rfl⟩)
  have hr0 : (0 : ℝ) < r := by exact_mod_cast hr
  rw [hn] at hwt
  simp only [List.length_replicate, List.count_replicate_self, Nat.cast_one, one_mul, div_self hr0.ne'] at hwt
  have hW : Weighs Cy (fun _ : Fin 2 => (1 : ℝ)) (data.map Prod.snd) := by
    intro c hc
    simp only [data, List.map_replicate, List.mem_replicate] at hc
    rw [hc.2]
    simpa [Optim.weightAt, Option.join_eq_some_iff] using hwt
  have hval := C57_value (L := 0) hW
  have hgr := logisticGradLoop_eq (fun _ _ => 0) data hW fun _ _ => 0
  set pr := logistic 2 (data.map Prod.fst) (data.map fun d => (d.2 : ℤ)) Cy 0 with hpr
  have hg : pr.gradient (fun _ _ => 0) = some fun _ => ![-(r : ℝ) / 2, (r : ℝ) / 2] := by
    simp only [hpr, logistic, logisticGradient, hgr, Option.map_some, Option.some.injEq]
    funext k c
    fin_cases k
    fin_cases c <;> simp [data] <;> ring
  have hv : ∀ t : ℝ, pr.value (fun _ => ![t, -t]) = some (r * Real.log (1 + Real.exp (-(2 * t)))) := by
    intro t
    rw [hval]
    have e : Real.exp t + Real.exp (-t) = Real.exp t * (1 + Real.exp (-(2 * t))) := by
      rw [mul_add, mul_one, ← Real.exp_add]
      congr 2
      ring
    simp only [logisticObjective, data, List.map_replicate, List.sum_replicate, Fin.sum_univ_two, univ_unique, sum_singleton,
      Matrix.cons_val_zero, Matrix.cons_val_one, mul_one, one_mul, nsmul_eq_mul, e]
    rw [Real.log_mul (Real.exp_pos _).ne' (by positivity), Real.log_exp]
    congr 1
    ring
  have h0 : (fun _ _ => 0 : Mat 1 2 ℝ) = fun _ => ![0, -0] := by
    funext k c; fin_cases c <;> simp
  have hv0 : pr.value (fun _ _ => 0) = some (r * Real.log 2) := by
    rw [h0, hv]; norm_num
  have hm : move (fun _ _ => 0 : Mat 1 2 ℝ) 1 (fun _ => ![-(r : ℝ) / 2, (r : ℝ) / 2]) = fun _ => ![(r : ℝ) / 2, -((r : ℝ) / 2)] := by
    funext k c; fin_cases c <;> simp [move] <;> ring
  have hdot : dot (fun _ => ![-(r : ℝ) / 2, (r : ℝ) / 2] : Mat 1 2 ℝ) (fun _ => ![-(r : ℝ) / 2, (r : ℝ) / 2]) = r ^ 2 / 2 := by
    simp [dot, Fin.sum_univ_two]; ring
  have hlow : (1 : ℝ) / 4 ≤ Real.log 2 - Real.log (1 + Real.exp (-(2 * ((r : ℝ) / 2)))) := by
    have hexp : Real.exp (-(2 * ((r : ℝ) / 2))) ≤ 1 / 2 := by
      have a1 : (1 : ℝ) ≤ r := by exact_mod_cast hr
      have a2 : Real.exp (-(2 * ((r : ℝ) / 2))) ≤ Real.exp (-1) := Real.exp_le_exp.2 (by linarith)
      have a3 : (2 : ℝ) ≤ Real.exp 1 := by have := Real.add_one_le_exp (1 : ℝ); linarith
      refine a2.trans ?_
      rw [Real.exp_neg, one_div]
      exact inv_anti₀ (by norm_num) a3
    rw [← Real.log_div (by norm_num) (by positivity)]
    have a4 : (4 : ℝ) / 3 ≤ 2 / (1 + Real.exp (-(2 * ((r : ℝ) / 2)))) := by
      rw [le_div_iff₀ (by positivity)]
      linarith
    have a5 := Real.one_sub_inv_le_log_of_pos (show (0 : ℝ) < 4 / 3 by norm_num)
    have a6 := Real.log_le_log (by norm_num) a4
    norm_num at a5
    linarith
  have hr5 : (r : ℝ) ≤ 500 := by exact_mod_cast hr'
  have hD : Descends ⟨1, tol, 0⟩ pr (fun _ _ => 0) (fun _ => ![(r : ℝ) / 2, -(r : ℝ) / 2])
      [-(r * Real.log 2), -(r * Real.log (1 + Real.exp (-(2 * ((r : ℝ) / 2)))))] := by
    refine ⟨some (r * Real.log (1 + Real.exp (-(2 * ((r : ℝ) / 2))))), _, hv0, .again (s' := (some (r * Real.log 2), [-(r * Real.log 2)])) ?_ hg
      (x' := fun _ => ![(r : ℝ) / 2, -(r : ℝ) / 2]) (v' := r * Real.log (1 + Real.exp (-(2 * ((r : ℝ) / 2))))) ?_
      (.stop ?_)⟩
    · have : (0 : ℝ) ≤ r * Real.log 2 := mul_nonneg hr0.le (Real.log_nonneg (by norm_num))
      simp [mStepProgress, improves, this]
    · refine ⟨_, 1, hv0, by norm_num, .again ?_ (v' := r * Real.log (1 + Real.exp (-(2 * ((r : ℝ) / 2))))) ?_ ?_, ?_⟩
      · rw [hdot]
        have : (0 : ℝ) < (r : ℝ) ^ 2 := by positivity
        linarith
      · rw [show (1 / (1 / 2) * (1 / 2) : ℝ) = 1 by norm_num, hm, hv]
      · rw [show (1 / (1 / 2) * (1 / 2) : ℝ) = 1 by norm_num]
        refine .exit ?_
        rw [hdot, not_lt]
        nlinarith [mul_le_mul_of_nonneg_left hlow hr0.le, mul_le_mul_of_nonneg_left hr5 hr0.le]
      · rw [hm, neg_div]
    · simp [mStepProgress]
  obtain ⟨s', hs'⟩ := (C50_fast hs (by rw [hsince]; simp; omega) (fun _ _ => 0)
    ⟨betaOf ((List.replicate r oneTopic).map Prod.snd), fun _ => ![(r : ℝ) / 2, -(r : ℝ) / 2], _⟩).2
    ⟨pr, _, by
      rw [hsince, ex, ey, logisticDefault, show (data.map fun d => (d.2 : ℤ)) = List.replicate r 0 by simp [data], h1]
      simp [hpr, data], hD, rfl, by rw [hsince]⟩
  exact ⟨s, s', _, hs, hs', rfl⟩

end Verif.Train
