import Verif.Props.LineSearch

/-! Properties C56 and C78 (see /verif/properties.jsonl). -/
namespace Verif.Optim

open MathUtils Finset

variable {r c K C : ℕ} {S : Type}

/-- A step of gradient descent with the Armijo search: along the gradient, by a positive amount, with
the decrease the Armijo condition asks for. -/
def DescentStep (pr : Problem r c) (b : ℝ) (x x' : Mat r c ℝ) (v v' : ℝ) : Prop :=
  ∃ (g : Mat r c ℝ) (a : ℝ), pr.gradient x = some g ∧ 0 < a ∧ (∀ i j, x' i j = x i j - a * g i j) ∧
    v' ≤ v - a * b * ∑ i, ∑ j, g i j ^ 2

theorem descentStep_of_search {pr : Problem r c} {b tau v v' : ℝ} {x g x' : Mat r c ℝ} (hb : 0 < b)
    (ht : 0 < tau) (ht1 : tau < 1) (hv : pr.value x = some v) (hg : pr.gradient x = some g)
    (h : ArmijoSearch b tau pr.value x g g x' v') :
    pr.value x' = some v' ∧ DescentStep pr b x x' v v' := by
  have h1 := C77_armijo_partial ht ht1 hb (.inl rfl) h
  refine ⟨h1, ?_⟩
  have hnn : 0 ≤ dot g g :=
    Finset.sum_nonneg fun i _ => Finset.sum_nonneg fun j _ => mul_self_nonneg _
  have hsq : ∑ i, ∑ j, g i j ^ 2 = dot g g := by simp [dot, sq]
  rcases hnn.eq_or_lt with h0 | hpos
  · obtain ⟨v0, a, hv0, _, hl, rfl⟩ := h
    have e : v0 = v := Option.some.inj (hv0.symm.trans hv)
    subst e
    rw [← h0, mul_zero] at hl
    rcases hl.spec with ⟨rfl, rfl, _⟩ | ⟨h2, _⟩
    · refine ⟨g, 1 / tau, hg, by positivity, fun _ _ => rfl, ?_⟩
      rw [hsq, ← h0]; simp
    · simp at h2
  · obtain ⟨n, h2, _, ⟨v0, w, hv0, hw, hle⟩, _⟩ := C54_largest_step ht ht1 (mul_pos hb hpos) h
    refine ⟨g, tau ^ n, hg, pow_pos ht n, h2, ?_⟩
    have e : v0 = v := Option.some.inj (hv0.symm.trans hv)
    have hx' : x' = fun i j => x i j - tau ^ n * g i j := by funext i j; exact h2 i j
    have e2 : w = v' := by
      rw [hx'] at h1
      exact Option.some.inj (hw.symm.trans h1)
    subst e e2
    rw [hsq]
    exact hle

theorem DescentStep.le {pr : Problem r c} {b v v' : ℝ} {x x' : Mat r c ℝ} (hb : 0 < b)
    (h : DescentStep pr b x x' v v') : v' ≤ v := by
  obtain ⟨g, a, _, ha, _, h⟩ := h
  have : 0 ≤ a * b * ∑ i, ∑ j, g i j ^ 2 :=
    mul_nonneg (mul_pos ha hb).le
      (Finset.sum_nonneg fun i _ => Finset.sum_nonneg fun j _ => sq_nonneg _)
  linarith

/-- **C56** for any callback: gradient descent with the Armijo search never increases the objective. -/
theorem C56_never_increases {pr : Problem r c} {progress : Progress S} {b tau : ℝ} {x x' : Mat r c ℝ}
    {s s' : S} (hb : 0 < b) (ht : 0 < tau) (ht1 : tau < 1)
    (h : Minimize (ArmijoSearch b tau) pr progress x s x' s') :
    ∃ v v', pr.value x = some v ∧ pr.value x' = some v' ∧ v' ≤ v := by
  obtain ⟨v, hv, hl⟩ := h
  refine ⟨v, ?_⟩
  generalize (none : Option (Mat r c ℝ)) = o at hl
  generalize 0 = i at hl
  induction hl with
  | stop _ => exact ⟨_, hv, hv, le_rfl⟩
  | again _ hg hs _ ih =>
    obtain ⟨h1, h2⟩ := descentStep_of_search hb ht ht1 hv hg hs
    obtain ⟨v', _, h4, h5⟩ := ih h1
    exact ⟨v', hv, h4, h5.trans (h2.le hb)⟩

/-- The relative improvement over the previous value exceeds the tolerance; positive values. -/
def Improved (tol prev value : ℝ) : Prop := (prev - value) / value > tol

theorem improves_some {tol i v : ℝ} (hv : 0 < v) : improves tol (some i) v = true ↔ Improved tol i v := by
  simp [improves, hv.ne', Improved]

/-- What the loop does with the callback of the M steps, from iteration `i` on; `Q` is what is known of a step. -/
theorem descent_loop_steps {pr : Problem r c} {limit : ℕ} {tol : ℝ} {search : LineSearch r c}
    {Q : Mat r c ℝ → Mat r c ℝ → ℝ → ℝ → Prop}
    (hQ : ∀ {x g x' : Mat r c ℝ} {v v' : ℝ}, pr.value x = some v → pr.gradient x = some g →
      search pr.value x g g x' v' → pr.value x' = some v' ∧ Q x x' v v')
    {x x' : Mat r c ℝ} {v : ℝ} {g : Option (Mat r c ℝ)} {i : ℕ}
    {s s' : Option ℝ × List ℝ} (hv : pr.value x = some v) (hi : i ≤ limit)
    (h : DescentLoop search pr (mStepProgress limit tol) x v g i s x' s') :
    ∃ (path : ℕ → Mat r c ℝ) (val : ℕ → ℝ) (n : ℕ), i + n ≤ limit ∧ path 0 = x ∧ val 0 = v ∧
      path n = x' ∧ (∀ k ≤ n, pr.value (path k) = some (val k)) ∧
      (∀ k < n, Q (path k) (path (k + 1)) (val k) (val (k + 1))) ∧
      s'.2 = s.2 ++ (List.range (n + 1)).map (fun k => - val k) ∧
      (0 < n → improves tol s.1 v = true) ∧
      (n = 0 → i < limit → improves tol s.1 v = false) ∧
      (∀ k, k + 1 < n → improves tol (some (val k)) (val (k + 1)) = true) ∧
      (∀ k, k + 1 = n → i + n < limit → improves tol (some (val k)) (val (k + 1)) = false) := by
  induction h with
  | @stop x v g i s s' hp =>
    simp only [mStepProgress, Prod.mk.injEq, Bool.and_eq_false_iff, decide_eq_false_iff_not] at hp
    refine ⟨fun _ => x, fun _ => v, 0, by omega, rfl, rfl, rfl, fun _ _ => hv, by simp, ?_, by simp, ?_,
      by simp, by simp⟩
    · rw [← hp.1]; simp
    · intro _ hlt
      rcases hp.2 with h | h
      · exact absurd hlt h
      · exact h
  | @again x x1 xf v v1 g g1 i s s1 sf hp hg hs _ ih =>
    simp only [mStepProgress, Prod.mk.injEq, Bool.and_eq_true, decide_eq_true_eq] at hp
    obtain ⟨h1, h2⟩ := hQ hv hg hs
    obtain ⟨path, val, n, hn, p0, w0, pn, hval, hstep, hev, hpos, hz, hcont, hlast⟩ :=
      ih h1 (by omega)
    refine ⟨fun k => if k = 0 then x else path (k - 1), fun k => if k = 0 then v else val (k - 1), n + 1,
      by omega, rfl, rfl, by simpa using pn, ?_, ?_, ?_, fun _ => hp.2.2, by simp, ?_, ?_⟩
    · intro k hk
      cases k with
      | zero => exact hv
      | succ k => simpa using hval k (by omega)
    · intro k hk
      cases k with
      | zero => simpa [p0, w0] using h2
      | succ k => simpa using hstep k (by omega)
    · rw [hev, ← hp.1]
      simp only [List.append_assoc]
      congr 1
      rw [List.range_succ_eq_map (n := n + 1)]
      simp [List.map_map, Function.comp_def]
    · intro k hk
      cases k with
      | zero =>
        have := hpos (by omega)
        rw [← hp.1] at this
        simpa [w0] using this
      | succ k => simpa using hcont k (by omega)
    · intro k hk hlt
      cases k with
      | zero =>
        have hn0 : n = 0 := by omega
        have := hz hn0 (by omega)
        rw [← hp.1] at this
        simpa [w0] using this
      | succ k => simpa using hlast k (by omega) (by omega)

/-- `descent_loop_steps` for the Armijo search. -/
theorem descent_loop_spec {pr : Problem r c} {limit : ℕ} {tol b tau : ℝ} (hb : 0 < b) (ht : 0 < tau)
    (ht1 : tau < 1) {x x' : Mat r c ℝ} {v : ℝ} {g : Option (Mat r c ℝ)} {i : ℕ}
    {s s' : Option ℝ × List ℝ} (hv : pr.value x = some v) (hi : i ≤ limit)
    (h : DescentLoop (ArmijoSearch b tau) pr (mStepProgress limit tol) x v g i s x' s') :
    ∃ (path : ℕ → Mat r c ℝ) (val : ℕ → ℝ) (n : ℕ), i + n ≤ limit ∧ path 0 = x ∧ val 0 = v ∧
      path n = x' ∧ (∀ k ≤ n, pr.value (path k) = some (val k)) ∧
      (∀ k < n, DescentStep pr b (path k) (path (k + 1)) (val k) (val (k + 1))) ∧
      s'.2 = s.2 ++ (List.range (n + 1)).map (fun k => - val k) ∧
      (0 < n → improves tol s.1 v = true) ∧
      (n = 0 → i < limit → improves tol s.1 v = false) ∧
      (∀ k, k + 1 < n → improves tol (some (val k)) (val (k + 1)) = true) ∧
      (∀ k, k + 1 = n → i + n < limit → improves tol (some (val k)) (val (k + 1)) = false) := by
  exact descent_loop_steps (Q := DescentStep pr b) (fun hv hg hs => descentStep_of_search hb ht ht1 hv hg hs) hv hi h

/-- **C56** for the callback of the supervised M steps.  The descent is a sequence of at most `limit`
steps along the gradient, each decreasing the objective (by what the Armijo condition asks for), the
events report minus the objective at every position, in order, and the descent stops where the relative
improvement is not above the tolerance or at the limit. -/
theorem C56_m_step {pr : Problem r c} {limit : ℕ} {tol b tau : ℝ} (hb : 0 < b) (ht : 0 < tau)
    (ht1 : tau < 1) {x x' : Mat r c ℝ} {s' : Option ℝ × List ℝ}
    (h : Minimize (ArmijoSearch b tau) pr (mStepProgress limit tol) x (none, []) x' s') :
    ∃ (path : ℕ → Mat r c ℝ) (val : ℕ → ℝ) (n : ℕ), n ≤ limit ∧ path 0 = x ∧ path n = x' ∧
      (∀ k ≤ n, pr.value (path k) = some (val k)) ∧
      (∀ k < n, DescentStep pr b (path k) (path (k + 1)) (val k) (val (k + 1))) ∧
      s'.2 = (List.range (n + 1)).map (fun k => - val k) ∧
      (n = 0 → limit = 0 ∨ val 0 < 0) ∧
      (∀ k, k + 1 < n → 0 < val (k + 1) → Improved tol (val k) (val (k + 1))) ∧
      (∀ k, k + 1 = n → n < limit → 0 < val n → ¬ Improved tol (val k) (val n)) := by
  obtain ⟨v, hv, hl⟩ := h
  obtain ⟨path, val, n, hn, p0, w0, pn, hval, hstep, hev, _, hz, hcont, hlast⟩ :=
    descent_loop_spec hb ht ht1 hv (Nat.zero_le _) hl
  refine ⟨path, val, n, by omega, p0, pn, hval, hstep, by simpa using hev, ?_, ?_, ?_⟩
  · intro h0
    rcases Nat.eq_zero_or_pos limit with h | h
    · exact .inl h
    · have := hz h0 h
      simp only [improves, decide_eq_false_iff_not, not_le] at this
      rw [w0]; exact .inr this
  · intro k hk hp
    exact (improves_some hp).1 (hcont k hk)
  · intro k hk hlt hp himp
    subst hk
    have := hlast k rfl (by omega)
    rw [(improves_some hp).2 himp] at this
    exact absurd this (by simp)

/-- **C56**: what the listeners of a supervised M step see: between one and `limit + 1` events, the log
likelihoods never decreasing. -/
theorem C56_events {pr : Problem r c} {limit : ℕ} {tol b tau : ℝ} (hb : 0 < b) (ht : 0 < tau)
    (ht1 : tau < 1) {x x' : Mat r c ℝ} {s' : Option ℝ × List ℝ}
    (h : Minimize (ArmijoSearch b tau) pr (mStepProgress limit tol) x (none, []) x' s') :
    1 ≤ s'.2.length ∧ s'.2.length ≤ limit + 1 ∧ s'.2.Pairwise (· ≤ ·) ∧
      ∃ v v', pr.value x = some v ∧ pr.value x' = some v' ∧ s'.2.head? = some (-v) ∧
        s'.2.getLast? = some (-v') := by
  obtain ⟨path, val, n, hn, p0, pn, hval, hstep, hev, _⟩ := C56_m_step hb ht ht1 h
  have hmono : ∀ k l, k ≤ l → l ≤ n → val l ≤ val k := by
    intro k l hkl hl
    induction l, hkl using Nat.le_induction with
    | base => exact le_rfl
    | succ l hkl ih => exact ((hstep l (by omega)).le hb).trans (ih (by omega))
  refine ⟨by rw [hev]; simp, by rw [hev]; simp; omega, ?_, val 0, val n, ?_, ?_, ?_, ?_⟩
  · rw [hev, List.pairwise_map]
    have := List.pairwise_lt_range (n := n + 1)
    refine List.Pairwise.imp_of_mem ?_ this
    intro a b ha hb' hab
    rw [List.mem_range] at ha hb'
    exact neg_le_neg (hmono a b (by omega) (by omega))
  · rw [← p0]; exact hval 0 (by omega)
  · rw [← pn]; exact hval n le_rfl
  · rw [hev, List.range_succ_eq_map]; simp
  · rw [hev, List.range_succ]; simp

/-- **C56**: with a differentiable objective the descent terminates, from every starting point, with
every limit and tolerance. -/
theorem C56_terminates {pr : Problem r c} {f : Mat r c ℝ → ℝ} (hv : ∀ x, pr.value x = some (f x))
    (hg : ∀ x, ∃ g, pr.gradient x = some g ∧ IsGradient f x g) {limit : ℕ} {tol b tau : ℝ}
    (hb1 : b < 1) (ht : 0 < tau) (ht1 : tau < 1) (x : Mat r c ℝ) :
    ∃ x' s', Minimize (ArmijoSearch b tau) pr (mStepProgress limit tol) x (none, []) x' s' := by
  have hval : pr.value = fun y => some (f y) := funext hv
  have key : ∀ n i : ℕ, limit ≤ i + n → ∀ (x : Mat r c ℝ) (v : ℝ) (g : Option (Mat r c ℝ))
      (s : Option ℝ × List ℝ),
      ∃ x' s', DescentLoop (ArmijoSearch b tau) pr (mStepProgress limit tol) x v g i s x' s' := by
    intro n
    induction n with
    | zero =>
      intro i hi x v g s
      refine ⟨x, _, .stop (s' := (some v, s.2 ++ [-v])) ?_⟩
      have : ¬ i < limit := by omega
      simp [mStepProgress, this]
    | succ n ih =>
      intro i hi x v g s
      by_cases hc : (decide (i < limit) && improves tol s.1 v) = true
      · obtain ⟨g', hg1, hg2⟩ := hg x
        obtain ⟨x1, v1, h1⟩ := C55_terminates (p := g') hg2 hb1 ht ht1 (.inl rfl)
        obtain ⟨xf, sf, h2⟩ := ih (i + 1) (by omega) x1 v1 (some g') (some v, s.2 ++ [-v])
        refine ⟨xf, sf, .again (s' := (some v, s.2 ++ [-v])) ?_ hg1 ?_ h2⟩
        · simp only [mStepProgress, hc]
        · rw [hval]; exact h1
      · refine ⟨x, _, .stop (s' := (some v, s.2 ++ [-v])) ?_⟩
        simp only [Bool.not_eq_true] at hc
        simp only [mStepProgress, hc]
  obtain ⟨x', s', h⟩ := key limit 0 (by omega) x (f x) none (none, [])
  exact ⟨x', s', f x, hv x, h⟩

/-- The loop, and so the whole descent, is deterministic. -/
theorem DescentLoop.unique {pr : Problem r c} {progress : Progress S} {b tau : ℝ}
    {x x1 x2 : Mat r c ℝ} {v : ℝ} {g : Option (Mat r c ℝ)} {i : ℕ} {s s1 s2 : S}
    (h1 : DescentLoop (ArmijoSearch b tau) pr progress x v g i s x1 s1)
    (h2 : DescentLoop (ArmijoSearch b tau) pr progress x v g i s x2 s2) : x1 = x2 ∧ s1 = s2 := by
  induction h1 with
  | stop hp =>
    cases h2 with
    | stop hp' => exact ⟨rfl, congrArg Prod.fst (hp.symm.trans hp')⟩
    | again hp' => exact absurd (congrArg Prod.snd (hp.symm.trans hp')) (by simp)
  | again hp hg hs _ ih =>
    cases h2 with
    | stop hp' => exact absurd (congrArg Prod.snd (hp.symm.trans hp')) (by simp)
    | again hp' hg' hs' h3 =>
      have e1 := congrArg Prod.fst (hp.symm.trans hp')
      have e2 := Option.some.inj (hg.symm.trans hg')
      dsimp only at e1
      subst e1 e2
      obtain ⟨rfl, rfl⟩ := hs.unique hs'
      exact ih h3

theorem Minimize.unique {pr : Problem r c} {progress : Progress S} {b tau : ℝ}
    {x x1 x2 : Mat r c ℝ} {s s1 s2 : S} (h1 : Minimize (ArmijoSearch b tau) pr progress x s x1 s1)
    (h2 : Minimize (ArmijoSearch b tau) pr progress x s x2 s2) : x1 = x2 ∧ s1 = s2 := by
  obtain ⟨v1, hv1, h1⟩ := h1
  obtain ⟨v2, hv2, h2⟩ := h2
  have := Option.some.inj (hv1.symm.trans hv2)
  subst this
  exact h1.unique h2

/-- The hypotheses of the theorems above can be met: `x ↦ x²` from 1. -/
noncomputable def squareProblem : Problem 1 1 :=
  ⟨fun x => some (square x), fun x => some fun _ _ => 2 * x 0 0⟩

example : ∃ x' s', Minimize (ArmijoSearch (1 / 1000) (1 / 2)) squareProblem
    (mStepProgress 10 (1 / 100)) (fun _ _ => 1) (none, []) x' s' :=
  C56_terminates (f := square) (fun _ => rfl) (fun x => ⟨_, rfl, square_gradient x⟩) (by norm_num)
    (by norm_num) (by norm_num) _

/-! ### C78: what the callback is told -/

/-- A callback that records what it is told, and goes on as it likes. -/
def recorder (go : ℝ → Option ℝ → ℕ → Bool) : Progress (List (ℝ × Option ℝ × ℕ)) :=
  fun s v n i => (s ++ [(v, n, i)], go v n i)

/-- **C78**, partial: the `k`-th call of the callback is told the objective at the current position and
that `k` steps were made, and (except for the first) the norm of the gradient at the position *before*
the last step.  Missing: the norm at the current position, see `C78_first_norm` and `C78_stale_norm`. -/
theorem C78_callback_partial {pr : Problem r c} {go : ℝ → Option ℝ → ℕ → Bool} {b tau : ℝ} (hb : 0 < b)
    (ht : 0 < tau) (ht1 : tau < 1) {x x' : Mat r c ℝ} {log : List (ℝ × Option ℝ × ℕ)}
    (h : Minimize (ArmijoSearch b tau) pr (recorder go) x [] x' log) :
    ∃ (path : ℕ → Mat r c ℝ) (val : ℕ → ℝ) (norm : ℕ → Option ℝ) (n : ℕ), path 0 = x ∧ path n = x' ∧
      (∀ k ≤ n, pr.value (path k) = some (val k)) ∧
      (∀ k < n, ∃ g, pr.gradient (path k) = some g ∧ norm (k + 1) = some (maxNorm g)) ∧
      log = (List.range (n + 1)).map (fun k => (val k, norm k, k)) := by
  obtain ⟨v, hv, hl⟩ := h
  suffices H : ∀ (x x' : Mat r c ℝ) (v : ℝ) (g : Option (Mat r c ℝ)) (i : ℕ) s s',
      pr.value x = some v → DescentLoop (ArmijoSearch b tau) pr (recorder go) x v g i s x' s' →
      ∃ (path : ℕ → Mat r c ℝ) (val : ℕ → ℝ) (norm : ℕ → Option ℝ) (n : ℕ), path 0 = x ∧ val 0 = v ∧
        norm 0 = g.map maxNorm ∧ path n = x' ∧
        (∀ k ≤ n, pr.value (path k) = some (val k)) ∧
        (∀ k < n, ∃ g, pr.gradient (path k) = some g ∧ norm (k + 1) = some (maxNorm g)) ∧
        s' = s ++ (List.range (n + 1)).map (fun k => (val k, norm k, i + k)) by
    obtain ⟨path, val, norm, n, h1, _, _, h2, h3, h4, h5⟩ := H _ _ _ _ _ _ _ hv hl
    exact ⟨path, val, norm, n, h1, h2, h3, h4, by simpa using h5⟩
  intro x x' v g i s s' hv hl
  induction hl with
  | @stop x v g i s s' hp =>
    refine ⟨fun _ => x, fun _ => v, fun _ => g.map maxNorm, 0, rfl, rfl, rfl, rfl, fun _ _ => hv, by simp,
      ?_⟩
    have := congrArg Prod.fst hp
    simp only [recorder] at this
    rw [← this]; simp
  | @again x x1 xf v v1 g g1 i s s1 sf hp hg hs _ ih =>
    obtain ⟨h1, _⟩ := descentStep_of_search hb ht ht1 hv hg hs
    obtain ⟨path, val, norm, n, p0, w0, n0, pn, h3, h4, h5⟩ := ih h1
    refine ⟨fun k => if k = 0 then x else path (k - 1), fun k => if k = 0 then v else val (k - 1),
      fun k => if k = 0 then g.map maxNorm else norm (k - 1), n + 1, rfl, rfl, rfl, by simpa using pn,
      ?_, ?_, ?_⟩
    · intro k hk
      cases k with
      | zero => exact hv
      | succ k => simpa using h3 k (by omega)
    · intro k hk
      cases k with
      | zero => exact ⟨g1, hg, by simpa using n0⟩
      | succ k => simpa using h4 k (by omega)
    · have hs1 := congrArg Prod.fst hp
      simp only [recorder] at hs1
      rw [h5, ← hs1, List.append_assoc]
      congr 1
      rw [List.range_succ_eq_map (n := n + 1)]
      simp only [List.map_map, Function.comp_def, List.map_cons, if_true, Nat.add_zero,
        Nat.succ_ne_zero, if_false, Nat.succ_sub_one, List.cons_append, List.nil_append, List.cons.injEq,
        true_and]
      apply List.map_congr_left
      intro k _
      rw [Nat.succ_eq_add_one, Nat.add_assoc, Nat.add_comm 1 k]

/-- **C78 is false** for the first call: it is told the norm of uninitialised memory, for every problem
and starting point. -/
theorem C78_first_norm {pr : Problem r c} {go : ℝ → Option ℝ → ℕ → Bool} {search : LineSearch r c}
    {x x' : Mat r c ℝ} {log : List (ℝ × Option ℝ × ℕ)}
    (h : Minimize search pr (recorder go) x [] x' log) : ∃ v, log.head? = some (v, none, 0) := by
  obtain ⟨v, _, hl⟩ := h
  refine ⟨v, ?_⟩
  have H : ∀ {x x' : Mat r c ℝ} {v : ℝ} {g : Option (Mat r c ℝ)} {i : ℕ} {s s'},
      DescentLoop search pr (recorder go) x v g i s x' s' → ∃ t, s' = s ++ t := by
    intro x x' v g i s s' hl
    induction hl with
    | stop hp => exact ⟨_, (congrArg Prod.fst hp).symm⟩
    | again hp _ _ _ ih =>
      obtain ⟨t, ht⟩ := ih
      have := congrArg Prod.fst hp
      simp only [recorder] at this
      exact ⟨_, by rw [ht, ← this, List.append_assoc]⟩
  cases hl with
  | stop hp =>
    have := congrArg Prod.fst hp
    simp only [recorder] at this
    rw [← this]; simp
  | again hp _ _ h3 =>
    obtain ⟨t, ht⟩ := H h3
    have := congrArg Prod.fst hp
    simp only [recorder] at this
    rw [ht, ← this]; simp

/-- **C78 is false** for the calls after it too: descending `x ↦ x²` from 1 for one step the second call
is told 2, the derivative at 1, though the position is 0, where the derivative is 0. -/
theorem C78_stale_norm : Minimize (ArmijoSearch (1 / 1000) (1 / 2)) squareProblem
      (recorder fun _ _ i => decide (i < 1)) (fun _ _ => 1) []
      (fun _ _ => 0) [(1, none, 0), (0, some 2, 1)] ∧
    squareProblem.gradient (fun _ _ => 0) = some fun _ _ => 0 := by
  refine ⟨⟨1, by simp [squareProblem, square], ?_⟩, by simp [squareProblem]⟩
  refine .again (s' := [(1, none, 0)]) (g' := fun _ _ => 2) (x' := fun _ _ => 0) (v' := 0) rfl
    (by simp [squareProblem]) ?_ ?_
  · refine ⟨1, 1 / 2, by simp [squareProblem, square], by norm_num, ?_, ?_⟩
    · refine .again (v' := 1) (by norm_num [dot]) (by norm_num [squareProblem, square, move]) ?_
      refine .again (v' := 0) (by norm_num [dot]) (by norm_num [squareProblem, square, move]) ?_
      have : (1 : ℝ) / (1 / 2) * (1 / 2) * (1 / 2) = 1 / 2 := by norm_num
      rw [this]
      exact .exit (by norm_num [dot])
    · funext i j; norm_num [move]
  · refine .stop ?_
    have : maxNorm (fun _ _ => 2 : Mat 1 1 ℝ) = 2 := by
      unfold maxNorm
      rw [dif_pos ⟨(0, 0), mem_univ _⟩]
      apply le_antisymm
      · apply Finset.sup'_le; intro b _; simp
      · exact le_trans (by simp) (Finset.le_sup' (f := fun p : Fin 1 × Fin 1 => |(2 : ℝ)|) (mem_univ (0, 0)))
    simp [recorder, this]

end Verif.Optim
