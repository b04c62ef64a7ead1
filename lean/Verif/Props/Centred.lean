import Verif.Props.Twins
import Verif.Props.Momentum
import Verif.Props.SecondM

/-! Property C148: over the classes, the weights of a topic keep adding up to zero. -/
namespace Verif.Optim

open MathUtils Finset

variable {K C : ℕ}

theorem subCol_total {g g' : Mat K C ℝ} {y : ℤ} {w : ℝ} {x : Vec K ℝ} (h : subCol g y w x = some g') (k : Fin K) :
    ∑ c, g' k c = (∑ c, g k c) - w * x k := by
  unfold subCol at h
  split_ifs at h with hy
  obtain ⟨n, rfl⟩ := Int.eq_ofNat_of_zero_le hy.1
  rw [← Option.some.inj h]
  have e : ∀ c : Fin C, (if (c : ℤ) = (n : ℤ) then g k c - w * x k else g k c) =
      g k c - if c = ⟨n, by exact_mod_cast hy.2⟩ then w * x k else 0 := by
    intro c
    have : ((c : ℤ) = (n : ℤ)) ↔ c = ⟨n, by exact_mod_cast hy.2⟩ := by
      rw [Fin.ext_iff]; exact Int.ofNat_inj
    by_cases hc : (c : ℤ) = (n : ℤ)
    · rw [if_pos hc, if_pos (this.1 hc)]
    · rw [if_neg hc, if_neg fun h => hc (this.2 h), sub_zero]
  simp only [e, sum_sub_distrib, sum_ite_eq', mem_univ, if_true]

theorem gradLoop_total {Cy : List (Option ℝ)} {eta : Mat K C ℝ} {ys : List ℤ} :
    ∀ {xs : List (Vec K ℝ)} {g g' : Mat K C ℝ}, logisticGradLoop Cy eta ys xs g = some g' →
      ∀ k, ∑ c, g' k c = ∑ c, g k c := by
  induction ys with
  | nil => intro xs g g' h k; rw [Option.some.inj h]
  | cons y ys ih =>
    intro xs g g' h k
    cases xs with
    | nil => cases h
    | cons x xs =>
      simp only [logisticGradLoop, Option.bind_eq_some_iff] at h
      obtain ⟨w, _, g1, h1, h⟩ := h
      split_ifs at h with h0
      rw [ih h k, sum_add_distrib, subCol_total h1 k, ← sum_div, ← mul_sum, ← mul_sum, mul_div_assoc, mul_div_assoc,
        div_self h0]
      ring

/-- Over the classes, the gradient adds up to the weight penalty times what `eta` adds up to. -/
theorem gradient_total {X : List (Vec K ℝ)} {y : List ℤ} {Cy : List (Option ℝ)} {L : ℝ} {eta g : Mat K C ℝ}
    (h : logisticGradient X y Cy L eta = some g) (k : Fin K) : ∑ c, g k c = (∑ c, eta k c) * L := by
  simp only [logisticGradient, Option.map_eq_some_iff] at h
  obtain ⟨g1, h1, rfl⟩ := h
  rw [sum_add_distrib, gradLoop_total h1 k, sum_const_zero, zero_add, sum_mul]

theorem move_total (x g : Mat K C ℝ) (a : ℝ) (k : Fin K) :
    ∑ c, move x a g k c = (∑ c, x k c) - a * ∑ c, g k c := by
  simp only [move, sum_sub_distrib, mul_sum]

/-- A line search that ends on the ray it is given. -/
def OnRay (search : LineSearch K C) : Prop :=
  ∀ f x g p x' v, search f x g p x' v → ∃ a, x' = move x a p

theorem onRay_armijo (b tau : ℝ) : OnRay (ArmijoSearch b tau : LineSearch K C) :=
  fun _ _ _ _ _ _ ⟨_, a, _, _, _, h⟩ => ⟨a, h⟩

theorem onRay_constant (alpha : ℝ) : OnRay (ConstantSearch alpha : LineSearch K C) :=
  fun _ _ _ _ _ _ h => ⟨alpha, h.1⟩

/-- Over the classes, the weights of every topic add up to the same multiple of what they added up to before; without a
penalty, to the same. -/
def Shrinks (L : ℝ) (e e' : Mat K C ℝ) : Prop :=
  ∃ r : ℝ, (L = 0 → r = 1) ∧ ∀ k, ∑ c, e' k c = r * ∑ c, e k c

theorem Shrinks.refl (L : ℝ) (e : Mat K C ℝ) : Shrinks L e e := ⟨1, fun _ => rfl, fun k => by rw [one_mul]⟩

theorem Shrinks.trans {L : ℝ} {a b c : Mat K C ℝ} (h : Shrinks L a b) (h' : Shrinks L b c) : Shrinks L a c := by
  obtain ⟨r, h1, h2⟩ := h
  obtain ⟨r', h1', h2'⟩ := h'
  exact ⟨r' * r, fun hL => by rw [h1 hL, h1' hL, one_mul], fun k => by rw [h2', h2, mul_assoc]⟩

theorem Shrinks.move {X : List (Vec K ℝ)} {y : List ℤ} {Cy : List (Option ℝ)} {L : ℝ} {eta g : Mat K C ℝ}
    (h : logisticGradient X y Cy L eta = some g) (a : ℝ) : Shrinks L eta (Optim.move eta a g) :=
  ⟨1 - a * L, fun hL => by rw [hL, mul_zero, sub_zero], fun k => by rw [move_total, gradient_total h]; ring⟩

/-- **C148**: a descent on the logistic regression, with any line search along the gradient, any callback and any
number of steps. -/
theorem C148_descent {S : Type} {search : LineSearch K C} (hs : OnRay search) {X : List (Vec K ℝ)} {y : List ℤ}
    {Cy : List (Option ℝ)} {L : ℝ} {progress : Progress S} {x x' : Mat K C ℝ} {s s' : S}
    (h : Minimize search (logistic C X y Cy L) progress x s x' s') : Shrinks L x x' := by
  obtain ⟨v, -, h⟩ := h
  generalize none = g0 at h
  generalize 0 = i at h
  induction h with
  | stop _ => exact .refl _ _
  | again _ hg hsearch _ ih =>
    obtain ⟨a, rfl⟩ := hs _ _ _ _ _ _ hsearch
    exact (Shrinks.move hg a).trans ih

end Verif.Optim

namespace Verif.Train

open MathUtils EStep MStep Optim Pool Finset

variable {K V C : ℕ} {T : Type}

/-- What every `m_step` keeps, training keeps. -/
theorem fitKeeps_of {Q R S : Type} {b : BatchStep Q R S} {P : Q → Prop}
    (h : ∀ q s q' s' n, b.step q s = some (q', s', n) → P q → P q') (n : ℕ) (eval : Q × T → ℕ → R) (next : T → T) (s0 : S) :
    FitKeeps b n eval next s0 P := by
  have key : ∀ (W : ℕ) (orders : List (ℕ → ℕ)) (m0 m : Q × T × Option S) (l : Left R) (logs : List (List (Obs R))),
      Calls (fitCalls b next eval W n orders) .empty m0 l m logs → P m0.1 → P m.1 := by
    intro W orders
    induction orders with
    | nil => intro m0 m l logs hc hq; cases hc; exact hq
    | cons p orders ih =>
      intro m0 m l logs hc hq
      rw [fitCalls, List.map_cons] at hc
      cases hc with
      | cons as s hrun hret ht =>
        have hR : Reachable (trainCfg b next eval true W n p) m0 s := ⟨as, hrun⟩
        have hclean := C06_nothing_left hR hret
        have hleft : s.left = .empty := by
          simp [St.left, Left.empty, hclean.1, hclean.2.1, hclean.2.2.2 rfl]
        rw [hleft] at ht
        refine ih _ _ _ _ ht ?_
        rw [partial_fit_order hR hret]
        generalize ((((consumed s.log).map Prod.fst).map p).map fun i => (i, eval (trainParams m0) i)) = ds
        have e1 := OrderFree.docs_params (b := b) m0 ds
        generalize OrderFree.docs b m0 ds = m1 at e1
        simp only [trainBatch]
        cases hst : m1.2.2.bind (b.step m1.1) with
        | none => simpa [e1] using hq
        | some r =>
          obtain ⟨s1, _, h2⟩ := Option.bind_eq_some_iff.1 hst
          exact h _ _ _ _ _ h2 (by simpa [e1] using hq)
  exact fun q t W orders m l logs _ hc hq => key W orders _ _ _ _ hc hq

theorem fastM_shrinks {cfg : SupCfg} {eta : Mat K C ℝ} {s : MStep.FastState K V} {o : MOut K V C × MStep.FastState K V}
    (h : fastM cfg eta s = some o) : Shrinks cfg.penalty eta o.1.eta := by
  simp only [fastM, Option.bind_eq_some_iff, Option.map_eq_some_iff] at h
  obtain ⟨zs, -, ys, -, pr, hpr, r, hr, rfl⟩ := h
  simp only [logisticDefault, Option.map_eq_some_iff] at hpr
  obtain ⟨Cy, -, rfl⟩ := hpr
  obtain ⟨o, ho⟩ := descend_eq_some.1 hr
  exact C148_descent (onRay_armijo _ _) ho

/-- **C148**: training with `FastSupervisedMStep` or `SemiSupervisedMStep`, whatever the E step.  Over the classes, the
weights of all topics add up to a common multiple of what they added up to at the start. -/
theorem C148_training (cfg : SupCfg) (corpus : ℕ → Doc V) (n : ℕ) (eval : Params K V C × T → ℕ → VP K V) (next : T → T)
    (start : Mat K C ℝ) :
    FitKeeps (fastSupervised cfg corpus) n eval next .init (fun q => Shrinks cfg.penalty start q.eta) ∧
    FitKeeps (semiSupervised cfg corpus) n eval next .init (fun q => Shrinks cfg.penalty start q.eta) := by
  have key : ∀ (q : Params K V C) (s : MStep.FastState K V) q' s' n, (fastSupervised cfg corpus).step q s = some (q', s', n) →
      Shrinks cfg.penalty start q.eta → Shrinks cfg.penalty start q'.eta := by
    intro q s q' s' n h hq
    simp only [fastSupervised, Option.map_eq_some_iff] at h
    obtain ⟨o, ho, h⟩ := h
    rw [← (Prod.mk.inj h).1]
    exact hq.trans (fastM_shrinks ho)
  exact ⟨fitKeeps_of key n eval next _, fitKeeps_of (b := semiSupervised cfg corpus) key n eval next _⟩

/-- **C148**: weights that add up to zero over the classes keep doing so.  With two classes, the weights of one are
minus the weights of the other. -/
theorem C148_centred (cfg : SupCfg) (corpus : ℕ → Doc V) (n : ℕ) (eval : Params K V C × T → ℕ → VP K V) (next : T → T) :
    FitKeeps (fastSupervised cfg corpus) n eval next .init (fun q => ∀ k, ∑ c, q.eta k c = 0) ∧
    FitKeeps (semiSupervised cfg corpus) n eval next .init (fun q => ∀ k, ∑ c, q.eta k c = 0) := by
  have key : ∀ q q' : Params K V C, Shrinks cfg.penalty q.eta q'.eta → (∀ k, ∑ c, q.eta k c = 0) →
      ∀ k, ∑ c, q'.eta k c = 0 := by
    rintro q q' ⟨r, -, h⟩ h0 k
    rw [h, h0, mul_zero]
  refine ⟨fun q t W orders m l logs ho hc hq => ?_, fun q t W orders m l logs ho hc hq => ?_⟩
  · exact key q m.1 ((C148_training cfg corpus n eval next q.eta).1 q t W orders m l logs ho hc (.refl _ _)) hq
  · exact key q m.1 ((C148_training cfg corpus n eval next q.eta).2 q t W orders m l logs ho hc (.refl _ _)) hq

/-- **C148**: the online step, for every history of calls. -/
theorem C148_online {cfg : OnlineCfg C} (hmb : 0 < cfg.minibatch) {beta : Mat K V ℝ} {eta : Mat K C ℝ}
    {h : List (Call (DocArg K V) Unit)} {s : OnlineState K V C} {ev : List (Option ℝ)}
    (hs : onlineHistory cfg beta eta h = some (s, ev)) (ha : ∀ d ∈ given h, Apt C d) :
    ∃ e, s.eta = some e ∧ Shrinks cfg.penalty eta e := by
  obtain ⟨e, v, he, -, r, u, hL, h1, h2⟩ := online_induct hmb
    (fun _ e v => ∃ r u : ℝ, (cfg.penalty = 0 → r = 1 ∧ u = 0) ∧ (∀ k, ∑ c, e k c = r * ∑ c, eta k c) ∧
      ∀ k, ∑ c, v k c = u * ∑ c, eta k c)
    ⟨1, 0, fun _ => ⟨rfl, rfl⟩, fun k => by rw [one_mul], fun k => by simp⟩
    (fun _ _ _ _ _ hP => hP)
    (fun _ _ _ _ e v p _ _ _ _ hp _ ⟨r, u, hL, h1, h2⟩ => by
      have e2 : ∀ k, ∑ c, (cfg.momentum * v k c - cfg.rate * (p k c + e k c * cfg.penalty)) =
          (cfg.momentum * u - cfg.rate * (r * cfg.penalty)) * ∑ c, eta k c := by
        intro k
        simp only [sum_sub_distrib, ← mul_sum, sum_add_distrib, ← sum_mul, hp k, h1, h2]
        ring
      refine ⟨r + (cfg.momentum * u - cfg.rate * (r * cfg.penalty)), cfg.momentum * u - cfg.rate * (r * cfg.penalty),
        fun h => ?_, fun k => ?_, e2⟩
      · obtain ⟨rfl, rfl⟩ := hL h
        rw [h]
        constructor <;> ring
      · rw [sum_add_distrib, e2, h1]
        ring) hs ha
  exact ⟨e, he, r, fun h => (hL h).1, h1⟩

/-! ### Supervised LDA -/

/-- One topic and one document with one word and label 0: what the E step yields for it (C37). -/
noncomputable def oneTopic : DocArg 1 1 := (![1], ⟨![1], 0⟩, ⟨fun _ _ => 1, ![2]⟩)

theorem ArmijoLoop.step_pos {f : Mat K C ℝ → Option ℝ} {x p : Mat K C ℝ} {v0 d tau a v a' v' : ℝ} (ht : 0 < tau)
    (h : ArmijoLoop f x p v0 d tau a v a' v') (ha : 0 < a) : 0 < a' := by
  induction h with
  | exit _ => exact ha
  | again _ _ _ ih => exact ih (mul_pos ha ht)

/-- **C148 is false** for `SupervisedMStep`: for every opposite weights `t` and `-t` of two classes, one step of the
descent on this document leaves weights that add up to less than zero. -/
theorem C148_second_order {tol L : ℝ} (hL : 0 ≤ L) {t : ℝ} (ht : t ≠ 0) : ∃ (s s' : SupState 1 1) (out : MOut 1 1 2),
    supHistory (C := 2) ⟨1, tol, L⟩ [.doc oneTopic] = some s ∧
    supM ⟨1, tol, L⟩ (fun _ => ![t, -t]) s = some (out, s') ∧ ∑ c, out.eta 0 c < 0 := by
  obtain ⟨s, hs⟩ := C80_defined_partial (cfg := ⟨1, tol, L⟩) (C := 2) (h := []) rfl oneTopic (by simp [size, oneTopic])
  rw [List.nil_append] at hs
  have hsince : since [(.doc oneTopic : Call (DocArg 1 1) (Mat 1 2 ℝ))] = [oneTopic] := by simp [since]
  have hsize : ∀ d ∈ since [(.doc oneTopic : Call (DocArg 1 1) (Mat 1 2 ℝ))], size d ≠ 0 := by
    rw [hsince]; simp [size, oneTopic]
  obtain ⟨out, s', -, -, -, ho, -⟩ := C50_second_trains hs (by rw [hsince]; simp) hsize (fun _ => ![t, -t])
    (data := [(meanTopics oneTopic, varTopics oneTopic, (0 : Fin 2))]) (by rw [hsince]; rfl) (by rw [hsince]; rfl)
    (by rw [hsince]; simp [oneTopic])
  refine ⟨s, s', out, hs, ho, ?_⟩
  obtain ⟨pr, events, hpr, hd, -, -⟩ := (C50_second hs (by rw [hsince]; simp) hsize (fun _ => ![t, -t]) out).1 ⟨s', ho⟩
  have e0 : meanTopics oneTopic = fun _ => 1 := by
    funext k; fin_cases k; simp [meanTopics, oneTopic, size]; norm_num
  have e1 : varTopics oneTopic = fun _ _ => 1 := by
    funext k l; simp [varTopics, oneTopic, size]
  rw [hsince] at hpr
  simp only [List.map_cons, List.map_nil, e0, e1] at hpr
  have hw : defaultWeights [oneTopic.2.1.cls] = some [some 1] := by
    simp [defaultWeights, numClasses, oneTopic, countLabel, weightOf]
  have hc : oneTopic.2.1.cls = ((0 : Fin 2) : ℤ) := rfl
  simp only [secondOrderDefault, hw, Option.map_some, Option.some.injEq] at hpr
  have hW : Weighs [some 1] (fun _ : Fin 2 => (1 : ℝ)) [(0 : Fin 2)] := by
    intro c hc
    rw [List.mem_singleton.1 hc]
    simp
  have hP : ∀ d ∈ [((fun _ => 1 : Vec 1 ℝ), (fun _ _ => 1 : Mat 1 1 ℝ), (0 : Fin 2))], PSD d.2.1 := by
    intro d hd
    rw [List.mem_singleton.1 hd]
    intro u
    simp only [univ_unique, sum_singleton, mul_one]
    exact mul_self_nonneg _
  have hval := C58_value (L := L) hW hP fun _ => ![t, -t]
  rw [List.map_singleton, List.map_singleton, List.map_singleton] at hval
  dsimp only at hval
  rw [← hc, hpr] at hval
  have hpos := C58_nonneg [((fun _ => 1 : Vec 1 ℝ), (fun _ _ => 1 : Mat 1 1 ℝ), (0 : Fin 2))] (w := fun _ : Fin 2 => (1 : ℝ))
    (fun _ _ => zero_le_one) hP hL fun _ => ![t, -t]
  have hgr := secondGradLoop_eq (fun _ => ![t, -t]) _ hW hP fun _ _ => 0
  simp only [List.map_singleton, List.sum_singleton, zero_add, one_mul] at hgr
  obtain ⟨last, v, hv, hd⟩ := hd
  have hv0 : 0 ≤ v := by rw [hval] at hv; rw [← Option.some.inj hv]; exact hpos
  generalize out.eta = oe at hd ⊢
  cases hd with
  | stop hp =>
    have := congrArg Prod.snd hp
    simp [mStepProgress, improves, hv0] at this
  | again hp hg hsearch hd =>
    rename_i x' v' g' s1
    have hx : oe = x' := by
      cases hd with
      | stop _ => rfl
      | again hp' =>
        have := congrArg Prod.snd hp'
        simp [mStepProgress] at this
    obtain ⟨v0, a, -, -, harm, rfl⟩ := hsearch
    have ha : 0 < a := ArmijoLoop.step_pos (by norm_num) harm (by norm_num)
    rw [hx, move_total]
    have hN : secondNormalizer (K := 1) (fun _ => ![t, -t]) (fun _ => 1) (fun _ _ => 1) =
        (Real.exp t + Real.exp (-t)) * (1 + t ^ 2 / 2) := by
      simp [secondNormalizer, scores, quad, Fin.sum_univ_two]
      ring
    have hN0 : 0 < secondNormalizer (K := 1) (fun _ => ![t, -t]) (fun _ => 1) (fun _ _ => 1) := by
      rw [hN]; positivity
    have hg' : ∑ c, g' 0 c = t * (Real.exp t - Real.exp (-t)) /
        secondNormalizer (K := 1) (fun _ => ![t, -t]) (fun _ => 1) (fun _ _ => 1) := by
      rw [← hpr] at hg
      simp only [secondOrder, secondGradient, hc, hgr, Option.map_some, Option.some.injEq] at hg
      rw [← hg, hN]
      simp only [Fin.sum_univ_two]
      simp [secondGradDoc, scores, quad]
      field_simp
      ring
    have hsum : ∑ c, (![t, -t] : Fin 2 → ℝ) c = 0 := by simp [Fin.sum_univ_two]
    have htt : 0 < t * (Real.exp t - Real.exp (-t)) := by
      rcases lt_or_gt_of_ne ht with h | h
      · exact mul_pos_of_neg_of_neg h (sub_neg.2 (Real.exp_lt_exp.2 (by linarith)))
      · exact mul_pos h (sub_pos.2 (Real.exp_lt_exp.2 (by linarith)))
    rw [hsum, hg', zero_sub]
    exact neg_neg_of_pos (mul_pos ha (div_pos htt hN0))

/-- A case of `C148_centred`: two topics, two classes and opposite weights, three documents, two iterations with two
workers. -/
example (cfg : SupCfg) : ∃ (m : Params 2 4 2 × EStep.FastState × Option (MStep.FastState 2 4))
    (logs : List (List (Obs (VP 2 4)))),
    Calls (fitCalls (fastSupervised cfg threeDocs) EStep.FastState.eStep
      (libResults (fun (t : EStep.FastState) X y m => fastRun fastPrims demoCfg t.weight X y m) ⟨fun _ _ => 0, fun _ => 0⟩
        threeDocs) 2 3 [id, id]) .empty
      (⟨fun _ => 1 / 2, .matrix fun _ _ => .fin (1 / 4), ![![1, -1], ![3, -3]]⟩, ⟨1, .constant, 0⟩, some .init) .empty m logs ∧
    ∀ k, m.1.eta k 0 = - m.1.eta k 1 := by
  obtain ⟨m, logs, h⟩ := calls_exist (fastSupervised cfg threeDocs) EStep.FastState.eStep
    (libResults (fun (t : EStep.FastState) X y m => fastRun fastPrims demoCfg t.weight X y m) ⟨fun _ _ => 0, fun _ => 0⟩
      threeDocs) (W := 2) (by norm_num) 3 [id, id]
    (⟨fun _ => 1 / 2, .matrix fun _ _ => .fin (1 / 4), ![![1, -1], ![3, -3]]⟩, ⟨1, .constant, 0⟩, some .init)
  refine ⟨m, logs, h, fun k => ?_⟩
  have := (C148_centred cfg threeDocs 3 _ _).1 _ _ 2 [id, id] m _ logs (by simp) h
    (fun k => by fin_cases k <;> simp [Fin.sum_univ_two]) k
  rw [Fin.sum_univ_two] at this
  linarith

/-- The hypotheses of `C148_online` can be met, with any minibatch. -/
example (cfg : OnlineCfg 2) (hmb : 0 < cfg.minibatch) (beta : Mat 2 1 ℝ) : ∃ (h : List (Call (DocArg 2 1) Unit))
    (s : OnlineState 2 1 2) (ev : List (Option ℝ)), onlineHistory cfg beta (fun _ => ![5, -2]) h = some (s, ev) ∧
    (given h).length = 2 ∧ ∀ d ∈ given h, Apt 2 d := by
  let a : DocArg 2 1 := (![1, 1], ⟨![3], 0⟩, ⟨fun _ _ => 1 / 2, ![5 / 2, 5 / 2]⟩)
  let b : DocArg 2 1 := (![1, 1], ⟨![2], 1⟩, ⟨fun _ _ => 1 / 2, ![2, 2]⟩)
  have hg : given [Call.doc a, .doc b, .step ()] = [a, b] := by simp [given]
  have hA : ∀ d ∈ given [Call.doc a, .doc b, .step ()], Apt 2 d := by
    rw [hg]
    intro d hd
    simp only [List.mem_cons, List.not_mem_nil, or_false] at hd
    rcases hd with rfl | rfl
    · refine ⟨by simp [a], fun k => ?_, ?_⟩
      · fin_cases k <;> norm_num [a]
      · norm_num [a, Fin.sum_univ_two]
    · refine ⟨by simp [b], fun k => ?_, ?_⟩
      · fin_cases k <;> norm_num [b]
      · norm_num [b, Fin.sum_univ_two]
  obtain ⟨s, ev, h⟩ := C52_defined hmb beta (fun _ => ![5, -2]) [.doc a, .doc b, .step ()] fun d hd => (hA d hd).1
  exact ⟨_, s, ev, h, by rw [hg]; rfl, hA⟩

end Verif.Train
