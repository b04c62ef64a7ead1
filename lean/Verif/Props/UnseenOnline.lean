import Verif.Props.Unseen
import Verif.Props.MomentumZero

/-! Property C154 for `FastOnlineSupervisedMStep`. -/
namespace Verif.MStep

open MathUtils EStep Optim Finset

variable {K V C : ℕ} {cfg : OnlineCfg C} {beta : Mat K V ℝ} {eta : Mat K C ℝ} {h : List (Call (DocArg K V) Unit)}
  {s : OnlineState K V C} {ev : List (Option ℝ)} {c0 : Fin C}

/-- **C154**: the online step, for every history of calls.  If the steps are short, as with the default settings, then no
weight of a class without documents gets above zero, and from the first complete minibatch on all of them are negative if
the documents have a share in every topic. -/
theorem C154_online (hmb : 0 < cfg.minibatch) (hm0 : 0 ≤ cfg.momentum) (hm : cfg.momentum < 1) (hr : 0 < cfg.rate)
    (hL : 0 ≤ cfg.penalty) (hsmall : cfg.rate * cfg.penalty ≤ (1 - Real.sqrt cfg.momentum) ^ 2)
    (hs : onlineHistory cfg beta eta h = some (s, ev)) (ha : ∀ d ∈ given h, Apt C d)
    (hc : ∀ d ∈ given h, d.2.1.cls ≠ (c0 : ℤ)) (h0 : ∀ k, eta k c0 ≤ 0) :
    ∃ e, s.eta = some e ∧ (∀ k, e k c0 ≤ 0) ∧
      (cfg.minibatch ≤ (given h).length → (∀ d ∈ given h, ∀ k, d.1 k < d.2.2.gamma k) → ∀ k, e k c0 < 0) := by
  obtain ⟨r₁, r₂, hr12, hp, a0, a1, b0, b1⟩ := roots_real hm0 hm (mul_nonneg hr.le hL) hsmall
  obtain ⟨e, v, he, -, hP⟩ := online_induct hmb
    (fun h e v => (∀ d ∈ given h, d.2.1.cls ≠ (c0 : ℤ)) → ∀ k, e k c0 - r₂ * (e k c0 - v k c0) ≤ 0 ∧ e k c0 ≤ 0 ∧
      (0 < (given h).length / cfg.minibatch → (∀ d ∈ given h, ∀ k, d.1 k < d.2.2.gamma k) → e k c0 < 0))
    (fun _ k => by
      have := h0 k
      refine ⟨?_, this, fun hlt => ?_⟩
      · nlinarith
      · simp at hlt)
    (fun h c e v hlen hP hc k => by
      have hsub : ∀ d ∈ given h, d ∈ given (h ++ [c]) := fun d hd => by
        rw [given_snoc]
        cases c <;> simp [hd]
      obtain ⟨p1, p2, p3⟩ := hP (fun d hd => hc d (hsub d hd)) k
      exact ⟨p1, p2, fun hlt hg => p3 (hlen ▸ hlt) fun d hd => hg d (hsub d hd)⟩)
    (fun h c s ev e v u _ _ hlen _ _ hu hP hc k => by
      have hsub : ∀ d ∈ given h, d ∈ given (h ++ [c]) := fun d hd => by
        rw [given_snoc]
        cases c <;> simp [hd]
      obtain ⟨p1, p2, -⟩ := hP (fun d hd => hc d (hsub d hd)) k
      obtain ⟨u0, u1⟩ := hu c0 hc k
      have key : e k c0 + (cfg.momentum * v k c0 - cfg.rate * (u k c0 + e k c0 * cfg.penalty)) =
          r₁ * (e k c0 - r₂ * (e k c0 - v k c0)) + r₂ * e k c0 - cfg.rate * u k c0 := by
        linear_combination (-(e k c0)) * hr12 + (e k c0 - v k c0) * hp
      have q1 := mul_nonpos_of_nonneg_of_nonpos a0 p1
      have q2 := mul_nonpos_of_nonneg_of_nonpos b0 p2
      have q3 := mul_nonneg hr.le u0
      beta_reduce
      refine ⟨?_, by rw [key]; linarith, fun _ hg => ?_⟩
      · rw [add_sub_cancel_right, key]
        linarith
      · have hne : lastBatch cfg.minibatch (given (h ++ [c])) ≠ [] := by
          intro hnil
          have := congrArg List.length hnil
          simp only [lastBatch, List.length_drop, List.length_nil] at this
          have : (given (h ++ [c])).length = 0 := by omega
          rw [this, Nat.zero_div] at hlen
          exact absurd hlen (Nat.succ_ne_zero _).symm
        obtain ⟨d, hd⟩ := List.exists_mem_of_ne_nil _ hne
        have q4 := mul_pos hr (u1 ⟨d, hd, hg d (List.mem_of_mem_drop hd) k⟩)
        rw [key]
        linarith) hs ha
  exact ⟨e, he, fun k => (hP hc k).2.1, fun hle hg k => (hP hc k).2.2 (Nat.div_pos hle hmb) hg⟩

/-- **C154**: the predictions after online training from weights zero. -/
theorem C154_online_predict_partial (hmb : 0 < cfg.minibatch) (hm0 : 0 ≤ cfg.momentum) (hm : cfg.momentum < 1)
    (hr : 0 < cfg.rate) (hL : 0 ≤ cfg.penalty) (hsmall : cfg.rate * cfg.penalty ≤ (1 - Real.sqrt cfg.momentum) ^ 2)
    (hs : onlineHistory cfg beta eta h = some (s, ev)) (ha : ∀ d ∈ given h, Apt C d)
    (hc : ∀ d ∈ given h, d.2.1.cls ≠ (c0 : ℤ)) (h0 : ∀ k c, eta k c = 0) (hlen : cfg.minibatch ≤ (given h).length)
    (hg : ∀ d ∈ given h, ∀ k, d.1 k < d.2.2.gamma k) {alpha : Vec K ℝ} {D : ℕ} (X : Mat K D ℝ)
    (hX : ∀ d k, alpha k ≤ X k d) (hX' : ∀ d, ∃ k, alpha k < X k d) :
    ∃ e ps, s.eta = some e ∧ Decision.predict (Decision.decisionFunction alpha e X) = some ps ∧ ps.length = D ∧
      c0 ∉ ps := by
  obtain ⟨e, he, -, hneg⟩ := C154_online hmb hm0 hm hr hL hsmall hs ha hc fun k => (h0 k c0).le
  obtain ⟨e', he', r, -, hsum⟩ := Train.C148_online hmb hs ha
  obtain rfl := Option.some.inj (he.symm.trans he')
  obtain ⟨ps, h1, h2, h3⟩ := Train.unseen_predict (c0 := c0) (alpha := alpha) (eta := e) (fun k => by
    rw [hsum k]
    simp only [h0, sum_const_zero, mul_zero]
    exact mul_neg_of_pos_of_neg (by exact_mod_cast c0.pos) (hneg hlen hg k)) X hX hX'
  exact ⟨e, ps, he, h1, h2, h3⟩

theorem given_swing (t : ℕ) : given (List.replicate t (.doc swingDoc) : List (Call (DocArg 1 1) Unit)) =
    List.replicate t swingDoc := by
  induction t with
  | zero => rfl
  | succ t ih => rw [List.replicate_succ, given_doc, ih, List.replicate_succ]

/-- **C154**, why the steps must be short: if the learning rate times the penalty is two or more, then after two documents
of the first class every document is predicted to have the second, which has no document. -/
theorem C154_online_false {rate L : ℝ} (hr : 0 < rate) (h2 : 2 ≤ rate * L) (beta : Mat 1 1 ℝ) :
    ∃ s ev e, onlineHistory (swingCfg 0 rate L) beta (fun _ _ => 0) [.doc swingDoc, .doc swingDoc] = some (s, ev) ∧
      s.eta = some e ∧ 0 < e 0 1 ∧
      ∀ (alpha : Vec 1 ℝ) (D : ℕ) (X : Mat 1 D ℝ), (∀ d k, alpha k < X k d) →
        Decision.predict (Decision.decisionFunction alpha e X) = some (List.replicate D 1) := by
  obtain ⟨s, ev, e, v, h1, he, -, h4, h5, -, -⟩ := swing_history 0 rate L beta 2
  have hneg : (swing 0 rate L 2).1 < 0 := by
    simp only [swing, other_zero]
    have a : 0 + (0 * 0 - rate * (-(1 / 2) + 0 * L)) = rate / 2 := by ring
    rw [a]
    have o := mul_lt_mul_of_pos_left (other_lt (half_pos hr)) hr
    nlinarith
  refine ⟨s, ev, e, h1, he, by linarith, fun alpha D X hX => ?_⟩
  obtain ⟨ps, p1, p2, p3⟩ := Train.unseen_predict (c0 := (0 : Fin 2)) (alpha := alpha) (eta := e) (fun k => by
    rw [Subsingleton.elim k 0, Fin.sum_univ_two, h4, h5]
    push_cast
    linarith) X (fun d k => (hX d k).le) fun d => ⟨0, hX d 0⟩
  rw [p1, ← p2]
  refine congrArg some (List.eq_replicate_of_mem fun p hp => ?_)
  by_contra hne
  have : p = 0 := by
    apply Fin.ext
    have := p.isLt
    have h3 : (p : ℕ) ≠ 1 := fun h => hne (Fin.ext h)
    simp only [Fin.val_zero]
    omega
  exact p3 (this ▸ hp)

/-! ### The hypotheses can be met -/

/-- The default settings are such that the steps are short. -/
example (h : List (Call (DocArg 3 5) Unit)) (s : OnlineState 3 5 2) (ev : List (Option ℝ)) (beta : Mat 3 5 ℝ)
    (hh : onlineHistory usualCfg beta (fun _ _ => 0) h = some (s, ev)) (ha : ∀ d ∈ given h, Apt 2 d)
    (hc : ∀ d ∈ given h, d.2.1.cls ≠ ((0 : Fin 2) : ℤ)) : ∃ e, s.eta = some e ∧ ∀ k, e k 0 ≤ 0 := by
  obtain ⟨e, h1, h2, -⟩ := C154_online (cfg := usualCfg) (c0 := 0) (by simp [usualCfg]) (by norm_num [usualCfg])
    (by norm_num [usualCfg]) (by norm_num [usualCfg]) (by norm_num [usualCfg]) (by
      have : Real.sqrt (9 / 10) ≤ 98 / 100 := Real.sqrt_le_iff.2 ⟨by norm_num, by norm_num⟩
      simp only [usualCfg]
      nlinarith) hh ha hc (by simp)
  exact ⟨e, h1, h2⟩

/-- Documents of the first class only, however many: the second is not predicted. -/
example (beta : Mat 1 1 ℝ) (t : ℕ) (ht : 0 < t) (D : ℕ) : ∃ s ev e ps,
    onlineHistory (swingCfg (1 / 4) 1 (1 / 4)) beta (fun _ _ => 0) (List.replicate t (.doc swingDoc)) = some (s, ev) ∧
    s.eta = some e ∧ Decision.predict (Decision.decisionFunction (fun _ => 1) e (fun _ _ => 3 : Mat 1 D ℝ)) = some ps ∧
    (1 : Fin 2) ∉ ps := by
  obtain ⟨s, ev, -, -, h1, -⟩ := swing_history (1 / 4) 1 (1 / 4) beta t
  have hd : ∀ d ∈ given (List.replicate t (.doc swingDoc) : List (Call (DocArg 1 1) Unit)), d = swingDoc := fun d hd => by
    rw [given_swing] at hd
    exact List.eq_of_mem_replicate hd
  obtain ⟨e, ps, q1, q2, -, q3⟩ := C154_online_predict_partial (c0 := (1 : Fin 2)) (alpha := fun _ => 1)
    (by simp [swingCfg]) (by norm_num [swingCfg]) (by norm_num [swingCfg]) (by norm_num [swingCfg])
    (by norm_num [swingCfg]) (by
      have : Real.sqrt (1 / 4) = 1 / 2 := by
        rw [show (1 / 4 : ℝ) = (1 / 2) ^ 2 by norm_num]
        exact Real.sqrt_sq (by norm_num)
      simp only [swingCfg, this]
      norm_num) h1 (fun d h => by rw [hd d h]; exact swingDoc_apt) (fun d h => by rw [hd d h]; simp [swingDoc])
    (by simp) (by rw [given_swing, List.length_replicate]; exact ht) (fun d h k => by rw [hd d h]; norm_num [swingDoc])
    (fun _ _ => 3 : Mat 1 D ℝ) (fun _ _ => by norm_num) (fun _ => ⟨0, by norm_num⟩)
  exact ⟨s, ev, e, ps, h1, q1, q2, q3⟩

end Verif.MStep
