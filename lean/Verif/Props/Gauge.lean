import Verif.Props.Twins
import Verif.Props.Centred
import Verif.Props.Decision

/-! Property C149: only the differences between the classes matter. -/
namespace Verif.Optim

open MathUtils EStep Finset

variable {K C : ℕ}

/-- To the weights of topic `k`, `s k` is added for all classes. -/
def shifted (s : Vec K ℝ) (eta : Mat K C ℝ) : Mat K C ℝ := fun k c => eta k c + s k

theorem scores_shifted (s : Vec K ℝ) (eta : Mat K C ℝ) (x : Vec K ℝ) (c : Fin C) :
    scores (shifted s eta) x c = scores eta x c + ∑ k, s k * x k := by
  simp only [scores, shifted, add_mul, sum_add_distrib]

theorem shifted_neg (s : Vec K ℝ) (eta : Mat K C ℝ) : shifted (fun k => - s k) (shifted s eta) = eta := by
  funext k c; simp [shifted]

theorem move_shifted (s : Vec K ℝ) (x : Mat K C ℝ) (a : ℝ) (p : Mat K C ℝ) :
    move (shifted s x) a p = shifted s (move x a p) := by
  funext k c; simp only [move, shifted]; ring

theorem logisticLoop_shifted (s : Vec K ℝ) (Cy : List (Option ℝ)) (eta : Mat K C ℝ) (ys : List ℤ) :
    ∀ (xs : List (Vec K ℝ)) (acc : ℝ), logisticLoop Cy (shifted s eta) ys xs acc = logisticLoop Cy eta ys xs acc := by
  induction ys with
  | nil => intro xs acc; rfl
  | cons y ys ih =>
    intro xs acc
    cases xs with
    | nil => rfl
    | cons x xs =>
      simp only [logisticLoop, ih]
      cases Optim.weightAt Cy y with
      | none => rfl
      | some w =>
        simp only [Option.bind_some, entryAt]
        split_ifs with hy
        · have hp : 0 < ∑ c, Real.exp (scores eta x c) := sum_exp_pos _ ⟨y.toNat, by omega⟩
          have e : ∑ c, Real.exp (scores (shifted s eta) x c) =
              Real.exp (∑ k, s k * x k) * ∑ c, Real.exp (scores eta x c) := by
            rw [mul_sum]
            exact sum_congr rfl fun c _ => by rw [scores_shifted, add_comm, Real.exp_add]
          simp only [Option.bind_some, logc, e, hp, mul_pos (Real.exp_pos _) hp, if_true]
          rw [Real.log_mul (Real.exp_pos _).ne' hp.ne', Real.log_exp, scores_shifted]
          congr 1
          ring
        · rfl

theorem gradLoop_shifted (s : Vec K ℝ) (Cy : List (Option ℝ)) (eta : Mat K C ℝ) (ys : List ℤ) :
    ∀ (xs : List (Vec K ℝ)) (g : Mat K C ℝ), logisticGradLoop Cy (shifted s eta) ys xs g = logisticGradLoop Cy eta ys xs g := by
  induction ys with
  | nil => intro xs acc; rfl
  | cons y ys ih =>
    intro xs g
    cases xs with
    | nil => rfl
    | cons x xs =>
      have e : ∑ c, Real.exp (scores (shifted s eta) x c) =
          Real.exp (∑ k, s k * x k) * ∑ c, Real.exp (scores eta x c) := by
        rw [mul_sum]
        exact sum_congr rfl fun c _ => by rw [scores_shifted, add_comm, Real.exp_add]
      have e1 : ∀ (w : ℝ) k c, w * (x k * Real.exp (scores (shifted s eta) x c)) /
          (Real.exp (∑ k, s k * x k) * ∑ c, Real.exp (scores eta x c)) =
          w * (x k * Real.exp (scores eta x c)) / ∑ c, Real.exp (scores eta x c) := by
        intro w k c
        rw [scores_shifted, add_comm, Real.exp_add]
        rw [show w * (x k * (Real.exp (∑ k, s k * x k) * Real.exp (scores eta x c))) =
          Real.exp (∑ k, s k * x k) * (w * (x k * Real.exp (scores eta x c))) by ring]
        exact mul_div_mul_left _ _ (Real.exp_pos _).ne'
      have e2 : (Real.exp (∑ k, s k * x k) * ∑ c, Real.exp (scores eta x c) = 0) ↔ ∑ c, Real.exp (scores eta x c) = 0 := by
        simp [(Real.exp_pos _).ne']
      simp only [logisticGradLoop, ih, e, e1, e2]

/-- Without a penalty, neither the value nor the gradient changes. -/
theorem logistic_shifted (s : Vec K ℝ) (X : List (Vec K ℝ)) (y : List ℤ) (Cy : List (Option ℝ)) (eta : Mat K C ℝ) :
    (logistic C X y Cy 0).value (shifted s eta) = (logistic C X y Cy 0).value eta ∧
    (logistic C X y Cy 0).gradient (shifted s eta) = (logistic C X y Cy 0).gradient eta := by
  simp only [logistic, logisticValue, logisticGradient, logisticLoop_shifted, gradLoop_shifted, zero_mul, zero_div, mul_zero,
    and_self]

theorem ArmijoLoop.shifted {f : Mat K C ℝ → Option ℝ} {s : Vec K ℝ} (hf : ∀ x, f (shifted s x) = f x) {x p : Mat K C ℝ}
    {v0 d tau a v a' v' : ℝ} (h : ArmijoLoop f x p v0 d tau a v a' v') :
    ArmijoLoop f (Optim.shifted s x) p v0 d tau a v a' v' := by
  induction h with
  | exit h => exact .exit h
  | again h1 h2 _ ih => exact .again h1 (by rw [move_shifted, hf]; exact h2) ih

theorem DescentLoop.shifted {S : Type} {pr : Problem K C} {s : Vec K ℝ} (hv : ∀ x, pr.value (shifted s x) = pr.value x)
    (hg : ∀ x, pr.gradient (shifted s x) = pr.gradient x) {progress : Progress S} {b tau : ℝ} {x x' : Mat K C ℝ} {v : ℝ}
    {g : Option (Mat K C ℝ)} {i : ℕ} {t t' : S} (h : DescentLoop (ArmijoSearch b tau) pr progress x v g i t x' t') :
    DescentLoop (ArmijoSearch b tau) pr progress (Optim.shifted s x) v g i t (Optim.shifted s x') t' := by
  induction h with
  | stop h => exact .stop h
  | again h1 h2 h3 _ ih =>
    refine .again h1 (by rw [hg]; exact h2) ?_ ih
    obtain ⟨v0, a, a1, a2, a3, rfl⟩ := h3
    exact ⟨v0, a, by rw [hv]; exact a1, a2, a3.shifted hv, (move_shifted _ _ _ _).symm⟩

theorem descend_shifted {pr : Problem K C} {s : Vec K ℝ} (hv : ∀ s x, pr.value (shifted s x) = pr.value x)
    (hg : ∀ s x, pr.gradient (shifted s x) = pr.gradient x) (cfg : MStep.SupCfg) (eta : Mat K C ℝ) :
    MStep.descend cfg pr (shifted s eta) = (MStep.descend cfg pr eta).map fun r => (shifted s r.1, r.2) := by
  have key : ∀ (s : Vec K ℝ) (eta : Mat K C ℝ) r, MStep.descend cfg pr eta = some r →
      MStep.descend cfg pr (shifted s eta) = some (shifted s r.1, r.2) := by
    intro s eta r h
    obtain ⟨o, v, h1, h2⟩ := MStep.descend_eq_some.1 (show MStep.descend cfg pr eta = some (r.1, r.2) from h)
    exact MStep.descend_eq_some.2 ⟨o, v, by rw [hv]; exact h1, h2.shifted (hv s) (hg s)⟩
  cases h : MStep.descend cfg pr eta with
  | some r => exact key s eta r h
  | none =>
    cases h' : MStep.descend cfg pr (shifted s eta) with
    | none => rfl
    | some r =>
      have := key (fun k => - s k) _ r h'
      rw [shifted_neg, h] at this
      cases this

end Verif.Optim

namespace Verif.Decision

open MathUtils EStep Optim Finset

variable {K C D : ℕ}

/-- **C149**: the predictions for documents with words do not change. -/
theorem C149_predict (alpha : Vec K ℝ) (eta : Mat K C ℝ) (s : Vec K ℝ) (X : Mat K D ℝ)
    (hX : ∀ d, ∑ k, (X k d - alpha k) ≠ 0) :
    predict (decisionFunction alpha (shifted s eta) X) = predict (decisionFunction alpha eta X) := by
  unfold predict
  congr 1
  funext d
  obtain ⟨z, hz⟩ : ∃ z : Vec K ℝ, expectedZ alpha (fun k => X k d) = fun k => .fin (z k) :=
    ⟨fun k => (X k d - alpha k) / ∑ j, (X j d - alpha j), by
      funext k
      simp only [expectedZ, MStep.quot, ne_eq, hX d, not_false_eq_true, if_true]⟩
  have e : ∀ (eta : Mat K C ℝ) c, decisionFunction alpha eta X c d = .fin (scores eta z c) := by
    intro eta c
    rw [decisionFunction, hz, score_fin]
    rfl
  simp only [e, scores_shifted]
  cases C with
  | zero => rfl
  | succ C =>
    simp only [maxIndex, gt, add_lt_add_iff_right]
    congr!

/-- Two documents, two topics and two classes: both are predicted to be of the second class. -/
example (s : Vec 2 ℝ) : predict (decisionFunction (fun _ => 1) (shifted s fun _ => ![0, 1]) (![![3, 1], ![2, 5]] : Mat 2 2 ℝ)) =
    predict (decisionFunction (fun _ => 1) (fun _ => ![0, 1]) (![![3, 1], ![2, 5]] : Mat 2 2 ℝ)) :=
  C149_predict _ _ _ _ fun d => by fin_cases d <;> norm_num [Fin.sum_univ_two]

end Verif.Decision

namespace Verif.MStep

open MathUtils EStep Optim Finset

variable {K V C : ℕ}

/-- **C149**: `FastSupervisedMStep` and `SemiSupervisedMStep` (which inherits `m_step`) without a penalty, in every
state. -/
theorem C149_m_step {cfg : SupCfg} (hL : cfg.penalty = 0) (s : Vec K ℝ) (eta : Mat K C ℝ) (st : FastState K V) :
    fastM cfg (shifted s eta) st =
      (fastM cfg eta st).map fun o => (⟨o.1.beta, shifted s o.1.eta, o.1.events⟩, o.2) := by
  simp only [fastM, logisticDefault, hL]
  cases readAll (resize st.zbar st.docs) with
  | none => rfl
  | some zs =>
    cases readAll (resize st.y st.docs) with
    | none => rfl
    | some ys =>
      cases hC : defaultWeights ys with
      | none => simp only [Option.bind_some, hC, Option.map_none, Option.bind_none]
      | some Cy =>
        simp only [hC, Option.bind_some, Option.map_some]
        rw [descend_shifted (fun s x => (logistic_shifted s zs ys Cy x).1) (fun s x => (logistic_shifted s zs ys Cy x).2),
          Option.map_map, Option.map_map]
        rfl

/-- The state of the online step with the weights shifted, if they are finite. -/
def OnlineState.shift (s : Vec K ℝ) (st : OnlineState K V C) : OnlineState K V C :=
  { st with eta := st.eta.map (shifted s) }

theorem onlineM_shift {cfg : OnlineCfg C} (hL : cfg.penalty = 0) (s : Vec K ℝ) (st : OnlineState K V C) :
    onlineM cfg (st.shift s) = (onlineM cfg st).map fun r => (r.1.shift s, r.2) := by
  unfold onlineM
  simp only [OnlineState.shift]
  by_cases hs : st.seen < cfg.minibatch
  · simp only [hs, if_true]
    rfl
  · simp only [hs, if_false]
    cases st.bufs with
    | none => rfl
    | some p =>
      have e : onlineEta cfg p.zbar p.y p.velocity (st.eta.map (shifted s)) =
          (onlineEta cfg p.zbar p.y p.velocity st.eta).map fun r => (r.1, r.2.1.map (shifted s), r.2.2) := by
        unfold onlineEta
        cases readAll p.zbar with
        | none => dsimp only; split <;> rfl
        | some zs =>
          cases p.velocity with
          | none => dsimp only; split <;> rfl
          | some vel =>
            cases st.eta with
            | none => dsimp only [Option.map_none]; split <;> rfl
            | some e =>
              simp only [Option.map_some, logisticDefault, hL]
              cases defaultWeights p.y with
              | none => rfl
              | some Cy =>
                simp only [Option.bind_some, Option.map_some, (logistic_shifted s zs p.y Cy e).2]
                cases (logistic C zs p.y Cy 0).gradient e with
                | none => rfl
                | some g =>
                  have h1 : (fun k c => shifted s e k c + (cfg.momentum * vel k c - cfg.rate * g k c)) =
                      shifted s fun k c => e k c + (cfg.momentum * vel k c - cfg.rate * g k c) := by
                    funext k c; simp only [shifted]; ring
                  simp only [Option.bind_some, h1, (logistic_shifted s zs p.y Cy _).1, Option.map_map]
                  rfl
      dsimp only
      rw [e, Option.map_map, Option.map_map]
      rfl

theorem onlineDoc_shift {cfg : OnlineCfg C} (hL : cfg.penalty = 0) (s : Vec K ℝ) (alpha : Vec K ℝ) (d : Doc V)
    (vp : VP K V) (st : OnlineState K V C) :
    onlineDoc cfg alpha d vp (st.shift s) = (onlineDoc cfg alpha d vp st).map fun r => (r.1.shift s, r.2) := by
  obtain ⟨bufs, seen, beta, eta⟩ := st
  generalize hp : bufs.getD (OnlineBufs.init cfg) = p
  have e : ∀ eta, onlineDoc cfg alpha d vp ⟨bufs, seen, beta, eta⟩ =
      if seen < p.zbar.length ∧ seen < p.y.length then
        let st : OnlineState K V C := ⟨some ⟨fun k n => p.b k n + scaled vp.phi d.words k n,
          p.zbar.set seen (onlineZbar vp.gamma alpha), p.y.set seen d.cls, p.velocity⟩, seen + 1, beta, eta⟩
        if cfg.minibatch ≤ seen + 1 then onlineM cfg st else some (st, [])
      else none := by
    intro eta; rw [← hp]; rfl
  rw [OnlineState.shift, e, e]
  split
  · dsimp only
    split
    · exact onlineM_shift hL s ⟨some ⟨fun k n => p.b k n + scaled vp.phi d.words k n,
          p.zbar.set seen (onlineZbar vp.gamma alpha), p.y.set seen d.cls, p.velocity⟩, seen + 1, beta, eta⟩
    · rfl
  · rfl

/-- **C149**: the online step without a penalty, for every history of calls: the topics and the reported values are the
same, and the weights differ by the shift. -/
theorem C149_online {cfg : OnlineCfg C} (hL : cfg.penalty = 0) (s : Vec K ℝ) (beta : Mat K V ℝ) (eta : Mat K C ℝ)
    (h : List (Call (DocArg K V) Unit)) :
    onlineHistory cfg beta (shifted s eta) h = (onlineHistory cfg beta eta h).map fun r => (r.1.shift s, r.2) := by
  have key : ∀ (h : List (Call (DocArg K V) Unit)) (st : OnlineState K V C × List (Option ℝ)),
      history (fun a s => (onlineDoc cfg a.1 a.2.1 a.2.2 s.1).map fun r => (r.1, s.2 ++ r.2))
        (fun _ s => (onlineM cfg s.1).map fun r => (r.1, s.2 ++ r.2)) (st.1.shift s, st.2) h =
      (history (fun a s => (onlineDoc cfg a.1 a.2.1 a.2.2 s.1).map fun r => (r.1, s.2 ++ r.2))
        (fun _ s => (onlineM cfg s.1).map fun r => (r.1, s.2 ++ r.2)) st h).map fun r => (r.1.shift s, r.2) := by
    intro h
    induction h with
    | nil => intro st; rfl
    | cons c h ih =>
      intro st
      simp only [history, List.foldlM_cons, Option.bind_eq_bind] at ih ⊢
      cases c with
      | doc a =>
        simp only [onlineDoc_shift hL, Option.map_map]
        cases onlineDoc cfg a.1 a.2.1 a.2.2 st.1 with
        | none => rfl
        | some r => exact ih (r.1, st.2 ++ r.2)
      | step b =>
        simp only [onlineM_shift hL, Option.map_map]
        cases onlineM cfg st.1 with
        | none => rfl
        | some r => exact ih (r.1, st.2 ++ r.2)
  exact key h (⟨none, 0, some beta, some eta⟩, [])

/-- Defined histories without a penalty, with the minibatch of the second document complete. -/
example : ∃ (cfg : OnlineCfg 2) (h : List (Call (DocArg 1 1) Unit)) (r : OnlineState 1 1 2 × List (Option ℝ)),
    cfg.penalty = 0 ∧ onlineHistory cfg (fun _ _ => 1) (fun _ => ![5, -2]) h = some r ∧
    onlineHistory cfg (fun _ _ => 1) (fun _ => ![7, 0]) h = some (r.1.shift (fun _ => 2), r.2) ∧ (given h).length = 2 := by
  let a : DocArg 1 1 := (![1], ⟨![3], 0⟩, ⟨fun _ _ => 1, ![4]⟩)
  let b : DocArg 1 1 := (![1], ⟨![2], 1⟩, ⟨fun _ _ => 1, ![3]⟩)
  let cfg : OnlineCfg 2 := ⟨fun _ => 1, 0, 2, 0, 1, 1 / 2⟩
  obtain ⟨s, ev, h⟩ := C52_defined (cfg := cfg) (by norm_num [cfg]) (fun _ _ => 1) (fun _ : Fin 1 => ![5, -2])
    [.doc a, .doc b] (by
      intro d hd
      simp only [given, List.filterMap_cons, List.filterMap_nil, List.mem_cons, List.not_mem_nil, or_false] at hd
      rcases hd with rfl | rfl <;> simp [a, b])
  refine ⟨cfg, _, (s, ev), rfl, h, ?_, rfl⟩
  have := C149_online (cfg := cfg) rfl (fun _ => 2) (fun _ _ => 1) (fun _ : Fin 1 => ![5, -2]) [.doc a, .doc b]
  rw [h] at this
  rw [show (fun _ : Fin 1 => ![(7 : ℝ), 0]) = shifted (fun _ => 2) fun _ => ![5, -2] by
    funext k c; fin_cases c <;> norm_num [shifted], this]
  rfl

end Verif.MStep

namespace Verif.EStep

open MathUtils Optim Finset

variable {K V C : ℕ} {P : Prims} {cfg : Cfg} {X : Vec V ℕ} {m : Model K V C}

/-- The model with `s k` added to all weights of topic `k`. -/
noncomputable def Model.shift (m : Model K V C) (s : Vec K ℝ) : Model K V C := { m with eta := shifted s m.eta }

/-- `M` is the greatest weight if that is positive, and one otherwise. -/
def IsScale (eta : Mat K C ℝ) (M : ℝ) : Prop :=
  (0 < M ∧ (∃ k c, eta k c = M) ∧ ∀ k c, eta k c ≤ M) ∨ (M = 1 ∧ ∀ k c, eta k c ≤ 0)

theorem IsScale.pos {eta : Mat K C ℝ} {M : ℝ} (h : IsScale eta M) : 0 < M := by
  rcases h with ⟨h, _⟩ | ⟨rfl, _⟩
  · exact h
  · norm_num

theorem IsScale.etaScaled {eta : Mat K C ℝ} {M : ℝ} (h : IsScale eta M) (k : Fin K) (c : Fin C) :
    etaScaled eta = some fun k c => eta k c / M := by
  obtain ⟨x, hx⟩ := maxCoeff_total eta k c
  obtain ⟨⟨k', c', h1⟩, h2⟩ := maxCoeff_spec hx
  simp only [EStep.etaScaled, hx, Option.map_some]
  rcases h with ⟨h0, ⟨a, b, h3⟩, h4⟩ | ⟨rfl, h4⟩
  · have : x = M := le_antisymm (h1 ▸ h4 k' c') (h3 ▸ h2 a b)
    rw [this, if_pos h0]
  · rw [if_neg (by rw [← h1]; exact not_lt.2 (h4 _ _))]
    simp

/-- Every matrix of weights has such a scale. -/
theorem IsScale.exists (eta : Mat K C ℝ) : ∃ M, IsScale eta M := by
  by_cases h : ∀ k c, eta k c ≤ 0
  · exact ⟨1, .inr ⟨rfl, h⟩⟩
  · push Not at h
    obtain ⟨k, c, h⟩ := h
    obtain ⟨x, hx⟩ := maxCoeff_total eta k c
    obtain ⟨⟨k', c', h1⟩, h2⟩ := maxCoeff_spec hx
    exact ⟨x, .inl ⟨h.trans_le (h2 k c), ⟨k', c', h1⟩, h2⟩⟩

theorem softmaxEtaZ_shifted (hexp : ∀ x, P.exp x = Real.exp x) (Xr : Vec V ℝ) (eta : Mat K C ℝ) (phi : Mat K V ℝ)
    (s : Vec K ℝ) : softmaxEtaZ P Xr (shifted s eta) phi = softmaxEtaZ P Xr eta phi := by
  unfold softmaxEtaZ
  generalize sumColsScaled phi Xr (fun _ => 0) = z
  have e : ∀ c, P.exp (∑ k, shifted s eta k c * z k) =
      Real.exp (∑ k, s k * z k) * P.exp (∑ k, eta k c * z k) := by
    intro c
    rw [hexp, hexp, ← Real.exp_add]
    congr 1
    simp only [shifted, add_mul, sum_add_distrib]
    ring
  simp only [e, ← mul_sum, mul_eq_zero, (Real.exp_pos _).ne', false_or, mul_div_mul_left _ _ (Real.exp_pos _).ne']

theorem fastStep_shift (hexp : ∀ x, P.exp x = Real.exp x) {s : Vec K ℝ} {M M' : ℝ} (hM : IsScale m.eta M)
    (hM' : IsScale (shifted s m.eta) M') (w : ℝ) (y : Fin C) (st : VP K V) :
    fastStep P (w * M') X y (m.shift s) st = fastStep P (w * M) X y m st := by
  rcases Nat.eq_zero_or_pos K with rfl | hK
  · have : m.shift s = m := by
      obtain ⟨a, b, e⟩ := m
      simp only [Model.shift, Model.mk.injEq, true_and]
      funext k; exact k.elim0
    rw [this]
    unfold fastStep approximatePhi etaScaled maxCoeff
    split
    · rfl
    · have : ¬ (univ : Finset (Fin 0 × Fin C)).Nonempty := fun ⟨p, _⟩ => p.1.elim0
      simp only [this, dite_false, Option.map_none, Option.bind_none]
  unfold fastStep approximatePhi
  simp only [Model.shift, softmaxEtaZ_shifted hexp, hM.etaScaled ⟨0, hK⟩ y, hM'.etaScaled ⟨0, hK⟩ y, Option.bind_some,
    colAt_fin]
  congr 1
  split
  · rfl
  cases mapOpt P.psi st.gamma with
  | none => rfl
  | some psi =>
    simp only [Option.bind_some]
    cases hs : softmaxEtaZ P (ratio X) m.eta st.phi with
    | none => rfl
    | some sm =>
      have h1 : ∑ c, sm c = 1 := (softmaxEtaZ_spec hs).1.2
      simp only [Option.bind_some]
      have e : ∀ k, w * M' * (shifted s m.eta k y / M' - ∑ c, shifted s m.eta k c / M' * sm c) =
          w * M * (m.eta k y / M - ∑ c, m.eta k c / M * sm c) := by
        intro k
        have e1 : ∑ c, shifted s m.eta k c / M' * sm c = (∑ c, m.eta k c * sm c + s k) / M' := by
          simp only [shifted, add_div, add_mul, sum_add_distrib]
          rw [← mul_sum, h1, mul_one, sum_div]
          congr 1
          exact sum_congr rfl fun c _ => by ring
        have e2 : ∑ c, m.eta k c / M * sm c = (∑ c, m.eta k c * sm c) / M := by
          rw [sum_div]
          exact sum_congr rfl fun c _ => by ring
        rw [e1, e2]
        have := hM.pos.ne'
        have := hM'.pos.ne'
        simp only [shifted]
        field_simp
        ring
      simp only [e]

/-- **C149**: the fast supervised step (exact exponential) with the shifted weights is the step with the weights as they
were and another strength of the class: `get_weight()` counts in units of the greatest weight. -/
theorem C149_fast_step (hexp : ∀ x, P.exp x = Real.exp x) {s : Vec K ℝ} {M M' : ℝ} (hM : IsScale m.eta M)
    (hM' : IsScale (shifted s m.eta) M') (w : ℝ) (y : Fin C) :
    fastRun P cfg (w * M') X y (m.shift s) = fastRun P cfg (w * M) X y m := by
  have : fastStep P (w * M') X y (m.shift s) = fastStep P (w * M) X y m :=
    funext fun st => fastStep_shift hexp hM hM' w y st
  unfold fastRun
  rw [this]
  rfl

/-! ### The supervised step -/

theorem factor_shift (hexp : ∀ x, P.exp x = Real.exp x) (Xr : Vec V ℝ) (eta : Mat K C ℝ) (phi : Mat K V ℝ) (t : ℝ)
    (n : Fin V) (c : Fin C) :
    factor P Xr (shifted (fun _ => t) eta) phi n c = Real.exp (t * Xr n) * factor P Xr eta phi n c := by
  unfold factor
  rw [mul_sum]
  refine sum_congr rfl fun k _ => ?_
  rw [hexp, hexp, shifted, add_mul, Real.exp_add]
  ring

theorem hOf_shift (hexp : ∀ x, P.exp x = Real.exp x) (Xr : Vec V ℝ) (eta : Mat K C ℝ) (p : Vec C ℝ) (t a : ℝ)
    (n : Fin V) :
    hOf P Xr (shifted (fun _ => t) eta) (fun c => a * p c) n = fun k => Real.exp (t * Xr n) * a * hOf P Xr eta p n k := by
  funext k
  unfold hOf
  rw [mul_sum]
  refine sum_congr rfl fun c _ => ?_
  rw [hexp, hexp, shifted, add_mul, Real.exp_add]
  ring

theorem fixedPoint_shift (hexp : ∀ x, P.exp x = Real.exp x) (x : ℕ) (xr t a : ℝ) (ha : a ≠ 0)
    (bcol ey psi h col : Vec K ℝ) :
    fixedPoint P x xr bcol (fun k => ey k + t) psi (fun k => a * h k) col = fixedPoint P x xr bcol ey psi h col := by
  unfold fixedPoint
  have e1 : ∑ k, a * h k * col k = a * ∑ k, h k * col k := by
    rw [mul_sum]; exact sum_congr rfl fun k _ => by ring
  simp only [e1, mul_eq_zero, ha, false_or]
  split
  · rfl
  · rename_i h0
    have e2 : ∀ k, bcol k * P.exp (psi k + xr * (ey k + t) - a * h k * (1 / (a * ∑ k, h k * col k) / x)) =
        Real.exp (xr * t) * (bcol k * P.exp (psi k + xr * ey k - h k * (1 / (∑ k, h k * col k) / x))) := by
      intro k
      rw [hexp, hexp]
      have : psi k + xr * (ey k + t) - a * h k * (1 / (a * ∑ k, h k * col k) / x) =
          xr * t + (psi k + xr * ey k - h k * (1 / (∑ k, h k * col k) / x)) := by
        have : a * h k * (1 / (a * ∑ k, h k * col k) / x) = h k * (1 / (∑ k, h k * col k) / x) := by
          rcases eq_or_ne (x : ℝ) 0 with hx | hx
          · simp [hx]
          · field_simp
        rw [this]; ring
      rw [this, Real.exp_add]
      ring
    simp only [e2, ← mul_sum, mul_eq_zero, (Real.exp_pos _).ne', false_or,
      mul_div_mul_left _ _ (Real.exp_pos _).ne']

theorem fixedPoints_shift (hexp : ∀ x, P.exp x = Real.exp x) (x : ℕ) (xr t a : ℝ) (ha : a ≠ 0)
    (bcol ey psi h : Vec K ℝ) (i : ℕ) (col : Vec K ℝ) :
    fixedPoints P x xr bcol (fun k => ey k + t) psi (fun k => a * h k) i col = fixedPoints P x xr bcol ey psi h i col := by
  induction i generalizing col with
  | zero => rfl
  | succ i ih =>
    simp only [fixedPoints, fixedPoint_shift hexp x xr t a ha]
    congr 1
    funext c
    exact ih c

/-- The sweep with the products and `h` multiplied by `a`. -/
def Sweep.times (a : ℝ) (s : Sweep K V C) : Sweep K V C :=
  { s with products := fun c => a * s.products c, h := s.h.map fun v k => a * v k }

theorem sweepWord_shift (hexp : ∀ x, P.exp x = Real.exp x) (Xr : Vec V ℝ) (beta : Mat K V ℝ) (eta : Mat K C ℝ)
    (ey : Vec K ℝ) (fp : ℕ) (t a : ℝ) (ha : 0 < a) (s : Sweep K V C) (n : Fin V) :
    sweepWord P X Xr beta (shifted (fun _ => t) eta) (fun k => ey k + t) fp (s.times a) n =
      (sweepWord P X Xr beta eta ey fp s n).map (Sweep.times a) := by
  unfold sweepWord
  split
  · rfl
  have hd : divide (s.times a).products (factor P Xr (shifted (fun _ => t) eta) (s.times a).phi n) =
      (divide s.products (factor P Xr eta s.phi n)).map fun p c => a / Real.exp (t * Xr n) * p c := by
    unfold divide
    simp only [factor_shift hexp, Sweep.times, ne_eq, mul_eq_zero, (Real.exp_pos _).ne', false_or]
    split
    · simp only [Option.map_some, Option.some.injEq]
      funext c
      exact mul_div_mul_comm _ _ _ _
    · rfl
  rw [hd]
  cases divide s.products (factor P Xr eta s.phi n) with
  | none => rfl
  | some p =>
    have e : Real.exp (t * Xr n) * (a / Real.exp (t * Xr n)) = a := mul_div_cancel₀ _ (Real.exp_pos _).ne'
    simp only [Option.map_some, Option.bind_some, hOf_shift hexp, e, fixedPoints_shift hexp _ _ _ _ ha.ne', factor_shift hexp]
    simp only [Sweep.times]
    cases fixedPoints P (X n) (Xr n) (fun k => beta k n) ey s.psi (hOf P Xr eta p n) fp (fun k => s.phi k n) with
    | none => rfl
    | some col =>
      simp only [Option.bind_some]
      cases mapOpt P.psi (fun k => s.gamma k + X n * (col k - s.phi k n)) with
      | none => rfl
      | some psi =>
        simp only [Option.bind_some, Option.map_some, Option.some.injEq, Sweep.times, Sweep.mk.injEq, true_and, and_true]
        funext c
        field_simp

theorem sweepWords_shift (hexp : ∀ x, P.exp x = Real.exp x) (Xr : Vec V ℝ) (beta : Mat K V ℝ) (eta : Mat K C ℝ)
    (ey : Vec K ℝ) (fp : ℕ) (t a : ℝ) (ha : 0 < a) (l : List (Fin V)) (s : Sweep K V C) :
    sweepWords P X Xr beta (shifted (fun _ => t) eta) (fun k => ey k + t) fp l (s.times a) =
      (sweepWords P X Xr beta eta ey fp l s).map (Sweep.times a) := by
  induction l generalizing s with
  | nil => rfl
  | cons n l ih =>
    simp only [sweepWords, sweepWord_shift hexp _ _ _ _ _ _ _ ha]
    cases sweepWord P X Xr beta eta ey fp s n with
    | none => rfl
    | some s' => exact ih s'

theorem colAt_shift (eta : Mat K C ℝ) (t : ℝ) (y : ℤ) :
    colAt (shifted (fun _ => t) eta) y = (colAt eta y).map fun v k => v k + t := by
  unfold colAt
  split <;> rfl

theorem products_shift (hexp : ∀ x, P.exp x = Real.exp x) (Xr : Vec V ℝ) (eta : Mat K C ℝ) (phi : Mat K V ℝ) (t : ℝ)
    (l : List (Fin V)) (p : Vec C ℝ) (b : ℝ) :
    l.foldl (fun p n c => p c * factor P Xr (shifted (fun _ => t) eta) phi n c) (fun c => Real.exp b * p c) =
      fun c => Real.exp (b + t * (l.map Xr).sum) * l.foldl (fun p n c => p c * factor P Xr eta phi n c) p c := by
  induction l generalizing p b with
  | nil => simp
  | cons n l ih =>
    simp only [List.foldl_cons, List.map_cons, List.sum_cons]
    rw [show (fun c => Real.exp b * p c * factor P Xr (shifted (fun _ => t) eta) phi n c) =
      fun c => Real.exp (b + t * Xr n) * (p c * factor P Xr eta phi n c) by
        funext c; rw [factor_shift hexp, Real.exp_add]; ring, ih]
    funext c
    congr 2
    ring

theorem supervisedPhiGamma_shift (hexp : ∀ x, P.exp x = Real.exp x) (Xr : Vec V ℝ) (y : ℤ) (beta : Mat K V ℝ)
    (eta : Mat K C ℝ) (fp : ℕ) (t : ℝ) (s : VP K V × Option (Vec K ℝ)) :
    supervisedPhiGamma P X Xr y beta (shifted (fun _ => t) eta) fp
        (s.1, s.2.map fun v k => Real.exp (t * ∑ n, Xr n) * v k) =
      (supervisedPhiGamma P X Xr y beta eta fp s).map fun r => (r.1, r.2.map fun v k => Real.exp (t * ∑ n, Xr n) * v k) := by
  have e := products_shift hexp Xr eta s.1.phi t (List.finRange V) (fun _ => 1) 0
  rw [zero_add, Real.exp_zero, show ((List.finRange V).map Xr).sum = ∑ n, Xr n by
    rw [← List.ofFn_eq_map, List.sum_ofFn]] at e
  simp only [one_mul] at e
  unfold supervisedPhiGamma
  simp only [colAt_shift, e]
  cases mapOpt P.psi s.1.gamma with
  | none => rfl
  | some psi =>
    cases colAt eta y with
    | none => rfl
    | some ey =>
      simp only [Option.bind_some, Option.map_some]
      have := sweepWords_shift (X := X) hexp Xr beta eta ey fp t _ (Real.exp_pos (t * ∑ n, Xr n)) (List.finRange V)
        ⟨s.1.phi, s.1.gamma, psi, (List.finRange V).foldl (fun p n c => p c * factor P Xr eta s.1.phi n c) (fun _ => 1), s.2⟩
      simp only [Sweep.times] at this
      rw [this, Option.map_map, Option.map_map]
      rfl

theorem supervisedRun_shift (hexp : ∀ x, P.exp x = Real.exp x) (fp : ℕ) (t : ℝ) (y : ℤ) :
    supervisedRun P cfg fp X y (m.shift fun _ => t) =
      (supervisedRun P cfg fp X y m).map fun r => (r.1, r.2.map fun v k => Real.exp (t * ∑ n, ratio X n) * v k) := by
  unfold supervisedRun
  exact loop_map (step := supervisedPhiGamma P X (ratio X) y m.beta m.eta fp)
    (step' := supervisedPhiGamma P X (ratio X) y m.beta (shifted (fun _ => t) m.eta) fp)
    (fun r : VP K V × Option (Vec K ℝ) => (r.1, r.2.map fun v k => Real.exp (t * ∑ n, ratio X n) * v k))
    (gam := fun s => s.1.gamma) (fun _ => rfl) (fun s => supervisedPhiGamma_shift hexp _ _ _ _ _ _ s) _ _ (initial X m.alpha, none)

/-- **C149**: the same number added to all weights leaves the supervised step (exact exponential) as it is, with the
likelihood it reports. -/
theorem C149_supervised_step (hexp : ∀ x, P.exp x = Real.exp x) (hm : m.Valid) (hK : 0 < K) (fp : ℕ) (t draw : ℝ)
    (y : Fin C) : supervised P cfg fp draw X y (m.shift fun _ => t) = supervised P cfg fp draw X y m := by
  unfold supervised
  rw [supervisedRun_shift hexp]
  cases hr : supervisedRun P cfg fp X y m with
  | none => rfl
  | some r =>
    obtain ⟨s, h⟩ := r
    have hd : ∀ n, ∑ k, s.phi k n = 1 := fun n =>
      ((loop_inv (fun s => (∀ n, IsDist fun k => s.1.phi k n) ∧ Counts X m.alpha s.1)
        (fun a b hI hab => by
          obtain ⟨h1, h2, _, _⟩ := supervisedPhiGamma_spec hm hI.1 hI.2 hab
          exact ⟨h1, h2⟩) _ _ _ _ ⟨initial_dist hK X m.alpha, initial_counts X m.alpha⟩ hr).1 n).2
    simp only [Option.map_some, Option.bind_some, Model.shift]
    congr 2
    unfold supervisedLikelihood
    rw [colAt_shift, colAt_fin]
    simp only [Option.map_some, Option.bind_some]
    cases hf : (List.finRange V).reverse.find? (fun n => 0 < X n) with
    | none => rfl
    | some n =>
      have hn : 0 < X n := by simpa using List.find?_some hf
      have hN : (0 : ℝ) < ∑ n, (X n : ℝ) :=
        sum_pos' (fun _ _ => Nat.cast_nonneg _) ⟨n, mem_univ n, Nat.cast_pos.2 hn⟩
      cases h with
      | none => rfl
      | some h =>
        have e1 : ∑ n, ratio X n = 1 := by
          simp only [ratio, numWords_cast]
          rw [← sum_div, div_self hN.ne']
        simp only [Option.map_some, Option.bind_some, e1, mul_one]
        cases unsupervisedLikelihood P X m.alpha m.beta s.phi s.gamma with
        | none => rfl
        | some l =>
          have e2 : ∑ k, Real.exp t * h k * s.phi k n = Real.exp t * ∑ k, h k * s.phi k n := by
            rw [mul_sum]; exact sum_congr rfl fun k _ => by ring
          have e3 : ∑ n, (∑ k, (m.eta k y + t) * s.phi k n) * (X n : ℝ) =
              ∑ n, (∑ k, m.eta k y * s.phi k n) * (X n : ℝ) + t * ∑ n, (X n : ℝ) := by
            rw [mul_sum, ← sum_add_distrib]
            refine sum_congr rfl fun n _ => ?_
            simp only [add_mul, sum_add_distrib, ← mul_sum, hd, mul_one]
          simp only [Option.bind_some, e2, e3, numWords_cast]
          unfold logc
          by_cases hp : 0 < ∑ k, h k * s.phi k n
          · rw [if_pos hp, if_pos (mul_pos (Real.exp_pos _) hp), Real.log_mul (Real.exp_pos _).ne' hp.ne', Real.log_exp]
            simp only [Option.bind_some]
            congr 3
            field_simp
            ring
          · rw [if_neg hp, if_neg (by rwa [mul_pos_iff_of_pos_left (Real.exp_pos _)])]
            rfl

/-! ### Where it fails -/

/-- One round, two topics which do not tell the only word apart. -/
noncomputable def gaugeCfg : Cfg := ⟨1, 0, 0⟩

noncomputable def gaugeModel (eta : Mat 2 C ℝ) : Model 2 1 C := ⟨fun _ => 1, fun _ _ => 1, eta⟩

theorem gauge_loop {S : Type} (step : S → Option S) (gam : S → Vec 2 ℝ) (s : S) :
    loop step gam gaugeCfg.tolerance gaugeCfg.iterations (fun _ => 0) s = step s := by
  have : converged (fun _ => 0) (gam s) gaugeCfg.tolerance = false := by
    simp only [converged, gaugeCfg, decide_eq_false_iff_not, not_and, not_lt]
    intro _
    positivity
  simp only [gaugeCfg, loop] at this ⊢
  rw [this]
  cases step s <;> rfl

noncomputable def speaks : Mat 2 2 ℝ := fun k c => if k = 0 ∧ c = 0 then 1 else 0

theorem speaks_scale : IsScale speaks 1 :=
  .inl ⟨one_pos, ⟨0, 0, by simp [speaks]⟩, fun k c => by unfold speaks; split <;> norm_num⟩

theorem speaks_scale_shifted : IsScale (shifted (fun _ => 1) speaks) 2 :=
  .inl ⟨two_pos, ⟨0, 0, by norm_num [speaks, shifted]⟩, fun k c => by unfold shifted speaks; split <;> norm_num⟩

theorem speaks_run (w : ℝ) : ∃ s : VP 2 1,
    fastRun (exactPrims fun _ => 0) gaugeCfg w (fun _ => 1) ((0 : Fin 2) : ℤ) (gaugeModel speaks) = some s ∧
    s.phi 0 0 = Real.exp (w * (1 / (Real.exp (1 / 2) + 1))) * s.phi 1 0 ∧ 0 < s.phi 1 0 := by
  have hs : softmaxEtaZ (exactPrims fun _ => 0) (ratio fun _ : Fin 1 => 1) speaks (fun _ _ => 1 / (2 : ℕ)) =
      some ![Real.exp (1 / 2) / (Real.exp (1 / 2) + 1), 1 / (Real.exp (1 / 2) + 1)] := by
    have hp : Real.exp (1 / 2) + 1 ≠ 0 := by positivity
    unfold softmaxEtaZ
    simp only [exactPrims, sumColsScaled_apply, ratio, numWords, Fin.sum_univ_two, Fin.sum_univ_one, speaks]
    norm_num
    refine ⟨hp, ?_⟩
    funext c
    fin_cases c <;> simp
  have hm : mapOpt (exactPrims fun _ => 0).psi (initial (fun _ : Fin 1 => 1) (fun _ : Fin 2 => (1 : ℝ))).gamma = some fun _ => 0 :=
    mapOpt_eq.2 fun _ => rfl
  let phi : Mat 2 1 ℝ := normalizeCols fun k n => 1 * Real.exp (0 + w * (speaks k 0 / 1 - ∑ c, speaks k c / 1 *
    ![Real.exp (1 / 2) / (Real.exp (1 / 2) + 1), 1 / (Real.exp (1 / 2) + 1)] c))
  refine ⟨⟨phi, computeGamma (fun _ => 1) (fun _ => 1) phi⟩, ?_, ?_⟩
  · unfold fastRun
    rw [gauge_loop]
    unfold fastStep approximatePhi
    rw [if_neg (by simp [numWords])]
    simp only [gaugeModel] at hm ⊢
    rw [hm]
    simp only [Option.bind_some, initial]
    rw [hs, speaks_scale.etaScaled 0 0]
    simp only [Option.bind_some, colAt_fin, Option.map_some]
    rfl
  · have hp : (0 : ℝ) < Real.exp (1 / 2) + 1 := by positivity
    have e : 1 - Real.exp (1 / 2) / (Real.exp (1 / 2) + 1) = 1 / (Real.exp (1 / 2) + 1) := by
      field_simp
      ring
    have e1 : Real.exp (w * (1 / (Real.exp (1 / 2) + 1))) + 1 ≠ 0 := by positivity
    simp only [phi, normalizeCols_apply, Fin.sum_univ_two, speaks]
    simp only [Fin.isValue, and_self, ↓reduceIte, Matrix.cons_val_zero, Matrix.cons_val_one, one_ne_zero, false_and,
      and_false, zero_mul, add_zero, sub_self, mul_zero, Real.exp_zero, zero_add, one_mul, div_one, e, e1]
    constructor
    · ring
    · positivity

/-- **C149**, false for the fast supervised step: one added to all weights halves the strength of the class. -/
theorem C149_fast_step_false :
    fastRun (exactPrims fun _ => 0) gaugeCfg 1 (fun _ => 1) ((0 : Fin 2) : ℤ) ((gaugeModel speaks).shift fun _ => 1) ≠
    fastRun (exactPrims fun _ => 0) gaugeCfg 1 (fun _ => 1) ((0 : Fin 2) : ℤ) (gaugeModel speaks) := by
  have := C149_fast_step (P := exactPrims fun _ => 0) (cfg := gaugeCfg) (X := fun _ : Fin 1 => 1) (m := gaugeModel speaks) (fun _ => rfl)
    (M := 1) (M' := 2) (s := fun _ => 1) speaks_scale speaks_scale_shifted (1 / 2) 0
  norm_num at this
  intro h
  obtain ⟨a, a1, a2, a3⟩ := speaks_run 1
  obtain ⟨b, b1, b2, b3⟩ := speaks_run (1 / 2)
  norm_num at a1 b1 h
  rw [h, a1, b1] at this
  cases this
  have e := mul_right_cancel₀ a3.ne' (a2.symm.trans b2)
  have := Real.exp_injective e
  have hp : (0 : ℝ) < 1 / (Real.exp (1 / 2) + 1) := by positivity
  linarith

theorem one_class_run (s : ℝ) : ∃ r : VP 2 1 × Option (Vec 2 ℝ),
    supervisedRun (exactPrims fun _ => 0) gaugeCfg 1 (fun _ => 1) ((0 : Fin 1) : ℤ)
      (gaugeModel fun k (_ : Fin 1) => if k = 0 then s else 0) = some r ∧
    r.1.phi 0 0 = Real.exp (s - 2 * (Real.exp s - 1) / (Real.exp s + 1)) * r.1.phi 1 0 ∧ 0 < r.1.phi 1 0 := by
  have hr : ∀ n, ratio (fun _ : Fin 1 => 1) n = 1 := fun n => by simp [ratio, numWords]
  have hp : 0 < Real.exp s + 1 := by positivity
  let eta : Mat 2 1 ℝ := fun k _ => if k = 0 then s else 0
  have hf : ∀ (phi : Mat 2 1 ℝ) n c, factor (exactPrims fun _ => 0) (ratio fun _ => 1) eta phi n c =
      Real.exp s * phi 0 n + phi 1 n := by
    intro phi n c
    simp [factor, hr, eta, exactPrims]
  have hd : divide (fun _ : Fin 1 => Real.exp s * (1 / (2 : ℕ)) + 1 / (2 : ℕ))
      (fun _ => Real.exp s * (1 / (2 : ℕ)) + 1 / (2 : ℕ)) = some fun _ => 1 := by
    have : Real.exp s * (1 / (2 : ℕ)) + 1 / (2 : ℕ) ≠ 0 := by positivity
    simp only [divide, ne_eq, this, not_false_eq_true, implies_true, if_true, div_self this]
  have hh : hOf (exactPrims fun _ => 0) (ratio fun _ : Fin 1 => 1) eta (fun _ : Fin 1 => 1) 0 = fun k => if k = 0 then Real.exp s else 1 := by
    funext k
    fin_cases k <;> simp [hOf, hr, eta, exactPrims]
  have hm : ∀ g : Vec 2 ℝ, mapOpt (exactPrims fun _ => 0).psi g = some fun _ => 0 := fun g => mapOpt_eq.2 fun _ => rfl
  let new : Vec 2 ℝ := fun k => Real.exp (eta k 0 - (if k = 0 then Real.exp s else 1) * (2 / (Real.exp s + 1)))
  have hn : 0 < ∑ k, new k := sum_pos (fun k _ => Real.exp_pos _) ⟨0, mem_univ 0⟩
  have hfp : fixedPoint (exactPrims fun _ => 0) 1 1 (fun _ => 1) (fun k => eta k 0) (fun _ => 0)
      (fun k => if k = 0 then Real.exp s else 1) (fun _ => 1 / (2 : ℕ)) = some fun k => new k / ∑ k, new k := by
    have h1 : ∑ k : Fin 2, (if k = 0 then Real.exp s else 1) * (1 / ((2 : ℕ) : ℝ)) = (Real.exp s + 1) / 2 := by
      simp; ring
    unfold fixedPoint
    rw [h1, if_neg (by positivity)]
    have h2 : (fun k : Fin 2 => (1 : ℝ) * (exactPrims fun _ => 0).exp (0 + 1 * eta k 0 -
        (if k = 0 then Real.exp s else 1) * (1 / ((Real.exp s + 1) / 2) / ((1 : ℕ) : ℝ)))) = new := by
      funext k
      simp only [new, exactPrims, one_mul, zero_add, Nat.cast_one, div_one, one_div_div]
    have h3 : ∀ k : Fin 2, (1 : ℝ) * (exactPrims fun _ => 0).exp (0 + 1 * eta k 0 -
        (if k = 0 then Real.exp s else 1) * (1 / ((Real.exp s + 1) / 2) / ((1 : ℕ) : ℝ))) = new k := congrFun h2
    simp only [h3, hn.ne', if_false]
  have hrun : ∃ r : VP 2 1 × Option (Vec 2 ℝ),
      supervisedRun (exactPrims fun _ => 0) gaugeCfg 1 (fun _ => 1) ((0 : Fin 1) : ℤ) (gaugeModel eta) = some r ∧
      r.1.phi = setCol (fun _ _ => 1 / (2 : ℕ)) 0 fun k => new k / ∑ k, new k := by
    unfold supervisedRun
    rw [gauge_loop]
    unfold supervisedPhiGamma
    simp only [hm, Option.bind_some, colAt_fin, initial, List.finRange_succ, List.finRange_zero, List.map_nil,
      List.foldl_cons, List.foldl_nil, sweepWords, sweepWord, hf, one_mul, one_ne_zero, if_false, gaugeModel, hr, fixedPoints]
    rw [show factor (exactPrims fun _ => 0) (ratio fun _ : Fin 1 => 1) eta (fun _ _ => 1 / ((2 : ℕ) : ℝ)) 0 =
      fun _ => Real.exp s * (1 / (2 : ℕ)) + 1 / (2 : ℕ) from funext fun c => hf _ 0 c, hd]
    simp only [Option.bind_some, hh]
    rw [hfp]
    exact ⟨_, rfl, rfl⟩
  obtain ⟨r, h1, h2⟩ := hrun
  refine ⟨r, h1, ?_, ?_⟩
  · rw [h2]
    simp only [setCol, Function.update_self]
    rw [← mul_div_assoc]
    congr 1
    simp only [new, eta, Fin.isValue, if_true, one_ne_zero, if_false]
    rw [← Real.exp_add]
    congr 1
    field_simp
    ring
  · rw [h2]
    simp only [setCol, Function.update_self]
    exact div_pos (Real.exp_pos _) hn

/-- The step is defined on this model, and with one class and any number added its result is the same. -/
example (s t : ℝ) : ∃ r, supervised (exactPrims fun _ => 0) gaugeCfg 1 0 (fun _ => 1) ((0 : Fin 1) : ℤ)
      (gaugeModel fun k (_ : Fin 1) => if k = 0 then s else 0) = some r ∧
    supervised (exactPrims fun _ => 0) gaugeCfg 1 0 (fun _ => 1) ((0 : Fin 1) : ℤ)
      ((gaugeModel fun k (_ : Fin 1) => if k = 0 then s else 0).shift fun _ => t) = some r := by
  obtain ⟨r, h, _⟩ := one_class_run s
  rw [C149_supervised_step (fun _ => rfl) ⟨fun _ => one_pos, fun _ _ => zero_le_one⟩ two_pos]
  simp only [and_self]
  unfold supervised
  rw [h]
  simp [report, bernoulli, gaugeCfg]

/-- **C149**, false for the supervised step if what is added differs from topic to topic: with a single class, where
there is nothing to tell apart, the topics of a document depend on the weights. -/
theorem C149_supervised_step_false : ∃ s : Vec 2 ℝ,
    supervisedRun (exactPrims fun _ => 0) gaugeCfg 1 (fun _ => 1) ((0 : Fin 1) : ℤ) ((gaugeModel fun _ (_ : Fin 1) => 0).shift s) ≠
    supervisedRun (exactPrims fun _ => 0) gaugeCfg 1 (fun _ => 1) ((0 : Fin 1) : ℤ) (gaugeModel fun _ (_ : Fin 1) => 0) := by
  obtain ⟨a, a1, a2, a3⟩ := one_class_run 2
  obtain ⟨b, b1, b2, b3⟩ := one_class_run 0
  refine ⟨fun k => if k = 0 then 2 else 0, fun h => ?_⟩
  have ha : (gaugeModel fun _ (_ : Fin 1) => 0).shift (fun k => if k = 0 then 2 else 0) =
      gaugeModel fun k (_ : Fin 1) => if k = 0 then 2 else 0 := by
    simp only [gaugeModel, Model.shift, Model.mk.injEq, true_and]
    funext k c
    simp [shifted]
  simp only [ite_self] at b1
  rw [ha, a1, b1] at h
  cases h
  have e := Real.exp_injective (mul_right_cancel₀ a3.ne' (a2.symm.trans b2))
  simp only [Real.exp_zero, sub_self, mul_zero, zero_div] at e
  have hp : 0 < Real.exp 2 + 1 := by positivity
  field_simp at e
  linarith

end Verif.EStep

namespace Verif.Optim

open MathUtils Finset

/-- **C149**, false with a penalty: it depends on the weights themselves. -/
theorem C149_penalty : (logistic 1 [] [] [] 1).value (shifted (fun _ : Fin 1 => 1) fun _ _ => 0) ≠
    (logistic 1 [] [] [] 1).value (fun (_ : Fin 1) _ => 0) := by
  simp [logistic, logisticValue, logisticLoop, shifted, squaredNorm]

/-- **C149**, false for `SupervisedMStep`, without a penalty too: the second order terms depend on the weights themselves.
For a document with one topic every shift away from zero makes the objective greater. -/
theorem C149_second_false {t : ℝ} (ht : t ≠ 0) : ∃ v v' : ℝ, v < v' ∧
    (secondOrder 2 [fun _ => 1] [fun _ _ => 1] [0] [some 1] 0).value (fun (_ : Fin 1) _ => 0) = some v ∧
    (secondOrder 2 [fun _ => 1] [fun _ _ => 1] [0] [some 1] 0).value (shifted (fun _ : Fin 1 => t) fun _ _ => 0) = some v' := by
  have hW : Weighs [some 1] (fun _ : Fin 2 => (1 : ℝ)) [(0 : Fin 2)] := by
    intro c hc
    rw [List.mem_singleton.1 hc]
    simp
  have hP : ∀ d ∈ [((fun _ => 1 : Vec 1 ℝ), (fun _ _ => 1 : Mat 1 1 ℝ), (0 : Fin 2))], PSD d.2.1 := by
    intro d hd
    rw [List.mem_singleton.1 hd]
    intro u
    simp only [univ_unique, sum_singleton, mul_one]
    exact mul_self_nonneg _
  have hv := fun eta => C58_value (L := 0) hW hP eta
  simp only [List.map_singleton, Fin.val_zero, Nat.cast_zero] at hv
  refine ⟨_, _, ?_, hv _, hv _⟩
  have hp : 0 < t ^ 2 := by positivity
  have hl : 0 < Real.log (1 + 1 / 2 * t ^ 2) := Real.log_pos (by linarith)
  have e : Real.log (Real.exp t * (1 + 1 / 2 * t ^ 2) + Real.exp t * (1 + 1 / 2 * t ^ 2)) =
      Real.log 2 + t + Real.log (1 + 1 / 2 * t ^ 2) := by
    rw [← two_mul, ← mul_assoc, Real.log_mul (by positivity) (by positivity), Real.log_mul two_ne_zero (Real.exp_pos t).ne',
      Real.log_exp]
  simp only [secondObjective, shifted, List.map_singleton, List.sum_singleton, univ_unique, sum_singleton, Fin.sum_univ_two, mul_one,
    one_mul, zero_add, add_zero, mul_zero, Real.exp_zero, zero_div, zero_mul, ← sq, e]
  norm_num
  linarith

end Verif.Optim
