import Verif.Props.Centred
import Verif.Props.Support
import Verif.Props.Decision

/-! Property C154: a class without documents is never predicted. -/
namespace Verif.Optim

open MathUtils Finset

variable {K C : ℕ}

theorem subCol_other {g g' : Mat K C ℝ} {y : ℤ} {w : ℝ} {x : Vec K ℝ} (h : subCol g y w x = some g') {c : Fin C}
    (hc : (c : ℤ) ≠ y) (k : Fin K) : g' k c = g k c := by
  unfold subCol at h
  split_ifs at h with hy
  rw [← Option.some.inj h]
  exact if_neg hc

/-- The gradient of the likelihood for a class that is no label: no entry falls, and those of the topics with a share in
some document rise. -/
theorem gradLoop_absent {Cy : List (Option ℝ)} {eta : Mat K C ℝ} {c0 : Fin C} {ys : List ℤ}
    (hy : ∀ y ∈ ys, (c0 : ℤ) ≠ y) (hw : ∀ y ∈ ys, ∀ w, weightAt Cy y = some w → 0 < w) :
    ∀ {xs : List (Vec K ℝ)} {g g' : Mat K C ℝ}, logisticGradLoop Cy eta ys xs g = some g' → ys.length = xs.length →
      (∀ x ∈ xs, ∀ k, 0 ≤ x k) → ∀ k, g k c0 ≤ g' k c0 ∧ ((∃ x ∈ xs, 0 < x k) → g k c0 < g' k c0) := by
  induction ys with
  | nil =>
    intro xs g g' h hl _ k
    rw [Option.some.inj h, List.length_eq_zero_iff.1 hl.symm]
    simp
  | cons y ys ih =>
    intro xs g g' h hl hx k
    cases xs with
    | nil => cases h
    | cons x xs =>
      simp only [logisticGradLoop, Option.bind_eq_some_iff] at h
      obtain ⟨w, h0, g1, h1, h⟩ := h
      split_ifs at h with hz
      have hw0 := hw y List.mem_cons_self w h0
      obtain ⟨a1, a2⟩ := ih (fun y hy' => hy y (List.mem_cons_of_mem _ hy'))
        (fun y hy' => hw y (List.mem_cons_of_mem _ hy')) h (Nat.succ.inj hl)
        (fun x hx' => hx x (List.mem_cons_of_mem _ hx')) k
      rw [subCol_other h1 (hy y List.mem_cons_self)] at a1 a2
      have hpos : 0 < ∑ c, Real.exp (scores eta x c) :=
        Finset.sum_pos (fun _ _ => Real.exp_pos _) ⟨c0, mem_univ c0⟩
      have hxk := hx x List.mem_cons_self k
      have hterm : 0 ≤ w * (x k * Real.exp (scores eta x c0)) / ∑ c, Real.exp (scores eta x c) :=
        div_nonneg (mul_nonneg hw0.le (mul_nonneg hxk (Real.exp_pos _).le)) hpos.le
      refine ⟨by linarith, ?_⟩
      rintro ⟨z, hz', hk⟩
      rcases List.mem_cons.1 hz' with rfl | hz'
      · have : 0 < w * (z k * Real.exp (scores eta z c0)) / ∑ c, Real.exp (scores eta z c) :=
          div_pos (mul_pos hw0 (mul_pos hk (Real.exp_pos _))) hpos
        linarith
      · have := a2 ⟨z, hz', hk⟩
        linarith

theorem defaultWeights_pos {ys : List ℤ} {Cy : List (Option ℝ)} (h : defaultWeights ys = some Cy) {y : ℤ} {w : ℝ}
    (hw : weightAt Cy y = some w) : 0 < w := by
  simp only [defaultWeights, Option.bind_eq_some_iff] at h
  obtain ⟨n, hn, h⟩ := h
  split_ifs at h with h0
  simp only [Option.map_eq_some_iff] at h
  obtain ⟨counts, hc, rfl⟩ := h
  have hlen : 0 < ys.length := by
    cases ys with
    | nil => cases hn
    | cons => simp
  unfold weightAt at hw
  split_ifs at hw with hy
  rw [Option.join_eq_some_iff, List.getElem?_map, Option.map_eq_some_iff] at hw
  obtain ⟨cnt, hcnt, hw⟩ := hw
  have hn0 : n ≠ 0 := by
    rintro rfl
    cases ys with
    | nil => cases hn
    | cons y ys =>
      simp only [List.foldlM_cons, countLabel, Int.toNat_zero, List.replicate_zero, List.length_nil, Nat.not_lt_zero,
        and_false, if_false] at hc
      cases hc
  unfold weightOf at hw
  split_ifs at hw with hz
  rw [← Option.some.inj hw]
  have h1 : (0 : ℝ) < ys.length := by exact_mod_cast hlen
  have h2 : (0 : ℝ) < cnt := by exact_mod_cast Nat.pos_of_ne_zero hz
  have h3 : (0 : ℝ) < n := by exact_mod_cast lt_of_le_of_ne (not_lt.1 h0) hn0.symm
  positivity

/-- One step of the default line search along the gradient: the position does not change because the gradient is zero,
or the step is at most one. -/
theorem armijo_small {f : Mat K C ℝ → Option ℝ} {x g x' : Mat K C ℝ} {v : ℝ}
    (h : ArmijoSearch (1 / 1000) (1 / 2) f x g g x' v) :
    ∃ a : ℝ, 0 < a ∧ a ≤ 1 ∧ x' = move x a g := by
  obtain ⟨v0, a, hv0, -, hl, rfl⟩ := h
  rcases hl.spec with ⟨rfl, rfl, h3⟩ | ⟨-, n, rfl, -⟩
  · have hd : dot g g ≤ 0 := by linarith
    have hz : ∀ k c, g k c = 0 := by
      intro k c
      have h1 : ∀ i ∈ (univ : Finset (Fin K)), 0 ≤ ∑ j, g i j * g i j :=
        fun i _ => Finset.sum_nonneg fun j _ => mul_self_nonneg _
      have h2 := (Finset.sum_eq_zero_iff_of_nonneg h1).1 (le_antisymm hd (Finset.sum_nonneg h1)) k (mem_univ k)
      exact mul_self_eq_zero.1
        ((Finset.sum_eq_zero_iff_of_nonneg (fun j _ => mul_self_nonneg (g k j))).1 h2 c (mem_univ c))
    refine ⟨1, one_pos, le_rfl, ?_⟩
    funext k c
    simp only [move, hz, mul_zero]
  · refine ⟨(1 / 2) ^ n, by positivity, pow_le_one₀ (by norm_num) (by norm_num), ?_⟩
    congr 1
    rw [pow_succ]
    ring

/-- The weights of the class `c0` under `minimize`. -/
theorem descent_absent {S : Type} {X : List (Vec K ℝ)} {ys : List ℤ} {L : ℝ} {pr : Problem K C} {progress : Progress S}
    (hpr : logisticDefault C X ys L = some pr) (hL : 0 ≤ L) (hL1 : L ≤ 1) (hlen : ys.length = X.length)
    (hX : ∀ x ∈ X, ∀ k, 0 ≤ x k) {c0 : Fin C} (hy : ∀ y ∈ ys, (c0 : ℤ) ≠ y) {x x' : Mat K C ℝ} {v : ℝ}
    {g : Option (Mat K C ℝ)} {i : ℕ} {s s' : S}
    (h : DescentLoop (ArmijoSearch (1 / 1000) (1 / 2)) pr progress x v g i s x' s') (k : Fin K) (hx : x k c0 ≤ 0) :
    x' k c0 ≤ 0 ∧ ((∃ z ∈ X, 0 < z k) → ((progress s v (g.map maxNorm) i).2 = true ∨ x k c0 < 0) → x' k c0 < 0) := by
  simp only [logisticDefault, Option.map_eq_some_iff] at hpr
  obtain ⟨Cy, hCy, rfl⟩ := hpr
  induction h with
  | stop hp => exact ⟨hx, fun _ h => by rw [hp] at h; simpa using h⟩
  | @again x x1 xf v v' g g' i s s1 sf hp hg hs _ ih =>
    obtain ⟨a, ha, ha1, rfl⟩ := armijo_small hs
    simp only [logistic, logisticGradient, Option.map_eq_some_iff] at hg
    obtain ⟨g0, hg0, rfl⟩ := hg
    obtain ⟨b1, b2⟩ := gradLoop_absent hy (fun y _ w hw => defaultWeights_pos hCy hw) hg0 hlen hX k
    have haL : a * L ≤ 1 := mul_le_one₀ ha1 hL hL1
    have e : move x a (fun k c => g0 k c + x k c * L) k c0 = (1 - a * L) * x k c0 - a * g0 k c0 := by
      simp only [move]; ring
    have h1 : (1 - a * L) * x k c0 ≤ 0 := mul_nonpos_of_nonneg_of_nonpos (by linarith) hx
    have h2 : 0 ≤ a * g0 k c0 := mul_nonneg ha.le b1
    obtain ⟨c1, c2⟩ := ih (by rw [e]; linarith)
    refine ⟨c1, fun hz _ => c2 hz (.inr ?_)⟩
    have h3 : 0 < a * g0 k c0 := mul_pos ha (b2 hz)
    rw [e]; linarith

end Verif.Optim

namespace Verif.Train

open MathUtils EStep MStep Optim Pool Finset

variable {K V C n W : ℕ} {T : Type}

theorem topicShare_nonneg {alpha gamma : Vec K ℝ} (h : ∀ k, alpha k ≤ gamma k) (k : Fin K) :
    0 ≤ topicShare alpha gamma k ∧ (alpha k < gamma k → 0 < topicShare alpha gamma k) := by
  have h0 : ∀ j ∈ (univ : Finset (Fin K)), 0 ≤ gamma j - alpha j := fun j _ => sub_nonneg.2 (h j)
  have ht := Finset.sum_nonneg h0
  have hk := h k
  unfold topicShare
  by_cases hz : ∑ j, (gamma j - alpha j) = 0
  · simp only [hz, if_true]
    exact ⟨by linarith, fun h => by linarith⟩
  · simp only [hz, if_false]
    have hp : 0 < ∑ j, (gamma j - alpha j) := lt_of_le_of_ne ht (Ne.symm hz)
    exact ⟨div_nonneg (by linarith) ht, fun h => div_pos (by linarith) hp⟩

/-- One call of `m_step`. -/
theorem unseen_step {s : MStep.FastState K V} {ds : List (DocArg K V)} {all : List (Given K V)} (h : FastIs s ds all)
    (hne : ds ≠ []) (hl : ∀ d ∈ ds, 0 ≤ d.2.1.cls ∧ d.2.1.cls < (C : ℤ)) {cfg : SupCfg} (hL : 0 ≤ cfg.penalty)
    (hL1 : cfg.penalty ≤ 1) (hg : ∀ d ∈ ds, ∀ k, d.1 k ≤ d.2.2.gamma k) {c0 : Fin C}
    (hc : ∀ d ∈ ds, d.2.1.cls ≠ (c0 : ℤ)) {eta : Mat K C ℝ} (heta : ∀ k, eta k c0 ≤ 0) :
    ∃ e ev u, fastM cfg eta s = some (⟨uBeta s.b, e, ev⟩, u) ∧ (∀ k, e k c0 ≤ 0) ∧
      (cfg.iterations ≠ 0 → ∀ k, (∃ d ∈ ds, d.1 k < d.2.2.gamma k) → e k c0 < 0) := by
  obtain ⟨e, ev, u, hM⟩ := fast_ready h hne hl cfg eta
  obtain ⟨u', -, -, -, e2⟩ := h.step (C := C) cfg eta
  obtain ⟨data, d1, d2⟩ := exists_data (C := C) ds (fun d => topicShare d.1 d.2.2.gamma) (fun d => d.2.1.cls) hl
  have hdne : data ≠ [] := by
    rintro rfl
    exact hne (List.map_eq_nil_iff.1 d1.symm)
  obtain ⟨pr, w, m, h1, -, -, -, hw, hv, -⟩ := C59_absent_unused hdne cfg.penalty
  rw [d1, d2] at h1
  rw [hM, h1, Option.bind_some] at e2
  obtain ⟨r, hr, e3⟩ := Option.map_eq_some_iff.1 e2.symm
  have her : e = r.1 := by
    have := (Prod.mk.inj e3).1
    simp only [MOut.mk.injEq] at this
    exact this.2.1.symm
  unfold descend at hr
  split_ifs at hr with hex
  obtain ⟨v, hv0, hloop⟩ := hex.choose_spec
  have hr1 : r.1 = hex.choose.1 := by rw [← Option.some.inj hr]
  refine ⟨e, ev, u, hM, ?_⟩
  have key := fun k => descent_absent h1 hL hL1 (by simp) (fun x hx k => by
    obtain ⟨d, hd, rfl⟩ := List.mem_map.1 hx
    exact (topicShare_nonneg (hg d hd) k).1) (c0 := c0) (fun y hy => by
    obtain ⟨d, hd, rfl⟩ := List.mem_map.1 hy
    exact (hc d hd).symm) hloop k (heta k)
  rw [her, hr1]
  refine ⟨fun k => (key k).1, fun hit k ⟨d, hd, hk⟩ => (key k).2 ⟨_, List.mem_map.2 ⟨d, hd, rfl⟩,
    (topicShare_nonneg (hg d hd) k).2 hk⟩ (.inl ?_)⟩
  rw [hv] at hv0
  have hv1 : 0 ≤ v := by
    rw [← Option.some.inj hv0]
    exact C57_nonneg data (fun d hd => (hw d hd).le) hL eta
  simp only [mStepProgress, improves, hv1, decide_true, Bool.and_true, decide_eq_true_eq]
  exact Nat.pos_of_ne_zero hit

/-- The weights of the class are not positive, and those of the topics that `used` names are negative. -/
def Against (c0 : Fin C) (used : Fin K → Prop) (eta : Mat K C ℝ) : Prop :=
  (∀ k, eta k c0 ≤ 0) ∧ ∀ k, used k → eta k c0 < 0

variable {corpus : ℕ → Doc V} {eval : Params K V C × T → ℕ → VP K V} {next : T → T} {c0 : Fin C} {cfg : SupCfg}
  {t : T} {orders : List (ℕ → ℕ)} {l : Left (VP K V)} {logs : List (List (Obs (VP K V)))}

/-- Training of `FastSupervisedMStep`, with knowledge `G` about the model that `m_step` keeps. -/
theorem unseen_fast {G : Params K V C → Prop}
    (hG : ∀ q t eta, G q → G ⟨q.alpha, betaOf ((List.range n).map fun i => (corpus i, eval (q, t) i)), eta⟩)
    (hE : ∀ q t i, G q → i < n → ∀ k, q.alpha k ≤ (eval (q, t) i).gamma k) (hn : 0 < n) (hcls : Labelled corpus n C)
    (hL : 0 ≤ cfg.penalty) (hL1 : cfg.penalty ≤ 1) (hc : ∀ i < n, (corpus i).cls ≠ (c0 : ℤ)) {q : Params K V C}
    (hq : G q) (heta : ∀ k, q.eta k c0 ≤ 0)
    (ho : ∀ p ∈ orders, ((List.range n).map p).Perm (List.range n)) (hne : orders ≠ [])
    {m : Params K V C × T × Option (MStep.FastState K V)}
    (hcalls : Calls (fitCalls (fastSupervised cfg corpus) next eval W n orders) .empty (q, t, some .init) l m logs) :
    m.2.2 ≠ none ∧ G m.1 ∧ Against c0 (fun k => cfg.iterations ≠ 0 ∧
      ∀ q t, G q → ∃ i < n, q.alpha k < (eval (q, t) i).gamma k) m.1.eta := by
  refine (fastFree cfg corpus).fit_sound (Pre := fun q => G q ∧ ∀ k, q.eta k c0 ≤ 0)
    (Post := fun q => G q ∧ Against c0 _ q.eta) (fun q h => ⟨h.1, h.2.1⟩) (fun _ _ _ _ _ => trivial) ?_ (f := false) ⟨FastIs.init, by simp [MStep.FastState.init]⟩ ⟨hq, heta⟩ ho hne hcalls
  rintro q t s f ⟨hq, heta⟩ hI
  obtain ⟨e, ev, u, hM, e1, e2⟩ := unseen_step hI.1 (range_map_ne_nil hn) (fun d hd => by
    obtain ⟨i, hi, rfl⟩ := List.mem_map.1 hd
    exact hcls i (List.mem_range.1 hi)) hL hL1 (fun d hd => by
    obtain ⟨i, hi, rfl⟩ := List.mem_map.1 hd
    exact hE q t i hq (List.mem_range.1 hi)) (c0 := c0) (fun d hd => by
    obtain ⟨i, hi, rfl⟩ := List.mem_map.1 hd
    exact hc i (List.mem_range.1 hi)) heta
  have hb := hI.1.buf
  rw [List.map_map] at hb
  refine ⟨⟨q.alpha, uBeta s.b, e⟩, u, ev.length, by simp only [fastSupervised, hM, Option.map_some], ?_, e1, fun k hk => ?_⟩
  · rw [hb.beta (range_map_ne_nil hn)]
    exact hG q t e hq
  · obtain ⟨i, hi, hlt⟩ := hk.2 q t hq
    exact e2 hk.1 k ⟨_, List.mem_map.2 ⟨i, List.mem_range.2 hi, rfl⟩, hlt⟩

/-- The same for `SemiSupervisedMStep`. -/
theorem unseen_semi {G : Params K V C → Prop}
    (hG : ∀ q t eta, G q → G ⟨q.alpha, betaOf ((List.range n).map fun i => (corpus i, eval (q, t) i)), eta⟩)
    (hE : ∀ q t i, G q → i < n → ∀ k, q.alpha k ≤ (eval (q, t) i).gamma k)
    (hcls : ∀ i < n, (corpus i).cls < (C : ℤ)) (hlab : ∃ i < n, 0 ≤ (corpus i).cls)
    (hL : 0 ≤ cfg.penalty) (hL1 : cfg.penalty ≤ 1) (hc : ∀ i < n, (corpus i).cls ≠ (c0 : ℤ)) {q : Params K V C}
    (hq : G q) (heta : ∀ k, q.eta k c0 ≤ 0)
    (ho : ∀ p ∈ orders, ((List.range n).map p).Perm (List.range n)) (hne : orders ≠ [])
    {m : Params K V C × T × Option (MStep.FastState K V)}
    (hcalls : Calls (fitCalls (semiSupervised cfg corpus) next eval W n orders) .empty (q, t, some .init) l m logs) :
    m.2.2 ≠ none ∧ G m.1 ∧ Against c0 (fun k => cfg.iterations ≠ 0 ∧
      ∀ q t, G q → ∃ i < n, 0 ≤ (corpus i).cls ∧ q.alpha k < (eval (q, t) i).gamma k) m.1.eta := by
  obtain ⟨i0, hi0, hl0⟩ := hlab
  refine (semiFree cfg corpus).fit_sound (Pre := fun q => G q ∧ ∀ k, q.eta k c0 ≤ 0)
    (Post := fun q => G q ∧ Against c0 _ q.eta) (fun q h => ⟨h.1, h.2.1⟩) (fun _ _ _ _ _ => trivial) ?_ (f := false) ⟨FastIs.init, by simp [MStep.FastState.init]⟩ ⟨hq, heta⟩ ho hne hcalls
  rintro q t s f ⟨hq, heta⟩ hI
  have hmem : ∀ i < n, 0 ≤ (corpus i).cls → ((q.alpha, corpus i, eval (q, t) i) : DocArg K V) ∈
      labelled ((List.range n).map fun i => (q.alpha, corpus i, eval (q, t) i)) := fun i hi h0 =>
    List.mem_filter.2 ⟨List.mem_map.2 ⟨i, List.mem_range.2 hi, rfl⟩, decide_eq_true h0⟩
  obtain ⟨e, ev, u, hM, e1, e2⟩ := unseen_step hI.1 (List.ne_nil_of_mem (hmem i0 hi0 hl0)) (fun d hd => by
      obtain ⟨h1, h2⟩ := List.mem_filter.1 hd
      obtain ⟨i, hi, rfl⟩ := List.mem_map.1 h1
      exact ⟨by simpa using h2, hcls i (List.mem_range.1 hi)⟩) hL hL1 (fun d hd => by
    obtain ⟨i, hi, rfl⟩ := List.mem_map.1 (List.mem_filter.1 hd).1
    exact hE q t i hq (List.mem_range.1 hi)) (c0 := c0) (fun d hd => by
    obtain ⟨i, hi, rfl⟩ := List.mem_map.1 (List.mem_filter.1 hd).1
    exact hc i (List.mem_range.1 hi)) heta
  have hb := hI.1.buf
  rw [List.map_map] at hb
  refine ⟨⟨q.alpha, uBeta s.b, e⟩, u, ev.length, by simp only [semiSupervised, fastSupervised, hM, Option.map_some], ?_, e1,
    fun k hk => ?_⟩
  · rw [hb.beta (range_map_ne_nil (by omega))]
    exact hG q t e hq
  · obtain ⟨i, hi, h0, hlt⟩ := hk.2 q t hq
    exact e2 hk.1 k ⟨_, hmem i hi h0, hlt⟩

/-- **C154**: whatever the E step, as long as no `gamma` is below `alpha`, the weights of a class without documents do
not become positive: for every schedule, number of workers, shuffle and number of iterations. -/
theorem C154_training (hn : 0 < n) (hcls : Labelled corpus n C) (hL : 0 ≤ cfg.penalty) (hL1 : cfg.penalty ≤ 1)
    (hE : ∀ q t i, i < n → ∀ k, q.alpha k ≤ (eval (q, t) i).gamma k) (hc : ∀ i < n, (corpus i).cls ≠ (c0 : ℤ)) :
    FitKeeps (fastSupervised cfg corpus) n eval next .init (fun q => ∀ k, q.eta k c0 ≤ 0) := by
  intro q t W orders m l logs ho hcalls hq
  by_cases hne : orders = []
  · subst hne
    cases hcalls
    exact hq
  · exact (unseen_fast (G := fun _ => True) (fun _ _ _ _ => trivial) (fun q t i _ => hE q t i) hn hcls hL hL1 hc trivial hq
      ho hne hcalls).2.2.1

/-- **C154**: the same if some documents have no class. -/
theorem C154_semi (hcls : ∀ i < n, (corpus i).cls < (C : ℤ)) (hlab : ∃ i < n, 0 ≤ (corpus i).cls)
    (hL : 0 ≤ cfg.penalty) (hL1 : cfg.penalty ≤ 1)
    (hE : ∀ q t i, i < n → ∀ k, q.alpha k ≤ (eval (q, t) i).gamma k) (hc : ∀ i < n, (corpus i).cls ≠ (c0 : ℤ)) :
    FitKeeps (semiSupervised cfg corpus) n eval next .init (fun q => ∀ k, q.eta k c0 ≤ 0) := by
  intro q t W orders m l logs ho hcalls hq
  by_cases hne : orders = []
  · subst hne
    cases hcalls
    exact hq
  · exact (unseen_semi (G := fun _ => True) (fun _ _ _ _ => trivial) (fun q t i _ => hE q t i) hcls hlab hL hL1 hc trivial
      hq ho hne hcalls).2.2.1

/-- A class to which every topic gives less than the mean over the classes is not predicted. -/
theorem unseen_predict {alpha : Vec K ℝ} {eta : Mat K C ℝ} (hlow : ∀ k, C * eta k c0 < ∑ c, eta k c)
    {D : ℕ} (X : Mat K D ℝ) (hX : ∀ d k, alpha k ≤ X k d) (hX' : ∀ d, ∃ k, alpha k < X k d) :
    ∃ ps, Decision.predict (Decision.decisionFunction alpha eta X) = some ps ∧ ps.length = D ∧ c0 ∉ ps := by
  have hsum : ∀ d, 0 < ∑ k, (X k d - alpha k) := fun d => by
    obtain ⟨k, hk⟩ := hX' d
    exact Finset.sum_pos' (fun j _ => sub_nonneg.2 (hX d j)) ⟨k, mem_univ k, sub_pos.2 hk⟩
  obtain ⟨ps, h1, h2, h3⟩ := Decision.C60_predict (Nat.pos_of_ne_zero fun h => by subst h; exact c0.elim0) alpha eta X
    fun d => (hsum d).ne'
  refine ⟨ps, h1, h2, fun hmem => ?_⟩
  obtain ⟨i, hi, hp⟩ := List.getElem_of_mem hmem
  obtain ⟨hmax, -⟩ := h3 ⟨i, h2 ▸ hi⟩ c0 (by rw [List.getElem?_eq_getElem hi, hp])
  generalize (⟨i, h2 ▸ hi⟩ : Fin D) = d at hmax
  have hs : ∀ k, 0 ≤ Decision.share alpha (fun k => X k d) k := fun k =>
    div_nonneg (sub_nonneg.2 (hX d k)) (hsum d).le
  have h0 : ∑ k, C * eta k c0 * Decision.share alpha (fun k => X k d) k <
      ∑ k, (∑ c, eta k c) * Decision.share alpha (fun k => X k d) k := by
    obtain ⟨k, hk⟩ := hX' d
    exact Finset.sum_lt_sum (fun j _ => mul_le_mul_of_nonneg_right (hlow j).le (hs j))
      ⟨k, mem_univ k, mul_lt_mul_of_pos_right (hlow k) (div_pos (sub_pos.2 hk) (hsum d))⟩
  have htot : ∑ k, (∑ c, eta k c) * Decision.share alpha (fun k => X k d) k =
      ∑ c, ∑ k, eta k c * Decision.share alpha (fun k => X k d) k := by
    rw [Finset.sum_comm]
    simp only [← Finset.sum_mul]
  have hle : ∑ c, ∑ k, eta k c * Decision.share alpha (fun k => X k d) k ≤
      C * ∑ k, eta k c0 * Decision.share alpha (fun k => X k d) k := by
    refine (Finset.sum_le_sum fun c _ => hmax c).trans_eq ?_
    rw [Finset.sum_const, Finset.card_univ, Fintype.card_fin, nsmul_eq_mul]
  rw [htot] at h0
  rw [Finset.mul_sum] at hle
  simp only [← mul_assoc] at hle
  linarith

variable {P : Prims} {ecfg : EStep.Cfg} {alpha : Vec K ℝ} {beta0 : Mat K V ℝ}

/-- The E step of fast supervised LDA adds to `alpha`, and does so for a topic that knows a word of the document. -/
theorem flda_gamma (hK : 0 < K) (hal : ∀ k, 0 < alpha k) (hcls : Labelled corpus n C)
    (hit : ∀ i < n, Iterates ecfg.iterations ecfg.tolerance alpha (corpus i).words) (any : VP K V) {q : Params K V C}
    (hq : Good alpha (Agrees corpus n beta0) q) (t : EStep.FastState) {i : ℕ} (hi : i < n) (k : Fin K) :
    q.alpha k ≤ (libResults (fun (t : EStep.FastState) X y m => fastRun P ecfg t.weight X y m) any corpus (q, t) i).gamma k ∧
    ((∃ w, 0 < beta0 k w ∧ (corpus i).words w ≠ 0) →
      q.alpha k < (libResults (fun (t : EStep.FastState) X y m => fastRun P ecfg t.weight X y m) any corpus (q, t) i).gamma k) := by
  obtain ⟨rfl, beta, hb, ha⟩ := hq
  have hsh := careful_flda (P := P) (cfg := ecfg) hK hal hcls hit any q t i beta hi rfl hb ha
  have hm := valid_of (C := C) hal ha q.eta
  obtain ⟨y, hy⟩ : ∃ y : Fin C, (corpus i).cls = (y : ℤ) :=
    ⟨⟨(corpus i).cls.toNat, by have := hcls i hi; omega⟩, by have := hcls i hi; simp; omega⟩
  obtain ⟨s, r, h⟩ := C35_fast_defined (P := P) (cfg := ecfg) (draw := ecfg.computeLikelihood) (X := (corpus i).words)
    (y := y) (w := t.weight) hm hK (Or.inr (lt_irrefl _))
  have e : libResults (fun (t : EStep.FastState) X y m => fastRun P ecfg t.weight X y m) any corpus (q, t) i = s := by
    simp only [libResults, realBeta_of hb, Option.bind_some, hy, run_of_fast h, Option.getD_some]
  rw [e] at hsh ⊢
  obtain ⟨h1, h2⟩ := C37_fast hm h k
  refine ⟨h2, ?_⟩
  rintro ⟨w, hw0, hw⟩
  have hpos : 0 < s.phi k w := ((hsh k w).2 hw).2 ((ha.2 k w ⟨i, hi, hw⟩).2 hw0)
  have : 0 < ∑ n, ((corpus i).words n : ℝ) * s.phi k n :=
    Finset.sum_pos' (fun j _ => mul_nonneg (Nat.cast_nonneg _) (hsh k j).1)
      ⟨w, mem_univ w, mul_pos (by exact_mod_cast Nat.pos_of_ne_zero hw) hpos⟩
  change q.alpha k < s.gamma k
  rw [h1]
  change q.alpha k < q.alpha k + _
  linarith

/-- **C154**: fast supervised LDA.  After training from weights zero, for at least one iteration and with at least one
step of the descent in each, no document is predicted to have a class that no document of the corpus has. -/
theorem C154_predict_partial (hK : 0 < K) (hn : 0 < n) (hal : ∀ k, 0 < alpha k) (hb0 : RowStochastic beta0)
    (hcls : Labelled corpus n C) (huse : ∀ k, ∃ w, 0 < beta0 k w ∧ Occurs corpus n w)
    (hit : ∀ i < n, Iterates ecfg.iterations ecfg.tolerance alpha (corpus i).words) (any : VP K V)
    (hL : 0 ≤ cfg.penalty) (hL1 : cfg.penalty ≤ 1) (hiter : cfg.iterations ≠ 0) (hc : ∀ i < n, (corpus i).cls ≠ (c0 : ℤ))
    {q : Params K V C} (hqa : q.alpha = alpha) (hqb : q.beta.IsReal beta0) (hqe : ∀ k c, q.eta k c = 0)
    {t : EStep.FastState} (ho : ∀ p ∈ orders, ((List.range n).map p).Perm (List.range n)) (hne : orders ≠ [])
    {m : Params K V C × EStep.FastState × Option (MStep.FastState K V)}
    (hcalls : Calls (fitCalls (fastSupervised cfg corpus) EStep.FastState.eStep
      (libResults (fun (t : EStep.FastState) X y m => fastRun P ecfg t.weight X y m) any corpus) W n orders)
      .empty (q, t, some .init) l m logs)
    {D : ℕ} (X : Mat K D ℝ) (hX : ∀ d k, alpha k ≤ X k d) (hX' : ∀ d, ∃ k, alpha k < X k d) :
    m.2.2 ≠ none ∧ (∀ k, m.1.eta k c0 < 0) ∧
      ∃ ps, Decision.predict (Decision.decisionFunction m.1.alpha m.1.eta X) = some ps ∧ ps.length = D ∧ c0 ∉ ps := by
  have hstart : Good alpha (Agrees corpus n beta0) q := ⟨hqa, beta0, hqb, hb0, fun _ _ _ => Iff.rfl⟩
  obtain ⟨h1, h2, -, h4⟩ := unseen_fast (G := Good alpha (Agrees corpus n beta0)) (c0 := c0)
    (fun q t eta hq => good_mono (good_step (t := t) huse (careful_flda (P := P) hK hal hcls hit any) hq rfl eta))
    (fun q t i hq hi k => (flda_gamma hK hal hcls hit any hq t hi k).1) hn hcls hL hL1 hc hstart
    (fun k => (hqe k c0).le) ho hne hcalls
  have hneg : ∀ k, m.1.eta k c0 < 0 := fun k => h4 k ⟨hiter, fun q t hq => by
    obtain ⟨w, hw, i, hi, hwi⟩ := huse k
    exact ⟨i, hi, (flda_gamma hK hal hcls hit any hq t hi k).2 ⟨w, hw, hwi⟩⟩⟩
  have hz := (C148_centred cfg corpus n _ _).1 q t W orders m l logs ho hcalls fun k => by simp [hqe]
  refine ⟨h1, hneg, ?_⟩
  rw [h2.1]
  refine unseen_predict (fun k => ?_) X hX hX'
  rw [hz]
  exact mul_neg_of_pos_of_neg (by exact_mod_cast c0.pos) (hneg k)

/-! ### Multinomial and correspondence models -/

/-- Every topic gives the class `c0` the least, and some class more. -/
def Least (c0 : Fin C) (q : MultParams K V C) : Prop :=
  ∃ beta eta, q.2 = some (beta, eta) ∧ (∀ k c, eta k c0 ≤ eta k c) ∧ ∀ k, ∃ c, eta k c0 < eta k c

theorem least_step {mu : ℝ} (hmu : 1 < mu) (hn : 0 < n) (huse : ∀ k, ∃ w, 0 < beta0 k w ∧ Occurs corpus n w)
    {q : MultParams K V C} {beta : Mat K V ℝ} (hb : Agrees corpus n beta0 beta) {a : ℕ → Sample K V C}
    (ha : ∀ i < n, Contributes (corpus i).words beta (a i).counts) (hac : ∀ i < n, (a i).cls ≠ (c0 : ℤ))
    {s : MultState K V C} {f : Bool} (hI : MultHolds s ((List.range n).map fun i => some (a i)) f) :
    Least c0 (q.1, (multM mu s).1.params) := by
  obtain ⟨l, el, hl, _⟩ := hI
  have el' : l = (List.range n).map a := by
    have : ((List.range n).map fun i => some (a i)) = ((List.range n).map a).map some := by
      rw [List.map_map]; rfl
    rw [this] at el
    exact (List.map_injective_iff.2 (Option.some_injective _) el).symm
  have hp : (multM mu s).1.params = some (normalizeRows (wordCount l),
      normalizeRows fun k c => classCount l k c + mu - 1) := by
    have h2 := hl.2
    cases hbufs : s.bufs with
    | none =>
      rw [hbufs] at h2
      exact absurd (el'.symm.trans h2) (range_map_ne_nil hn)
    | some p =>
      simp only [hbufs] at h2
      simp only [multM, hbufs, Option.map_some, h2.1, h2.2.1]
  have hnn : ∀ x ∈ l, ∀ k w, 0 ≤ x.counts k w := by
    intro d hd
    rw [el'] at hd
    obtain ⟨i, hi, rfl⟩ := List.mem_map.1 hd
    exact fun k w => (ha i (List.mem_range.1 hi) k w).1
  have h0 : ∀ k, classCount l k c0 = 0 := by
    intro k
    have : l.filter (fun x => decide (x.cls = (c0 : ℤ))) = [] := by
      rw [List.filter_eq_nil_iff, el']
      intro x hx
      obtain ⟨i, hi, rfl⟩ := List.mem_map.1 hx
      simpa using hac i (List.mem_range.1 hi)
    rw [classCount, this, List.map_nil, List.sum_nil]
  have hcls : ∀ k c, 0 < classCount l k c + mu - 1 := fun k c => by
    have := classCount_nonneg hnn k c
    linarith
  have hsum : ∀ k, 0 < ∑ c, (classCount l k c + mu - 1) := fun k =>
    Finset.sum_pos (fun c _ => hcls k c) ⟨c0, mem_univ _⟩
  have heta : ∀ k c, normalizeRows (fun k c => classCount l k c + mu - 1) k c =
      (classCount l k c + mu - 1) / ∑ c, (classCount l k c + mu - 1) := fun k c => by
    rw [normalizeRows_apply, if_neg (hsum k).ne']
  refine ⟨_, _, hp, fun k c => ?_, fun k => ?_⟩
  · rw [heta, heta, h0]
    have := classCount_nonneg hnn k c
    exact div_le_div_of_nonneg_right (by linarith) (hsum k).le
  · obtain ⟨w, hw, i, hi, hwi⟩ := huse k
    have hmem : a i ∈ l := by rw [el']; exact List.mem_map.2 ⟨i, List.mem_range.2 hi, rfl⟩
    obtain ⟨h1, h2⟩ := hl.1 (a i) hmem
    refine ⟨⟨(a i).cls.toNat, by omega⟩, ?_⟩
    rw [heta, heta, h0]
    refine div_lt_div_of_pos_right ?_ (hsum k)
    have hpos : 0 < ∑ w, (a i).counts k w := Finset.sum_pos' (fun w _ => hnn _ hmem k w)
      ⟨w, mem_univ w, (ha i hi k w).2.2 ⟨(hb.2 k w ⟨i, hi, hwi⟩).2 hw, hwi⟩⟩
    have hin : ∑ w, (a i).counts k w ∈ ((l.filter fun x => decide (x.cls = (((⟨(a i).cls.toNat, by omega⟩ : Fin C) : ℕ) : ℤ))).map
        fun x => ∑ w, x.counts k w) :=
      List.mem_map.2 ⟨a i, List.mem_filter.2 ⟨hmem, by simp; omega⟩, rfl⟩
    have hle := List.single_le_sum (fun x hx => by
      obtain ⟨d, hd, rfl⟩ := List.mem_map.1 hx
      exact Finset.sum_nonneg fun w _ => hnn d (List.mem_filter.1 hd).1 k w) _ hin
    unfold classCount
    linarith

theorem least_low {q : MultParams K V C} (h : Least c0 q) :
    ∃ beta eta, q.2 = some (beta, eta) ∧ ∀ k, C * eta k c0 < ∑ c, eta k c := by
  obtain ⟨beta, eta, h1, h2, h3⟩ := h
  refine ⟨beta, eta, h1, fun k => ?_⟩
  obtain ⟨c, hc⟩ := h3 k
  have : ∑ _c : Fin C, eta k c0 < ∑ c, eta k c := Finset.sum_lt_sum (fun c _ => h2 k c) ⟨c, mem_univ c, hc⟩
  rwa [Finset.sum_const, Finset.card_univ, Fintype.card_fin, nsmul_eq_mul] at this

/-- **C154**: the multinomial model, with a smoothing parameter above one, whatever the class probabilities at the
start. -/
theorem C154_multinomial_partial {mu : ℝ} (hmu : 1 < mu) (hK : 0 < K) (hn : 0 < n) (hal : ∀ k, 0 < alpha k)
    (hb0 : RowStochastic beta0) {eta0 : Mat K C ℝ} (he0 : ∀ k c, 0 < eta0 k c) (hcls : Labelled corpus n C)
    (huse : ∀ k, ∃ w, 0 < beta0 k w ∧ Occurs corpus n w) (ew : ℝ)
    (hit : ∀ i < n, Iterates ecfg.iterations ecfg.computeLikelihood alpha (corpus i).words) (any : VP K V)
    (hcls0 : ∀ i < n, (corpus i).cls ≠ (c0 : ℤ))
    (ho : ∀ p ∈ orders, ((List.range n).map p).Perm (List.range n)) (hne : orders ≠ [])
    {m : MultParams K V C × T × Option (MultState K V C)}
    (hc : Calls (fitCalls (multinomial mu corpus) next
      (libResultsMult (fun _ X y m => multinomialRun P ecfg ew X y m) any corpus) W n orders)
      .empty ((alpha, some (beta0, eta0)), t, some .init) l m logs)
    {D : ℕ} (X : Mat K D ℝ) (hX : ∀ d k, alpha k ≤ X k d) (hX' : ∀ d, ∃ k, alpha k < X k d) :
    m.1.1 = alpha ∧ ∃ beta eta, m.1.2 = some (beta, eta) ∧
      ∃ ps, Decision.predict (Decision.decisionFunction alpha eta X) = some ps ∧ ps.length = D ∧ c0 ∉ ps := by
  have hE : CarefulMult (C := C) (T := T) corpus n alpha beta0 _ _ :=
    careful_multinomial (P := P) (cfg := ecfg) hK hal hcls ew hit any
  obtain ⟨-, hgood, hleast⟩ := (multinomialFree mu corpus).fit_sound (Pre := GoodMult alpha (Agrees corpus n beta0))
    (Post := fun q => GoodMultAfter alpha (Restricts corpus n beta0) q ∧ Least c0 q)
    (fun _ h => goodMult_mono h.1) (fun q t i hq hi => by
      obtain ⟨_, beta, eta, h2, _⟩ := hq
      exact ⟨multSample eta (corpus i,
        libResultsMult (fun _ X y m => multinomialRun P ecfg ew X y m) any corpus (q, t) i), by simp [multinomialFree, h2], hcls i hi⟩)
    (fun q t s f hq hI => by
      refine ⟨_, _, _, rfl, ?_⟩
      obtain ⟨h1, beta, eta, h2, h3, h4⟩ := hq
      have hI' : MultHolds s ((List.range n).map fun i => some (multSample eta (corpus i,
          libResultsMult (fun _ X y m => multinomialRun P ecfg ew X y m) any corpus (q, t) i))) f := by
        have := hI
        simp only [multinomialFree, h2, Option.map_some] at this
        exact this
      have hcon : ∀ i < n, Contributes (corpus i).words beta (multSample eta (corpus i,
          libResultsMult (fun _ X y m => multinomialRun P ecfg ew X y m) any corpus (q, t) i)).counts := fun i hi =>
        (hE q t i beta eta hi h1 h2 h3 h4).1.contributes (c := fun w => ((corpus i).words w : ℝ))
          (fun w => Nat.cast_nonneg _) fun w => by rw [Nat.cast_pos, Nat.pos_iff_ne_zero]
      exact ⟨goodMult_step hmu hn huse h1 h3 hcon hI', least_step hmu hn huse h3 hcon hcls0 hI'⟩)
    (f := false) ⟨[], rfl, multHistory_is (mu := mu) (h := []) rfl, by simp [MultState.init]⟩
    ⟨rfl, beta0, eta0, rfl, ⟨hb0, fun _ _ _ => Iff.rfl⟩, he0⟩ ho hne hc
  obtain ⟨beta, eta, h1, h2⟩ := least_low hleast
  exact ⟨hgood.1, beta, eta, h1, unseen_predict h2 X hX hX'⟩

/-- **C154**: the correspondence model. -/
theorem C154_correspondence_partial {mu : ℝ} (hmu : 1 < mu) (hK : 0 < K) (hn : 0 < n) (hal : ∀ k, 0 < alpha k)
    (hb0 : RowStochastic beta0) {eta0 : Mat K C ℝ} (he0 : ∀ k c, 0 < eta0 k c) (hcls : Labelled corpus n C)
    (huse : ∀ k, ∃ w, 0 < beta0 k w ∧ Occurs corpus n w)
    (hit : ∀ i < n, Iterates ecfg.iterations ecfg.tolerance alpha (corpus i).words) (any : VP K V × Vec V ℝ)
    (hcls0 : ∀ i < n, (corpus i).cls ≠ (c0 : ℤ))
    (ho : ∀ p ∈ orders, ((List.range n).map p).Perm (List.range n)) (hne : orders ≠ [])
    {l : Left (VP K V × Vec V ℝ)} {logs : List (List (Obs (VP K V × Vec V ℝ)))}
    {m : MultParams K V C × T × Option (MultState K V C)}
    (hc : Calls (fitCalls (correspondence mu corpus) next
      (libResultsMult (fun _ X y m => correspondenceRun P ecfg X y m) any corpus) W n orders)
      .empty ((alpha, some (beta0, eta0)), t, some .init) l m logs)
    {D : ℕ} (X : Mat K D ℝ) (hX : ∀ d k, alpha k ≤ X k d) (hX' : ∀ d, ∃ k, alpha k < X k d) :
    m.1.1 = alpha ∧ ∃ beta eta, m.1.2 = some (beta, eta) ∧
      ∃ ps, Decision.predict (Decision.decisionFunction alpha eta X) = some ps ∧ ps.length = D ∧ c0 ∉ ps := by
  have hE : CarefulMult (C := C) (T := T) corpus n alpha beta0 _ _ :=
    careful_correspondence (P := P) (cfg := ecfg) hK hal hcls hit any
  obtain ⟨-, hgood, hleast⟩ := (correspondenceFree mu corpus).fit_sound (Pre := GoodMult alpha (Agrees corpus n beta0))
    (Post := fun q => GoodMultAfter alpha (Restricts corpus n beta0) q ∧ Least c0 q)
    (fun _ h => goodMult_mono h.1) (fun q t i hq hi => by
      obtain ⟨_, beta, eta, h2, _⟩ := hq
      exact ⟨corrSample eta
        (corpus i, (libResultsMult (fun _ X y m => correspondenceRun P ecfg X y m) any corpus (q, t) i).1)
        (libResultsMult (fun _ X y m => correspondenceRun P ecfg X y m) any corpus (q, t) i).2, by simp [correspondenceFree, h2], hcls i hi⟩)
    (fun q t s f hq hI => by
      refine ⟨_, _, _, rfl, ?_⟩
      obtain ⟨h1, beta, eta, h2, h3, h4⟩ := hq
      generalize hR : (fun i => libResultsMult (fun _ X y m => correspondenceRun P ecfg X y m) any corpus (q, t) i) = R
      have hR' : ∀ i, libResultsMult (fun _ X y m => correspondenceRun P ecfg X y m) any corpus (q, t) i = R i :=
        fun i => congrFun hR i
      have hI' : MultHolds s ((List.range n).map fun i => some (corrSample eta (corpus i, (R i).1) (R i).2)) f := by
        have := hI
        simp only [correspondenceFree, h2, Option.map_some, hR'] at this
        exact this
      have hcon : ∀ i < n, Contributes (corpus i).words beta (corrSample eta (corpus i, (R i).1) (R i).2).counts := by
        intro i hi
        obtain ⟨h5, h6⟩ := hE q t i beta eta hi h1 h2 h3 h4
        rw [hR'] at h5 h6
        refine h5.contributes (c := fun w => ((corpus i).words w : ℝ) * (R i).2 w)
          (fun w => mul_nonneg (Nat.cast_nonneg _) (h6 w).le) fun w => ?_
        rw [mul_pos_iff_of_pos_right (h6 w), Nat.cast_pos, Nat.pos_iff_ne_zero]
      exact ⟨goodMult_step hmu hn huse h1 h3 hcon hI', least_step hmu hn huse h3 hcon hcls0 hI'⟩)
    (f := false) ⟨[], rfl, multHistory_is (mu := mu) (h := []) rfl, by simp [MultState.init]⟩
    ⟨rfl, beta0, eta0, rfl, ⟨hb0, fun _ _ _ => Iff.rfl⟩, he0⟩ ho hne hc
  obtain ⟨beta, eta, h1, h2⟩ := least_low hleast
  exact ⟨hgood.1, beta, eta, h1, unseen_predict h2 X hX hX'⟩

/-- **C154**, why training is needed: with weights zero every document is predicted to have the first class, whether or
not any document has it. -/
theorem C154_untrained_false {alpha : Vec K ℝ} {eta : Mat K (C + 1) ℝ} (heta : ∀ k c, eta k c = 0) {D : ℕ} (X : Mat K D ℝ)
    (hX : ∀ d, ∑ k, (X k d - alpha k) ≠ 0) :
    Decision.predict (Decision.decisionFunction alpha eta X) = some (List.replicate D 0) := by
  obtain ⟨ps, h1, h2, h3⟩ := Decision.C60_predict C.succ_pos alpha eta X hX
  rw [h1, ← h2]
  refine congrArg some (List.eq_replicate_of_mem fun p hp => ?_)
  obtain ⟨i, hi, rfl⟩ := List.getElem_of_mem hp
  obtain ⟨-, h⟩ := h3 ⟨i, h2 ▸ hi⟩ _ (List.getElem?_eq_getElem hi)
  by_contra hne
  have := h 0 (Fin.pos_of_ne_zero hne)
  simp [heta] at this

/-- A document without words, of the first class. -/
noncomputable def emptyDoc : DocArg 1 1 := (fun _ => 1, ⟨fun _ => 0, 0⟩, ⟨fun _ _ => 1, fun _ => 1⟩)

/-- **C154**, why the penalty must be at most one: with a penalty of 3/2 a step of the descent takes the weight of the
class without documents from minus one to one half. -/
theorem C154_penalty_false (tol : ℝ) : ∃ (s s' : MStep.FastState 1 1) (out : MOut 1 1 2),
    fastHistory (C := 2) ⟨1, tol, 3 / 2⟩ [.doc emptyDoc] = some s ∧
    fastM ⟨1, tol, 3 / 2⟩ (fun _ => ![1, -1]) s = some (out, s') ∧ out.eta 0 1 = 1 / 2 := by
  obtain ⟨s, hs⟩ := fastHistory_docs (C := 2) ⟨1, tol, 3 / 2⟩ [emptyDoc]
  have hsince := since_docs (B := Mat 1 2 ℝ) [emptyDoc]
  have hI := fastHistory_is hs
  rw [hsince] at hI
  obtain ⟨e, ev, u, hM⟩ := fast_ready (C := 2) hI (by simp) (by simp [emptyDoc]) ⟨1, tol, 3 / 2⟩ (fun _ => ![1, -1])
  refine ⟨s, u, _, hs, hM, ?_⟩
  obtain ⟨u', -, -, -, e2⟩ := hI.step (C := 2) ⟨1, tol, 3 / 2⟩ (fun _ => ![1, -1])
  have hw : defaultWeights [emptyDoc.2.1.cls] = some [some 1] := by
    simp [defaultWeights, numClasses, emptyDoc, countLabel, weightOf]
  have hx : topicShare emptyDoc.1 emptyDoc.2.2.gamma = fun _ => 0 := by
    funext k
    simp [topicShare, emptyDoc]
  have hcl : emptyDoc.2.1.cls = 0 := rfl
  have hval : ∀ eta : Mat 1 2 ℝ, (logistic 2 [fun _ : Fin 1 => (0 : ℝ)] [0] [some 1] (3 / 2)).value eta =
      some (Real.log 2 + 3 / 4 * (eta 0 0 ^ 2 + eta 0 1 ^ 2)) := by
    intro eta
    have h2 : Real.exp 0 + Real.exp 0 = 2 := by rw [Real.exp_zero]; norm_num
    simp [logistic, logisticValue, logisticLoop, scores, Optim.weightAt, entryAt, squaredNorm, logc, Fin.sum_univ_two]
    norm_num
    ring
  have hgrad : ∀ eta : Mat 1 2 ℝ, (logistic 2 [fun _ : Fin 1 => (0 : ℝ)] [0] [some 1] (3 / 2)).gradient eta =
      some fun k c => eta k c * (3 / 2) := by
    intro eta
    simp [logistic, logisticGradient, logisticGradLoop, scores, Optim.weightAt, subCol]
  have hpr : logisticDefault 2 ([emptyDoc].map fun d => topicShare d.1 d.2.2.gamma) ([emptyDoc].map fun d => d.2.1.cls)
      (3 / 2) = some (logistic 2 [fun _ : Fin 1 => (0 : ℝ)] [0] [some 1] (3 / 2)) := by
    rw [List.map_singleton, List.map_singleton, hx, logisticDefault, hw]
    rfl
  dsimp only at e2
  rw [hM, hpr, Option.bind_some] at e2
  obtain ⟨r, hr, e3⟩ := Option.map_eq_some_iff.1 e2.symm
  have her : e = r.1 := by
    have := (Prod.mk.inj e3).1
    simp only [MOut.mk.injEq] at this
    exact this.2.1.symm
  unfold descend at hr
  split_ifs at hr with hex
  obtain ⟨v, hv0, hloop⟩ := hex.choose_spec
  have hr1 : r.1 = hex.choose.1 := by rw [← Option.some.inj hr]
  change e 0 1 = 1 / 2
  rw [her, hr1]
  generalize hex.choose.1 = oe at hloop
  rw [hval] at hv0
  have hv1 : 0 ≤ v := by
    rw [← Option.some.inj hv0]
    have := Real.log_nonneg (by norm_num : (1 : ℝ) ≤ 2)
    positivity
  cases hloop with
  | stop hp =>
    have := congrArg Prod.snd hp
    simp [mStepProgress, improves, hv1] at this
  | again hp hg hsearch hd =>
    rename_i x' v' g' s1
    have hx' : oe = x' := by
      cases hd with
      | stop _ => rfl
      | again hp' =>
        have := congrArg Prod.snd hp'
        simp [mStepProgress] at this
    rw [hgrad] at hg
    obtain rfl := Option.some.inj hg
    obtain ⟨m, h1, -, -, h4⟩ := C54_largest_step (by norm_num) (by norm_num)
      (by norm_num [Fin.sum_univ_two]) hsearch
    have hacc := h4 0 ⟨_, _, hval _, hval _, by norm_num [Fin.sum_univ_two]; linarith⟩
    have hm : (1 / 2 : ℝ) ^ m = 1 := le_antisymm (pow_le_one₀ (by norm_num) (by norm_num)) (by simpa using hacc)
    rw [hx', h1, hm]
    norm_num

/-- The three documents, with the first and the last of three classes. -/
def twoOfThree (i : ℕ) : Doc 4 := ⟨(threeDocs i).words, if i = 1 then 2 else 0⟩

/-- The hypotheses of `C154_predict_partial` can be met: two topics, three classes, no document of the second, two iterations
with three workers; no document is predicted to have that class. -/
example (any : VP 2 4) : ∃ (m : Params 2 4 3 × EStep.FastState × Option (MStep.FastState 2 4))
    (logs : List (List (Obs (VP 2 4)))) (ps : List (Fin 3)),
    Calls (fitCalls (fastSupervised ⟨10, 1 / 100, 1 / 100⟩ twoOfThree) EStep.FastState.eStep
      (libResults (fun (t : EStep.FastState) X y m => fastRun fastPrims demoCfg t.weight X y m) any twoOfThree) 3 3
        [id, fun i => 2 - i]) .empty
      (⟨fun _ => 1, .matrix fun k w => .fin (twoOfFour k w), fun _ _ => 0⟩, ⟨1, .constant, 0⟩, some .init) .empty m logs ∧
    Decision.predict (Decision.decisionFunction m.1.alpha m.1.eta (fun k d => if k = d then 3 else 1 : Mat 2 2 ℝ)) = some ps ∧
    ps.length = 2 ∧ 1 ∉ ps := by
  obtain ⟨m, logs, hc⟩ := calls_exist (fastSupervised (C := 3) ⟨10, 1 / 100, 1 / 100⟩ twoOfThree) EStep.FastState.eStep
    (libResults (fun (t : EStep.FastState) X y m => fastRun fastPrims demoCfg t.weight X y m) any twoOfThree) (W := 3)
    (by norm_num) 3 [id, fun i => 2 - i]
    (⟨fun _ => 1, .matrix fun k w => .fin (twoOfFour k w), fun _ _ => 0⟩, ⟨1, .constant, 0⟩, some .init)
  obtain ⟨-, -, ps, h1, h2, h3⟩ := C154_predict_partial (c0 := (1 : Fin 3)) (P := fastPrims) (ecfg := demoCfg)
    (cfg := ⟨10, 1 / 100, 1 / 100⟩) (corpus := twoOfThree) (n := 3) (t := ⟨1, .constant, 0⟩) (alpha := fun _ => 1) (beta0 := twoOfFour) (by norm_num) (by norm_num)
    (fun _ => one_pos) twoOfFour_stochastic
    (fun i _ => by simp only [twoOfThree]; split_ifs <;> simp)
    (fun k => ⟨0, by fin_cases k <;> simp [twoOfFour], threeDocs_occurs 0⟩) (fun i _ => threeDocs_iterates i) any
    (by norm_num) (by norm_num) (by norm_num) (fun i _ => by simp only [twoOfThree]; split_ifs <;> simp)
    (q := ⟨fun _ => 1, .matrix fun k w => .fin (twoOfFour k w), fun _ _ => 0⟩) rfl rfl (fun _ _ => rfl)
    (by
      intro p hp
      rcases List.mem_pair.1 hp with rfl | rfl
      · simp
      · decide) (by simp) hc (fun k d => if k = d then 3 else 1)
    (fun d k => by by_cases h : k = d <;> simp [h]) (fun d => ⟨d, by simp⟩)
  exact ⟨m, logs, ps, hc, h1, h2, h3⟩

/-- The hypotheses of `C154_multinomial_partial` can be met. -/
example (any : VP 2 4) : ∃ (m : MultParams 2 4 3 × Unit × Option (MultState 2 4 3)) (logs : List (List (Obs (VP 2 4))))
    (beta : Mat 2 4 ℝ) (eta : Mat 2 3 ℝ) (ps : List (Fin 3)),
    Calls (fitCalls (multinomial 2 twoOfThree) id
      (libResultsMult (fun _ X y m => multinomialRun fastPrims demoCfg 1 X y m) any twoOfThree) 3 3
        [id, fun i => 2 - i]) .empty ((fun _ => 1, some (twoOfFour, fun _ _ => 1 / 3)), (), some .init) .empty m logs ∧
    m.1.2 = some (beta, eta) ∧
    Decision.predict (Decision.decisionFunction (fun _ => 1) eta (fun k d => if k = d then 3 else 1 : Mat 2 2 ℝ)) = some ps ∧
    ps.length = 2 ∧ 1 ∉ ps := by
  obtain ⟨m, logs, hc⟩ := calls_exist (multinomial (C := 3) 2 twoOfThree) id
    (libResultsMult (fun _ X y m => multinomialRun fastPrims demoCfg 1 X y m) any twoOfThree) (W := 3)
    (by norm_num) 3 [id, fun i => 2 - i]
    ((fun _ => 1, some (twoOfFour, fun _ _ => 1 / 3)), (), some .init)
  obtain ⟨-, beta, eta, h0, ps, h1, h2, h3⟩ := C154_multinomial_partial (c0 := (1 : Fin 3)) (P := fastPrims) (ecfg := demoCfg)
    (mu := 2) (corpus := twoOfThree) (n := 3) (T := Unit) (t := ()) (alpha := fun _ => 1) (beta0 := twoOfFour)
    (eta0 := fun _ _ => 1 / 3) (by norm_num) (by norm_num) (by norm_num) (fun _ => one_pos) twoOfFour_stochastic
    (fun _ _ => by norm_num) (fun i _ => by simp only [twoOfThree]; split_ifs <;> simp)
    (fun k => ⟨0, by fin_cases k <;> simp [twoOfFour], threeDocs_occurs 0⟩) 1
    (fun i _ => ⟨by simp [demoCfg], (by
      have := threeDocs_words i
      simp only [demoCfg, Fin.sum_univ_two, Nat.cast_ofNat, twoOfThree]
      linarith)⟩) any
    (fun i _ => by simp only [twoOfThree]; split_ifs <;> simp)
    (by
      intro p hp
      rcases List.mem_pair.1 hp with rfl | rfl
      · simp
      · decide) (by simp) hc (fun k d => if k = d then 3 else 1)
    (fun d k => by by_cases h : k = d <;> simp [h]) (fun d => ⟨d, by simp⟩)
  exact ⟨m, logs, beta, eta, ps, hc, h0, h1, h2, h3⟩

/-- The hypotheses of `C154_training` and `C154_semi` on the documents can be met. -/
example : Labelled twoOfThree 3 3 ∧ (∀ i < 3, (twoOfThree i).cls ≠ ((1 : Fin 3) : ℤ)) ∧ ∃ i < 3, 0 ≤ (twoOfThree i).cls := by
  refine ⟨fun i _ => ?_, fun i _ => ?_, 0, by norm_num, by simp [twoOfThree]⟩ <;>
  · simp only [twoOfThree]
    split_ifs <;> simp

end Verif.Train
