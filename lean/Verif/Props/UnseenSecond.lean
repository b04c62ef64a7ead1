import Verif.Props.Unseen

/-! Property C154 for the second order approximation of supervised LDA. -/
namespace Verif.Optim

open MathUtils Finset

variable {K C : ℕ}

/-- A mean and a variance that come from the words of a document: `x` is the sum of vectors without negative entries, `V`
the sum of their squares. -/
def Spread (x : Vec K ℝ) (V : Mat K K ℝ) : Prop :=
  ∃ (N : ℕ) (a : Fin N → Vec K ℝ), (∀ n k, 0 ≤ a n k) ∧ (∀ k, x k = ∑ n, a n k) ∧ ∀ k l, V k l = ∑ n, a n k * a n l

theorem quad_spread {N : ℕ} {a : Fin N → Vec K ℝ} {V : Mat K K ℝ} (hV : ∀ k l, V k l = ∑ n, a n k * a n l)
    (eta : Mat K C ℝ) (c : Fin C) : quad eta V c = ∑ n, (∑ k, eta k c * a n k) ^ 2 := by
  have h1 : ∀ n, (∑ k, eta k c * a n k) ^ 2 = ∑ k, ∑ l, eta k c * (a n k * a n l) * eta l c := fun n => by
    rw [sq, Finset.sum_mul_sum]
    exact Finset.sum_congr rfl fun k _ => Finset.sum_congr rfl fun l _ => by ring
  simp only [quad_eq, h1]
  symm
  rw [Finset.sum_comm]
  refine Finset.sum_congr rfl fun k _ => ?_
  rw [Finset.sum_comm]
  refine Finset.sum_congr rfl fun l _ => ?_
  rw [hV, Finset.mul_sum, Finset.sum_mul]

theorem Spread.quad_nonneg {x : Vec K ℝ} {V : Mat K K ℝ} (h : Spread x V) (eta : Mat K C ℝ) (c : Fin C) :
    0 ≤ quad eta V c := by
  obtain ⟨N, a, -, -, hV⟩ := h
  rw [quad_spread hV]
  exact Finset.sum_nonneg fun _ _ => sq_nonneg _

theorem Spread.normalizer_pos {x : Vec K ℝ} {V : Mat K K ℝ} (h : Spread x V) (eta : Mat K C ℝ) (c : Fin C) :
    0 < secondNormalizer eta x V := by
  have h1 : 0 < ∑ c, Real.exp (scores eta x c) := Finset.sum_pos (fun _ _ => Real.exp_pos _) ⟨c, mem_univ c⟩
  have h2 : 0 ≤ ∑ c, Real.exp (scores eta x c) * quad eta V c :=
    Finset.sum_nonneg fun c _ => mul_nonneg (Real.exp_pos _).le (h.quad_nonneg eta c)
  unfold secondNormalizer
  linarith

/-- Every entry of the gradient of the normalizer is at least half of what the first order would give, because
`1 + s + s^2 / 2` is at least `1 / 2`. -/
theorem Spread.gradDoc {x : Vec K ℝ} {V : Mat K K ℝ} (h : Spread x V) (eta : Mat K C ℝ) (k : Fin K) (c : Fin C) :
    Real.exp (scores eta x c) * (x k / 2) ≤ secondGradDoc eta x V k c := by
  obtain ⟨N, a, ha, hx, hV⟩ := h
  have hs : ((∑ j, eta j c * V j k) + ∑ j, eta j c * V k j) / 2 = ∑ n, a n k * ∑ j, eta j c * a n j := by
    have e : ∀ j, V k j = V j k := fun j => by
      rw [hV, hV]
      exact Finset.sum_congr rfl fun n _ => mul_comm _ _
    simp only [e]
    rw [add_self_div_two]
    simp only [hV, Finset.mul_sum]
    rw [Finset.sum_comm]
    exact Finset.sum_congr rfl fun n _ => Finset.sum_congr rfl fun j _ => by ring
  simp only [secondGradDoc, hs]
  have hq := quad_spread hV eta c
  have hterm : ∀ n, a n k * (1 / 2) ≤
      a n k * (1 + 0.5 * quad eta V c) + a n k * ∑ j, eta j c * a n j := fun n => by
    have h1 : (∑ j, eta j c * a n j) ^ 2 ≤ quad eta V c := by
      rw [hq]
      exact Finset.single_le_sum (f := fun n => (∑ j, eta j c * a n j) ^ 2) (fun _ _ => sq_nonneg _) (mem_univ n)
    rw [← mul_add]
    refine mul_le_mul_of_nonneg_left ?_ (ha n k)
    nlinarith [sq_nonneg ((∑ j, eta j c * a n j) + 1)]
  have hsum := Finset.sum_le_sum fun n (_ : n ∈ (univ : Finset (Fin N))) => hterm n
  rw [Finset.sum_add_distrib, ← Finset.sum_mul, ← Finset.sum_mul, ← hx] at hsum
  have := mul_le_mul_of_nonneg_left hsum (Real.exp_pos (scores eta x c)).le
  calc Real.exp (scores eta x c) * (x k / 2) = Real.exp (scores eta x c) * (x k * (1 / 2)) := by ring
    _ ≤ _ := this
    _ = _ := by ring

theorem Spread.nonneg {x : Vec K ℝ} {V : Mat K K ℝ} (h : Spread x V) (k : Fin K) : 0 ≤ x k := by
  obtain ⟨N, a, ha, hx, -⟩ := h
  rw [hx]
  exact Finset.sum_nonneg fun n _ => ha n k

/-- As `gradLoop_absent`. -/
theorem secondGradLoop_absent {Cy : List (Option ℝ)} {eta : Mat K C ℝ} {c0 : Fin C} {ys : List ℤ}
    (hy : ∀ y ∈ ys, (c0 : ℤ) ≠ y) (hw : ∀ y ∈ ys, ∀ w, weightAt Cy y = some w → 0 < w) :
    ∀ {xs : List (Vec K ℝ)} {Vs : List (Mat K K ℝ)} {g g' : Mat K C ℝ}, secondGradLoop Cy eta ys xs Vs g = some g' →
      ys.length = xs.length → List.Forall₂ Spread xs Vs →
      ∀ k, g k c0 ≤ g' k c0 ∧ ((∃ x ∈ xs, 0 < x k) → g k c0 < g' k c0) := by
  induction ys with
  | nil =>
    intro xs Vs g g' h hl _ k
    rw [List.length_eq_zero_iff.1 hl.symm] at h ⊢
    rw [Option.some.inj h]
    simp
  | cons y ys ih =>
    intro xs Vs g g' h hl hx k
    cases hx with
    | nil => cases h
    | @cons x V xs Vs hxV hx =>
      simp only [secondGradLoop, Option.bind_eq_some_iff] at h
      obtain ⟨w, h0, g1, h1, h⟩ := h
      split_ifs at h with hz
      have hw0 := hw y List.mem_cons_self w h0
      obtain ⟨a1, a2⟩ := ih (fun y hy' => hy y (List.mem_cons_of_mem _ hy'))
        (fun y hy' => hw y (List.mem_cons_of_mem _ hy')) h (Nat.succ.inj hl) hx k
      rw [subCol_other h1 (hy y List.mem_cons_self)] at a1 a2
      have hpos : 0 < w * (1 / secondNormalizer eta x V) := mul_pos hw0 (one_div_pos.2 (hxV.normalizer_pos eta c0))
      have hlow := hxV.gradDoc eta k c0
      have hterm : 0 ≤ w * (1 / secondNormalizer eta x V) * secondGradDoc eta x V k c0 :=
        mul_nonneg hpos.le ((mul_nonneg (Real.exp_pos _).le (by have := hxV.nonneg k; linarith)).trans hlow)
      refine ⟨by linarith, ?_⟩
      rintro ⟨z, hz', hk⟩
      rcases List.mem_cons.1 hz' with rfl | hz'
      · have : 0 < w * (1 / secondNormalizer eta z V) * secondGradDoc eta z V k c0 :=
          mul_pos hpos ((mul_pos (Real.exp_pos _) (by linarith)).trans_le hlow)
        linarith
      · have := a2 ⟨z, hz', hk⟩
        linarith

/-- As `descent_absent`. -/
theorem second_descent_absent {S : Type} {X : List (Vec K ℝ)} {Vs : List (Mat K K ℝ)} {ys : List ℤ} {L : ℝ}
    {pr : Problem K C} {progress : Progress S} (hpr : secondOrderDefault C X Vs ys L = some pr) (hL : 0 ≤ L) (hL1 : L ≤ 1)
    (hlen : ys.length = X.length) (hX : List.Forall₂ Spread X Vs) {c0 : Fin C} (hy : ∀ y ∈ ys, (c0 : ℤ) ≠ y)
    {x x' : Mat K C ℝ} {v : ℝ} {g : Option (Mat K C ℝ)} {i : ℕ} {s s' : S}
    (h : DescentLoop (ArmijoSearch (1 / 1000) (1 / 2)) pr progress x v g i s x' s') (k : Fin K) (hx : x k c0 ≤ 0) :
    x' k c0 ≤ 0 ∧ ((∃ z ∈ X, 0 < z k) → ((progress s v (g.map maxNorm) i).2 = true ∨ x k c0 < 0) → x' k c0 < 0) := by
  simp only [secondOrderDefault, Option.map_eq_some_iff] at hpr
  obtain ⟨Cy, hCy, rfl⟩ := hpr
  induction h with
  | stop hp => exact ⟨hx, fun _ h => by rw [hp] at h; simpa using h⟩
  | @again x x1 xf v v' g g' i s s1 sf hp hg hs _ ih =>
    obtain ⟨a, ha, ha1, rfl⟩ := armijo_small hs
    simp only [secondOrder, secondGradient, Option.map_eq_some_iff] at hg
    obtain ⟨g0, hg0, rfl⟩ := hg
    obtain ⟨b1, b2⟩ := secondGradLoop_absent hy (fun y _ w hw => defaultWeights_pos hCy hw) hg0 hlen hX k
    have haL : a * L ≤ 1 := mul_le_one₀ ha1 hL hL1
    have e : move x a (fun k c => g0 k c + x k c * L) k c0 = (1 - a * L) * x k c0 - a * g0 k c0 := by
      simp only [move]; ring
    have h1 : (1 - a * L) * x k c0 ≤ 0 := mul_nonpos_of_nonneg_of_nonpos (by linarith) hx
    have h2 : 0 ≤ a * g0 k c0 := mul_nonneg ha.le b1
    obtain ⟨c1, c2⟩ := ih (by rw [e]; linarith)
    refine ⟨c1, fun hz _ => c2 hz (.inr ?_)⟩
    have h3 : 0 < a * g0 k c0 := mul_pos ha (b2 hz)
    rw [e]; linarith

end Verif.Optim

namespace Verif.Train

open MathUtils EStep MStep Optim Pool Finset

variable {K V C n W : ℕ} {T : Type}

/-- What the E step computed for a document is made of the words of the document: no share is negative, and `gamma` is
`alpha` plus the words that the topic gets. -/
def MadeOfWords (alpha : Vec K ℝ) (d : Doc V) (r : VP K V) : Prop :=
  (∀ k w, 0 ≤ r.phi k w) ∧ ∀ k, r.gamma k = alpha k + ∑ w, (d.words w : ℝ) * r.phi k w

theorem spread_of {d : DocArg K V} (h : MadeOfWords d.1 d.2.1 d.2.2) :
    Spread (meanTopics d) (varTopics d) := by
  refine ⟨V, fun w k => d.2.2.phi k w * d.2.1.words w / size d, fun w k =>
    div_nonneg (mul_nonneg (h.1 k w) (Nat.cast_nonneg _)) (Nat.cast_nonneg _), fun k => ?_, fun k l => ?_⟩
  · rw [meanTopics, h.2 k, add_sub_cancel_left, Finset.sum_div]
    exact Finset.sum_congr rfl fun w _ => by ring
  · rw [varTopics, Finset.sum_div]
    exact Finset.sum_congr rfl fun w _ => by ring

theorem exists_samples : ∀ (ds : List (DocArg K V)), (∀ d ∈ ds, 0 ≤ d.2.1.cls ∧ d.2.1.cls < (C : ℤ)) →
    ∃ data : List (Vec K ℝ × Mat K K ℝ × Fin C), data.map Prod.fst = ds.map meanTopics ∧
      (data.map fun d => d.2.1) = ds.map varTopics ∧ (data.map fun d => (d.2.2 : ℤ)) = ds.map fun d => d.2.1.cls
  | [], _ => ⟨[], rfl, rfl, rfl⟩
  | a :: ds, hl => by
    obtain ⟨data, h1, h2, h3⟩ := exists_samples ds fun b hb => hl b (List.mem_cons_of_mem _ hb)
    have ha := hl a List.mem_cons_self
    refine ⟨(meanTopics a, varTopics a, ⟨a.2.1.cls.toNat, by omega⟩) :: data, by simp [h1], by simp [h2], ?_⟩
    simp only [List.map_cons, h3, List.cons.injEq, and_true]
    exact Int.toNat_of_nonneg ha.1

/-- One call of `m_step`. -/
theorem unseen_second_step {s : SupState K V} {ds : List (DocArg K V)} (h : SupIs s ds) (hne : ds ≠ [])
    (hl : ∀ d ∈ ds, 0 ≤ d.2.1.cls ∧ d.2.1.cls < (C : ℤ)) (hs : ∀ d ∈ ds, size d ≤ 46340) {cfg : SupCfg}
    (hL : 0 ≤ cfg.penalty) (hL1 : cfg.penalty ≤ 1) (hg : ∀ d ∈ ds, MadeOfWords d.1 d.2.1 d.2.2) {c0 : Fin C}
    (hc : ∀ d ∈ ds, d.2.1.cls ≠ (c0 : ℤ)) {eta : Mat K C ℝ} (heta : ∀ k, eta k c0 ≤ 0) :
    ∃ e ev u, supM cfg eta s = some (⟨uBeta s.b, e, ev⟩, u) ∧ (∀ k, e k c0 ≤ 0) ∧
      (cfg.iterations ≠ 0 → (∀ d ∈ ds, size d ≠ 0) → ∀ k, (∃ d ∈ ds, d.1 k < d.2.2.gamma k) → e k c0 < 0) := by
  obtain ⟨e, ev, u, hM⟩ := sup_ready h hne hl hs cfg eta
  obtain ⟨u', -, -, -, e2⟩ := h.step (C := C) cfg eta
  refine ⟨e, ev, u, hM, ?_⟩
  rw [hM] at e2
  obtain ⟨r, hr, e3⟩ := Option.map_eq_some_iff.1 e2.symm
  have her : e = r.1 := by
    have := (Prod.mk.inj e3).1
    simp only [MOut.mk.injEq] at this
    exact this.2.1.symm
  by_cases hw : ∀ d ∈ ds, size d ≠ 0
  · have z1 : (ds.map fun d => supZbar (numWords d.2.1.words) d.2.2.gamma d.1) = (ds.map meanTopics).map some := by
      rw [List.map_map]
      exact List.map_congr_left fun d hd => supZbar_eq (hw d hd)
    have z2 : (ds.map fun d => supVar (numWords d.2.1.words) d.2.1.words d.2.2.phi) = (ds.map varTopics).map some := by
      rw [List.map_map]
      exact List.map_congr_left fun d hd => supVar_eq (hw d hd)
    rw [z1, z2, supDescend, readAll_map_some, readAll_map_some] at hr
    simp only at hr
    obtain ⟨data, d1, d2, d3⟩ := exists_samples (C := C) ds hl
    have hdne : data ≠ [] := by
      rintro rfl
      exact hne (List.map_eq_nil_iff.1 d1.symm)
    have hpsd : ∀ d ∈ data, PSD d.2.1 := fun d hd => by
      have : d.2.1 ∈ ds.map varTopics := d2 ▸ List.mem_map.2 ⟨d, hd, rfl⟩
      obtain ⟨d', hd', e⟩ := List.mem_map.1 this
      rw [← e]
      exact varTopics_psd (hw d' hd')
    obtain ⟨pr, w, m, h1, -, -, -, hwt, hv, -⟩ := second_default hdne hpsd cfg.penalty
    rw [d1, d2, d3] at h1
    rw [h1, Option.bind_some] at hr
    obtain ⟨r', hr', e4⟩ := Option.map_eq_some_iff.1 hr
    unfold descend at hr'
    split_ifs at hr' with hex
    obtain ⟨v, hv0, hloop⟩ := hex.choose_spec
    have hr1 : r.1 = hex.choose.1 := by rw [← e4, ← Option.some.inj hr']
    have hsp : ∀ ds : List (DocArg K V), (∀ d ∈ ds, MadeOfWords d.1 d.2.1 d.2.2) →
        List.Forall₂ Spread (ds.map meanTopics) (ds.map varTopics) := fun ds hg => by
      induction ds with
      | nil => exact .nil
      | cons d ds ih =>
        exact .cons (spread_of (hg d List.mem_cons_self)) (ih fun b hb => hg b (List.mem_cons_of_mem _ hb))
    have key := fun k => second_descent_absent h1 hL hL1 (by simp) (hsp ds hg) (c0 := c0) (fun y hy => by
      obtain ⟨d, hd, rfl⟩ := List.mem_map.1 hy
      exact (hc d hd).symm) hloop k (heta k)
    rw [her, hr1]
    refine ⟨fun k => (key k).1, fun hit _ k ⟨d, hd, hk⟩ => (key k).2 ⟨_, List.mem_map.2 ⟨d, hd, rfl⟩,
      div_pos (sub_pos.2 hk) (by exact_mod_cast Nat.pos_of_ne_zero (hw d hd))⟩ (.inl ?_)⟩
    rw [hv] at hv0
    have hv1 : 0 ≤ v := by
      rw [← Option.some.inj hv0]
      exact C58_nonneg data (fun d hd => (hwt d hd).le) hpsd hL eta
    simp only [mStepProgress, improves, hv1, decide_true, Bool.and_true, decide_eq_true_eq]
    exact Nat.pos_of_ne_zero hit
  · refine ⟨?_, fun _ hw' => absurd hw' hw⟩
    push Not at hw
    obtain ⟨d, hd, h0⟩ := hw
    have hz : (none : Option (Vec K ℝ)) ∈ ds.map fun d => supZbar (numWords d.2.1.words) d.2.2.gamma d.1 :=
      List.mem_map.2 ⟨d, hd, by
        have : numWords d.2.1.words = size d := rfl
        rw [this, h0, supZbar, if_pos rfl]⟩
    rw [supDescend, readAll_none hz] at hr
    simp only at hr
    split_ifs at hr
    rw [her, ← Option.some.inj hr]
    exact heta

variable {corpus : ℕ → Doc V} {eval : Params K V C × T → ℕ → VP K V} {next : T → T} {c0 : Fin C} {cfg : SupCfg}
  {t : T} {orders : List (ℕ → ℕ)} {l : Left (VP K V)} {logs : List (List (Obs (VP K V)))}

/-- Training of `SupervisedMStep`, with knowledge `G` about the model that `m_step` keeps. -/
theorem unseen_second {G : Params K V C → Prop}
    (hG : ∀ q t eta, G q → G ⟨q.alpha, betaOf ((List.range n).map fun i => (corpus i, eval (q, t) i)), eta⟩)
    (hE : ∀ q t i, G q → i < n → MadeOfWords q.alpha (corpus i) (eval (q, t) i)) (hn : 0 < n)
    (hcls : Labelled corpus n C) (hsize : ∀ i < n, numWords (corpus i).words ≤ 46340)
    (hL : 0 ≤ cfg.penalty) (hL1 : cfg.penalty ≤ 1) (hc : ∀ i < n, (corpus i).cls ≠ (c0 : ℤ)) {q : Params K V C}
    (hq : G q) (heta : ∀ k, q.eta k c0 ≤ 0)
    (ho : ∀ p ∈ orders, ((List.range n).map p).Perm (List.range n)) (hne : orders ≠ [])
    {m : Params K V C × T × Option (SupState K V)}
    (hcalls : Calls (fitCalls (supervised cfg corpus) next eval W n orders) .empty (q, t, some .init) l m logs) :
    m.2.2 ≠ none ∧ G m.1 ∧ Against c0 (fun k => cfg.iterations ≠ 0 ∧ (∀ i < n, numWords (corpus i).words ≠ 0) ∧
      ∀ q t, G q → ∃ i < n, q.alpha k < (eval (q, t) i).gamma k) m.1.eta := by
  refine (supervisedFree cfg corpus).fit_sound (Pre := fun q => G q ∧ ∀ k, q.eta k c0 ≤ 0)
    (Post := fun q => G q ∧ Against c0 _ q.eta) (fun q h => ⟨h.1, h.2.1⟩) (fun q t i _ hi => ?_) ?_ (f := false)
    ⟨SupIs.init, by simp [SupState.init]⟩ ⟨hq, heta⟩ ho hne hcalls
  · have := hsize i hi
    change numWords (corpus i).words * numWords (corpus i).words ≤ 2147483647
    nlinarith
  rintro q t s f ⟨hq, heta⟩ hI
  obtain ⟨e, ev, u, hM, e1, e2⟩ := unseen_second_step hI.1 (range_map_ne_nil hn) (fun d hd => by
    obtain ⟨i, hi, rfl⟩ := List.mem_map.1 hd
    exact hcls i (List.mem_range.1 hi)) (fun d hd => by
    obtain ⟨i, hi, rfl⟩ := List.mem_map.1 hd
    exact hsize i (List.mem_range.1 hi)) hL hL1 (fun d hd => by
    obtain ⟨i, hi, rfl⟩ := List.mem_map.1 hd
    exact hE q t i hq (List.mem_range.1 hi)) (c0 := c0) (fun d hd => by
    obtain ⟨i, hi, rfl⟩ := List.mem_map.1 hd
    exact hc i (List.mem_range.1 hi)) heta
  have hb := hI.1.buf
  rw [List.map_map] at hb
  refine ⟨⟨q.alpha, uBeta s.b, e⟩, u, ev.length, by simp only [supervised, hM, Option.map_some], ?_, e1, fun k hk => ?_⟩
  · rw [hb.beta (range_map_ne_nil hn)]
    exact hG q t e hq
  · obtain ⟨i, hi, hlt⟩ := hk.2.2 q t hq
    exact e2 hk.1 (fun d hd => by
      obtain ⟨j, hj, rfl⟩ := List.mem_map.1 hd
      exact hk.2.1 j (List.mem_range.1 hj)) k ⟨_, List.mem_map.2 ⟨i, List.mem_range.2 hi, rfl⟩, hlt⟩

/-- **C154**: the second order approximation.  Whatever the E step, as long as its results are made of the words, the
weights of a class without documents do not become positive: for every schedule, number of workers, shuffle and number of
iterations.  No sign of the other weights is needed. -/
theorem C154_second_order (hn : 0 < n) (hcls : Labelled corpus n C) (hsize : ∀ i < n, numWords (corpus i).words ≤ 46340)
    (hL : 0 ≤ cfg.penalty) (hL1 : cfg.penalty ≤ 1)
    (hE : ∀ q t i, i < n → MadeOfWords q.alpha (corpus i) (eval (q, t) i)) (hc : ∀ i < n, (corpus i).cls ≠ (c0 : ℤ)) :
    FitKeeps (supervised cfg corpus) n eval next .init (fun q => ∀ k, q.eta k c0 ≤ 0) := by
  intro q t W orders m l logs ho hcalls hq
  by_cases hne : orders = []
  · subst hne
    cases hcalls
    exact hq
  · exact (unseen_second (G := fun _ => True) (fun _ _ _ _ => trivial) (fun q t i _ => hE q t i) hn hcls hsize hL hL1 hc
      trivial hq ho hne hcalls).2.2.1

/-- The hypotheses of `C154_second_order` can be met: three documents of the first and the last of three classes, and an E
step that shares the words equally between two topics. -/
example (next : T → T) : FitKeeps (supervised (K := 2) (C := 3) ⟨10, 1 / 100, 1 / 100⟩ twoOfThree) 3
    (fun (x : Params 2 4 3 × T) i => ⟨fun _ _ => 1 / 2, fun k => x.1.alpha k + ∑ w, ((twoOfThree i).words w : ℝ) * (1 / 2)⟩)
    next .init (fun q => ∀ k, q.eta k 1 ≤ 0) :=
  C154_second_order (c0 := 1) (by norm_num) (fun i _ => by simp only [twoOfThree]; split_ifs <;> simp)
    (by decide) (by norm_num) (by norm_num) (fun _ _ _ _ => ⟨fun _ _ => by norm_num, fun _ => rfl⟩)
    (fun i _ => by simp only [twoOfThree]; split_ifs <;> simp)

variable {P : Prims} {ecfg : EStep.Cfg} {alpha : Vec K ℝ} {beta0 : Mat K V ℝ}

/-- The results of the E step of supervised LDA are made of the words, no share is above one, and a topic that knows a word of the document gets a
share. -/
theorem slda_gamma (hK : 0 < K) (hal : ∀ k, 0 < alpha k) (hcls : Labelled corpus n C) {fp : ℕ} (hfp : fp ≠ 0)
    (hkn : ∀ w, Occurs corpus n w → ∃ k, 0 < beta0 k w)
    (hit : ∀ i < n, Iterates ecfg.iterations ecfg.tolerance alpha (corpus i).words) (any : VP K V) {q : Params K V C}
    (hq : Good alpha (Agrees corpus n beta0) q) (t : T) {i : ℕ} (hi : i < n) :
    MadeOfWords q.alpha (corpus i)
      (libResults (fun (_ : T) X y m => (supervisedRun P ecfg fp X y m).map Prod.fst) any corpus (q, t) i) ∧
    (∀ k w, (libResults (fun (_ : T) X y m => (supervisedRun P ecfg fp X y m).map Prod.fst) any corpus (q, t) i).phi k w ≤ 1) ∧
    ∀ k, (∃ w, 0 < beta0 k w ∧ (corpus i).words w ≠ 0) → q.alpha k <
      (libResults (fun (_ : T) X y m => (supervisedRun P ecfg fp X y m).map Prod.fst) any corpus (q, t) i).gamma k := by
  obtain ⟨rfl, beta, hb, ha⟩ := hq
  have hsh := careful_slda (P := P) (cfg := ecfg) hK hal hcls hfp hkn hit any q t i beta hi rfl hb ha
  have hm := valid_of (C := C) hal ha q.eta
  obtain ⟨y, hy⟩ : ∃ y : Fin C, (corpus i).cls = (y : ℤ) :=
    ⟨⟨(corpus i).cls.toNat, by have := hcls i hi; omega⟩, by have := hcls i hi; simp; omega⟩
  have hknown : ∀ w, (corpus i).words w ≠ 0 → (⟨q.alpha, beta, q.eta⟩ : Model K V C).Known w := fun w hw => by
    have ho : Occurs corpus n w := ⟨i, hi, hw⟩
    obtain ⟨k, hk⟩ := hkn w ho
    exact ⟨k, (ha.2 k w ho).2 hk⟩
  obtain ⟨⟨s, h'⟩, hrun, hinv⟩ := loop_total
    (step := supervisedPhiGamma P (corpus i).words (ratio (corpus i).words) (y : ℤ) beta q.eta fp)
    (gam := fun s => s.1.gamma) (tol := ecfg.tolerance)
    (fun s => (∀ n, IsDist fun k => s.1.phi k n) ∧ Counts (corpus i).words q.alpha s.1) (fun s hs => by
      obtain ⟨s', h⟩ := supervisedPhiGamma_total (P := P) (y := y) (fp := fp) hm hs.1 hs.2 hknown
      obtain ⟨h1, h2, _⟩ := supervisedPhiGamma_spec hm hs.1 hs.2 h
      exact ⟨s', h, h1, h2⟩)
    ecfg.iterations (fun _ => 0) (initial (corpus i).words q.alpha, none)
    ⟨initial_dist hK _ _, initial_counts _ _⟩
  have hrun' : supervisedRun P ecfg fp (corpus i).words (y : ℤ) ⟨q.alpha, beta, q.eta⟩ = some (s, h') := hrun
  have e : libResults (fun (_ : T) X y m => (supervisedRun P ecfg fp X y m).map Prod.fst) any corpus (q, t) i = s := by
    simp only [libResults, realBeta_of hb, Option.bind_some, hy, hrun', Option.map_some, Option.getD_some]
  rw [e] at hsh ⊢
  have hgam : ∀ k, s.gamma k = q.alpha k + ∑ w, ((corpus i).words w : ℝ) * s.phi k w := fun k => hinv.2 k
  refine ⟨⟨fun k w => (hsh k w).1, hgam⟩, fun k w => ?_, ?_⟩
  · rw [← (hinv.1 w).2]
    exact Finset.single_le_sum (f := fun k => s.phi k w) (fun j _ => (hinv.1 w).1 j) (mem_univ k)
  rintro k ⟨w, hw0, hw⟩
  have hpos : 0 < s.phi k w := ((hsh k w).2 hw).2 ((ha.2 k w ⟨i, hi, hw⟩).2 hw0)
  have : 0 < ∑ n, ((corpus i).words n : ℝ) * s.phi k n :=
    Finset.sum_pos' (fun j _ => mul_nonneg (Nat.cast_nonneg _) (hsh k j).1)
      ⟨w, mem_univ w, mul_pos (by exact_mod_cast Nat.pos_of_ne_zero hw) hpos⟩
  rw [hgam k]
  linarith

/-- **C154**: supervised LDA.  After training from weights zero, for at least one iteration and with at least one step of
the descent in each, on documents that all have words, every weight of a class without documents is negative, and so is its
score for every document.  Missing: that another class has a higher score; the weights of a topic do not add up to zero
over the classes with the second order approximation (`C148_second_order`). -/
theorem C154_slda_partial (hK : 0 < K) (hn : 0 < n) (hal : ∀ k, 0 < alpha k) (hb0 : RowStochastic beta0)
    (hcls : Labelled corpus n C) {fp : ℕ} (hfp : fp ≠ 0) (hsize : ∀ i < n, numWords (corpus i).words ≤ 46340)
    (hwords : ∀ i < n, numWords (corpus i).words ≠ 0)
    (huse : ∀ k, ∃ w, 0 < beta0 k w ∧ Occurs corpus n w) (hkn : ∀ w, Occurs corpus n w → ∃ k, 0 < beta0 k w)
    (hit : ∀ i < n, Iterates ecfg.iterations ecfg.tolerance alpha (corpus i).words) (any : VP K V)
    (hL : 0 ≤ cfg.penalty) (hL1 : cfg.penalty ≤ 1) (hiter : cfg.iterations ≠ 0) (hc : ∀ i < n, (corpus i).cls ≠ (c0 : ℤ))
    {q : Params K V C} (hqa : q.alpha = alpha) (hqb : q.beta.IsReal beta0) (hqe : ∀ k c, q.eta k c = 0)
    (ho : ∀ p ∈ orders, ((List.range n).map p).Perm (List.range n)) (hne : orders ≠ [])
    {m : Params K V C × T × Option (SupState K V)}
    (hcalls : Calls (fitCalls (supervised cfg corpus) next
      (libResults (fun _ X y m => (supervisedRun P ecfg fp X y m).map Prod.fst) any corpus) W n orders)
      .empty (q, t, some .init) l m logs) :
    m.2.2 ≠ none ∧ (∀ k, m.1.eta k c0 < 0) ∧
      ∀ x : Vec K ℝ, (∀ k, 0 ≤ x k) → (∃ k, 0 < x k) → ∑ k, m.1.eta k c0 * x k < 0 := by
  have hstart : Good alpha (Agrees corpus n beta0) q := ⟨hqa, beta0, hqb, hb0, fun _ _ _ => Iff.rfl⟩
  obtain ⟨h1, -, -, h4⟩ := unseen_second (G := Good alpha (Agrees corpus n beta0)) (c0 := c0)
    (fun q t eta hq => good_mono (good_step (t := t) huse (careful_slda (P := P) hK hal hcls hfp hkn hit any) hq rfl eta))
    (fun q t i hq hi => (slda_gamma hK hal hcls hfp hkn hit any hq t hi).1) hn hcls hsize hL hL1 hc hstart
    (fun k => (hqe k c0).le) ho hne hcalls
  have hneg : ∀ k, m.1.eta k c0 < 0 := fun k => h4 k ⟨hiter, hwords, fun q t hq => by
    obtain ⟨w, hw, i, hi, hwi⟩ := huse k
    exact ⟨i, hi, (slda_gamma hK hal hcls hfp hkn hit any hq t hi).2.2 k ⟨w, hw, hwi⟩⟩⟩
  refine ⟨h1, hneg, fun x hx ⟨k, hk⟩ => ?_⟩
  exact Finset.sum_neg' (fun j _ => mul_nonpos_of_nonpos_of_nonneg (hneg j).le (hx j))
    ⟨k, mem_univ k, mul_neg_of_neg_of_pos (hneg k) hk⟩

/-- The hypotheses of `C154_slda_partial` can be met: two topics, three classes, no document of the second, two iterations
with three workers. -/
example (any : VP 2 4) : ∃ (m : Params 2 4 3 × Unit × Option (SupState 2 4)) (logs : List (List (Obs (VP 2 4)))),
    Calls (fitCalls (supervised ⟨10, 1 / 100, 1 / 100⟩ twoOfThree) id
      (libResults (fun _ X y m => (supervisedRun fastPrims demoCfg 5 X y m).map Prod.fst) any twoOfThree) 3 3
        [id, fun i => 2 - i]) .empty
      (⟨fun _ => 1, .matrix fun k w => .fin (twoOfFour k w), fun _ _ => 0⟩, (), some .init) .empty m logs ∧
    ∀ k, m.1.eta k 1 < 0 := by
  obtain ⟨m, logs, hc⟩ := calls_exist (supervised (C := 3) ⟨10, 1 / 100, 1 / 100⟩ twoOfThree) id
    (libResults (fun (_ : Unit) X y m => (supervisedRun fastPrims demoCfg 5 X y m).map Prod.fst) any twoOfThree) (W := 3)
    (by norm_num) 3 [id, fun i => 2 - i]
    (⟨fun _ => 1, .matrix fun k w => .fin (twoOfFour k w), fun _ _ => 0⟩, (), some .init)
  have hN : ∀ i < 3, numWords (twoOfThree i).words ≤ 8 ∧ numWords (twoOfThree i).words ≠ 0 := by decide
  obtain ⟨-, h, -⟩ := C154_slda_partial (c0 := (1 : Fin 3)) (P := fastPrims) (ecfg := demoCfg)
    (cfg := ⟨10, 1 / 100, 1 / 100⟩) (corpus := twoOfThree) (n := 3) (t := ()) (alpha := fun _ => 1) (beta0 := twoOfFour)
    (by norm_num) (by norm_num) (fun _ => one_pos) twoOfFour_stochastic
    (fun i _ => by simp only [twoOfThree]; split_ifs <;> simp) (fp := 5) (by norm_num)
    (fun i hi => (hN i hi).1.trans (by norm_num)) (fun i hi => (hN i hi).2)
    (fun k => ⟨0, by fin_cases k <;> simp [twoOfFour], threeDocs_occurs 0⟩)
    (fun w _ => ⟨1, by fin_cases w <;> simp [twoOfFour]⟩)
    (fun i _ => threeDocs_iterates i) any
    (by norm_num) (by norm_num) (by norm_num) (fun i _ => by simp only [twoOfThree]; split_ifs <;> simp)
    (q := ⟨fun _ => 1, .matrix fun k w => .fin (twoOfFour k w), fun _ _ => 0⟩) rfl rfl (fun _ _ => rfl)
    (by
      intro p hp
      rcases List.mem_pair.1 hp with rfl | rfl
      · simp
      · decide) (by simp) hc
  exact ⟨m, logs, hc, h⟩

end Verif.Train
