import Verif.Props.UnseenSecond
import Verif.Props.Convergence
import Verif.Props.SemiTraining

/-! Property C157: training keeps the weights of the classifier bounded. -/
namespace Verif.Optim

open MathUtils Finset

variable {K C : ℕ}

/-- The weights of all documents together. -/
noncomputable def weightSum (Cy : List (Option ℝ)) (ys : List ℤ) : ℝ := (ys.map fun y => (weightAt Cy y).getD 0).sum

/-- The default class weights of all documents add up to at most the number of documents. -/
theorem weightSum_le {ys : List ℤ} {Cy : List (Option ℝ)} (h : defaultWeights ys = some Cy) (hy : ∀ y ∈ ys, 0 ≤ y) :
    weightSum Cy ys ≤ ys.length := by
  by_cases hne : ys = []
  · subst hne; simp [weightSum]
  obtain ⟨Cy', m, h1, -, -, h3, h4, -⟩ := C59_weights hne hy
  obtain rfl : Cy = Cy' := Option.some.inj (h.symm.trans h1)
  obtain ⟨data, d1, d2⟩ := MStep.exists_data (C := m) ys (fun _ => fun _ : Fin 0 => (0 : ℝ)) id
    (fun a ha => ⟨hy a ha, h3 a ha⟩)
  rw [List.map_id] at d2
  have hlen : data.length = ys.length := by rw [← d2, List.length_map]
  have hcount : ∀ c : Fin m, ys.count (c : ℤ) = (data.map Prod.snd).count c := fun c => by
    have : ys = (data.map Prod.snd).map fun c : Fin m => ((c : ℕ) : ℤ) := by
      rw [List.map_map, ← d2]; rfl
    rw [this]
    exact List.count_map_of_injective (data.map Prod.snd) (fun c : Fin m => ((c : ℕ) : ℤ))
      (fun a b h => by simpa [Fin.ext_iff] using h) c
  have key := MStep.sum_weights_le (data := data) (n := m)
    (w := fun c => (data.length : ℝ) / (m * (data.map Prod.snd).count c)) (fun d _ => d.2.2) (fun _ _ => rfl)
  rw [hlen] at key
  refine le_trans (le_of_eq ?_) key
  have e : weightSum Cy ys = (ys.map fun a => (ys.length : ℝ) / (m * (ys.count a : ℝ))).sum := by
    unfold weightSum
    congr 1
    exact List.map_congr_left fun a ha => by rw [h4 a ha, Option.getD_some]
  have e2 : (ys.map fun a => (ys.length : ℝ) / (m * (ys.count a : ℝ))) =
      (data.map fun d => (d.2 : ℤ)).map fun a => (ys.length : ℝ) / (m * (ys.count a : ℝ)) := by rw [d2]
  rw [e, e2, List.map_map]
  congr 1
  refine List.map_congr_left fun d _ => ?_
  simp only [Function.comp_apply, hcount]

/-- One document changes an entry of the gradient by at most its weight. -/
theorem gradLoop_near {Cy : List (Option ℝ)} {eta : Mat K C ℝ} {ys : List ℤ}
    (hw : ∀ y ∈ ys, ∀ w, weightAt Cy y = some w → 0 < w) :
    ∀ {xs : List (Vec K ℝ)} {g g' : Mat K C ℝ}, logisticGradLoop Cy eta ys xs g = some g' → ys.length = xs.length →
      (∀ x ∈ xs, ∀ k, 0 ≤ x k ∧ x k ≤ 1) → ∀ k c, |g' k c - g k c| ≤ weightSum Cy ys := by
  induction ys with
  | nil =>
    intro xs g g' h _ _ k c
    rw [Option.some.inj h]
    simp [weightSum]
  | cons y ys ih =>
    intro xs g g' h hl hx k c
    cases xs with
    | nil => cases h
    | cons x xs =>
      simp only [logisticGradLoop, Option.bind_eq_some_iff] at h
      obtain ⟨w, h0, g1, h1, h⟩ := h
      split_ifs at h with hz
      have hw0 := hw y List.mem_cons_self w h0
      have a1 := ih (fun y hy' => hw y (List.mem_cons_of_mem _ hy')) h (Nat.succ.inj hl)
        (fun x hx' => hx x (List.mem_cons_of_mem _ hx')) k c
      obtain ⟨x0, x1⟩ := hx x List.mem_cons_self k
      have hE : ∀ c, 0 < Real.exp (scores eta x c) := fun _ => Real.exp_pos _
      have hpos : 0 < ∑ c, Real.exp (scores eta x c) := Finset.sum_pos (fun c _ => hE c) ⟨c, mem_univ c⟩
      have hle : Real.exp (scores eta x c) ≤ ∑ c, Real.exp (scores eta x c) :=
        Finset.single_le_sum (f := fun c => Real.exp (scores eta x c)) (fun c _ => (hE c).le) (mem_univ c)
      have t0 : 0 ≤ w * (x k * Real.exp (scores eta x c)) / ∑ c, Real.exp (scores eta x c) :=
        div_nonneg (mul_nonneg hw0.le (mul_nonneg x0 (hE c).le)) hpos.le
      have t1 : w * (x k * Real.exp (scores eta x c)) / ∑ c, Real.exp (scores eta x c) ≤ w * x k := by
        rw [div_le_iff₀ hpos]
        have := mul_le_mul_of_nonneg_left hle (mul_nonneg hw0.le x0)
        linarith
      have t2 : w * x k ≤ w := mul_le_of_le_one_right hw0.le x1
      have t3 : 0 ≤ w * x k := mul_nonneg hw0.le x0
      have hs : weightSum Cy (y :: ys) = w + weightSum Cy ys := by
        simp [weightSum, h0]
      have hg : g1 k c = g k c ∨ g1 k c = g k c - w * x k := by
        unfold subCol at h1
        split_ifs at h1
        rw [← Option.some.inj h1]
        by_cases hc : (c : ℤ) = y <;> simp [hc]
      rw [hs]
      rw [abs_le] at a1 ⊢
      rcases hg with hg | hg <;> rw [hg] at a1 <;> constructor <;> linarith

/-- No entry of the gradient of the normalizer is more than twice what the first order would give, because
`s` is at most `1 + s^2 / 2`. -/
theorem Spread.gradDoc_le {x : Vec K ℝ} {V : Mat K K ℝ} (h : Spread x V) (eta : Mat K C ℝ) (k : Fin K) (c : Fin C) :
    secondGradDoc eta x V k c ≤ 2 * x k * secondNormalizer eta x V := by
  have hx0 := h.nonneg k
  have hq0 := h.quad_nonneg eta
  obtain ⟨N, a, ha, hx, hV⟩ := h
  have hs : ((∑ j, eta j c * V j k) + ∑ j, eta j c * V k j) / 2 = ∑ n, a n k * ∑ j, eta j c * a n j := by
    have e : ∀ j, V k j = V j k := fun j => by
      rw [hV, hV]
      exact Finset.sum_congr rfl fun n _ => mul_comm _ _
    simp only [e]
    rw [add_self_div_two]
    simp only [hV, Finset.mul_sum]
    rw [Finset.sum_comm]
    exact Finset.sum_congr rfl fun n _ => Finset.sum_congr rfl fun j _ => by ring
  have hq := quad_spread hV eta c
  have hterm : ∀ n, a n k * ∑ j, eta j c * a n j ≤ a n k * (1 + 0.5 * quad eta V c) := fun n => by
    have h1 : (∑ j, eta j c * a n j) ^ 2 ≤ quad eta V c := by
      rw [hq]
      exact Finset.single_le_sum (f := fun n => (∑ j, eta j c * a n j) ^ 2) (fun _ _ => sq_nonneg _) (mem_univ n)
    refine mul_le_mul_of_nonneg_left ?_ (ha n k)
    nlinarith [sq_nonneg ((∑ j, eta j c * a n j) - 1)]
  have hsum := Finset.sum_le_sum fun n (_ : n ∈ (univ : Finset (Fin N))) => hterm n
  rw [← Finset.sum_mul, ← hx] at hsum
  have h1 : Real.exp (scores eta x c) * (1 + 0.5 * quad eta V c) ≤ secondNormalizer eta x V := by
    have : secondNormalizer eta x V = ∑ c, Real.exp (scores eta x c) * (1 + 0.5 * quad eta V c) := by
      rw [secondNormalizer, Finset.mul_sum, ← Finset.sum_add_distrib]
      exact Finset.sum_congr rfl fun c _ => by ring
    rw [this]
    exact Finset.single_le_sum (f := fun c => Real.exp (scores eta x c) * (1 + 0.5 * quad eta V c))
      (fun c _ => mul_nonneg (Real.exp_pos _).le (by have := hq0 c; linarith)) (mem_univ c)
  have h2 := mul_le_mul_of_nonneg_right hsum (Real.exp_pos (scores eta x c)).le
  have h3 := mul_le_mul_of_nonneg_left h1 hx0
  simp only [secondGradDoc, hs]
  linarith

/-- As `gradLoop_near`, with twice the weight. -/
theorem secondGradLoop_near {Cy : List (Option ℝ)} {eta : Mat K C ℝ} {ys : List ℤ}
    (hw : ∀ y ∈ ys, ∀ w, weightAt Cy y = some w → 0 < w) :
    ∀ {xs : List (Vec K ℝ)} {Vs : List (Mat K K ℝ)} {g g' : Mat K C ℝ}, secondGradLoop Cy eta ys xs Vs g = some g' →
      ys.length = xs.length → List.Forall₂ Spread xs Vs → (∀ x ∈ xs, ∀ k, x k ≤ 1) →
      ∀ k c, |g' k c - g k c| ≤ 2 * weightSum Cy ys := by
  induction ys with
  | nil =>
    intro xs Vs g g' h _ _ _ k c
    rw [Option.some.inj h]
    simp [weightSum]
  | cons y ys ih =>
    intro xs Vs g g' h hl hx hx1 k c
    cases hx with
    | nil => cases h
    | @cons x V xs Vs hxV hx =>
      simp only [secondGradLoop, Option.bind_eq_some_iff] at h
      obtain ⟨w, h0, g1, h1, h⟩ := h
      split_ifs at h with hz
      have hw0 := hw y List.mem_cons_self w h0
      have a1 := ih (fun y hy' => hw y (List.mem_cons_of_mem _ hy')) h (Nat.succ.inj hl) hx
        (fun x hx' => hx1 x (List.mem_cons_of_mem _ hx')) k c
      have x0 := hxV.nonneg k
      have x1 := hx1 x List.mem_cons_self k
      have hZ := hxV.normalizer_pos eta c
      have hpos : 0 < w * (1 / secondNormalizer eta x V) := mul_pos hw0 (one_div_pos.2 hZ)
      have t0 : 0 ≤ w * (1 / secondNormalizer eta x V) * secondGradDoc eta x V k c :=
        mul_nonneg hpos.le ((mul_nonneg (Real.exp_pos _).le (by linarith)).trans (hxV.gradDoc eta k c))
      have t1 : w * (1 / secondNormalizer eta x V) * secondGradDoc eta x V k c ≤ 2 * (w * x k) := by
        refine (mul_le_mul_of_nonneg_left (hxV.gradDoc_le eta k c) hpos.le).trans_eq ?_
        field_simp
      have t2 : w * x k ≤ w := mul_le_of_le_one_right hw0.le x1
      have t3 : 0 ≤ w * x k := mul_nonneg hw0.le x0
      have hs : weightSum Cy (y :: ys) = w + weightSum Cy ys := by
        simp [weightSum, h0]
      have hg : g1 k c = g k c ∨ g1 k c = g k c - w * x k := by
        unfold subCol at h1
        split_ifs at h1
        rw [← Option.some.inj h1]
        by_cases hc : (c : ℤ) = y <;> simp [hc]
      rw [hs]
      rw [abs_le] at a1 ⊢
      rcases hg with hg | hg <;> rw [hg] at a1 <;> constructor <;> linarith

/-- The penalty holds the weights where it is as strong as the documents can be. -/
theorem descent_bounded {S : Type} {L B : ℝ} {pr : Problem K C} {progress : Progress S} (hL : 0 ≤ L) (hL1 : L ≤ 1)
    (hgrad : ∀ x g, pr.gradient x = some g → ∃ g0 : Mat K C ℝ, (g = fun k c => g0 k c + x k c * L) ∧
      ∀ k c, |g0 k c| ≤ L * B)
    {x x' : Mat K C ℝ} {v : ℝ} {g : Option (Mat K C ℝ)} {i : ℕ} {s s' : S}
    (h : DescentLoop (ArmijoSearch (1 / 1000) (1 / 2)) pr progress x v g i s x' s') (hx : ∀ k c, |x k c| ≤ B) :
    ∀ k c, |x' k c| ≤ B := by
  induction h with
  | stop hp => exact hx
  | @again x x1 xf v v' g g' i s s1 sf hp hg hs _ ih =>
    obtain ⟨a, ha, ha1, rfl⟩ := armijo_small hs
    obtain ⟨g0, rfl, hb⟩ := hgrad _ _ hg
    refine ih fun k c => ?_
    have haL : a * L ≤ 1 := mul_le_one₀ ha1 hL hL1
    have e : move x a (fun k c => g0 k c + x k c * L) k c = (1 - a * L) * x k c - a * g0 k c := by
      simp only [move]; ring
    rw [e]
    have h1 : |(1 - a * L) * x k c| ≤ (1 - a * L) * B := by
      rw [abs_mul, abs_of_nonneg (by linarith : 0 ≤ 1 - a * L)]
      exact mul_le_mul_of_nonneg_left (hx k c) (by linarith)
    have h2 : |a * g0 k c| ≤ a * (L * B) := by
      rw [abs_mul, abs_of_pos ha]
      exact mul_le_mul_of_nonneg_left (hb k c) ha.le
    have := abs_sub ((1 - a * L) * x k c) (a * g0 k c)
    linarith

end Verif.Optim

namespace Verif.Train

open MathUtils EStep MStep Optim Pool Finset

variable {K V C n W : ℕ} {T : Type}

theorem topicShare_le_one {alpha gamma : Vec K ℝ} (h : ∀ k, alpha k ≤ gamma k) (k : Fin K) :
    topicShare alpha gamma k ≤ 1 := by
  have h0 : ∀ j ∈ (univ : Finset (Fin K)), 0 ≤ gamma j - alpha j := fun j _ => sub_nonneg.2 (h j)
  have hle := Finset.single_le_sum h0 (mem_univ k)
  unfold topicShare
  by_cases hz : ∑ j, (gamma j - alpha j) = 0
  · simp only [hz, if_true] at hle ⊢
    linarith
  · simp only [hz, if_false]
    exact div_le_one_of_le₀ hle (Finset.sum_nonneg h0)

/-- One call of `m_step`. -/
theorem bounded_step {s : MStep.FastState K V} {ds : List (DocArg K V)} {all : List (Given K V)} (h : FastIs s ds all)
    (hne : ds ≠ []) (hl : ∀ d ∈ ds, 0 ≤ d.2.1.cls ∧ d.2.1.cls < (C : ℤ)) {cfg : SupCfg} (hL : 0 ≤ cfg.penalty)
    (hL1 : cfg.penalty ≤ 1) (hg : ∀ d ∈ ds, ∀ k, d.1 k ≤ d.2.2.gamma k) {B : ℝ} (hB : (ds.length : ℝ) ≤ cfg.penalty * B)
    {eta : Mat K C ℝ} (heta : ∀ k c, |eta k c| ≤ B) :
    ∃ e ev u, fastM cfg eta s = some (⟨uBeta s.b, e, ev⟩, u) ∧ ∀ k c, |e k c| ≤ B := by
  obtain ⟨e, ev, u, hM⟩ := fast_ready h hne hl cfg eta
  obtain ⟨u', -, -, -, e2⟩ := h.step (C := C) cfg eta
  refine ⟨e, ev, u, hM, ?_⟩
  rw [hM] at e2
  obtain ⟨pr, h1, e2⟩ := Option.bind_eq_some_iff.1 e2.symm
  obtain ⟨r, hr, e3⟩ := Option.map_eq_some_iff.1 e2
  have her : e = r.1 := by
    have := (Prod.mk.inj e3).1
    simp only [MOut.mk.injEq] at this
    exact this.2.1.symm
  unfold descend at hr
  split_ifs at hr with hex
  obtain ⟨v, hv0, hloop⟩ := hex.choose_spec
  have hr1 : r.1 = hex.choose.1 := by rw [← Option.some.inj hr]
  rw [her, hr1]
  refine descent_bounded hL hL1 (fun x g hgx => ?_) hloop heta
  simp only [logisticDefault, Option.map_eq_some_iff] at h1
  obtain ⟨Cy, hCy, rfl⟩ := h1
  simp only [logistic, logisticGradient, Option.map_eq_some_iff] at hgx
  obtain ⟨g0, hg0, rfl⟩ := hgx
  refine ⟨g0, rfl, fun k c => ?_⟩
  have := gradLoop_near (fun y _ w hw => defaultWeights_pos hCy hw) hg0 (by simp) (fun x hx k => by
    obtain ⟨d, hd, rfl⟩ := List.mem_map.1 hx
    exact ⟨(topicShare_nonneg (hg d hd) k).1, topicShare_le_one (hg d hd) k⟩) k c
  rw [sub_zero] at this
  have hs := weightSum_le hCy (fun y hy => by
    obtain ⟨d, hd, rfl⟩ := List.mem_map.1 hy
    exact (hl d hd).1)
  rw [List.length_map] at hs
  linarith

/-- One call of `m_step` of `SupervisedMStep`. -/
theorem bounded_second_step {s : SupState K V} {ds : List (DocArg K V)} (h : SupIs s ds) (hne : ds ≠ [])
    (hl : ∀ d ∈ ds, 0 ≤ d.2.1.cls ∧ d.2.1.cls < (C : ℤ)) (hs : ∀ d ∈ ds, size d ≤ 46340) {cfg : SupCfg}
    (hL : 0 ≤ cfg.penalty) (hL1 : cfg.penalty ≤ 1) (hg : ∀ d ∈ ds, MadeOfWords d.1 d.2.1 d.2.2)
    (hp : ∀ d ∈ ds, ∀ k w, d.2.2.phi k w ≤ 1) {B : ℝ} (hB : 2 * (ds.length : ℝ) ≤ cfg.penalty * B)
    {eta : Mat K C ℝ} (heta : ∀ k c, |eta k c| ≤ B) :
    ∃ e ev u, supM cfg eta s = some (⟨uBeta s.b, e, ev⟩, u) ∧ ∀ k c, |e k c| ≤ B := by
  obtain ⟨e, ev, u, hM⟩ := sup_ready h hne hl hs cfg eta
  obtain ⟨u', -, -, -, e2⟩ := h.step (C := C) cfg eta
  refine ⟨e, ev, u, hM, ?_⟩
  rw [hM] at e2
  obtain ⟨r, hr, e3⟩ := Option.map_eq_some_iff.1 e2.symm
  have her : e = r.1 := by
    have := (Prod.mk.inj e3).1
    simp only [MOut.mk.injEq] at this
    exact this.2.1.symm
  by_cases hw : ∀ d ∈ ds, size d ≠ 0
  · have z1 : (ds.map fun d => supZbar (numWords d.2.1.words) d.2.2.gamma d.1) = (ds.map meanTopics).map some := by
      rw [List.map_map]
      exact List.map_congr_left fun d hd => supZbar_eq (hw d hd)
    have z2 : (ds.map fun d => supVar (numWords d.2.1.words) d.2.1.words d.2.2.phi) = (ds.map varTopics).map some := by
      rw [List.map_map]
      exact List.map_congr_left fun d hd => supVar_eq (hw d hd)
    rw [z1, z2, supDescend, readAll_map_some, readAll_map_some] at hr
    simp only at hr
    obtain ⟨pr, h1, hr⟩ := Option.bind_eq_some_iff.1 hr
    obtain ⟨r', hr', e4⟩ := Option.map_eq_some_iff.1 hr
    unfold descend at hr'
    split_ifs at hr' with hex
    obtain ⟨v, hv0, hloop⟩ := hex.choose_spec
    have hr1 : r.1 = hex.choose.1 := by rw [← e4, ← Option.some.inj hr']
    have hsp : ∀ ds : List (DocArg K V), (∀ d ∈ ds, MadeOfWords d.1 d.2.1 d.2.2) →
        List.Forall₂ Spread (ds.map meanTopics) (ds.map varTopics) := fun ds hg => by
      induction ds with
      | nil => exact .nil
      | cons d ds ih =>
        exact .cons (spread_of (hg d List.mem_cons_self)) (ih fun b hb => hg b (List.mem_cons_of_mem _ hb))
    rw [her, hr1]
    refine descent_bounded hL hL1 (fun x g hgx => ?_) hloop heta
    simp only [secondOrderDefault, Option.map_eq_some_iff] at h1
    obtain ⟨Cy, hCy, rfl⟩ := h1
    simp only [secondOrder, secondGradient, Option.map_eq_some_iff] at hgx
    obtain ⟨g0, hg0, rfl⟩ := hgx
    refine ⟨g0, rfl, fun k c => ?_⟩
    have := secondGradLoop_near (fun y _ w hw => defaultWeights_pos hCy hw) hg0 (by simp) (hsp ds hg) (fun x hx k => by
      obtain ⟨d, hd, rfl⟩ := List.mem_map.1 hx
      have hN : (size d : ℝ) = ∑ w, (d.2.1.words w : ℝ) := by
        unfold size
        push_cast
        rfl
      rw [meanTopics, (hg d hd).2 k, add_sub_cancel_left]
      refine div_le_one_of_le₀ ?_ (Nat.cast_nonneg _)
      rw [hN]
      exact Finset.sum_le_sum fun w _ => mul_le_of_le_one_right (Nat.cast_nonneg _) (hp d hd k w)) k c
    rw [sub_zero] at this
    have hs := weightSum_le hCy (fun y hy => by
      obtain ⟨d, hd, rfl⟩ := List.mem_map.1 hy
      exact (hl d hd).1)
    rw [List.length_map] at hs
    linarith
  · push Not at hw
    obtain ⟨d, hd, h0⟩ := hw
    have hz : (none : Option (Vec K ℝ)) ∈ ds.map fun d => supZbar (numWords d.2.1.words) d.2.2.gamma d.1 :=
      List.mem_map.2 ⟨d, hd, by
        have : numWords d.2.1.words = size d := rfl
        rw [this, h0, supZbar, if_pos rfl]⟩
    rw [supDescend, readAll_none hz] at hr
    simp only at hr
    split_ifs at hr
    rw [her, ← Option.some.inj hr]
    exact heta

/-- No weight is above `B` in absolute value. -/
def Within (B : ℝ) (eta : Mat K C ℝ) : Prop := ∀ k c, |eta k c| ≤ B

/-- Then no score is, for any shares of the topics. -/
theorem Within.scores {B : ℝ} {eta : Mat K C ℝ} (h : Within B eta) {x : Vec K ℝ} (h0 : ∀ k, 0 ≤ x k) (h1 : ∑ k, x k = 1)
    (c : Fin C) : |∑ k, eta k c * x k| ≤ B := by
  refine (Finset.abs_sum_le_sum_abs _ _).trans ?_
  have : ∀ k ∈ (univ : Finset (Fin K)), |eta k c * x k| ≤ B * x k := fun k _ => by
    rw [abs_mul, abs_of_nonneg (h0 k)]
    exact mul_le_mul_of_nonneg_right (h k c) (h0 k)
  refine (Finset.sum_le_sum this).trans_eq ?_
  rw [← Finset.mul_sum, h1, mul_one]

variable {corpus : ℕ → Doc V} {eval : Params K V C × T → ℕ → VP K V} {next : T → T} {cfg : SupCfg} {B : ℝ}
  {t : T} {orders : List (ℕ → ℕ)} {l : Left (VP K V)} {logs : List (List (Obs (VP K V)))}

/-- Training of `FastSupervisedMStep`, with knowledge `G` about the model that `m_step` keeps. -/
theorem bounded_fast {G : Params K V C → Prop}
    (hG : ∀ q t eta, G q → G ⟨q.alpha, betaOf ((List.range n).map fun i => (corpus i, eval (q, t) i)), eta⟩)
    (hE : ∀ q t i, G q → i < n → ∀ k, q.alpha k ≤ (eval (q, t) i).gamma k) (hn : 0 < n) (hcls : Labelled corpus n C)
    (hL : 0 ≤ cfg.penalty) (hL1 : cfg.penalty ≤ 1) (hB : (n : ℝ) ≤ cfg.penalty * B) {q : Params K V C}
    (hq : G q) (heta : Within B q.eta)
    (ho : ∀ p ∈ orders, ((List.range n).map p).Perm (List.range n)) (hne : orders ≠ [])
    {m : Params K V C × T × Option (MStep.FastState K V)}
    (hcalls : Calls (fitCalls (fastSupervised cfg corpus) next eval W n orders) .empty (q, t, some .init) l m logs) :
    m.2.2 ≠ none ∧ G m.1 ∧ Within B m.1.eta := by
  refine (fastFree cfg corpus).fit_sound (Pre := fun q => G q ∧ Within B q.eta) (Post := fun q => G q ∧ Within B q.eta)
    (fun q h => h) (fun _ _ _ _ _ => trivial) ?_ (f := false) ⟨FastIs.init, by simp [MStep.FastState.init]⟩ ⟨hq, heta⟩ ho
    hne hcalls
  rintro q t s f ⟨hq, heta⟩ hI
  obtain ⟨e, ev, u, hM, e1⟩ := bounded_step hI.1 (range_map_ne_nil hn) (fun d hd => by
    obtain ⟨i, hi, rfl⟩ := List.mem_map.1 hd
    exact hcls i (List.mem_range.1 hi)) hL hL1 (fun d hd => by
    obtain ⟨i, hi, rfl⟩ := List.mem_map.1 hd
    exact hE q t i hq (List.mem_range.1 hi)) (B := B) (by simpa using hB) heta
  have hb := hI.1.buf
  rw [List.map_map] at hb
  refine ⟨⟨q.alpha, uBeta s.b, e⟩, u, ev.length, by simp only [fastSupervised, hM, Option.map_some], ?_, e1⟩
  rw [hb.beta (range_map_ne_nil hn)]
  exact hG q t e hq

/-- The same for `SemiSupervisedMStep`. -/
theorem bounded_semi {G : Params K V C → Prop}
    (hG : ∀ q t eta, G q → G ⟨q.alpha, betaOf ((List.range n).map fun i => (corpus i, eval (q, t) i)), eta⟩)
    (hE : ∀ q t i, G q → i < n → ∀ k, q.alpha k ≤ (eval (q, t) i).gamma k)
    (hcls : ∀ i < n, (corpus i).cls < (C : ℤ)) (hlab : ∃ i < n, 0 ≤ (corpus i).cls)
    (hL : 0 ≤ cfg.penalty) (hL1 : cfg.penalty ≤ 1) (hB : (n : ℝ) ≤ cfg.penalty * B) {q : Params K V C}
    (hq : G q) (heta : Within B q.eta)
    (ho : ∀ p ∈ orders, ((List.range n).map p).Perm (List.range n)) (hne : orders ≠ [])
    {m : Params K V C × T × Option (MStep.FastState K V)}
    (hcalls : Calls (fitCalls (semiSupervised cfg corpus) next eval W n orders) .empty (q, t, some .init) l m logs) :
    m.2.2 ≠ none ∧ G m.1 ∧ Within B m.1.eta := by
  obtain ⟨i0, hi0, hl0⟩ := hlab
  refine (semiFree cfg corpus).fit_sound (Pre := fun q => G q ∧ Within B q.eta) (Post := fun q => G q ∧ Within B q.eta)
    (fun q h => h) (fun _ _ _ _ _ => trivial) ?_ (f := false) ⟨FastIs.init, by simp [MStep.FastState.init]⟩ ⟨hq, heta⟩ ho
    hne hcalls
  rintro q t s f ⟨hq, heta⟩ hI
  have hmem : ∀ i < n, 0 ≤ (corpus i).cls → ((q.alpha, corpus i, eval (q, t) i) : DocArg K V) ∈
      labelled ((List.range n).map fun i => (q.alpha, corpus i, eval (q, t) i)) := fun i hi h0 =>
    List.mem_filter.2 ⟨List.mem_map.2 ⟨i, List.mem_range.2 hi, rfl⟩, decide_eq_true h0⟩
  have hlen : ((labelled ((List.range n).map fun i =>
      ((q.alpha, corpus i, eval (q, t) i) : DocArg K V))).length : ℝ) ≤ n := by
    have : (labelled ((List.range n).map fun i => ((q.alpha, corpus i, eval (q, t) i) : DocArg K V))).length ≤ n :=
      (List.length_filter_le _ _).trans (by simp)
    exact_mod_cast this
  obtain ⟨e, ev, u, hM, e1⟩ := bounded_step hI.1 (List.ne_nil_of_mem (hmem i0 hi0 hl0)) (fun d hd => by
      obtain ⟨h1, h2⟩ := List.mem_filter.1 hd
      obtain ⟨i, hi, rfl⟩ := List.mem_map.1 h1
      exact ⟨by simpa using h2, hcls i (List.mem_range.1 hi)⟩) hL hL1 (fun d hd => by
    obtain ⟨i, hi, rfl⟩ := List.mem_map.1 (List.mem_filter.1 hd).1
    exact hE q t i hq (List.mem_range.1 hi)) (B := B) (hlen.trans hB) heta
  have hb := hI.1.buf
  rw [List.map_map] at hb
  refine ⟨⟨q.alpha, uBeta s.b, e⟩, u, ev.length, by simp only [semiSupervised, fastSupervised, hM, Option.map_some], ?_, e1⟩
  rw [hb.beta (range_map_ne_nil (by omega))]
  exact hG q t e hq

/-- The same for `SupervisedMStep`. -/
theorem bounded_second {G : Params K V C → Prop}
    (hG : ∀ q t eta, G q → G ⟨q.alpha, betaOf ((List.range n).map fun i => (corpus i, eval (q, t) i)), eta⟩)
    (hE : ∀ q t i, G q → i < n → MadeOfWords q.alpha (corpus i) (eval (q, t) i) ∧ ∀ k w, (eval (q, t) i).phi k w ≤ 1)
    (hn : 0 < n) (hcls : Labelled corpus n C) (hsize : ∀ i < n, numWords (corpus i).words ≤ 46340)
    (hL : 0 ≤ cfg.penalty) (hL1 : cfg.penalty ≤ 1) (hB : 2 * (n : ℝ) ≤ cfg.penalty * B) {q : Params K V C}
    (hq : G q) (heta : Within B q.eta)
    (ho : ∀ p ∈ orders, ((List.range n).map p).Perm (List.range n)) (hne : orders ≠ [])
    {m : Params K V C × T × Option (SupState K V)}
    (hcalls : Calls (fitCalls (supervised cfg corpus) next eval W n orders) .empty (q, t, some .init) l m logs) :
    m.2.2 ≠ none ∧ G m.1 ∧ Within B m.1.eta := by
  refine (supervisedFree cfg corpus).fit_sound (Pre := fun q => G q ∧ Within B q.eta)
    (Post := fun q => G q ∧ Within B q.eta) (fun q h => h) (fun q t i _ hi => ?_) ?_ (f := false)
    ⟨SupIs.init, by simp [SupState.init]⟩ ⟨hq, heta⟩ ho hne hcalls
  · have := hsize i hi
    change numWords (corpus i).words * numWords (corpus i).words ≤ 2147483647
    nlinarith
  rintro q t s f ⟨hq, heta⟩ hI
  obtain ⟨e, ev, u, hM, e1⟩ := bounded_second_step hI.1 (range_map_ne_nil hn) (fun d hd => by
    obtain ⟨i, hi, rfl⟩ := List.mem_map.1 hd
    exact hcls i (List.mem_range.1 hi)) (fun d hd => by
    obtain ⟨i, hi, rfl⟩ := List.mem_map.1 hd
    exact hsize i (List.mem_range.1 hi)) hL hL1 (fun d hd => by
    obtain ⟨i, hi, rfl⟩ := List.mem_map.1 hd
    exact (hE q t i hq (List.mem_range.1 hi)).1) (fun d hd => by
    obtain ⟨i, hi, rfl⟩ := List.mem_map.1 hd
    exact (hE q t i hq (List.mem_range.1 hi)).2) (B := B) (by simpa using hB) heta
  have hb := hI.1.buf
  rw [List.map_map] at hb
  refine ⟨⟨q.alpha, uBeta s.b, e⟩, u, ev.length, by simp only [supervised, hM, Option.map_some], ?_, e1⟩
  rw [hb.beta (range_map_ne_nil hn)]
  exact hG q t e hq

/-- **C157**: whatever the E step, as long as no `gamma` is below `alpha`, weights that are at most `n / penalty` in
absolute value stay so: for every schedule, number of workers, shuffle and number of iterations. -/
theorem C157_training (hn : 0 < n) (hcls : Labelled corpus n C) (hL : 0 < cfg.penalty) (hL1 : cfg.penalty ≤ 1)
    (hE : ∀ q t i, i < n → ∀ k, q.alpha k ≤ (eval (q, t) i).gamma k) (hB : (n : ℝ) / cfg.penalty ≤ B) :
    FitKeeps (fastSupervised cfg corpus) n eval next .init (fun q => ∀ k c, |q.eta k c| ≤ B) := by
  intro q t W orders m l logs ho hcalls hq
  by_cases hne : orders = []
  · subst hne
    cases hcalls
    exact hq
  · exact (bounded_fast (G := fun _ => True) (fun _ _ _ _ => trivial) (fun q t i _ => hE q t i) hn hcls hL.le hL1
      (by rwa [div_le_iff₀' hL] at hB) trivial hq ho hne hcalls).2.2

/-- **C157**: the same if some documents have no class. -/
theorem C157_semi (hcls : ∀ i < n, (corpus i).cls < (C : ℤ)) (hlab : ∃ i < n, 0 ≤ (corpus i).cls)
    (hL : 0 < cfg.penalty) (hL1 : cfg.penalty ≤ 1)
    (hE : ∀ q t i, i < n → ∀ k, q.alpha k ≤ (eval (q, t) i).gamma k) (hB : (n : ℝ) / cfg.penalty ≤ B) :
    FitKeeps (semiSupervised cfg corpus) n eval next .init (fun q => ∀ k c, |q.eta k c| ≤ B) := by
  intro q t W orders m l logs ho hcalls hq
  by_cases hne : orders = []
  · subst hne
    cases hcalls
    exact hq
  · exact (bounded_semi (G := fun _ => True) (fun _ _ _ _ => trivial) (fun q t i _ => hE q t i) hcls hlab hL.le hL1
      (by rwa [div_le_iff₀' hL] at hB) trivial hq ho hne hcalls).2.2

/-- **C157**: the second order approximation, with the bound `2 n / penalty`. -/
theorem C157_second_order (hn : 0 < n) (hcls : Labelled corpus n C) (hsize : ∀ i < n, numWords (corpus i).words ≤ 46340)
    (hL : 0 < cfg.penalty) (hL1 : cfg.penalty ≤ 1)
    (hE : ∀ q t i, i < n → MadeOfWords q.alpha (corpus i) (eval (q, t) i) ∧ ∀ k w, (eval (q, t) i).phi k w ≤ 1)
    (hB : 2 * (n : ℝ) / cfg.penalty ≤ B) :
    FitKeeps (supervised cfg corpus) n eval next .init (fun q => ∀ k c, |q.eta k c| ≤ B) := by
  intro q t W orders m l logs ho hcalls hq
  by_cases hne : orders = []
  · subst hne
    cases hcalls
    exact hq
  · exact (bounded_second (G := fun _ => True) (fun _ _ _ _ => trivial) (fun q t i _ => hE q t i) hn hcls hsize hL.le hL1
      (by rwa [div_le_iff₀' hL] at hB) trivial hq ho hne hcalls).2.2

/-- The hypotheses of `C157_training`, `C157_semi` and `C157_second_order` can be met: three documents of the first and the
last of three classes, and an E step that shares the words equally between two topics. -/
example (next : T → T) : let eval := fun (x : Params 2 4 3 × T) i => (⟨fun _ _ => 1 / 2, fun k => x.1.alpha k +
      ∑ w, ((twoOfThree i).words w : ℝ) * (1 / 2)⟩ : VP 2 4)
    FitKeeps (fastSupervised ⟨10, 1 / 100, 1 / 100⟩ twoOfThree) 3 eval next .init (fun q => ∀ k c, |q.eta k c| ≤ 300) ∧
    FitKeeps (semiSupervised ⟨10, 1 / 100, 1 / 100⟩ twoOfThree) 3 eval next .init (fun q => ∀ k c, |q.eta k c| ≤ 300) ∧
    FitKeeps (supervised ⟨10, 1 / 100, 1 / 100⟩ twoOfThree) 3 eval next .init (fun q => ∀ k c, |q.eta k c| ≤ 600) := by
  have hcls : Labelled twoOfThree 3 3 := fun i _ => by simp only [twoOfThree]; split_ifs <;> simp
  have hpos : ∀ i, 0 ≤ ∑ w, ((twoOfThree i).words w : ℝ) * (1 / 2) := fun i =>
    Finset.sum_nonneg fun w _ => by positivity
  refine ⟨C157_training (by norm_num) hcls (by norm_num) (by norm_num) (fun _ _ i _ _ => ?_) (by norm_num),
    C157_semi (fun i hi => (hcls i hi).2) ⟨0, by norm_num, by simp [twoOfThree]⟩ (by norm_num) (by norm_num)
      (fun _ _ i _ _ => ?_) (by norm_num),
    C157_second_order (by norm_num) hcls (by decide) (by norm_num) (by norm_num)
      (fun _ _ _ _ => ⟨⟨fun _ _ => by norm_num, fun _ => rfl⟩, fun _ _ => by norm_num⟩) (by norm_num)⟩ <;>
  exact le_add_of_nonneg_right (hpos i)

variable {P : Prims} {ecfg ucfg : EStep.Cfg} {alpha : Vec K ℝ} {beta0 : Mat K V ℝ}

/-- **C157**: fast supervised LDA.  After training from weights zero, for any number of iterations, no weight and no score
of a document is above `n / penalty` in absolute value. -/
theorem C157_flda (hK : 0 < K) (hn : 0 < n) (hal : ∀ k, 0 < alpha k) (hb0 : RowStochastic beta0)
    (hcls : Labelled corpus n C) (huse : ∀ k, ∃ w, 0 < beta0 k w ∧ Occurs corpus n w)
    (hit : ∀ i < n, Iterates ecfg.iterations ecfg.tolerance alpha (corpus i).words) (any : VP K V)
    (hL : 0 < cfg.penalty) (hL1 : cfg.penalty ≤ 1)
    {q : Params K V C} (hqa : q.alpha = alpha) (hqb : q.beta.IsReal beta0) (hqe : ∀ k c, q.eta k c = 0)
    {t : EStep.FastState} (ho : ∀ p ∈ orders, ((List.range n).map p).Perm (List.range n)) (hne : orders ≠ [])
    {m : Params K V C × EStep.FastState × Option (MStep.FastState K V)}
    (hcalls : Calls (fitCalls (fastSupervised cfg corpus) EStep.FastState.eStep
      (libResults (fun (t : EStep.FastState) X y m => fastRun P ecfg t.weight X y m) any corpus) W n orders)
      .empty (q, t, some .init) l m logs) :
    m.2.2 ≠ none ∧ (∀ k c, |m.1.eta k c| ≤ n / cfg.penalty) ∧
      ∀ x : Vec K ℝ, (∀ k, 0 ≤ x k) → ∑ k, x k = 1 → ∀ c, |∑ k, m.1.eta k c * x k| ≤ n / cfg.penalty := by
  obtain ⟨h1, -, h2⟩ := bounded_fast (G := Good alpha (Agrees corpus n beta0)) (B := n / cfg.penalty)
    (fun q t eta hq => good_mono (good_step (t := t) huse (careful_flda (P := P) hK hal hcls hit any) hq rfl eta))
    (fun q t i hq hi k => (flda_gamma hK hal hcls hit any hq t hi k).1) hn hcls hL.le hL1
    (by rw [mul_div_cancel₀ _ hL.ne']) ⟨hqa, beta0, hqb, hb0, fun _ _ _ => Iff.rfl⟩
    (fun k c => by rw [hqe, abs_zero]; positivity) ho hne hcalls
  exact ⟨h1, h2, fun x h0 hx => h2.scores h0 hx⟩

/-- **C157**: semi-supervised LDA. -/
theorem C157_semi_lda (hK : 0 < K) (hal : ∀ k, 0 < alpha k) (hb0 : RowStochastic beta0)
    (hcls : ∀ i < n, (corpus i).cls < (C : ℤ)) (hlab : ∃ i < n, 0 ≤ (corpus i).cls)
    (huse : ∀ k, ∃ w, 0 < beta0 k w ∧ Occurs corpus n w)
    (hit : ∀ i < n, Iterates ecfg.iterations ecfg.tolerance alpha (corpus i).words)
    (hit' : ∀ i < n, Iterates ucfg.iterations ucfg.tolerance alpha (corpus i).words) (any : VP K V)
    (hL : 0 < cfg.penalty) (hL1 : cfg.penalty ≤ 1)
    {q : Params K V C} (hqa : q.alpha = alpha) (hqb : q.beta.IsReal beta0) (hqe : ∀ k c, q.eta k c = 0)
    {t : EStep.FastState} (ho : ∀ p ∈ orders, ((List.range n).map p).Perm (List.range n)) (hne : orders ≠ [])
    {m : Params K V C × EStep.FastState × Option (MStep.FastState K V)}
    (hcalls : Calls (fitCalls (semiSupervised cfg corpus) EStep.FastState.eStep
      (libResults (semiResult P ecfg ucfg) any corpus) W n orders) .empty (q, t, some .init) l m logs) :
    m.2.2 ≠ none ∧ (∀ k c, |m.1.eta k c| ≤ n / cfg.penalty) ∧
      ∀ x : Vec K ℝ, (∀ k, 0 ≤ x k) → ∑ k, x k = 1 → ∀ c, |∑ k, m.1.eta k c * x k| ≤ n / cfg.penalty := by
  obtain ⟨h1, -, h2⟩ := bounded_semi (G := Good alpha (Agrees corpus n beta0)) (B := n / cfg.penalty)
    (fun q t eta hq => good_mono (good_step (t := t) huse (fun _ _ _ _ hi hqa hb ha =>
      (semi_result (P := P) hK hal hcls hit hit' any hi hqa hb ha).1) hq rfl eta))
    (fun q t i hq hi k => by
      obtain ⟨h1, b, h2, h3⟩ := hq
      exact ((semi_result hK hal hcls hit hit' any hi h1 h2 h3).2 k).2) hcls hlab hL.le hL1
    (by rw [mul_div_cancel₀ _ hL.ne']) ⟨hqa, beta0, hqb, hb0, fun _ _ _ => Iff.rfl⟩
    (fun k c => by rw [hqe, abs_zero]; positivity) ho hne hcalls
  exact ⟨h1, h2, fun x h0 hx => h2.scores h0 hx⟩

/-- **C157**: supervised LDA. -/
theorem C157_slda (hK : 0 < K) (hn : 0 < n) (hal : ∀ k, 0 < alpha k) (hb0 : RowStochastic beta0)
    (hcls : Labelled corpus n C) {fp : ℕ} (hfp : fp ≠ 0) (hsize : ∀ i < n, numWords (corpus i).words ≤ 46340)
    (huse : ∀ k, ∃ w, 0 < beta0 k w ∧ Occurs corpus n w) (hkn : ∀ w, Occurs corpus n w → ∃ k, 0 < beta0 k w)
    (hit : ∀ i < n, Iterates ecfg.iterations ecfg.tolerance alpha (corpus i).words) (any : VP K V)
    (hL : 0 < cfg.penalty) (hL1 : cfg.penalty ≤ 1)
    {q : Params K V C} (hqa : q.alpha = alpha) (hqb : q.beta.IsReal beta0) (hqe : ∀ k c, q.eta k c = 0)
    (ho : ∀ p ∈ orders, ((List.range n).map p).Perm (List.range n)) (hne : orders ≠ [])
    {m : Params K V C × T × Option (SupState K V)}
    (hcalls : Calls (fitCalls (supervised cfg corpus) next
      (libResults (fun _ X y m => (supervisedRun P ecfg fp X y m).map Prod.fst) any corpus) W n orders)
      .empty (q, t, some .init) l m logs) :
    m.2.2 ≠ none ∧ (∀ k c, |m.1.eta k c| ≤ 2 * n / cfg.penalty) ∧
      ∀ x : Vec K ℝ, (∀ k, 0 ≤ x k) → ∑ k, x k = 1 → ∀ c, |∑ k, m.1.eta k c * x k| ≤ 2 * n / cfg.penalty := by
  obtain ⟨h1, -, h2⟩ := bounded_second (G := Good alpha (Agrees corpus n beta0)) (B := 2 * n / cfg.penalty)
    (fun q t eta hq => good_mono (good_step (t := t) huse (careful_slda (P := P) hK hal hcls hfp hkn hit any) hq rfl eta))
    (fun q t i hq hi => by
      obtain ⟨a, b, -⟩ := slda_gamma (P := P) hK hal hcls hfp hkn hit any hq t hi
      exact ⟨a, b⟩) hn hcls hsize hL.le hL1
    (by rw [mul_div_cancel₀ _ hL.ne']) ⟨hqa, beta0, hqb, hb0, fun _ _ _ => Iff.rfl⟩
    (fun k c => by rw [hqe, abs_zero]; positivity) ho hne hcalls
  exact ⟨h1, h2, fun x h0 hx => h2.scores h0 hx⟩

/-- The hypotheses of `C157_flda` can be met: two topics, three classes, the default penalty, two iterations with three
workers. -/
example (any : VP 2 4) : ∃ (m : Params 2 4 3 × EStep.FastState × Option (MStep.FastState 2 4))
    (logs : List (List (Obs (VP 2 4)))),
    Calls (fitCalls (fastSupervised ⟨10, 1 / 100, 1 / 100⟩ twoOfThree) EStep.FastState.eStep
      (libResults (fun (t : EStep.FastState) X y m => fastRun fastPrims demoCfg t.weight X y m) any twoOfThree) 3 3
        [id, fun i => 2 - i]) .empty
      (⟨fun _ => 1, .matrix fun k w => .fin (twoOfFour k w), fun _ _ => 0⟩, ⟨1, .constant, 0⟩, some .init) .empty m logs ∧
    ∀ k c, |m.1.eta k c| ≤ 300 := by
  obtain ⟨m, logs, hc⟩ := calls_exist (fastSupervised (C := 3) ⟨10, 1 / 100, 1 / 100⟩ twoOfThree) EStep.FastState.eStep
    (libResults (fun (t : EStep.FastState) X y m => fastRun fastPrims demoCfg t.weight X y m) any twoOfThree) (W := 3)
    (by norm_num) 3 [id, fun i => 2 - i]
    (⟨fun _ => 1, .matrix fun k w => .fin (twoOfFour k w), fun _ _ => 0⟩, ⟨1, .constant, 0⟩, some .init)
  obtain ⟨-, h, -⟩ := C157_flda (P := fastPrims) (ecfg := demoCfg)
    (cfg := ⟨10, 1 / 100, 1 / 100⟩) (corpus := twoOfThree) (n := 3) (t := ⟨1, .constant, 0⟩) (alpha := fun _ => 1)
    (beta0 := twoOfFour) (by norm_num) (by norm_num) (fun _ => one_pos) twoOfFour_stochastic
    (fun i _ => by simp only [twoOfThree]; split_ifs <;> simp)
    (fun k => ⟨0, by fin_cases k <;> simp [twoOfFour], threeDocs_occurs 0⟩) (fun i _ => threeDocs_iterates i) any
    (by norm_num) (by norm_num)
    (q := ⟨fun _ => 1, .matrix fun k w => .fin (twoOfFour k w), fun _ _ => 0⟩) rfl rfl (fun _ _ => rfl)
    (by
      intro p hp
      rcases List.mem_pair.1 hp with rfl | rfl
      · simp
      · decide) (by simp) hc
  exact ⟨m, logs, hc, fun k c => (h k c).trans (by norm_num)⟩

/-- The hypotheses of `C157_slda` can be met, likewise. -/
example (any : VP 2 4) : ∃ (m : Params 2 4 3 × Unit × Option (SupState 2 4)) (logs : List (List (Obs (VP 2 4)))),
    Calls (fitCalls (supervised ⟨10, 1 / 100, 1 / 100⟩ twoOfThree) id
      (libResults (fun _ X y m => (supervisedRun fastPrims demoCfg 5 X y m).map Prod.fst) any twoOfThree) 3 3
        [id, fun i => 2 - i]) .empty
      (⟨fun _ => 1, .matrix fun k w => .fin (twoOfFour k w), fun _ _ => 0⟩, (), some .init) .empty m logs ∧
    ∀ k c, |m.1.eta k c| ≤ 600 := by
  obtain ⟨m, logs, hc⟩ := calls_exist (supervised (C := 3) ⟨10, 1 / 100, 1 / 100⟩ twoOfThree) id
    (libResults (fun (_ : Unit) X y m => (supervisedRun fastPrims demoCfg 5 X y m).map Prod.fst) any twoOfThree) (W := 3)
    (by norm_num) 3 [id, fun i => 2 - i]
    (⟨fun _ => 1, .matrix fun k w => .fin (twoOfFour k w), fun _ _ => 0⟩, (), some .init)
  have hN : ∀ i < 3, numWords (twoOfThree i).words ≤ 8 := by decide
  obtain ⟨-, h, -⟩ := C157_slda (P := fastPrims) (ecfg := demoCfg)
    (cfg := ⟨10, 1 / 100, 1 / 100⟩) (corpus := twoOfThree) (n := 3) (t := ()) (alpha := fun _ => 1) (beta0 := twoOfFour)
    (by norm_num) (by norm_num) (fun _ => one_pos) twoOfFour_stochastic
    (fun i _ => by simp only [twoOfThree]; split_ifs <;> simp) (fp := 5) (by norm_num)
    (fun i hi => (hN i hi).trans (by norm_num))
    (fun k => ⟨0, by fin_cases k <;> simp [twoOfFour], threeDocs_occurs 0⟩)
    (fun w _ => ⟨1, by fin_cases w <;> simp [twoOfFour]⟩)
    (fun i _ => threeDocs_iterates i) any (by norm_num) (by norm_num)
    (q := ⟨fun _ => 1, .matrix fun k w => .fin (twoOfFour k w), fun _ _ => 0⟩) rfl rfl (fun _ _ => rfl)
    (by
      intro p hp
      rcases List.mem_pair.1 hp with rfl | rfl
      · simp
      · decide) (by simp) hc
  exact ⟨m, logs, hc, fun k c => (h k c).trans (by norm_num)⟩

/-- The hypotheses of `C157_semi_lda` can be met: documents of the first and the second class and one without a class. -/
example (any : VP 2 4) : ∃ (m : Params 2 4 3 × EStep.FastState × Option (MStep.FastState 2 4))
    (logs : List (List (Obs (VP 2 4)))),
    Calls (fitCalls (semiSupervised ⟨10, 1 / 100, 1 / 100⟩ fun i => ⟨(threeDocs i).words, (i : ℤ) - 1⟩) EStep.FastState.eStep
      (libResults (semiResult fastPrims demoCfg demoCfg) any fun i => ⟨(threeDocs i).words, (i : ℤ) - 1⟩) 3 3
        [id, fun i => 2 - i]) .empty
      (⟨fun _ => 1, .matrix fun k w => .fin (twoOfFour k w), fun _ _ => 0⟩, ⟨1, .constant, 0⟩, some .init) .empty m logs ∧
    ∀ k c, |m.1.eta k c| ≤ 300 := by
  obtain ⟨m, logs, hc⟩ := calls_exist (semiSupervised (C := 3) ⟨10, 1 / 100, 1 / 100⟩
      fun i => ⟨(threeDocs i).words, (i : ℤ) - 1⟩) EStep.FastState.eStep
    (libResults (semiResult fastPrims demoCfg demoCfg) any fun i => ⟨(threeDocs i).words, (i : ℤ) - 1⟩) (W := 3)
    (by norm_num) 3 [id, fun i => 2 - i]
    (⟨fun _ => 1, .matrix fun k w => .fin (twoOfFour k w), fun _ _ => 0⟩, ⟨1, .constant, 0⟩, some .init)
  obtain ⟨-, h, -⟩ := C157_semi_lda (P := fastPrims) (ecfg := demoCfg) (ucfg := demoCfg)
    (cfg := ⟨10, 1 / 100, 1 / 100⟩) (corpus := fun i => ⟨(threeDocs i).words, (i : ℤ) - 1⟩) (n := 3)
    (t := ⟨1, .constant, 0⟩) (alpha := fun _ => 1)
    (beta0 := twoOfFour) (by norm_num) (fun _ => one_pos) twoOfFour_stochastic
    (fun i hi => by simp only; omega) ⟨1, by norm_num, by simp⟩
    (fun k => ⟨0, by fin_cases k <;> simp [twoOfFour], threeDocs_occurs 0⟩) (fun i _ => threeDocs_iterates i)
    (fun i _ => threeDocs_iterates i) any (by norm_num) (by norm_num)
    (q := ⟨fun _ => 1, .matrix fun k w => .fin (twoOfFour k w), fun _ _ => 0⟩) rfl rfl (fun _ _ => rfl)
    (by
      intro p hp
      rcases List.mem_pair.1 hp with rfl | rfl
      · simp
      · decide) (by simp) hc
  exact ⟨m, logs, hc, fun k c => (h k c).trans (by norm_num)⟩

end Verif.Train
