import Verif.Props.Online
import Mathlib.Analysis.Complex.Norm
import Mathlib.Analysis.Complex.Basic
import Mathlib.Analysis.SpecificLimits.Basic

/-! Property C141: `eta` during training with `FastOnlineSupervisedMStep`, for any number of minibatches. -/
namespace Verif.MStep

open MathUtils EStep Optim Finset

variable {K V C : ℕ}

/-! ### The gradient of a minibatch -/

/-- What the documents of a minibatch contribute to the entries of the gradient. -/
noncomputable def pull (data : List (Vec K ℝ × Fin C)) (w : Fin C → ℝ) (eta : Mat K C ℝ) : Mat K C ℝ := fun k c =>
  (data.map fun d => - (w d.2 * ((if c = d.2 then d.1 k else 0) -
    (∑ c, Real.exp (∑ k, eta k c * d.1 k))⁻¹ * (Real.exp (∑ k, eta k c * d.1 k) * d.1 k)))).sum

theorem pull_sum (data : List (Vec K ℝ × Fin C)) (w : Fin C → ℝ) (eta : Mat K C ℝ) (k : Fin K) :
    ∑ c, pull data w eta k c = 0 := by
  unfold pull
  induction data with
  | nil => simp
  | cons d ds ih =>
    simp only [List.map_cons, List.sum_cons, sum_add_distrib, ih, add_zero]
    have h2 := sum_exp_pos (scores eta d.1) d.2
    simp only [scores] at h2
    rw [Finset.sum_neg_distrib, ← Finset.mul_sum, Finset.sum_sub_distrib, ← Finset.mul_sum, ← Finset.sum_mul]
    simp only [Finset.sum_ite_eq', Finset.mem_univ, if_true]
    rw [← mul_assoc, inv_mul_cancel₀ h2.ne', one_mul, sub_self, mul_zero, neg_zero]

theorem pull_abs (data : List (Vec K ℝ × Fin C)) {w : Fin C → ℝ} (eta : Mat K C ℝ)
    (hw : ∀ d ∈ data, 0 ≤ w d.2) (hx : ∀ d ∈ data, ∀ k, 0 ≤ d.1 k ∧ d.1 k ≤ 1) (k : Fin K) (c : Fin C) :
    |pull data w eta k c| ≤ (data.map fun d => w d.2).sum := by
  unfold pull
  induction data with
  | nil => simp
  | cons d ds ih =>
    simp only [List.map_cons, List.sum_cons]
    refine (abs_add_le _ _).trans (add_le_add ?_ (ih (fun a ha => hw a (List.mem_cons_of_mem _ ha))
      fun a ha => hx a (List.mem_cons_of_mem _ ha)))
    have h2 := sum_exp_pos (scores eta d.1) d.2
    simp only [scores] at h2
    obtain ⟨x0, x1⟩ := hx d (by simp) k
    have w0 := hw d (by simp)
    set S := ∑ c, Real.exp (∑ k, eta k c * d.1 k) with hS
    have p1 : S⁻¹ * Real.exp (∑ k, eta k c * d.1 k) ≤ 1 := by
      rw [inv_mul_le_iff₀ h2, mul_one, hS]
      exact Finset.single_le_sum (f := fun c => Real.exp (∑ k, eta k c * d.1 k)) (fun i _ => (Real.exp_pos _).le)
        (Finset.mem_univ c)
    have p0 : 0 ≤ S⁻¹ * Real.exp (∑ k, eta k c * d.1 k) := by positivity
    rw [abs_neg, abs_mul, abs_of_nonneg w0]
    refine mul_le_of_le_one_right w0 ?_
    rw [← mul_assoc]
    have q1 : S⁻¹ * Real.exp (∑ k, eta k c * d.1 k) * d.1 k ≤ 1 := mul_le_one₀ p1 x0 x1
    have q0 : 0 ≤ S⁻¹ * Real.exp (∑ k, eta k c * d.1 k) * d.1 k := mul_nonneg p0 x0
    split_ifs
    · rw [abs_le]; constructor <;> linarith
    · rw [abs_le]; constructor <;> linarith

/-- The pull on a class that no document of the minibatch has. -/
theorem pull_absent (data : List (Vec K ℝ × Fin C)) {w : Fin C → ℝ} (eta : Mat K C ℝ) (hw : ∀ d ∈ data, 0 < w d.2)
    (hx : ∀ d ∈ data, ∀ k, 0 ≤ d.1 k) {c0 : Fin C} (hc : ∀ d ∈ data, d.2 ≠ c0) (k : Fin K) :
    0 ≤ pull data w eta k c0 ∧ ((∃ d ∈ data, 0 < d.1 k) → 0 < pull data w eta k c0) := by
  have term : ∀ d ∈ data, - (w d.2 * ((if c0 = d.2 then d.1 k else 0) -
      (∑ c, Real.exp (∑ k, eta k c * d.1 k))⁻¹ * (Real.exp (∑ k, eta k c0 * d.1 k) * d.1 k))) =
      w d.2 * ((∑ c, Real.exp (∑ k, eta k c * d.1 k))⁻¹ * Real.exp (∑ k, eta k c0 * d.1 k)) * d.1 k := fun d hd => by
    rw [if_neg (hc d hd).symm]
    ring
  have hp : ∀ d ∈ data, 0 < w d.2 * ((∑ c, Real.exp (∑ k, eta k c * d.1 k))⁻¹ * Real.exp (∑ k, eta k c0 * d.1 k)) :=
    fun d hd => by
      have h2 := sum_exp_pos (scores eta d.1) d.2
      simp only [scores] at h2
      have := hw d hd
      positivity
  have h0 : ∀ d ∈ data, 0 ≤ - (w d.2 * ((if c0 = d.2 then d.1 k else 0) -
      (∑ c, Real.exp (∑ k, eta k c * d.1 k))⁻¹ * (Real.exp (∑ k, eta k c0 * d.1 k) * d.1 k))) := fun d hd => by
    rw [term d hd]
    exact mul_nonneg (hp d hd).le (hx d hd k)
  unfold pull
  refine ⟨List.sum_nonneg fun a ha => ?_, ?_⟩
  · obtain ⟨d, hd, rfl⟩ := List.mem_map.1 ha
    exact h0 d hd
  · rintro ⟨d, hd, hk⟩
    refine lt_of_lt_of_le ?_ (List.single_le_sum (fun a ha => ?_) _ (List.mem_map_of_mem hd))
    · rw [term d hd]
      exact mul_pos (hp d hd) hk
    · obtain ⟨d, hd, rfl⟩ := List.mem_map.1 ha
      exact h0 d hd

/-- The balanced weights of a minibatch add up to at most its number of documents. -/
theorem weights_sum {data : List (Vec K ℝ × Fin C)} {w : Fin C → ℝ} {n : ℕ} (hn : ∀ a ∈ data, (a.2 : ℕ) < n)
    (hw : ∀ a ∈ data, w a.2 = (data.length : ℝ) / (n * (data.map Prod.snd).count a.2)) :
    (data.map fun d => w d.2).sum ≤ data.length := by
  have e1 : (data.map fun d => w d.2) = (data.map Prod.snd).map w := by simp
  rw [e1, Finset.sum_list_map_count]
  have e2 : ∀ c ∈ (data.map Prod.snd).toFinset, (data.map Prod.snd).count c • w c = (data.length : ℝ) / n := by
    intro c hc
    simp only [List.mem_toFinset, List.mem_map] at hc
    obtain ⟨a, ha, rfl⟩ := hc
    have : 0 < (data.map Prod.snd).count a.2 := List.count_pos_iff.2 (List.mem_map_of_mem ha)
    have h0 : ((data.map Prod.snd).count a.2 : ℝ) ≠ 0 := by exact_mod_cast this.ne'
    have hn0 : (n : ℝ) ≠ 0 := by
      have := hn a ha
      exact_mod_cast (by omega : n ≠ 0)
    rw [hw a ha, nsmul_eq_mul]
    field_simp
  rw [Finset.sum_congr rfl e2, Finset.sum_const, nsmul_eq_mul]
  have card : (data.map Prod.snd).toFinset.card ≤ n := by
    have : ((data.map Prod.snd).toFinset.image fun c : Fin C => (c : ℕ)) ⊆ Finset.range n := by
      intro i hi
      simp only [Finset.mem_image, List.mem_toFinset, List.mem_map] at hi
      obtain ⟨c, ⟨a, ha, rfl⟩, rfl⟩ := hi
      exact Finset.mem_range.2 (hn a ha)
    have h2 := Finset.card_le_card this
    rwa [Finset.card_image_of_injective _ Fin.val_injective, Finset.card_range] at h2
  rcases Nat.eq_zero_or_pos n with rfl | hn0
  · simp
  · have hn' : (0 : ℝ) < n := by exact_mod_cast hn0
    rw [mul_div_assoc', div_le_iff₀ hn', mul_comm]
    gcongr

/-! ### What a minibatch does -/

/-- What an E step yields for a document with words (C37), with a label that is a class. -/
def Apt (C : ℕ) (d : DocArg K V) : Prop :=
  (0 ≤ d.2.1.cls ∧ d.2.1.cls < (C : ℤ)) ∧ (∀ k, d.1 k ≤ d.2.2.gamma k) ∧ 0 < ∑ k, (d.2.2.gamma k - d.1 k)

theorem Apt.share {d : DocArg K V} (h : Apt C d) (k : Fin K) :
    0 ≤ topicShare d.1 d.2.2.gamma k ∧ topicShare d.1 d.2.2.gamma k ≤ 1 := by
  have h0 := h.2.2
  simp only [topicShare, h0.ne', if_false]
  refine ⟨div_nonneg (sub_nonneg.2 (h.2.1 k)) h0.le, (div_le_one h0).2 ?_⟩
  exact Finset.single_le_sum (f := fun k => d.2.2.gamma k - d.1 k) (fun i _ => sub_nonneg.2 (h.2.1 i)) (Finset.mem_univ k)

/-- Induction over the histories: `eta` and its velocity change with complete minibatches only, by the rule of momentum
with a pull that is at most the size of the minibatch and that sums to zero over the classes. -/
theorem online_induct {cfg : OnlineCfg C} (hmb : 0 < cfg.minibatch) {beta : Mat K V ℝ} {eta : Mat K C ℝ}
    (P : List (Call (DocArg K V) Unit) → Mat K C ℝ → Mat K C ℝ → Prop) (h0 : P [] eta fun _ _ => 0)
    (same : ∀ h c e v, (given (h ++ [c])).length / cfg.minibatch = (given h).length / cfg.minibatch → P h e v →
      P (h ++ [c]) e v)
    (upd : ∀ h c s ev e v (u : Mat K C ℝ), onlineHistory cfg beta eta h = some (s, ev) → s.eta = some e →
      (given (h ++ [c])).length / cfg.minibatch = (given h).length / cfg.minibatch + 1 →
      (∀ k c, |u k c| ≤ cfg.minibatch) → (∀ k, ∑ c, u k c = 0) →
      (∀ c0 : Fin C, (∀ d ∈ given (h ++ [c]), d.2.1.cls ≠ (c0 : ℤ)) → ∀ k, 0 ≤ u k c0 ∧
        ((∃ d ∈ lastBatch cfg.minibatch (given (h ++ [c])), d.1 k < d.2.2.gamma k) → 0 < u k c0)) → P h e v →
      P (h ++ [c]) (fun k c => e k c + (cfg.momentum * v k c - cfg.rate * (u k c + e k c * cfg.penalty)))
        (fun k c => cfg.momentum * v k c - cfg.rate * (u k c + e k c * cfg.penalty)))
    {h : List (Call (DocArg K V) Unit)} {s : OnlineState K V C} {ev : List (Option ℝ)}
    (hs : onlineHistory cfg beta eta h = some (s, ev)) (ha : ∀ d ∈ given h, Apt C d) :
    ∃ e v, s.eta = some e ∧ s.velocity = some v ∧ P h e v := by
  induction h using List.reverseRecOn generalizing s ev with
  | nil =>
    have : (s, ev) = (⟨none, 0, some beta, some eta⟩, []) := by
      simpa [onlineHistory, history] using hs.symm
    obtain ⟨rfl, rfl⟩ := Prod.mk.inj this
    exact ⟨eta, fun _ _ => 0, rfl, rfl, h0⟩
  | append_singleton h c ih =>
    have hs' := hs
    rw [onlineHistory, history_snoc, Option.bind_eq_some_iff] at hs
    obtain ⟨⟨s1, ev1⟩, h1, h2⟩ := hs
    have hs1 : onlineHistory cfg beta eta h = some (s1, ev1) := h1
    have hI := onlineHistory_is hmb hs1
    have ha' := ha
    rw [given_snoc] at ha
    cases c with
    | step b =>
      simp only [hI.step hmb, Option.map_some, List.append_nil, Option.some.injEq] at h2
      obtain ⟨rfl, rfl⟩ := Prod.mk.inj h2
      obtain ⟨e, v, r1, r2, r3⟩ := ih hs1 ha
      exact ⟨e, v, r1, r2, same h _ e v (by rw [given_snoc]) r3⟩
    | doc d =>
      simp only at ha
      obtain ⟨e, v, he, hv, hp⟩ := ih hs1 fun a h => ha a (by simp [h])
      by_cases hn : cfg.minibatch ∣ (given h).length + 1
      · obtain ⟨data, d1, d2⟩ := exists_data (C := C) (lastBatch cfg.minibatch (given h ++ [d]))
          (fun a => topicShare a.1 a.2.2.gamma) (fun a => a.2.1.cls)
          (fun a h => (ha a (List.mem_of_mem_drop h)).1)
        obtain ⟨len, s2, w, n, g, e1, n1, n2, n3, n4, r1, r2, r3⟩ := C52_update_eta hmb hs1 d hn he hv
          (fun a h => (ha a (List.mem_of_mem_drop h)).2.2.ne') d1 d2
        rw [r3] at hs'
        obtain ⟨rfl, rfl⟩ := Prod.mk.inj (Option.some.inj hs')
        have hg : ∀ k c, g k c = pull data w e k c + e k c * cfg.penalty := by
          intro k c
          have := IsGradient.apply_eq n3 (isGradient_logistic data w cfg.penalty e)
            fun i j => if i = k then if j = c then 1 else 0 else 0
          simpa [pull, mul_ite, Finset.sum_ite_irrel] using this
        have hx : ∀ a ∈ data, ∀ k, 0 ≤ a.1 k ∧ a.1 k ≤ 1 := by
          intro a h k
          have : a.1 ∈ data.map Prod.fst := List.mem_map_of_mem h
          rw [d1, List.mem_map] at this
          obtain ⟨b, hb, hb'⟩ := this
          rw [← hb']
          exact (ha b (List.mem_of_mem_drop hb)).share k
        have hw0 : ∀ a ∈ data, 0 ≤ w a.2 := fun a h => by rw [n2 a h]; positivity
        have := upd h (.doc d) s1 ev1 e v (pull data w e) hs1 he (by
            simp only [given_snoc, List.length_append, List.length_singleton]
            exact Nat.succ_div_of_dvd hn)
          (fun k c => ((pull_abs data e hw0 hx k c).trans (weights_sum n1.2 n2)).trans (by rw [len]))
          (pull_sum data w e) (fun c0 hc k => by
            have hw1 : ∀ a ∈ data, 0 < w a.2 := fun a h => by
              rw [n2 a h]
              have i1 : 0 < data.length := List.length_pos_of_mem h
              have i2 : 0 < (data.map Prod.snd).count a.2 := List.count_pos_iff.2 (List.mem_map_of_mem h)
              have i3 : 0 < n := lt_of_le_of_lt (Nat.zero_le _) (n1.2 a h)
              positivity
            have hcd : ∀ a ∈ data, a.2 ≠ c0 := fun a h hac => by
              have : ((a.2 : ℕ) : ℤ) ∈ data.map fun a => ((a.2 : ℕ) : ℤ) := List.mem_map_of_mem h
              rw [d2, List.mem_map] at this
              obtain ⟨b, hb, hb'⟩ := this
              refine hc b ?_ (hb'.trans (by rw [hac]))
              rw [given_snoc]
              exact List.mem_of_mem_drop hb
            obtain ⟨q1, q2⟩ := pull_absent data e hw1 (fun a h k => (hx a h k).1) hcd k
            refine ⟨q1, ?_⟩
            rw [given_snoc]
            rintro ⟨b, hb, hk⟩
            refine q2 ?_
            have : topicShare b.1 b.2.2.gamma ∈ data.map Prod.fst := by
              rw [d1]
              exact List.mem_map_of_mem hb
            obtain ⟨a, h, hab⟩ := List.mem_map.1 this
            refine ⟨a, h, ?_⟩
            have hb0 := (ha b (List.mem_of_mem_drop hb)).2.2
            rw [hab]
            simp only [topicShare, hb0.ne', if_false]
            exact div_pos (sub_pos.2 hk) hb0) hp
        have E : e1 = fun k c => e k c + (cfg.momentum * v k c - cfg.rate * (pull data w e k c + e k c * cfg.penalty)) := by
          funext k c
          rw [n4, hg]
        refine ⟨e1, _, r1, r2, ?_⟩
        convert this using 1
        funext k c
        rw [E]
        ring
      · obtain ⟨s', h3, _, h5, h6⟩ := C52_between hmb hs1 d hn
        rw [h3] at hs'
        obtain ⟨rfl, rfl⟩ := Prod.mk.inj (Option.some.inj hs')
        refine ⟨e, v, h5.trans he, h6.trans hv, same h _ e v ?_ hp⟩
        simp only [given_snoc, List.length_append, List.length_singleton]
        exact Nat.succ_div_of_not_dvd hn

/-! ### The recurrence of momentum -/

/-- One entry of `eta` and of its velocity, with the roots of the recurrence. -/
structure Swing (r₂ : ℂ) (W e v : ℝ) : Prop where
  mode : ‖(e : ℂ) - r₂ * ((e : ℂ) - v)‖ ≤ W
  entry : |e| * (1 - ‖r₂‖) ≤ W

theorem Swing.step {r₁ r₂ : ℂ} {m lam W e v p : ℝ} (hs : r₁ + r₂ = 1 + m - lam) (hp : r₁ * r₂ = m) (h2 : ‖r₂‖ ≤ 1)
    (hu : |p| ≤ (1 - ‖r₁‖) * W) (h : Swing r₂ W e v) :
    Swing r₂ W (e + (m * v - (p + lam * e))) (m * v - (p + lam * e)) := by
  have key : ((e + (m * v - (p + lam * e)) : ℝ) : ℂ) - r₂ * e = r₁ * ((e : ℂ) - r₂ * ((e : ℂ) - v)) - p := by
    push_cast
    linear_combination (-(e : ℂ)) * hs + ((e : ℂ) - v) * hp
  have m1 : ‖((e + (m * v - (p + lam * e)) : ℝ) : ℂ) - r₂ * e‖ ≤ W := by
    rw [key]
    refine (norm_sub_le _ _).trans ?_
    rw [norm_mul, Complex.norm_real, Real.norm_eq_abs]
    have := mul_le_mul_of_nonneg_left h.mode (norm_nonneg r₁)
    linarith
  constructor
  · convert m1 using 3
    push_cast
    ring
  · have h3 : |e + (m * v - (p + lam * e))| ≤ W + ‖r₂‖ * |e| := by
      have h4 := norm_add_le (((e + (m * v - (p + lam * e)) : ℝ) : ℂ) - r₂ * e) (r₂ * e)
      rw [sub_add_cancel, norm_mul, Complex.norm_real, Complex.norm_real, Real.norm_eq_abs, Real.norm_eq_abs] at h4
      linarith
    have h5 := mul_le_mul_of_nonneg_right h3 (sub_nonneg.2 h2)
    have h6 := mul_le_mul_of_nonneg_left h.entry (norm_nonneg r₂)
    nlinarith

/-- The roots of the recurrence lie inside of the unit circle. -/
theorem roots_inside {m lam : ℝ} (hm : m < 1) (h0 : 0 < lam) (h1 : lam < 2 * (1 + m)) :
    ∃ r₁ r₂ : ℂ, r₁ + r₂ = 1 + m - lam ∧ r₁ * r₂ = m ∧ ‖r₁‖ < 1 ∧ ‖r₂‖ < 1 := by
  set b := 1 + m - lam with hb
  rcases le_total 0 (b ^ 2 - 4 * m) with hd | hd
  · set q := Real.sqrt (b ^ 2 - 4 * m) with hq
    have q0 : 0 ≤ q := Real.sqrt_nonneg _
    have q2 : q ^ 2 = b ^ 2 - 4 * m := Real.sq_sqrt hd
    have hq1 : q < 2 - |b| := by
      have hb1 : |b| < 1 + m := by rw [abs_lt]; constructor <;> linarith
      have : q ^ 2 < (2 - |b|) ^ 2 := by
        rw [q2, ← sq_abs b]
        nlinarith
      nlinarith [abs_nonneg b]
    have habs := abs_le.1 (le_refl |b|)
    refine ⟨((b + q) / 2 : ℝ), ((b - q) / 2 : ℝ), ?_, ?_, ?_, ?_⟩
    · push_cast [hb]; ring
    · rw [← Complex.ofReal_mul]
      congr 1
      nlinarith
    · rw [Complex.norm_real, Real.norm_eq_abs, abs_lt]
      constructor <;> linarith
    · rw [Complex.norm_real, Real.norm_eq_abs, abs_lt]
      constructor <;> linarith
  · set q := Real.sqrt (4 * m - b ^ 2) with hq
    have q2 : q ^ 2 = 4 * m - b ^ 2 := Real.sq_sqrt (by linarith)
    have n1 : ∀ x y : ℝ, x ^ 2 + y ^ 2 = m → ‖(⟨x, y⟩ : ℂ)‖ < 1 := by
      intro x y h
      have : ‖(⟨x, y⟩ : ℂ)‖ ^ 2 = m := by
        rw [← Complex.normSq_eq_norm_sq, Complex.normSq_mk, ← h]; ring
      nlinarith [norm_nonneg (⟨x, y⟩ : ℂ)]
    refine ⟨⟨b / 2, q / 2⟩, ⟨b / 2, -(q / 2)⟩, ?_, ?_, n1 _ _ (by nlinarith), n1 _ _ (by nlinarith)⟩
    · apply Complex.ext <;> simp [hb]
    · apply Complex.ext <;> simp <;> nlinarith

/-- Real roots, if the steps are short. -/
theorem roots_real {m lam : ℝ} (hm0 : 0 ≤ m) (hm : m < 1) (h0 : 0 ≤ lam) (h1 : lam ≤ (1 - Real.sqrt m) ^ 2) :
    ∃ r₁ r₂ : ℝ, r₁ + r₂ = 1 + m - lam ∧ r₁ * r₂ = m ∧ 0 ≤ r₁ ∧ r₁ ≤ 1 ∧ 0 ≤ r₂ ∧ r₂ ≤ 1 := by
  set s := Real.sqrt m with hs
  have s0 : 0 ≤ s := Real.sqrt_nonneg _
  have s2 : s ^ 2 = m := Real.sq_sqrt hm0
  have s1 : s < 1 := by nlinarith
  set b := 1 + m - lam with hb
  have b0 : 2 * s ≤ b := by nlinarith
  have b1 : b ≤ 1 + m := by linarith
  have hd : 0 ≤ b ^ 2 - 4 * m := by nlinarith
  set q := Real.sqrt (b ^ 2 - 4 * m) with hq
  have q0 : 0 ≤ q := Real.sqrt_nonneg _
  have q2 : q ^ 2 = b ^ 2 - 4 * m := Real.sq_sqrt hd
  have qb : q ≤ b := by nlinarith
  have qu : q ≤ 2 - b := by nlinarith
  refine ⟨(b + q) / 2, (b - q) / 2, by ring, by nlinarith, ?_, ?_, ?_, ?_⟩ <;> linarith

/-! ### C141 -/

/-- **C141**, when the learning rate is not too large for the penalty: there is a bound for the entries of `eta` that
depends on the settings and on the entries at the start only.  It holds after any number of minibatches of any documents. -/
theorem C141_bounded_partial (cfg : OnlineCfg C) (hmb : 0 < cfg.minibatch) (hm : cfg.momentum < 1)
    (h0 : 0 < cfg.rate * cfg.penalty) (h1 : cfg.rate * cfg.penalty < 2 * (1 + cfg.momentum)) (M : ℝ) :
    ∃ B, ∀ (K V : ℕ) (beta : Mat K V ℝ) (eta : Mat K C ℝ) (h : List (Call (DocArg K V) Unit)) (s : OnlineState K V C)
      (ev : List (Option ℝ)), (∀ k c, |eta k c| ≤ M) → onlineHistory cfg beta eta h = some (s, ev) →
      (∀ d ∈ given h, Apt C d) → ∃ e, s.eta = some e ∧ ∀ k c, |e k c| ≤ B := by
  obtain ⟨r₁, r₂, hs, hp, n1, n2⟩ := roots_inside hm h0 h1
  set W := max (2 * M) (|cfg.rate| * cfg.minibatch / (1 - ‖r₁‖)) with hW
  refine ⟨W / (1 - ‖r₂‖), fun K V beta eta h s ev hM hh ha => ?_⟩
  obtain ⟨e, v, he, _, hP⟩ := online_induct hmb (fun _ e v => ∀ k c, Swing r₂ W (e k c) (v k c)) (fun k c => by
      have hk := hM k c
      have hM0 : 0 ≤ M := (abs_nonneg _).trans hk
      constructor
      · have : ((eta k c : ℝ) : ℂ) - r₂ * ((eta k c : ℂ) - ((0 : ℝ) : ℂ)) = (1 - r₂) * (eta k c : ℂ) := by
          push_cast; ring
        rw [this, norm_mul, Complex.norm_real, Real.norm_eq_abs]
        refine le_trans ?_ (le_max_left _ _)
        have h2 : ‖1 - r₂‖ ≤ 2 := by
          have := norm_sub_le (1 : ℂ) r₂
          rw [norm_one] at this
          linarith
        exact mul_le_mul h2 hk (abs_nonneg _) (by norm_num)
      · refine le_trans ?_ (le_max_left _ _)
        have := norm_nonneg r₂
        nlinarith [abs_nonneg (eta k c)])
    (fun _ _ _ _ _ hP => hP)
    (fun h c s ev e v u _ _ _ hu _ _ hP k c => by
      have key := Swing.step (p := cfg.rate * u k c) hs hp n2.le (by
        rw [abs_mul]
        have h3 : |cfg.rate| * |u k c| ≤ |cfg.rate| * cfg.minibatch := mul_le_mul_of_nonneg_left (hu k c) (abs_nonneg _)
        have h4 : |cfg.rate| * cfg.minibatch / (1 - ‖r₁‖) ≤ W := le_max_right _ _
        rw [div_le_iff₀ (sub_pos.2 n1)] at h4
        linarith) (hP k c)
      have e1 : cfg.rate * u k c + cfg.rate * cfg.penalty * e k c = cfg.rate * (u k c + e k c * cfg.penalty) := by ring
      rw [e1] at key
      exact key) hh ha
  exact ⟨e, he, fun k c => (le_div_iff₀ (sub_pos.2 n2)).2 (hP k c).entry⟩

/-- **C141**, for short steps, as with the default settings: no entry exceeds the size of a minibatch divided by the
penalty, unless an entry was larger at the start, and neither do the scores of a document, of which the exponential is
taken. -/
theorem C141_short_steps_partial {cfg : OnlineCfg C} (hmb : 0 < cfg.minibatch) (hm0 : 0 ≤ cfg.momentum)
    (hm : cfg.momentum < 1) (hr : 0 < cfg.rate) (hL : 0 < cfg.penalty)
    (hsmall : cfg.rate * cfg.penalty ≤ (1 - Real.sqrt cfg.momentum) ^ 2) {M : ℝ} (hM : cfg.minibatch / cfg.penalty ≤ M)
    {beta : Mat K V ℝ} {eta : Mat K C ℝ} (hM' : ∀ k c, |eta k c| ≤ M) {h : List (Call (DocArg K V) Unit)}
    {s : OnlineState K V C} {ev : List (Option ℝ)} (hh : onlineHistory cfg beta eta h = some (s, ev))
    (ha : ∀ d ∈ given h, Apt C d) :
    ∃ e, s.eta = some e ∧ (∀ k c, |e k c| ≤ M) ∧
      ∀ d : DocArg K V, Apt C d → ∀ c, |scores e (topicShare d.1 d.2.2.gamma) c| ≤ M := by
  have h0 : 0 < cfg.rate * cfg.penalty := mul_pos hr hL
  obtain ⟨r₁, r₂, hs, hp, a0, a1, b0, b1⟩ := roots_real hm0 hm h0.le hsmall
  have hs' : (r₁ : ℂ) + (r₂ : ℂ) = 1 + (cfg.momentum : ℂ) - ((cfg.rate * cfg.penalty : ℝ) : ℂ) := by exact_mod_cast hs
  have hp' : (r₁ : ℂ) * (r₂ : ℂ) = (cfg.momentum : ℂ) := by exact_mod_cast hp
  have nr : ∀ r : ℝ, 0 ≤ r → ‖(r : ℂ)‖ = r := fun r hr => by rw [Complex.norm_real, Real.norm_eq_abs, abs_of_nonneg hr]
  have prod : (1 - r₁) * (1 - r₂) = cfg.rate * cfg.penalty := by linear_combination hp - hs
  have b1' : r₂ < 1 := lt_of_le_of_ne b1 fun hcon => by rw [hcon, sub_self, mul_zero] at prod; linarith
  obtain ⟨e, v, he, _, hP⟩ := online_induct hmb
    (fun _ e v => ∀ k c, Swing (r₂ : ℂ) ((1 - r₂) * M) (e k c) (v k c)) (fun k c => by
      have hk := hM' k c
      constructor
      · have : ((eta k c : ℝ) : ℂ) - r₂ * ((eta k c : ℂ) - ((0 : ℝ) : ℂ)) = ((1 - r₂ : ℝ) : ℂ) * (eta k c : ℂ) := by
          push_cast; ring
        rw [this, norm_mul, nr _ (sub_nonneg.2 b1), Complex.norm_real, Real.norm_eq_abs]
        exact mul_le_mul_of_nonneg_left hk (sub_nonneg.2 b1)
      · rw [nr _ b0, mul_comm]
        exact mul_le_mul_of_nonneg_left hk (sub_nonneg.2 b1))
    (fun _ _ _ _ _ hP => hP)
    (fun h c s ev e v u _ _ _ hu _ _ hP k c => by
      have key := Swing.step (p := cfg.rate * u k c) hs' hp' (by rw [nr _ b0]; exact b1) (by
        rw [abs_mul, abs_of_pos hr, nr _ a0, ← mul_assoc, prod, mul_assoc]
        refine mul_le_mul_of_nonneg_left ((hu k c).trans ?_) hr.le
        rwa [div_le_iff₀' hL] at hM) (hP k c)
      have e1 : cfg.rate * u k c + cfg.rate * cfg.penalty * e k c = cfg.rate * (u k c + e k c * cfg.penalty) := by ring
      rw [e1] at key
      exact key) hh ha
  have hE : ∀ k c, |e k c| ≤ M := fun k c => by
    have := (hP k c).entry
    rw [nr _ b0, mul_comm] at this
    exact le_of_mul_le_mul_left this (sub_pos.2 b1')
  refine ⟨e, he, hE, fun d hd c => ?_⟩
  have hsum : ∑ k, topicShare d.1 d.2.2.gamma k = 1 := by
    have h0 := hd.2.2
    simp only [topicShare, h0.ne', if_false]
    rw [← Finset.sum_div, div_self h0.ne']
  calc |scores e (topicShare d.1 d.2.2.gamma) c| ≤ ∑ k, |e k c * topicShare d.1 d.2.2.gamma k| :=
        Finset.abs_sum_le_sum_abs _ _
    _ ≤ ∑ k, M * topicShare d.1 d.2.2.gamma k := Finset.sum_le_sum fun k _ => by
        rw [abs_mul, abs_of_nonneg (hd.share k).1]
        exact mul_le_mul_of_nonneg_right (hE k c) (hd.share k).1
    _ = M := by rw [← Finset.mul_sum, hsum, mul_one]

/-- The roots for long steps: one outside of the unit circle. -/
theorem roots_outside {m lam : ℝ} (hm0 : 0 ≤ m) (h1 : 2 * (1 + m) < lam) :
    ∃ r₁ r₂ : ℝ, r₁ + r₂ = 1 + m - lam ∧ r₁ * r₂ = m ∧ r₁ < -1 ∧ -1 < r₂ ∧ r₂ ≤ 0 := by
  set b := 1 + m - lam with hb
  have b1 : b < -(1 + m) := by linarith
  have hd : 0 ≤ b ^ 2 - 4 * m := by
    have := mul_pos (show 0 < -b - (1 + m) by linarith) (show 0 < -b + (1 + m) by linarith)
    nlinarith [sq_nonneg (1 - m)]
  set q := Real.sqrt (b ^ 2 - 4 * m) with hq
  have q0 : 0 ≤ q := Real.sqrt_nonneg _
  have q2 : q ^ 2 = b ^ 2 - 4 * m := Real.sq_sqrt hd
  have qb : q ≤ -b := by nlinarith
  have key : 2 + b < q ∧ -(2 + b) < q := by
    constructor
    · by_contra hcon
      push Not at hcon
      nlinarith
    · by_contra hcon
      push Not at hcon
      nlinarith
  refine ⟨(b - q) / 2, (b + q) / 2, by ring, by nlinarith, ?_, ?_, ?_⟩ <;> linarith

/-- **C141**, false for a learning rate that is too large for the penalty: whatever the documents are, `eta` grows beyond
every bound, if the entries of some topic do not add up to zero at the start. -/
theorem C141_diverges {cfg : OnlineCfg C} (hmb : 0 < cfg.minibatch) (hm0 : 0 ≤ cfg.momentum)
    (h1 : 2 * (1 + cfg.momentum) < cfg.rate * cfg.penalty) {beta : Mat K V ℝ} {eta : Mat K C ℝ} {k : Fin K}
    (hk : ∑ c, eta k c ≠ 0) (B : ℝ) :
    ∃ N, ∀ (h : List (Call (DocArg K V) Unit)), (∀ d ∈ given h, Apt C d) → N ≤ (given h).length / cfg.minibatch →
      ∃ h' s ev e c, h' <+: h ∧ onlineHistory cfg beta eta h' = some (s, ev) ∧ s.eta = some e ∧ B < |e k c| := by
  obtain ⟨r₁, r₂, hs, hp, a1, b0, b1⟩ := roots_outside hm0 h1
  have hk0 : 0 < |∑ c, eta k c| := abs_pos.2 hk
  obtain ⟨N, hN⟩ := pow_unbounded_of_one_lt (2 * (C * B) / |∑ c, eta k c|) (show 1 < -r₁ by linarith)
  refine ⟨N, fun h ha hlen => ?_⟩
  obtain ⟨s, ev, hh⟩ := C52_defined hmb beta eta h fun d hd => (ha d hd).1
  obtain ⟨e, v, he, _, hw, h', s', ev', e', hpre, hh', he', hprev⟩ := online_induct hmb
    (fun h e v => (∑ c, e k c) - r₂ * (∑ c, (e k c - v k c)) =
        r₁ ^ ((given h).length / cfg.minibatch) * ((1 - r₂) * ∑ c, eta k c) ∧
      ∃ h' s' ev' e', h' <+: h ∧ onlineHistory cfg beta eta h' = some (s', ev') ∧ s'.eta = some e' ∧
        ∀ c, e' k c = e k c - v k c)
    (by
      refine ⟨?_, [], _, _, eta, List.prefix_refl _, rfl, rfl, fun c => by simp⟩
      simp only [given_nil, List.length_nil, Nat.zero_div, pow_zero, sub_zero]
      ring)
    (fun h c e v hl hP => by
      obtain ⟨hw, h', s', ev', e', p1, p2, p3, p4⟩ := hP
      exact ⟨by rw [hl]; exact hw, h', s', ev', e', p1.trans (List.prefix_append _ _), p2, p3, p4⟩)
    (fun h c s ev e v u hh he hl _ hu _ hP => by
      obtain ⟨hw, -⟩ := hP
      refine ⟨?_, h, s, ev, e, List.prefix_append _ _, hh, he, fun c => by ring⟩
      rw [hl, pow_succ, mul_right_comm, ← hw]
      have e1 : ∀ c, e k c + (cfg.momentum * v k c - cfg.rate * (u k c + e k c * cfg.penalty)) -
          (cfg.momentum * v k c - cfg.rate * (u k c + e k c * cfg.penalty)) = e k c := fun c => by ring
      simp only [e1, Finset.sum_add_distrib, Finset.sum_sub_distrib, ← Finset.mul_sum, hu k, ← Finset.sum_mul]
      linear_combination (-(∑ c, e k c)) * hs + ((∑ c, e k c) - ∑ c, v k c) * hp) hh ha
  by_contra hcon
  push Not at hcon
  have c1 : |∑ c, e k c| ≤ C * B := by
    refine (Finset.abs_sum_le_sum_abs _ _).trans ?_
    have := Finset.sum_le_sum fun c (_ : c ∈ Finset.univ) => hcon h s ev e c (List.prefix_refl _) hh he
    simpa using this
  have c2 : |∑ c, (e k c - v k c)| ≤ C * B := by
    refine (Finset.abs_sum_le_sum_abs _ _).trans ?_
    have := Finset.sum_le_sum fun c (_ : c ∈ Finset.univ) => hcon h' s' ev' e' c hpre hh' he'
    simpa [hprev] using this
  have c3 : |(∑ c, e k c) - r₂ * (∑ c, (e k c - v k c))| ≤ 2 * (C * B) := by
    have h3 := abs_sub (∑ c, e k c) (r₂ * (∑ c, (e k c - v k c)))
    rw [abs_mul] at h3
    have h4 : |r₂| ≤ 1 := abs_le.2 ⟨by linarith, by linarith⟩
    have h5 := mul_le_of_le_one_left (abs_nonneg (∑ c, (e k c - v k c))) h4
    linarith
  rw [hw, abs_mul, abs_mul, abs_pow, abs_of_neg (by linarith : r₁ < 0), abs_of_pos (by linarith : 0 < 1 - r₂)] at c3
  rw [div_lt_iff₀ hk0] at hN
  have h6 : (-r₁) ^ N ≤ (-r₁) ^ ((given h).length / cfg.minibatch) := pow_le_pow_right₀ (by linarith) hlen
  have h7 : (-r₁) ^ N * |∑ c, eta k c| ≤ (-r₁) ^ ((given h).length / cfg.minibatch) * ((1 - r₂) * |∑ c, eta k c|) := by
    have : |∑ c, eta k c| ≤ (1 - r₂) * |∑ c, eta k c| := by nlinarith
    exact mul_le_mul h6 this hk0.le (pow_nonneg (by linarith) _)
  linarith

end Verif.MStep
