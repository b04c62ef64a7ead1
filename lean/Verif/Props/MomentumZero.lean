import Verif.Props.Momentum

/-! Property C141: an `eta` that grows beyond every bound from zeros, and the default settings. -/
namespace Verif.MStep

open MathUtils EStep Optim Finset

/-- One topic, one word, two classes, minibatches of one document. -/
noncomputable def swingCfg (m rate L : ℝ) : OnlineCfg 2 :=
  { classWeights := fun _ => 1, penalty := L, minibatch := 1, momentum := m, rate := rate, betaWeight := 9 / 10 }

/-- A document of one word of the first class. -/
noncomputable def swingDoc : DocArg 1 1 := (fun _ => 1, ⟨fun _ => 1, 0⟩, { gamma := fun _ => 2, phi := fun _ _ => 1 })

theorem swingDoc_apt : Apt 2 swingDoc := by
  refine ⟨by simp [swingDoc], fun k => ?_, ?_⟩
  · simp [swingDoc]
  · simp only [swingDoc]; norm_num

/-- The share of the other class. -/
noncomputable def other (e : ℝ) : ℝ := Real.exp (-e) / (Real.exp e + Real.exp (-e))

theorem other_pos (e : ℝ) : 0 < other e := by unfold other; positivity

theorem other_eq (e : ℝ) : other e = (Real.exp (2 * e) + 1)⁻¹ := by
  have h : Real.exp (2 * e) = Real.exp e / Real.exp (-e) := by rw [← Real.exp_sub]; ring_nf
  have := Real.exp_pos (-e)
  rw [other, h]
  field_simp

theorem other_anti {e e' : ℝ} (h : e ≤ e') : other e' ≤ other e := by
  rw [other_eq, other_eq]
  have := Real.exp_pos (2 * e)
  gcongr

theorem other_zero : other 0 = 1 / 2 := by rw [other_eq]; norm_num

theorem other_lt {e : ℝ} (h : 0 < e) : other e < 1 / 2 := by
  have h1 : 1 < Real.exp (2 * e) := Real.one_lt_exp_iff.2 (by linarith)
  rw [other_eq, one_div]
  gcongr
  linarith

/-- The entry of the first class and its velocity. -/
noncomputable def swing (m rate L : ℝ) : ℕ → ℝ × ℝ
  | 0 => (0, 0)
  | t + 1 =>
    let p := swing m rate L t
    let v := m * p.2 - rate * (-other p.1 + p.1 * L)
    (p.1 + v, v)

/-- The entries are opposite and follow the recurrence. -/
theorem swing_history (m rate L : ℝ) (beta : Mat 1 1 ℝ) (t : ℕ) :
    ∃ s ev e v, onlineHistory (swingCfg m rate L) beta (fun _ _ => 0) (List.replicate t (.doc swingDoc)) = some (s, ev) ∧
      s.eta = some e ∧ s.velocity = some v ∧ e 0 0 = (swing m rate L t).1 ∧ e 0 1 = -(swing m rate L t).1 ∧
      v 0 0 = (swing m rate L t).2 ∧ v 0 1 = -(swing m rate L t).2 := by
  induction t with
  | zero => exact ⟨_, _, _, _, rfl, rfl, rfl, by simp [swing], by simp [swing], by simp [swing], by simp [swing]⟩
  | succ t ih =>
    obtain ⟨s, ev, e, v, h1, h2, h3, h4, h5, h6, h7⟩ := ih
    have hb : lastBatch 1 (given (List.replicate t (.doc swingDoc) : List (Call (DocArg 1 1) Unit)) ++ [swingDoc]) =
        [swingDoc] := by
      simp [lastBatch]
    have hd : topicShare swingDoc.1 swingDoc.2.2.gamma = fun _ => 1 := by
      funext k
      simp only [topicShare, swingDoc]
      norm_num
    obtain ⟨-, s', w, n, g, e1, n1, n2, n3, n4, r1, r2, r3⟩ := C52_update_eta (C := 2) (cfg := swingCfg m rate L) (by simp [swingCfg])
      h1 swingDoc (by simp [swingCfg]) h2 h3
      (by
        intro a ha
        have : a = swingDoc := by simpa [swingCfg, hb] using ha
        rw [this]
        exact swingDoc_apt.2.2.ne')
      (data := [((fun _ => 1 : Vec 1 ℝ), (0 : Fin 2))]) (by simp [swingCfg, hb, hd]) (by
        have : swingDoc.2.1.cls = 0 := rfl
        simp [swingCfg, hb, this])
    have hn : n = 1 := by
      obtain ⟨⟨a, ha, hn⟩, -⟩ := n1
      simp only [List.mem_singleton] at ha
      rw [ha] at hn
      simpa using hn.symm
    have hw : w 0 = 1 := by
      have := n2 (fun _ => 1, 0) (by simp)
      simpa [hn] using this
    have hg : ∀ c, g 0 c = pull [((fun _ => 1 : Vec 1 ℝ), (0 : Fin 2))] w e 0 c + e 0 c * L := by
      intro c
      have := IsGradient.apply_eq n3 (isGradient_logistic _ w (swingCfg m rate L).penalty e)
        fun i j => if i = 0 then if j = c then 1 else 0 else 0
      simpa [pull, mul_ite, Finset.sum_ite_irrel, swingCfg] using this
    have x0 := Real.exp_pos (swing m rate L t).1
    have x1 := Real.exp_pos (-(swing m rate L t).1)
    have g0 : g 0 0 = -other (swing m rate L t).1 + (swing m rate L t).1 * L := by
      rw [hg, h4]
      simp only [pull, List.map_cons, List.map_nil, List.sum_cons, List.sum_nil, hw, Fin.sum_univ_two, univ_unique,
        Fin.default_eq_zero, Finset.sum_singleton, mul_one, h4, h5, other, if_true]
      field_simp
      ring
    have g1 : g 0 1 = other (swing m rate L t).1 - (swing m rate L t).1 * L := by
      rw [hg, h5]
      simp only [pull, List.map_cons, List.map_nil, List.sum_cons, List.sum_nil, hw, Fin.sum_univ_two, univ_unique,
        Fin.default_eq_zero, Finset.sum_singleton, mul_one, h4, h5, other]
      rw [if_neg (by decide)]
      field_simp
      ring
    rw [List.replicate_succ']
    refine ⟨s', _, e1, _, r3, r1, r2, ?_, ?_, ?_, ?_⟩
    all_goals simp only [n4, h4, h5, h6, h7, g0, g1, swing, swingCfg]
    all_goals ring

/-- The mode of the root that is not inside of the unit circle. -/
theorem swing_grows {m rate L r₁ r₂ : ℝ} (hr : 0 < rate) (hs : r₁ + r₂ = 1 + m - rate * L) (hp : r₁ * r₂ = m)
    (a1 : r₁ ≤ -1) (b1 : r₂ ≤ 0) (n : ℕ) :
    (swing m rate L (2 * n)).1 ≤ 0 ∧
    rate / 2 + n * (rate * (1 / 2 - other (rate / 2))) ≤ (swing m rate L (2 * n + 1)).1 - r₂ * (swing m rate L (2 * n)).1 := by
  have step : ∀ t, (swing m rate L (t + 1)).1 - r₂ * ((swing m rate L (t + 1)).1 - (swing m rate L (t + 1)).2) =
      r₁ * ((swing m rate L t).1 - r₂ * ((swing m rate L t).1 - (swing m rate L t).2)) + rate * other (swing m rate L t).1 := by
    intro t
    simp only [swing]
    linear_combination (-(swing m rate L t).1) * hs + ((swing m rate L t).1 - (swing m rate L t).2) * hp
  have prev : ∀ t, (swing m rate L (t + 1)).1 - (swing m rate L (t + 1)).2 = (swing m rate L t).1 := by
    intro t
    simp only [swing]
    ring
  have hd : 0 < rate * (1 / 2 - other (rate / 2)) := mul_pos hr (sub_pos.2 (other_lt (by linarith)))
  induction n with
  | zero =>
    have h := step 0
    rw [prev] at h
    simp only [mul_zero, swing, other_zero] at h ⊢
    refine ⟨le_refl _, ?_⟩
    norm_num
    linarith
  | succ n ih =>
    obtain ⟨p, q⟩ := ih
    have s1 := step (2 * n + 1)
    have s2 := step (2 * n + 1 + 1)
    rw [prev, prev] at s1 s2
    set e0 := (swing m rate L (2 * n)).1 with he0
    set e := (swing m rate L (2 * n + 1)).1 with he
    set e' := (swing m rate L (2 * n + 1 + 1)).1 with he'
    set x := e - r₂ * e0 with hx
    have hc : 0 ≤ (n : ℝ) * (rate * (1 / 2 - other (rate / 2))) := mul_nonneg (Nat.cast_nonneg n) hd.le
    have x0 : rate / 2 ≤ x := by linarith
    have ex : rate / 2 ≤ e := by
      have : 0 ≤ r₂ * e0 := mul_nonneg_of_nonpos_of_nonpos b1 p
      linarith
    have o1 : rate * other e ≤ rate * other (rate / 2) := mul_le_mul_of_nonneg_left (other_anti ex) hr.le
    have o1' : rate * other (rate / 2) ≤ rate / 2 := by linarith
    have w2 : e' - r₂ * e ≤ 0 := by
      rw [s1]
      nlinarith
    have e'0 : e' ≤ 0 := by
      have : 0 ≤ -r₂ * e := mul_nonneg (by linarith) (by linarith)
      linarith
    have o2 : rate / 2 ≤ rate * other e' := by
      have := mul_le_mul_of_nonneg_left (other_anti e'0) hr.le
      rw [other_zero] at this
      linarith
    have idx : 2 * (n + 1) = 2 * n + 1 + 1 := by ring
    rw [idx]
    refine ⟨e'0, ?_⟩
    rw [s2, s1]
    have k : x - rate * other e ≤ r₁ * (r₁ * x + rate * other e) := by
      have k1 : 0 ≤ -r₁ - 1 := by linarith
      have k2 : 0 ≤ (-r₁ + 1) * x - rate * other e := by nlinarith
      nlinarith [mul_nonneg k1 k2]
    push_cast
    linarith

/-- The roots when the steps are too long. -/
theorem roots_edge {m lam : ℝ} (hm0 : 0 ≤ m) (hm : m < 1) (h1 : 2 * (1 + m) ≤ lam) :
    ∃ r₁ r₂ : ℝ, r₁ + r₂ = 1 + m - lam ∧ r₁ * r₂ = m ∧ r₁ ≤ -1 ∧ -1 < r₂ ∧ r₂ ≤ 0 := by
  rcases h1.eq_or_lt with h | h
  · exact ⟨-1, -m, by linarith, by ring, le_refl _, by linarith, by linarith⟩
  · obtain ⟨r₁, r₂, h1, h2, h3, h4, h5⟩ := roots_outside hm0 h
    exact ⟨r₁, r₂, h1, h2, h3.le, h4, h5⟩

/-- **C141**, false from zeros too: with one topic, two classes and documents of the first class `eta` grows beyond every
bound if the learning rate is too large for the penalty. -/
theorem C141_diverges_from_zeros {m rate L : ℝ} (hm0 : 0 ≤ m) (hm : m < 1) (hr : 0 < rate) (h1 : 2 * (1 + m) ≤ rate * L)
    (beta : Mat 1 1 ℝ) (B : ℝ) :
    ∃ t s ev e, onlineHistory (swingCfg m rate L) beta (fun _ _ => 0) (List.replicate t (.doc swingDoc)) =
      some (s, ev) ∧ s.eta = some e ∧ B < |e 0 0| := by
  obtain ⟨r₁, r₂, hs, hp, a1, b0, b1⟩ := roots_edge hm0 hm h1
  by_contra hcon
  push Not at hcon
  have bound : ∀ t, |(swing m rate L t).1| ≤ B := by
    intro t
    obtain ⟨s, ev, e, v, h1, h2, _, h4, _⟩ := swing_history m rate L beta t
    rw [← h4]
    exact hcon t s ev e h1 h2
  have hc : 0 < rate * (1 / 2 - other (rate / 2)) := mul_pos hr (sub_pos.2 (other_lt (by linarith)))
  obtain ⟨n, hn⟩ := exists_nat_gt (2 * B / (rate * (1 / 2 - other (rate / 2))))
  rw [div_lt_iff₀ hc] at hn
  have h2 := (swing_grows (L := L) hr hs hp a1 b1 n).2
  have h3 := abs_le.1 (bound (2 * n + 1))
  have h4 := bound (2 * n)
  have h5 : -(r₂ * (swing m rate L (2 * n)).1) ≤ B := by
    have : |r₂ * (swing m rate L (2 * n)).1| ≤ B := by
      rw [abs_mul]
      exact (mul_le_of_le_one_left (abs_nonneg _) (abs_le.2 ⟨b0.le, by linarith⟩)).trans h4
    linarith [neg_abs_le (r₂ * (swing m rate L (2 * n)).1)]
  linarith [h3.2]

/-- **C141**, false without a penalty: with documents of one class `eta` grows beyond every bound, slowly. -/
theorem C141_no_penalty {m rate : ℝ} (hm0 : 0 ≤ m) (hr : 0 < rate) (beta : Mat 1 1 ℝ) (B : ℝ) :
    ∃ t s ev e, onlineHistory (swingCfg m rate 0) beta (fun _ _ => 0) (List.replicate t (.doc swingDoc)) =
      some (s, ev) ∧ s.eta = some e ∧ B < |e 0 0| := by
  by_contra hcon
  push Not at hcon
  have bound : ∀ t, (swing m rate 0 t).1 ≤ B := by
    intro t
    obtain ⟨s, ev, e, v, h1, h2, _, h4, _⟩ := swing_history m rate 0 beta t
    rw [← h4]
    exact (le_abs_self _).trans (hcon t s ev e h1 h2)
  have grow : ∀ t : ℕ, 0 ≤ (swing m rate 0 t).2 ∧ t * (rate * other B) ≤ (swing m rate 0 t).1 := by
    intro t
    induction t with
    | zero => simp [swing]
    | succ t ih =>
      have h1 : rate * other B ≤ rate * other (swing m rate 0 t).1 := mul_le_mul_of_nonneg_left (other_anti (bound t)) hr.le
      have h2 := mul_nonneg hm0 ih.1
      have h3 := mul_pos hr (other_pos B)
      simp only [swing]
      push_cast
      constructor <;> nlinarith [ih.2]
  have hc := mul_pos hr (other_pos B)
  obtain ⟨n, hn⟩ := exists_nat_gt (B / (rate * other B))
  rw [div_lt_iff₀ hc] at hn
  linarith [(grow n).2, bound n]

/-- **C141**, exactly: with two classes, minibatches of one document and zeros at the start, there is a bound for all
documents if and only if the product of learning rate and penalty is positive and less than twice one plus the
momentum. -/
theorem C141_iff {m rate L : ℝ} (hm0 : 0 ≤ m) (hm : m < 1) (hr : 0 < rate) (hL : 0 ≤ L) :
    (∃ B, ∀ (beta : Mat 1 1 ℝ) (h : List (Call (DocArg 1 1) Unit)) (s : OnlineState 1 1 2) (ev : List (Option ℝ)),
      onlineHistory (swingCfg m rate L) beta (fun _ _ => 0) h = some (s, ev) → (∀ d ∈ given h, Apt 2 d) →
      ∃ e, s.eta = some e ∧ ∀ k c, |e k c| ≤ B) ↔ 0 < rate * L ∧ rate * L < 2 * (1 + m) := by
  have given_replicate : ∀ t, ∀ d ∈ given (List.replicate t (.doc swingDoc) : List (Call (DocArg 1 1) Unit)), Apt 2 d := by
    intro t d hd
    have : d = swingDoc := by
      induction t with
      | zero => simp at hd
      | succ t ih =>
        rw [List.replicate_succ, given_doc, List.mem_cons] at hd
        exact hd.elim id ih
    rw [this]
    exact swingDoc_apt
  constructor
  · rintro ⟨B, hB⟩
    have no : ¬ ∃ t s ev e, onlineHistory (swingCfg m rate L) (fun _ _ => 1) (fun _ _ => 0)
        (List.replicate t (.doc swingDoc)) = some (s, ev) ∧ s.eta = some e ∧ B < |e 0 0| := by
      rintro ⟨t, s, ev, e, h1, h2, h3⟩
      obtain ⟨e', h4, h5⟩ := hB _ _ s ev h1 (given_replicate t)
      rw [h2] at h4
      cases h4
      exact absurd (h5 0 0) (not_le.2 h3)
    constructor
    · rcases hL.eq_or_lt with h | h
      · subst h
        exact absurd (C141_no_penalty hm0 hr _ B) no
      · exact mul_pos hr h
    · by_contra hcon
      exact no (C141_diverges_from_zeros hm0 hm hr (not_lt.1 hcon) _ B)
  · rintro ⟨h0, h1⟩
    obtain ⟨B, hB⟩ := C141_bounded_partial (swingCfg m rate L) (by simp [swingCfg]) hm h0 h1 0
    exact ⟨B, fun beta h s ev hh ha => hB 1 1 beta _ h s ev (by simp) hh ha⟩

/-- The default settings with two classes (FastOnlineSupervisedMStep.hpp:73-80). -/
noncomputable def usualCfg : OnlineCfg 2 :=
  { classWeights := fun _ => 1, penalty := 1 / 100, minibatch := 128, momentum := 9 / 10, rate := 1 / 100, betaWeight := 9 / 10 }

/-- With the default settings no entry exceeds 12800, however many documents there are. -/
example (h : List (Call (DocArg 3 5) Unit)) (s : OnlineState 3 5 2) (ev : List (Option ℝ)) (beta : Mat 3 5 ℝ)
    (hh : onlineHistory usualCfg beta (fun _ _ => 0) h = some (s, ev)) (ha : ∀ d ∈ given h, Apt 2 d) :
    ∃ e, s.eta = some e ∧ ∀ k c, |e k c| ≤ 12800 := by
  obtain ⟨e, h1, h2, _⟩ := C141_short_steps_partial (cfg := usualCfg) (M := 12800) (by simp [usualCfg]) (by norm_num [usualCfg])
    (by norm_num [usualCfg]) (by norm_num [usualCfg]) (by norm_num [usualCfg]) (by
      have : Real.sqrt (9 / 10) ≤ 98 / 100 := Real.sqrt_le_iff.2 ⟨by norm_num, by norm_num⟩
      simp only [usualCfg]
      nlinarith) (by norm_num [usualCfg]) (by simp) hh ha
  exact ⟨e, h1, h2⟩

/-- A document that meets the conditions, and a history of it. -/
example (beta : Mat 1 1 ℝ) (t : ℕ) : ∃ s ev, (∀ d ∈ given (List.replicate t (.doc swingDoc) : List (Call (DocArg 1 1) Unit)),
    Apt 2 d) ∧ onlineHistory usualCfg beta (fun _ _ => 0) (List.replicate t (.doc swingDoc)) = some (s, ev) := by
  have ha : ∀ d ∈ given (List.replicate t (.doc swingDoc) : List (Call (DocArg 1 1) Unit)), Apt 2 d := by
    intro d hd
    have : d = swingDoc := by
      induction t with
      | zero => simp at hd
      | succ t ih =>
        rw [List.replicate_succ, given_doc, List.mem_cons] at hd
        exact hd.elim id ih
    rw [this]
    exact swingDoc_apt
  obtain ⟨s, ev, h⟩ := C52_defined (cfg := usualCfg) (by simp [usualCfg]) beta (fun _ _ => 0) _ fun d hd => (ha d hd).1
  exact ⟨s, ev, ha, h⟩

/-- A penalty of 400 with the default learning rate and momentum is too large. -/
example (beta : Mat 1 1 ℝ) : ∃ t s ev e, onlineHistory (swingCfg (9 / 10) (1 / 100) 400) beta (fun _ _ => 0)
    (List.replicate t (.doc swingDoc)) = some (s, ev) ∧ s.eta = some e ∧ 1000 < |e 0 0| :=
  C141_diverges_from_zeros (by norm_num) (by norm_num) (by norm_num) (by norm_num) beta 1000

/-- The same for classes with equal shares at the start and any documents. -/
example (beta : Mat 1 1 ℝ) : ∃ N, ∀ h : List (Call (DocArg 1 1) Unit), (∀ d ∈ given h, Apt 2 d) → N ≤ (given h).length / 1 →
    ∃ h' s ev e c, h' <+: h ∧ onlineHistory (swingCfg (9 / 10) (1 / 100) 400) beta (fun _ _ => 1 / 2) h' = some (s, ev) ∧
      s.eta = some e ∧ 1000 < |e 0 c| :=
  C141_diverges (cfg := swingCfg (9 / 10) (1 / 100) 400) (by simp [swingCfg]) (by norm_num [swingCfg]) (by norm_num [swingCfg])
    (by norm_num) 1000

end Verif.MStep
