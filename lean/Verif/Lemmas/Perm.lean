import Verif.Props.SecondM
import Verif.Props.MultinomialM

/-! The order of the documents does not matter to the batch maximisation steps. -/
namespace Verif.MStep

open MathUtils EStep Optim Finset

variable {K V C : ℕ}

/-- The gradient is unique. -/
theorem isGradient_unique {r c : ℕ} {f : Mat r c ℝ → ℝ} {x g g' : Mat r c ℝ} (h : IsGradient f x g)
    (h' : IsGradient f x g') : g = g' := by
  obtain ⟨F, h1, h2⟩ := h
  obtain ⟨F', h3, h4⟩ := h'
  obtain rfl := h1.unique h3
  funext i j
  have := (h2 fun a b => if a = i then if b = j then 1 else 0 else 0).symm.trans
    (h4 fun a b => if a = i then if b = j then 1 else 0 else 0)
  simpa [Finset.sum_ite_eq] using this

theorem problem_ext {r c : ℕ} {f : Mat r c ℝ → ℝ} {p q : Problem r c}
    (h1 : ∀ x, p.value x = some (f x)) (h2 : ∀ x, q.value x = some (f x))
    (h3 : ∀ x, ∃ g, p.gradient x = some g ∧ IsGradient f x g)
    (h4 : ∀ x, ∃ g, q.gradient x = some g ∧ IsGradient f x g) : p = q := by
  obtain ⟨pv, pg⟩ := p
  obtain ⟨qv, qg⟩ := q
  congr 1
  · funext x
    exact (h1 x).trans (h2 x).symm
  · funext x
    obtain ⟨g, e1, e2⟩ := h3 x
    obtain ⟨g', e3, e4⟩ := h4 x
    have := isGradient_unique e2 e4
    subst this
    exact e1.trans e3.symm

theorem logisticDefault_perm {data data' : List (Vec K ℝ × Fin C)} (h : data.Perm data') (L : ℝ) :
    logisticDefault C (data.map Prod.fst) (data.map fun d => (d.2 : ℤ)) L =
      logisticDefault C (data'.map Prod.fst) (data'.map fun d => (d.2 : ℤ)) L := by
  by_cases hne : data = []
  · subst hne
    rw [h.nil_eq]
  have hne' : data' ≠ [] := fun e => hne (by subst e; exact h.eq_nil)
  obtain ⟨p, w, n, a1, ⟨d, hd, a2⟩, a3, a4, _, a6, a7⟩ := C59_absent_unused hne L
  obtain ⟨p', w', n', b1, ⟨d', hd', b2⟩, b3, b4, _, b6, b7⟩ := C59_absent_unused hne' L
  have hn : n = n' := by
    have h1 := b3 d (h.mem_iff.1 hd)
    have h2 := a3 d' (h.mem_iff.2 hd')
    omega
  have hw : ∀ d ∈ data, w d.2 = w' d.2 := by
    intro d hd
    rw [a4 d hd, b4 d (h.mem_iff.1 hd), hn, h.length_eq, (h.map Prod.snd).count_eq]
  have hobj : logisticObjective data w L = logisticObjective data' w' L := by
    funext eta
    unfold logisticObjective
    rw [← (h.map _).sum_eq]
    congr 3
    exact List.map_congr_left fun d hd => by rw [hw d hd]
  rw [a1, b1]
  rw [hobj] at a6 a7
  exact congrArg some (problem_ext a6 b6 a7 b7)

theorem secondOrderDefault_perm {data data' : List (Vec K ℝ × Mat K K ℝ × Fin C)} (h : data.Perm data')
    (hV : ∀ d ∈ data, PSD d.2.1) (L : ℝ) :
    secondOrderDefault C (data.map Prod.fst) (data.map fun d => d.2.1) (data.map fun d => (d.2.2 : ℤ)) L =
      secondOrderDefault C (data'.map Prod.fst) (data'.map fun d => d.2.1)
        (data'.map fun d => (d.2.2 : ℤ)) L := by
  by_cases hne : data = []
  · subst hne
    rw [h.nil_eq]
  have hne' : data' ≠ [] := fun e => hne (by subst e; exact h.eq_nil)
  obtain ⟨p, w, n, a1, ⟨d, hd, a2⟩, a3, a4, _, a6, a7⟩ := second_default hne hV L
  obtain ⟨p', w', n', b1, ⟨d', hd', b2⟩, b3, b4, _, b6, b7⟩ := second_default hne'
    (fun d hd => hV d (h.mem_iff.2 hd)) L
  have hn : n = n' := by
    have h1 := b3 d (h.mem_iff.1 hd)
    have h2 := a3 d' (h.mem_iff.2 hd')
    omega
  have hw : ∀ d ∈ data, w d.2.2 = w' d.2.2 := by
    intro d hd
    rw [a4 d hd, b4 d (h.mem_iff.1 hd), hn, h.length_eq, (h.map fun d => d.2.2).count_eq]
  have hobj : secondObjective data w L = secondObjective data' w' L := by
    funext eta
    unfold secondObjective
    rw [← (h.map _).sum_eq]
    congr 3
    exact List.map_congr_left fun d hd => by rw [hw d hd]
  rw [a1, b1]
  rw [hobj] at a6 a7
  exact congrArg some (problem_ext a6 b6 a7 b7)

/-- The label as a class, for labels in range. -/
def toClass (hC : 0 < C) (y : ℤ) : Fin C :=
  if h : 0 ≤ y ∧ y < (C : ℤ) then ⟨y.toNat, by omega⟩ else ⟨0, hC⟩

theorem toClass_eq (hC : 0 < C) {y : ℤ} (h : 0 ≤ y ∧ y < (C : ℤ)) : ((toClass hC y : Fin C) : ℤ) = y := by
  rw [toClass, dif_pos h]
  simp; omega

/-- With a label that is not a column of `eta` the logistic objective is undefined. -/
theorem descend_bad_label {X : List (Vec K ℝ)} {y : List ℤ} {L : ℝ} (hy : ¬ LabelsOk C y) (cfg : SupCfg)
    (eta : Mat K C ℝ) :
    ((logisticDefault C X y L).bind fun pr => descend cfg pr eta) = none := by
  simp only [LabelsOk, not_forall] at hy
  obtain ⟨a, ha, hbad⟩ := hy
  cases hw : defaultWeights y with
  | none => simp [logisticDefault, hw]
  | some Cy =>
    simp only [logisticDefault, hw, Option.map_some, Option.bind_some]
    exact descend_none (C57_undefined ha (by omega) eta).1

theorem secondLoop_bad {Cy : List (Option ℝ)} {eta : Mat K C ℝ} {a : ℤ} (hbad : a < 0 ∨ (C : ℤ) ≤ a) :
    ∀ (y : List ℤ) (X : List (Vec K ℝ)) (W : List (Mat K K ℝ)) (acc : ℝ), a ∈ y →
      secondLoop Cy eta y X W acc = none := by
  intro y
  induction y with
  | nil => simp
  | cons b y ih =>
    intro X W acc hm
    cases X with
    | nil => rfl
    | cons x X =>
      cases W with
      | nil => rfl
      | cons v W =>
        rw [secondLoop]
        rcases List.mem_cons.1 hm with rfl | hm
        · have : ¬ (0 ≤ a ∧ a < C) := by omega
          cases weightAt Cy a <;> simp [entryAt, this]
        · cases weightAt Cy b with
          | none => rfl
          | some w =>
            cases entryAt (scores eta x) b with
            | none => rfl
            | some t =>
              simp only [Option.bind_some]
              cases logc (∑ c, Real.exp (scores eta x c) * (1 + 0.5 * quad eta v c)) with
              | none => rfl
              | some l => exact ih X W _ hm

theorem descend_bad_label_second {X : List (Vec K ℝ)} {W : List (Mat K K ℝ)} {y : List ℤ} {L : ℝ}
    (hy : ¬ LabelsOk C y) (cfg : SupCfg) (eta : Mat K C ℝ) :
    ((secondOrderDefault C X W y L).bind fun pr => descend cfg pr eta) = none := by
  simp only [LabelsOk, not_forall] at hy
  obtain ⟨a, ha, hbad⟩ := hy
  cases hw : defaultWeights y with
  | none => simp [secondOrderDefault, hw]
  | some Cy =>
    simp only [secondOrderDefault, hw, Option.map_some, Option.bind_some]
    refine descend_none ?_
    simp [secondOrder, secondValue, secondLoop_bad (C := C) (by omega) y X W 0 ha]

theorem labelsOk_perm {y y' : List ℤ} (h : y.Perm y') : LabelsOk C y ↔ LabelsOk C y' := by
  simp only [LabelsOk]
  exact forall_congr' fun a => by rw [h.mem_iff]

/-- The descent of `FastSupervisedMStep` does not depend on the order of the documents. -/
theorem fast_descend_perm {ds ds' : List (Vec K ℝ × Given K V)} (h : ds.Perm ds') (cfg : SupCfg)
    (eta : Mat K C ℝ) :
    ((logisticDefault C (ds.map fun d => topicShare d.1 d.2.2.gamma) (ds.map fun d => d.2.1.cls)
      cfg.penalty).bind fun pr => descend cfg pr eta) =
    (logisticDefault C (ds'.map fun d => topicShare d.1 d.2.2.gamma) (ds'.map fun d => d.2.1.cls)
      cfg.penalty).bind fun pr => descend cfg pr eta := by
  by_cases hl : LabelsOk C (ds.map fun d => d.2.1.cls)
  · have hl' := (labelsOk_perm (h.map fun d => d.2.1.cls)).1 hl
    by_cases hne : ds = []
    · subst hne
      rw [h.nil_eq]
    obtain ⟨d0, hd0⟩ := List.exists_mem_of_ne_nil ds hne
    have hC : 0 < C := by
      have := hl _ (List.mem_map.2 ⟨d0, hd0, rfl⟩)
      omega
    have key : ∀ l : List (Vec K ℝ × Given K V), LabelsOk C (l.map fun d => d.2.1.cls) →
        logisticDefault C (l.map fun d => topicShare d.1 d.2.2.gamma) (l.map fun d => d.2.1.cls) cfg.penalty =
        logisticDefault C ((l.map fun d => (topicShare d.1 d.2.2.gamma, toClass hC d.2.1.cls)).map Prod.fst)
          ((l.map fun d => (topicShare d.1 d.2.2.gamma, toClass hC d.2.1.cls)).map fun d => (d.2 : ℤ))
          cfg.penalty := by
      intro l hl
      rw [List.map_map, List.map_map]
      congr 1
      exact List.map_congr_left fun d hd => (toClass_eq hC (hl _ (List.mem_map.2 ⟨d, hd, rfl⟩))).symm
    rw [key ds hl, key ds' hl', logisticDefault_perm (h.map _)]
  · rw [descend_bad_label hl, descend_bad_label fun e => hl ((labelsOk_perm (h.map _)).2 e)]

theorem defaultWeights_isSome {y : List ℤ} (h : LabelsOk C y) : (defaultWeights y).isSome ↔ y ≠ [] := by
  constructor
  · rintro h1 rfl
    simp [C59_undefined.1] at h1
  · intro hne
    obtain ⟨Cy, m, h1, _⟩ := C59_weights hne fun a ha => (h a ha).1
    simp [h1]

/-- The descent of `SupervisedMStep` does not depend on the order of the documents. -/
theorem sup_descend_perm {ds ds' : List (Vec K ℝ × Given K V)} (h : ds.Perm ds') (cfg : SupCfg)
    (eta : Mat K C ℝ) :
    supDescend cfg (ds.map fun d => supZbar (numWords d.2.1.words) d.2.2.gamma d.1)
      (ds.map fun d => supVar (numWords d.2.1.words) d.2.1.words d.2.2.phi)
      (ds.map fun d => d.2.1.cls) eta =
    supDescend cfg (ds'.map fun d => supZbar (numWords d.2.1.words) d.2.2.gamma d.1)
      (ds'.map fun d => supVar (numWords d.2.1.words) d.2.1.words d.2.2.phi)
      (ds'.map fun d => d.2.1.cls) eta := by
  have hlab := labelsOk_perm (C := C) (h.map fun d => d.2.1.cls)
  by_cases hw : ∀ d ∈ ds, size d ≠ 0
  · have hw' : ∀ d ∈ ds', size d ≠ 0 := fun d hd => hw d (h.mem_iff.2 hd)
    have e1 : ∀ l : List (Vec K ℝ × Given K V), (∀ d ∈ l, size d ≠ 0) →
        (l.map fun d => supZbar (numWords d.2.1.words) d.2.2.gamma d.1) = (l.map meanTopics).map some ∧
        (l.map fun d => supVar (numWords d.2.1.words) d.2.1.words d.2.2.phi) =
          (l.map varTopics).map some := by
      intro l hl
      constructor
      · rw [List.map_map]
        exact List.map_congr_left fun d hd => supZbar_eq (hl d hd)
      · rw [List.map_map]
        exact List.map_congr_left fun d hd => supVar_eq (hl d hd)
    rw [(e1 ds hw).1, (e1 ds hw).2, (e1 ds' hw').1, (e1 ds' hw').2]
    simp only [supDescend, readAll_map_some]
    have key : ((secondOrderDefault C (ds.map meanTopics) (ds.map varTopics) (ds.map fun d => d.2.1.cls)
        cfg.penalty).bind fun pr => descend cfg pr eta) =
      (secondOrderDefault C (ds'.map meanTopics) (ds'.map varTopics) (ds'.map fun d => d.2.1.cls)
        cfg.penalty).bind fun pr => descend cfg pr eta := by
      by_cases hl : LabelsOk C (ds.map fun d => d.2.1.cls)
      · by_cases hne : ds = []
        · subst hne
          rw [h.nil_eq]
        obtain ⟨d0, hd0⟩ := List.exists_mem_of_ne_nil ds hne
        have hC : 0 < C := by
          have := hl _ (List.mem_map.2 ⟨d0, hd0, rfl⟩)
          omega
        have key : ∀ l : List (Vec K ℝ × Given K V), LabelsOk C (l.map fun d => d.2.1.cls) →
            secondOrderDefault C (l.map meanTopics) (l.map varTopics) (l.map fun d => d.2.1.cls)
              cfg.penalty =
            secondOrderDefault C
              ((l.map fun d => (meanTopics d, varTopics d, toClass hC d.2.1.cls)).map Prod.fst)
              ((l.map fun d => (meanTopics d, varTopics d, toClass hC d.2.1.cls)).map fun d => d.2.1)
              ((l.map fun d => (meanTopics d, varTopics d, toClass hC d.2.1.cls)).map fun d => (d.2.2 : ℤ))
              cfg.penalty := by
          intro l hl
          rw [List.map_map, List.map_map, List.map_map]
          congr 1
          exact List.map_congr_left fun d hd => (toClass_eq hC (hl _ (List.mem_map.2 ⟨d, hd, rfl⟩))).symm
        rw [key ds hl, key ds' (hlab.1 hl), secondOrderDefault_perm (h.map _) ?_]
        intro a ha
        obtain ⟨d, hd, rfl⟩ := List.mem_map.1 ha
        exact varTopics_psd (hw d hd)
      · rw [descend_bad_label_second hl, descend_bad_label_second fun e => hl (hlab.2 e)]
    have := congrArg (Option.map fun r : Mat K C ℝ × List ℝ => (r.1, r.2.map some)) key
    simpa [Option.map_bind, Function.comp_def] using this
  · push Not at hw
    obtain ⟨d, hd, h0⟩ := hw
    have hz : ∀ l : List (Vec K ℝ × Given K V), d ∈ l →
        readAll (l.map fun d => supZbar (numWords d.2.1.words) d.2.2.gamma d.1) = none := by
      intro l hd
      apply readAll_none
      refine List.mem_map.2 ⟨d, hd, ?_⟩
      rw [supZbar, if_pos]
      exact h0
    have hne : ∀ l : List (Vec K ℝ × Given K V), d ∈ l → (l.map fun d => d.2.1.cls) ≠ [] := by
      intro l hl e
      rw [List.map_eq_nil_iff] at e
      subst e
      simp at hl
    simp only [supDescend, hz ds hd, hz ds' (h.mem_iff.1 hd)]
    by_cases hl : LabelsOk C (ds.map fun d => d.2.1.cls)
    · rw [if_pos ⟨hl, (defaultWeights_isSome hl).2 (hne ds hd)⟩,
        if_pos ⟨hlab.1 hl, (defaultWeights_isSome (hlab.1 hl)).2 (hne ds' (h.mem_iff.1 hd))⟩]
    · rw [if_neg fun e => hl e.1, if_neg fun e => hl (hlab.2 e.1)]

/-- The topics do not depend on the order of the documents. -/
theorem uBeta_perm {b b' : Buf K V} {ds ds' : List (Given K V)} (h : BufIs b ds) (h' : BufIs b' ds')
    (hp : ds.Perm ds') (hn : b = none ↔ b' = none) : uBeta b = uBeta b' := by
  cases b with
  | none => rw [hn.1 rfl]
  | some b =>
    cases b' with
    | none => exact absurd (hn.2 rfl) (by simp)
    | some b' =>
      have h1 : b = expectedCounts ds := h
      have h2 : b' = expectedCounts ds' := h'
      rw [h1, h2, expectedCounts_perm hp]

theorem wordCount_perm {l l' : List (Sample K V C)} (h : l.Perm l') : wordCount l = wordCount l' := by
  funext k n
  exact (h.map _).sum_eq

theorem classCount_perm {l l' : List (Sample K V C)} (h : l.Perm l') : classCount l = classCount l' := by
  funext k c
  exact ((h.filter _).map _).sum_eq

end Verif.MStep
