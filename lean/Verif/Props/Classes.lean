import Verif.Lemmas.ClassesM
import Verif.Lemmas.Renaming
import Verif.Props.Decision
import Verif.Props.Online

/-! Property C115: renumbering the classes.

`relabel π` is the new label of a document, `cols π` renumbers the columns of `eta`: class `c` of the new numbering is
class `π c` of the old one. -/

namespace Verif.EStep

open MathUtils Finset

variable {K V C : ℕ} (π : Equiv.Perm (Fin C)) (P : Prims) (cfg : Cfg)

/-! ### The expectation steps -/

/-- **C115**, unsupervised step: the classes play no part. -/
theorem C115_unsupervised (draw : ℝ) (X : Vec V ℕ) (m : Model K V C) :
    unsupervised P cfg draw X (m.classes π) = unsupervised P cfg draw X m := rfl

theorem fastRun_classes (w : ℝ) (X : Vec V ℕ) (y : ℤ) (m : Model K V C) :
    fastRun P cfg w X (relabel π y) (m.classes π) = fastRun P cfg w X y m := by
  have e : fastStep P w X (relabel π y) (m.classes π) = fastStep P w X y m := by
    funext s
    simp only [fastStep, Model.classes, approximatePhi_classes]
  simp only [fastRun, e]
  rfl

/-- **C115**, fast supervised step: with the classes of the model and the label of the document renumbered the result
and the reported likelihood are the same. -/
theorem C115_fast (w draw : ℝ) (X : Vec V ℕ) (y : ℤ) (m : Model K V C) :
    fast P cfg w draw X (relabel π y) (m.classes π) = fast P cfg w draw X y m := by
  rw [fast, fastRun_classes]
  simp only [fast, Model.classes, supervisedLikelihood'_classes]

/-- **C115**, supervised step. -/
theorem C115_supervised (fp : ℕ) (draw : ℝ) (X : Vec V ℕ) (y : ℤ) (m : Model K V C) :
    supervised P cfg fp draw X (relabel π y) (m.classes π) = supervised P cfg fp draw X y m := by
  have e : supervisedPhiGamma P X (ratio X) (relabel π y) m.beta (cols π m.eta) fp =
      supervisedPhiGamma P X (ratio X) y m.beta m.eta fp :=
    funext fun s => supervisedPhiGamma_classes π P X (ratio X) y m.beta m.eta fp s
  have e' : supervisedRun P cfg fp X (relabel π y) (m.classes π) = supervisedRun P cfg fp X y m := by
    simp only [supervisedRun, Model.classes, e]
  rw [supervised, e']
  simp only [supervised, Model.classes, supervisedLikelihood_classes]

/-- **C115**, multinomial step. -/
theorem C115_multinomial (ew mu prior : ℝ) (size : ℕ) (draw : ℝ) (X : Vec V ℕ) (y : ℤ) (m : Model K V C) :
    multinomial P cfg ew mu prior size draw X (relabel π y) (m.classes π) =
      multinomial P cfg ew mu prior size draw X y m := by
  have e : multinomialStep P ew X (relabel π y) (m.classes π) = multinomialStep P ew X y m := by
    funext s
    simp only [multinomialStep, Model.classes, multinomialPhi_classes]
  have e' : multinomialRun P cfg ew X (relabel π y) (m.classes π) = multinomialRun P cfg ew X y m := by
    simp only [multinomialRun, e]
    rfl
  rw [multinomial, e']
  simp only [multinomial, Model.classes, multinomialLikelihood_classes]

/-- **C115**, correspondence step. -/
theorem C115_correspondence (mu : ℝ) (size : ℕ) (draw : ℝ) (X : Vec V ℕ) (y : ℤ) (m : Model K V C) :
    correspondence P cfg mu size draw X (relabel π y) (m.classes π) =
      correspondence P cfg mu size draw X y m := by
  have e : correspondenceStep P X (relabel π y) (m.classes π) = correspondenceStep P X y m := by
    funext s
    simp only [correspondenceStep, Model.classes, correspondencePhi_classes, correspondenceTau_classes]
  have e' : correspondenceRun P cfg X (relabel π y) (m.classes π) = correspondenceRun P cfg X y m := by
    simp only [correspondenceRun, e]
    rfl
  rw [correspondence, e']
  simp only [correspondence, Model.classes, correspondenceLikelihood_classes]

end Verif.EStep

namespace Verif.Decision

open MathUtils MStep EStep

variable {K C D : ℕ}

/-! ### Classification -/

/-- **C115**, `decision_function`: the scores are renumbered. -/
theorem C115_scores (π : Equiv.Perm (Fin C)) (alpha : Vec K ℝ) (eta : Mat K C ℝ) (X : Mat K D ℝ) (c : Fin C)
    (d : Fin D) : decisionFunction alpha (cols π eta) X c d = decisionFunction alpha eta X (π c) d := rfl

theorem maxIndex_unique {v : Vec C (Ieee ℝ)} {p : Fin C} (h : ∀ c, c ≠ p → gt (v p) (v c) = true)
    (hp : v p ≠ .nan) : maxIndex v = some p := by
  obtain ⟨C, rfl⟩ : ∃ c, C = c + 1 := ⟨C - 1, by have := p.isLt; omega⟩
  have hno : ∀ c, gt (v c) (v p) = false := by
    intro c
    by_cases hc : c = p
    · subst hc
      cases hv : v c <;> simp [gt]
    · have := h c hc
      cases hv : v p <;> cases hw : v c <;> simp_all [gt]
      exact le_of_lt this
  have key : ∀ (l : List (Fin (C + 1))) (b : Fin (C + 1)), b = p ∨ p ∈ l →
      l.foldl (fun best c => if gt (v c) (v best) then c else best) b = p := by
    intro l
    induction l with
    | nil =>
      intro b hb
      simpa using hb
    | cons a l ih =>
      intro b hb
      rw [List.foldl_cons]
      apply ih
      by_cases hbp : b = p
      · subst hbp
        left
        simp [hno]
      · rcases hb with hb | hb
        · exact absurd hb hbp
        · rcases List.mem_cons.1 hb with rfl | hb
          · left
            simp [h b hbp]
          · exact .inr hb
  exact congrArg some (key _ _ (.inr (List.mem_finRange p)))

/-- **C115**, `predict`: if for every document one class has a score higher than all the others, the predictions are the
renumbered ones. -/
theorem C115_predict (π : Equiv.Perm (Fin C)) {scores : Mat C D (Ieee ℝ)}
    (h : ∀ d, ∃ p, scores p d ≠ .nan ∧ ∀ c, c ≠ p → gt (scores p d) (scores c d) = true) :
    predict (fun c d => scores (π c) d) = (predict scores).map (List.map π.symm) := by
  choose p hp1 hp2 using h
  have e1 : predict scores = some ((List.finRange D).map p) :=
    mapM_some _ _ _ fun d _ => maxIndex_unique (hp2 d) (hp1 d)
  have e2 : predict (fun c d => scores (π c) d) = some ((List.finRange D).map fun d => π.symm (p d)) := by
    refine mapM_some _ _ _ fun d _ => maxIndex_unique ?_ ?_
    · intro c hc
      have := hp2 d (π c) fun e => hc (by rw [← e]; simp)
      simpa using this
    · simpa using hp1 d
  rw [e1, e2, Option.map_some, List.map_map]
  rfl

/-- **C115** is false for a document whose two classes have the same score: the class with the smaller number is
predicted. -/
theorem C115_ties_negation : ∃ (π : Equiv.Perm (Fin 2)) (scores : Mat 2 1 (Ieee ℝ)),
    predict (fun c d => scores (π c) d) ≠ (predict scores).map (List.map π.symm) := by
  refine ⟨Equiv.swap 0 1, fun _ _ => .fin 0, ?_⟩
  have : predict (fun (_ : Fin 2) (_ : Fin 1) => (Ieee.fin 0 : Ieee ℝ)) = some [0] := by
    simp [predict, List.finRange_succ, maxIndex, gt]
  rw [this]
  simp

/-- The hypothesis of `C115_predict`: three classes and two documents. -/
example : ∀ d : Fin 2, ∃ p : Fin 3, (Ieee.fin (if p = 2 then (5 : ℝ) + d else 1) : Ieee ℝ) ≠ .nan ∧
    ∀ c, c ≠ p → gt (.fin (if p = 2 then (5 : ℝ) + d else 1)) (.fin (if c = 2 then (5 : ℝ) + d else 1)) = true := by
  intro d
  refine ⟨2, by simp, fun c hc => ?_⟩
  have : (0 : ℝ) ≤ ((d : ℕ) : ℝ) := Nat.cast_nonneg _
  simp only [gt, if_pos, if_neg hc, decide_eq_true_eq]
  linarith

end Verif.Decision

namespace Verif.MStep

open MathUtils EStep Optim Finset

variable {K V C : ℕ}

/-! ### The maximisation steps -/

/-- A document with its label renumbered. -/
def Doc.relabel (π : Equiv.Perm (Fin C)) (d : Doc V) : Doc V := { d with cls := EStep.relabel π d.cls }

/-- The members of the fast supervised step with renumbered labels. -/
def FastState.relabel (π : Equiv.Perm (Fin C)) (s : FastState K V) : FastState K V :=
  { s with y := s.y.map (Option.map (EStep.relabel π)) }

/-- The members of the supervised step with renumbered labels. -/
def SupState.relabel (π : Equiv.Perm (Fin C)) (s : SupState K V) : SupState K V :=
  { s with y := s.y.map (Option.map (EStep.relabel π)) }

/-- The members of the multinomial and correspondence steps with renumbered classes. -/
def MultState.relabel (π : Equiv.Perm (Fin C)) (s : MultState K V C) : MultState K V C :=
  { s with bufs := s.bufs.map fun p => (p.1, cols π p.2) }

theorem resize_map {α β : Type} (f : α → β) (l : List (Option α)) (n : ℕ) :
    resize (l.map (Option.map f)) n = (resize l n).map (Option.map f) := by
  simp [resize, List.map_take]

theorem setAt_map {α β : Type} (f : α → β) (l : List (Option α)) (i : ℕ) (v : α) :
    setAt (l.map (Option.map f)) i (f v) = (setAt l i v).map (List.map (Option.map f)) := by
  unfold setAt
  rw [List.length_map]
  split
  · rw [Option.map_some, List.map_set]
    rfl
  · rfl

theorem readAll_map {α β : Type} (f : α → β) (l : List (Option α)) :
    readAll (l.map (Option.map f)) = (readAll l).map (List.map f) := by
  induction l with
  | nil => rfl
  | cons a l ih =>
    cases a with
    | none => rfl
    | some a =>
      simp only [List.map_cons, Option.map_some, readAll, ih, Option.map_map]
      rfl

variable (π : Equiv.Perm (Fin C))

theorem fastDoc_relabel (alpha : Vec K ℝ) (d : Doc V) (vp : VP K V) (s : FastState K V) :
    fastDoc alpha (d.relabel π) vp (s.relabel π) = (fastDoc alpha d vp s).map (FastState.relabel π) := by
  simp only [fastDoc, FastState.relabel, Doc.relabel, resize_map, ← apply_ite (List.map (Option.map (EStep.relabel π))),
    setAt_map]
  cases setAt (if s.zbar.length ≤ s.docs then resize s.y (s.docs + 1) else s.y) s.docs d.cls with
  | none => rfl
  | some y =>
    simp only [Option.map_some, Option.bind_some, Option.map_map]
    rfl

theorem semiDoc_relabel (alpha : Vec K ℝ) (d : Doc V) (vp : VP K V) (s : FastState K V) :
    semiDoc alpha (d.relabel π) vp (s.relabel π) = (semiDoc alpha d vp s).map (FastState.relabel π) := by
  unfold semiDoc
  rw [fastDoc_relabel]
  have : (d.relabel π).cls < 0 ↔ d.cls < 0 := relabel_neg π d.cls
  simp only [this]
  split <;> rfl

theorem supDoc_relabel (alpha : Vec K ℝ) (d : Doc V) (vp : VP K V) (s : SupState K V) :
    supDoc alpha (d.relabel π) vp (s.relabel π) = (supDoc alpha d vp s).map (SupState.relabel π) := by
  simp only [supDoc, SupState.relabel, Doc.relabel, resize_map, ← apply_ite (List.map (Option.map (EStep.relabel π))),
    setAt_map]
  split
  · rfl
  · cases setAt (if s.zbar.length ≤ s.docs then resize s.y (s.docs + 1) else s.y) s.docs d.cls with
    | none => rfl
    | some y =>
      simp only [Option.map_some, Option.bind_some, Option.map_bind, Option.map_map, Function.comp_def]
      rfl

theorem multAdd_relabel (eta : Mat K C ℝ) (cls : ℤ) (t : Mat K V ℝ) (s : MultState K V C) :
    multAdd (cols π eta) (EStep.relabel π cls) t (s.relabel π) =
      (multAdd eta cls t s).map (MultState.relabel π) := by
  unfold multAdd
  rw [colAt_classes, Option.map_map]
  congr 1
  funext ey
  have e : ∀ c : Fin C, ((c : ℕ) : ℤ) = EStep.relabel π cls ↔ (((π c : Fin C) : ℕ) : ℤ) = cls := by
    intro c
    rw [← relabel_class π c]
    exact (relabel_injective π).eq_iff
  obtain ⟨bufs, logpy⟩ := s
  cases bufs with
  | none =>
    simp only [MultState.relabel, Option.map_none, Function.comp, Option.map_some, e]
    rfl
  | some p =>
    simp only [MultState.relabel, Function.comp, Option.map_some, e]
    rfl

theorem multM_relabel (mu : ℝ) (s : MultState K V C) :
    multM mu (s.relabel π) = (⟨(multM mu s).1.params.map fun p => (p.1, cols π p.2), (multM mu s).1.event⟩,
      (multM mu s).2.relabel π) := by
  obtain ⟨bufs, logpy⟩ := s
  cases bufs with
  | none => rfl
  | some p =>
    have e : normalizeRows (fun k c => cols π p.2 k c + mu - 1) =
        cols π (normalizeRows fun k c => p.2 k c + mu - 1) := by
      funext k c
      have := Equiv.sum_comp π fun c => p.2 k c + mu - 1
      simp only [normalizeRows_apply, cols]
      rw [this]
    simp only [multM, MultState.relabel, Option.map_some, e]
    rfl

/-- **C115**, `m_step` of the fast supervised and semi supervised steps: if the highest number in use is the same in
both numberings (it is if every class has a document, `sameTop_of_all`), the new `eta` is the renumbered one, and
everything else is the same. -/
theorem C115_fast_m_partial (cfg : SupCfg) (eta : Mat K C ℝ) (s : FastState K V)
    (ht : ∀ ys, readAll (resize s.y s.docs) = some ys → SameTop π ys) :
    fastM cfg (cols π eta) (s.relabel π) =
      (fastM cfg eta s).map fun o => (⟨o.1.beta, cols π o.1.eta, o.1.events⟩, o.2.relabel π) := by
  simp only [fastM, FastState.relabel, resize_map, readAll_map]
  cases readAll (resize s.zbar s.docs) with
  | none => rfl
  | some zs =>
    cases hy : readAll (resize s.y s.docs) with
    | none => rfl
    | some ys =>
      have h := congrArg (Option.map fun r : Mat K C ℝ × List ℝ =>
        ((⟨(uM s.b).1, r.1, r.2.map some⟩ : MOut K V C), (⟨(uM s.b).2, 0, resize s.zbar s.docs,
          (resize s.y s.docs).map (Option.map (EStep.relabel π))⟩ : FastState K V)))
        (logistic_descend_relabel zs (ht ys hy) cfg eta)
      simp only [Option.map_bind, Option.map_map, Function.comp_def] at h
      simp only [Option.map_some, Option.bind_some, Option.map_bind, Option.map_map, Function.comp_def]
      exact h

/-- **C115**, `m_step` of the supervised step. -/
theorem C115_supervised_m_partial (cfg : SupCfg) (eta : Mat K C ℝ) (s : SupState K V)
    (ht : ∀ ys, readAll (resize s.y s.docs) = some ys → SameTop π ys) :
    supM cfg (cols π eta) (s.relabel π) =
      (supM cfg eta s).map fun o => (⟨o.1.beta, cols π o.1.eta, o.1.events⟩, o.2.relabel π) := by
  simp only [supM, SupState.relabel, resize_map, readAll_map]
  cases readAll (resize s.zbar s.docs) with
  | none => rfl
  | some zs =>
    cases readAll (resize s.var s.docs) with
    | none => rfl
    | some vs =>
      cases hy : readAll (resize s.y s.docs) with
      | none => rfl
      | some ys =>
        simp only [Option.map_some, Option.bind_some, supDescend_relabel cfg zs vs (ht ys hy) eta, Option.map_map]
        rfl

/-- **C115**, the multinomial and correspondence steps: `doc_m_step` and `m_step`, without conditions. -/
theorem C115_multinomial_m (mu : ℝ) (eta : Mat K C ℝ) (d : Doc V) (phi : Mat K V ℝ) (tau : Vec V ℝ)
    (s : MultState K V C) :
    multDoc (cols π eta) (d.relabel π) phi (s.relabel π) = (multDoc eta d phi s).map (MultState.relabel π) ∧
    corrDoc (cols π eta) (d.relabel π) phi tau (s.relabel π) =
      (corrDoc eta d phi tau s).map (MultState.relabel π) ∧
    multM mu (s.relabel π) = (⟨(multM mu s).1.params.map fun p => (p.1, cols π p.2), (multM mu s).1.event⟩,
      (multM mu s).2.relabel π) :=
  ⟨multAdd_relabel π _ _ _ _, multAdd_relabel π _ _ _ _, multM_relabel π mu s⟩

/-! ### The online step -/

theorem onlineEta_relabel (cfg : OnlineCfg C) (z : List (Option (Vec K ℝ))) {y : List ℤ} (ht : SameTop π y)
    (vel eta : Option (Mat K C ℝ)) :
    onlineEta cfg z (y.map (EStep.relabel π)) (vel.map (cols π)) (eta.map (cols π)) =
      (onlineEta cfg z y vel eta).map fun r => (r.1.map (cols π), r.2.1.map (cols π), r.2.2) := by
  have hbad : (if LabelsOk C (y.map (EStep.relabel π)) ∧ (defaultWeights (y.map (EStep.relabel π))).isSome then
      some ((none : Option (Mat K C ℝ)), (none : Option (Mat K C ℝ)), (none : Option ℝ)) else none) =
      (if LabelsOk C y ∧ (defaultWeights y).isSome then
        some ((none : Option (Mat K C ℝ)), (none : Option (Mat K C ℝ)), (none : Option ℝ)) else none).map
        fun r => (r.1.map (cols π), r.2.1.map (cols π), r.2.2) := by
    by_cases hl : LabelsOk C y
    · have hs : (defaultWeights (y.map (EStep.relabel π))).isSome ↔ (defaultWeights y).isSome := by
        rw [defaultWeights_isSome hl, defaultWeights_isSome (labelsOk_relabel.2 hl)]
        simp
      simp only [hl, labelsOk_relabel.2 hl, true_and, hs]
      split <;> rfl
    · rw [if_neg fun e => hl (labelsOk_relabel.1 e.1), if_neg fun e => hl e.1]
      rfl
  cases hz : readAll z with
  | none => rw [onlineEta_none (.inl hz), onlineEta_none (.inl hz)]; exact hbad
  | some zs =>
    cases vel with
    | none => rw [Option.map_none, onlineEta_none (.inr (.inl rfl)), onlineEta_none (.inr (.inl rfl))]; exact hbad
    | some v =>
      cases eta with
      | none =>
        rw [Option.map_none, onlineEta_none (.inr (.inr rfl)), onlineEta_none (.inr (.inr rfl))]; exact hbad
      | some e =>
        rw [Option.map_some, Option.map_some, onlineEta_some hz, onlineEta_some hz]
        by_cases hl : LabelsOk C y
        · by_cases hne : y = []
          · subst hne
            simp [logisticDefault, C59_undefined.1]
          · obtain ⟨Cy, Cy', h1, h2, h3⟩ := sameWeights_default hne hl ht
            have hr := logistic_renumbered h3 zs cfg.penalty
            simp only [logisticDefault, h1, h2, Option.map_some, Option.bind_some, hr.gradient]
            cases (logistic C zs y Cy cfg.penalty).gradient e with
            | none => rfl
            | some g =>
              simp only [Option.map_some, Option.bind_some]
              have hv := hr.value fun k c => e k c + (cfg.momentum * v k c - cfg.rate * g k c)
              have hv' : (logistic C zs (y.map (EStep.relabel π)) Cy' cfg.penalty).value
                  (fun k c => cols π e k c + (cfg.momentum * cols π v k c - cfg.rate * cols π g k c)) =
                  (logistic C zs y Cy cfg.penalty).value
                    fun k c => e k c + (cfg.momentum * v k c - cfg.rate * g k c) := hv
              rw [hv', Option.map_map]
              rfl
        · simp only [LabelsOk, not_forall] at hl
          obtain ⟨a, ha, hb⟩ := hl
          have hb' : ¬ (0 ≤ EStep.relabel π a ∧ EStep.relabel π a < (C : ℤ)) := fun e => hb ((relabel_range π a).1 e)
          have key : ∀ (y : List ℤ) (a : ℤ) (f : Mat K C ℝ → Mat K C ℝ → Mat K C ℝ), a ∈ y →
              ¬ (0 ≤ a ∧ a < (C : ℤ)) → ∀ (x : Mat K C ℝ) (F : Mat K C ℝ → ℝ → Option (Mat K C ℝ) ×
                Option (Mat K C ℝ) × Option ℝ),
              ((logisticDefault C zs y cfg.penalty).bind fun pr => (pr.gradient x).bind fun g =>
                (pr.value (f x g)).map (F g)) = none := by
            intro y a f ha hb x F
            cases hw : defaultWeights y with
            | none => simp [logisticDefault, hw]
            | some Cy =>
              simp only [logisticDefault, hw, Option.map_some, Option.bind_some]
              cases (logistic C zs y Cy cfg.penalty).gradient x with
              | none => rfl
              | some g =>
                have := (C57_undefined (X := zs) (Cy := Cy) (L := cfg.penalty) ha (by omega) (f x g)).1
                simp [this]
          rw [key (y.map (EStep.relabel π)) (EStep.relabel π a)
              (fun e g k c => e k c + (cfg.momentum * cols π v k c - cfg.rate * g k c))
              (List.mem_map.2 ⟨a, ha, rfl⟩) hb' (cols π e)
              fun g w => (some fun k c => cfg.momentum * cols π v k c - cfg.rate * g k c,
                some fun k c => cols π e k c + (cfg.momentum * cols π v k c - cfg.rate * g k c), some (-w)),
            key y a (fun e g k c => e k c + (cfg.momentum * v k c - cfg.rate * g k c)) ha hb e
              fun g w => (some fun k c => cfg.momentum * v k c - cfg.rate * g k c,
                some fun k c => e k c + (cfg.momentum * v k c - cfg.rate * g k c), some (-w))]
          rfl

/-- A call with the label of its document renumbered. -/
def relabelCall (c : Call (DocArg K V) Unit) : Call (DocArg K V) Unit :=
  match c with
  | .doc a => .doc (a.1, a.2.1.relabel π, a.2.2)
  | .step _ => .step ()

theorem given_relabel (h : List (Call (DocArg K V) Unit)) :
    given (h.map (relabelCall π)) = (given h).map fun a => (a.1, a.2.1.relabel π, a.2.2) := by
  induction h with
  | nil => rfl
  | cons c h ih => cases c <;> simp [relabelCall, ih]

/-- The labels of the `j`-th minibatch. -/
def batchLabels (m j : ℕ) (ds : List (DocArg K V)) : List ℤ := ((ds.drop (m * j)).take m).map fun d => d.2.1.cls

/-- **C115**, online step: if in every minibatch the highest number in use is the same in both numberings, then after
any history the topics and the events are the same, and `eta` and its velocity are renumbered. -/
theorem C115_online_partial {cfg : OnlineCfg C} (hmb : 0 < cfg.minibatch) (beta : Mat K V ℝ) (eta : Mat K C ℝ)
    (h : List (Call (DocArg K V) Unit))
    (ht : ∀ j, cfg.minibatch * (j + 1) ≤ (given h).length → SameTop π (batchLabels cfg.minibatch j (given h))) :
    (onlineHistory { cfg with classWeights := fun c => cfg.classWeights (π c) } beta (cols π eta)
        (h.map (relabelCall π))).map (fun r => (r.1.beta, r.1.eta, r.1.velocity, r.2)) =
      (onlineHistory cfg beta eta h).map fun r =>
        (r.1.beta, r.1.eta.map (cols π), r.1.velocity.map (cols π), r.2) := by
  rw [C53_weights_ignored]
  induction h using List.reverseRecOn with
  | nil => rfl
  | append_singleton h c ih =>
    have hpre : ∀ j, cfg.minibatch * (j + 1) ≤ (given h).length →
        SameTop π (batchLabels cfg.minibatch j (given h)) := by
      intro j hj
      have e : batchLabels cfg.minibatch j (given (h ++ [c])) = batchLabels cfg.minibatch j (given h) := by
        rw [given_snoc]
        cases c with
        | step => rfl
        | doc a =>
          have : cfg.minibatch * j + cfg.minibatch ≤ (given h).length := by rw [Nat.mul_succ] at hj; exact hj
          simp only [batchLabels]
          rw [List.drop_append_of_le_length (by omega), List.take_append_of_le_length (by rw [List.length_drop]; omega)]
      rw [← e]
      apply ht
      rw [given_snoc]
      cases c with
      | step => exact hj
      | doc a => rw [List.length_append]; omega
    have ih := ih hpre
    rw [List.map_append, List.map_singleton]
    cases hs : onlineHistory cfg beta eta h with
    | none =>
      rw [hs, Option.map_none, Option.map_eq_none_iff] at ih
      simp only [onlineHistory] at hs ih ⊢
      rw [history_snoc, history_snoc, hs, ih]
      rfl
    | some r =>
      obtain ⟨s, ev⟩ := r
      rw [hs, Option.map_some, Option.map_eq_some_iff] at ih
      obtain ⟨⟨s', ev'⟩, hs', e⟩ := ih
      simp only [Prod.mk.injEq] at e
      obtain ⟨e1, e2, e3, rfl⟩ := e
      cases c with
      | step u =>
        rw [show (Call.step u : Call (DocArg K V) Unit) = .step () from rfl, relabelCall, C52_m_step_no_op hmb hs,
          C52_m_step_no_op hmb hs']
        simp [e1, e2, e3]
      | doc a =>
        by_cases hn : cfg.minibatch ∣ (given h).length + 1
        · have hn' : cfg.minibatch ∣ (given (h.map (relabelCall π))).length + 1 := by
            rw [given_relabel, List.length_map]
            exact hn
          rw [relabelCall, online_complete hmb hs a hn, online_complete hmb hs' _ hn', given_relabel]
          obtain ⟨j, hj⟩ := hn
          obtain ⟨j, rfl⟩ : ∃ i, j = i + 1 := ⟨j - 1, by
            have : j ≠ 0 := by rintro rfl; simp at hj
            omega⟩
          have hb : (lastBatch cfg.minibatch (given h ++ [a])).map (fun d => d.2.1.cls) =
              batchLabels cfg.minibatch j (given h ++ [a]) := by
            have : (given h ++ [a]).length - cfg.minibatch = cfg.minibatch * j := by
              rw [List.length_append, List.length_singleton, hj, Nat.mul_succ]
              omega
            rw [lastBatch, batchLabels, this, List.take_of_length_le]
            rw [List.length_drop, List.length_append, List.length_singleton, hj, Nat.mul_succ]
            omega
          have hT : SameTop π ((lastBatch cfg.minibatch (given h ++ [a])).map fun d => d.2.1.cls) := by
            rw [hb]
            have := ht j (by rw [given_snoc, List.length_append, List.length_singleton, hj])
            rwa [given_snoc] at this
          have hmap : (given h).map (fun a => (a.1, a.2.1.relabel π, a.2.2)) ++ [(a.1, a.2.1.relabel π, a.2.2)] =
              (given h ++ [a]).map fun a => (a.1, a.2.1.relabel π, a.2.2) := by simp
          have hlb : lastBatch cfg.minibatch ((given h ++ [a]).map fun a => (a.1, a.2.1.relabel π, a.2.2)) =
              (lastBatch cfg.minibatch (given h ++ [a])).map fun a => (a.1, a.2.1.relabel π, a.2.2) := by
            rw [lastBatch, lastBatch, List.length_map, List.map_drop]
          have hec : expectedCounts (((given h ++ [a]).map fun a => (a.1, a.2.1.relabel π, a.2.2)).map Prod.snd) =
              expectedCounts ((given h ++ [a]).map Prod.snd) := by
            funext k n
            simp only [expectedCounts, List.map_map]
            rfl
          have hx : ((lastBatch cfg.minibatch (given h ++ [a])).map fun a => (a.1, a.2.1.relabel π, a.2.2)).map share =
              (lastBatch cfg.minibatch (given h ++ [a])).map share := by
            rw [List.map_map]
            rfl
          have hy : ((lastBatch cfg.minibatch (given h ++ [a])).map fun a => (a.1, a.2.1.relabel π, a.2.2)).map
              (fun d => d.2.1.cls) =
              ((lastBatch cfg.minibatch (given h ++ [a])).map fun d => d.2.1.cls).map (EStep.relabel π) := by
            rw [List.map_map, List.map_map]
            rfl
          rw [hmap, hlb, hec, hx, hy, e1, e2, e3, onlineEta_relabel π cfg _ hT, Option.map_map, Option.map_map,
            Option.map_map]
          rfl
        · have hn' : ¬ cfg.minibatch ∣ (given (h.map (relabelCall π))).length + 1 := by
            rw [given_relabel, List.length_map]
            exact hn
          obtain ⟨t, t1, t2, t3, t4⟩ := C52_between hmb hs a hn
          obtain ⟨t', u1, u2, u3, u4⟩ := C52_between hmb hs' (a.1, a.2.1.relabel π, a.2.2) hn'
          rw [relabelCall, t1, u1]
          simp [t2, t3, t4, u2, u3, u4, e1, e2, e3]

end Verif.MStep

namespace Verif.MStep

open MathUtils EStep Optim Finset

/-- One document with label `y`, given to the online step with minibatches of one document, starting from `eta = 0`:
the entry of `eta` for its class. -/
theorem online_single (y : Fin 2) : ∃ (s : OnlineState 1 1 2) (ev : List (Option ℝ)) (e1 : Mat 1 2 ℝ),
    onlineHistory onlineCfg2 (fun _ _ => 1) (fun _ _ => 0)
      [.doc ((fun _ => 1, ⟨fun _ => 1, (y : ℤ)⟩, { gamma := fun _ => 2, phi := fun _ _ => 1 }) : DocArg 1 1)] =
      some (s, ev) ∧ s.eta = some e1 ∧ e1 0 y = 1 / (2 * ((y : ℕ) + 1)) := by
  let d : DocArg 1 1 := (fun _ => 1, ⟨fun _ => 1, (y : ℤ)⟩, { gamma := fun _ => 2, phi := fun _ _ => 1 })
  let data : List (Vec 1 ℝ × Fin 2) := [(fun _ => 1, y)]
  have hx : data.map Prod.fst = [topicShare d.1 d.2.2.gamma] := by
    simp only [data, d, List.map_cons, List.map_nil, List.cons.injEq, and_true]
    funext k
    norm_num [topicShare]
  have hs0 : onlineHistory (K := 1) (V := 1) onlineCfg2 (fun _ _ => 1) (fun _ _ => 0) [] =
      some (⟨none, 0, some fun _ _ => 1, some fun _ _ => 0⟩, []) := rfl
  obtain ⟨_, s, w, n, g, e1, ⟨⟨a, ha, hn⟩, _⟩, hw, hg, he1, hs1, _, hs⟩ := C52_update_eta (by simp [onlineCfg2]) hs0 d
    (by simp [onlineCfg2]) rfl rfl (by norm_num [lastBatch, onlineCfg2, d]) (data := data)
    (by simpa [lastBatch, onlineCfg2] using hx) (by simp [lastBatch, onlineCfg2, data, d])
  refine ⟨s, _, e1, hs, hs1, ?_⟩
  have hn1 : n = (y : ℕ) + 1 := by
    simp only [data, List.mem_singleton] at ha
    subst ha
    simpa using hn.symm
  have hw0 : w y = 1 / ((y : ℕ) + 1) := by
    have := hw (fun _ => 1, y) (by simp [data])
    simpa [data, hn1] using this
  have hg1 := isGradient_unique hg (isGradient_logistic data w onlineCfg2.penalty _)
  rw [he1, hg1]
  have hp : (0 : ℝ) < (y : ℕ) + 1 := by positivity
  simp only [data, onlineCfg2, List.map_cons, List.map_nil, List.sum_cons, List.sum_nil, hw0, if_true]
  norm_num

/-- **C115** is false for the online step and a minibatch in which a class does not occur: a document with label 0
moves `eta` by 1/2 towards its class, the same document with label 1 by 1/4 only, because the weight of a class depends
on the highest number in the minibatch. -/
theorem C115_online_negation : ∃ (π : Equiv.Perm (Fin 2)) (beta : Mat 1 1 ℝ) (eta : Mat 1 2 ℝ) (d : DocArg 1 1)
    (s s' : OnlineState 1 1 2) (ev ev' : List (Option ℝ)),
    onlineHistory onlineCfg2 beta eta [.doc d] = some (s, ev) ∧
    onlineHistory onlineCfg2 beta (cols π eta) ([Call.doc d].map (relabelCall π)) = some (s', ev') ∧
    s'.eta ≠ s.eta.map (cols π) := by
  obtain ⟨s, ev, e1, h1, h2, h3⟩ := online_single 0
  obtain ⟨s', ev', e1', h1', h2', h3'⟩ := online_single 1
  refine ⟨Equiv.swap 0 1, fun _ _ => 1, fun _ _ => 0, _, s, s', ev, ev', h1, ?_, ?_⟩
  · rw [← h1']
    have : EStep.relabel (Equiv.swap (0 : Fin 2) 1) (((0 : Fin 2) : ℕ) : ℤ) = (((1 : Fin 2) : ℕ) : ℤ) := by
      rw [← relabel_class (Equiv.swap (0 : Fin 2) 1) 1, Equiv.swap_apply_right]
    simp only [List.map_cons, List.map_nil, relabelCall, Doc.relabel, this]
    rfl
  · rw [h2, h2', Option.map_some]
    intro e
    have := congrFun (congrFun (Option.some.inj e) 0) 1
    rw [h3', cols, Equiv.swap_apply_right, h3] at this
    norm_num at this

/-- The hypothesis of `C115_online_partial`, for minibatches of two documents and two classes of which each occurs. -/
example (π : Equiv.Perm (Fin 2)) (d : DocArg 1 1) : ∀ j, 2 * (j + 1) ≤ (given
    [Call.doc ((d.1, ⟨d.2.1.words, 1⟩, d.2.2) : DocArg 1 1), .doc (d.1, ⟨d.2.1.words, 0⟩, d.2.2), .step ()]).length →
    SameTop π (batchLabels 2 j (given
      [Call.doc ((d.1, ⟨d.2.1.words, 1⟩, d.2.2) : DocArg 1 1), .doc (d.1, ⟨d.2.1.words, 0⟩, d.2.2), .step ()])) := by
  intro j hj
  have : j = 0 := by simp at hj; omega
  subst this
  apply sameTop_of_all
  intro c
  fin_cases c <;> simp [batchLabels]

end Verif.MStep

namespace Verif.Train

open MathUtils EStep MStep Optim Pool Finset

variable {K V C : ℕ} {T : Type}

/-! ### Training -/

/-- Model parameters with renumbered classes. -/
def Params.classes (π : Equiv.Perm (Fin C)) (q : Params K V C) : Params K V C := { q with eta := cols π q.eta }

/-- The same for the multinomial and correspondence models. -/
def classesMult (π : Equiv.Perm (Fin C)) (q : MultParams K V C) : MultParams K V C :=
  (q.1, q.2.map fun p => (p.1, cols π p.2))

/-- The labels of a corpus. -/
def labels (corpus : ℕ → Doc V) (n : ℕ) : List ℤ := (List.range n).map fun i => (corpus i).cls

/-- Its labels that are not negative. -/
def knownLabels (corpus : ℕ → Doc V) (n : ℕ) : List ℤ := (labels corpus n).filter fun a => decide (0 ≤ a)

/-- Training `b` and `b'` with any schedules, numbers of workers and shuffles, for the same number of iterations:
`b'` ends with the renamed parameters, and both are defined or neither. -/
def FitsAlike {Q R S Q' R' S' : Type} (b : BatchStep Q R S) (b' : BatchStep Q' R' S') (n : ℕ) (eval : Q × T → ℕ → R)
    (eval' : Q' × T → ℕ → R') (next : T → T) (s0 : S) (s0' : S') (Tq : Q → Q') : Prop :=
  ∀ (q : Q) (t : T) (W W' : ℕ) (orders orders' : List (ℕ → ℕ)) (m : Q × T × Option S) (l : Left R)
    (logs : List (List (Obs R))) (m' : Q' × T × Option S') (l' : Left R') (logs' : List (List (Obs R'))),
    orders.length = orders'.length →
    (∀ p ∈ orders, ((List.range n).map p).Perm (List.range n)) →
    (∀ p ∈ orders', ((List.range n).map p).Perm (List.range n)) →
    Calls (fitCalls b next eval W n orders) .empty (q, t, some s0) l m logs →
    Calls (fitCalls b' next eval' W' n orders') .empty (Tq q, t, some s0') l' m' logs' →
    m'.1 = Tq m.1 ∧ (m'.2.2 = none ↔ m.2.2 = none)

variable (π : Equiv.Perm (Fin C))

/-- **C115**, training of fLDA: for every E step that does not depend on the numbering (as the one of fLDA,
`C115_fast`), if the highest number in use is the same in both numberings, training on the renumbered corpus gives the
renumbered model. -/
theorem C115_fit_fast_partial (cfg : SupCfg) (corpus : ℕ → Doc V) (n : ℕ) (ht : SameTop π (labels corpus n))
    (eval eval' : Params K V C × T → ℕ → VP K V) (next : T → T)
    (hE : ∀ q t i, i < n → eval' (q.classes π, t) i = eval (q, t) i) :
    FitsAlike (fastSupervised cfg corpus) (fastSupervised cfg fun i => (corpus i).relabel π) n eval eval' next
      .init .init (Params.classes π) := by
  intro q t W W' orders orders' m l logs m' l' logs' hlen ho ho' hc hc'
  refine Renames.fit (fastFree cfg fun i => (corpus i).relabel π) (o := fastFree cfg corpus) (Tr := id)
    (Ts := FastState.relabel π) (f := false) (f' := false) ⟨?_, hE, ?_⟩ ⟨FastIs.init, by simp [FastState.init]⟩
    ⟨FastIs.init, by simp [FastState.init, FastState.relabel]⟩ hlen ho ho' hc hc'
  · intro q i r s _
    exact fastDoc_relabel π q.alpha (corpus i) r s
  · intro q t s f hs
    have hy : readAll (resize s.y s.docs) = some (labels corpus n) := by
      rw [resize_of_le _ (by rw [hs.1.len]; exact hs.1.room), hs.1.y, readAll_map_some, List.map_map]
      rfl
    have := C115_fast_m_partial π cfg q.eta s fun ys e => by
      rw [hy] at e
      exact Option.some.inj e ▸ ht
    simp only [fastSupervised, Params.classes, this, Option.map_map]
    rfl

/-- **C115**, training with the semi supervised step: the labels that are not negative count. -/
theorem C115_fit_semi_partial (cfg : SupCfg) (corpus : ℕ → Doc V) (n : ℕ) (ht : SameTop π (knownLabels corpus n))
    (eval eval' : Params K V C × T → ℕ → VP K V) (next : T → T)
    (hE : ∀ q t i, i < n → eval' (q.classes π, t) i = eval (q, t) i) :
    FitsAlike (semiSupervised cfg corpus) (semiSupervised cfg fun i => (corpus i).relabel π) n eval eval' next
      .init .init (Params.classes π) := by
  intro q t W W' orders orders' m l logs m' l' logs' hlen ho ho' hc hc'
  refine Renames.fit (semiFree cfg fun i => (corpus i).relabel π) (o := semiFree cfg corpus) (Tr := id)
    (Ts := FastState.relabel π) (f := false) (f' := false) ⟨?_, hE, ?_⟩ ⟨FastIs.init, by simp [FastState.init]⟩
    ⟨FastIs.init, by simp [FastState.init, FastState.relabel]⟩ hlen ho ho' hc hc'
  · intro q i r s _
    exact semiDoc_relabel π q.alpha (corpus i) r s
  · intro q t s f hs
    have hy : readAll (resize s.y s.docs) = some (knownLabels corpus n) := by
      rw [resize_of_le _ (by rw [hs.1.len]; exact hs.1.room), hs.1.y, readAll_map_some, labelled, List.filter_map,
        List.map_map, knownLabels, labels, List.filter_map]
      rfl
    have := C115_fast_m_partial π cfg q.eta s fun ys e => by
      rw [hy] at e
      exact Option.some.inj e ▸ ht
    simp only [semiSupervised, fastSupervised, Params.classes, this, Option.map_map]
    rfl

/-- **C115**, training of sLDA. -/
theorem C115_fit_supervised_partial (cfg : SupCfg) (corpus : ℕ → Doc V) (n : ℕ) (ht : SameTop π (labels corpus n))
    (eval eval' : Params K V C × T → ℕ → VP K V) (next : T → T)
    (hE : ∀ q t i, i < n → eval' (q.classes π, t) i = eval (q, t) i) :
    FitsAlike (supervised cfg corpus) (supervised cfg fun i => (corpus i).relabel π) n eval eval' next
      .init .init (Params.classes π) := by
  intro q t W W' orders orders' m l logs m' l' logs' hlen ho ho' hc hc'
  refine Renames.fit (supervisedFree cfg fun i => (corpus i).relabel π) (o := supervisedFree cfg corpus) (Tr := id)
    (Ts := SupState.relabel π) (f := false) (f' := false) ⟨?_, hE, ?_⟩ ⟨SupIs.init, by simp [SupState.init]⟩
    ⟨SupIs.init, by simp [SupState.init, SupState.relabel]⟩ hlen ho ho' hc hc'
  · intro q i r s _
    exact supDoc_relabel π q.alpha (corpus i) r s
  · intro q t s f hs
    have hy : readAll (resize s.y s.docs) = some (labels corpus n) := by
      rw [resize_of_le _ (by rw [hs.1.len]; exact hs.1.room), hs.1.y, readAll_map_some, List.map_map]
      rfl
    have := C115_supervised_m_partial π cfg q.eta s fun ys e => by
      rw [hy] at e
      exact Option.some.inj e ▸ ht
    simp only [supervised, Params.classes, this, Option.map_map]
    rfl

/-- **C115**, training of multinomial sLDA: no condition on the corpus. -/
theorem C115_fit_multinomial (mu : ℝ) (corpus : ℕ → Doc V) (n : ℕ)
    (eval eval' : MultParams K V C × T → ℕ → VP K V) (next : T → T)
    (hE : ∀ q t i, i < n → eval' (classesMult π q, t) i = eval (q, t) i) :
    FitsAlike (multinomial mu corpus) (multinomial mu fun i => (corpus i).relabel π) n eval eval' next
      .init .init (classesMult π) := by
  intro q t W W' orders orders' m l logs m' l' logs' hlen ho ho' hc hc'
  refine Renames.fit (multinomialFree mu fun i => (corpus i).relabel π) (o := multinomialFree mu corpus) (Tr := id)
    (Ts := MultState.relabel π) (f := false) (f' := false) ⟨?_, hE, ?_⟩
    ⟨[], rfl, multHistory_is (mu := mu) (h := []) rfl, by simp [MultState.init]⟩
    ⟨[], rfl, multHistory_is (mu := mu) (h := []) rfl, by simp [MultState.init, MultState.relabel]⟩ hlen ho ho' hc hc'
  · rintro ⟨a, _ | p⟩ i r s _
    · rfl
    · exact (C115_multinomial_m π mu p.2 (corpus i) r.phi (fun _ => 0) s).1
  · intro q t s f _
    simp only [multinomial, classesMult, multM_relabel, Option.map_some]

/-- **C115**, training of correspondence LDA: no condition on the corpus. -/
theorem C115_fit_correspondence (mu : ℝ) (corpus : ℕ → Doc V) (n : ℕ)
    (eval eval' : MultParams K V C × T → ℕ → VP K V × Vec V ℝ) (next : T → T)
    (hE : ∀ q t i, i < n → eval' (classesMult π q, t) i = eval (q, t) i) :
    FitsAlike (correspondence mu corpus) (correspondence mu fun i => (corpus i).relabel π) n eval eval' next
      .init .init (classesMult π) := by
  intro q t W W' orders orders' m l logs m' l' logs' hlen ho ho' hc hc'
  refine Renames.fit (correspondenceFree mu fun i => (corpus i).relabel π) (o := correspondenceFree mu corpus)
    (Tr := id) (Ts := MultState.relabel π) (f := false) (f' := false) ⟨?_, hE, ?_⟩
    ⟨[], rfl, multHistory_is (mu := mu) (h := []) rfl, by simp [MultState.init]⟩
    ⟨[], rfl, multHistory_is (mu := mu) (h := []) rfl, by simp [MultState.init, MultState.relabel]⟩ hlen ho ho' hc hc'
  · rintro ⟨a, _ | p⟩ i r s _
    · rfl
    · exact (C115_multinomial_m π mu p.2 (corpus i) r.1.phi r.2 s).2.1
  · intro q t s f _
    simp only [correspondence, classesMult, multM_relabel, Option.map_some]

/-- The E step of fLDA during training: the model parameters, and the state of the E step.  Where the E step is not
defined on them, or `beta` is not finite, any result. -/
noncomputable def fastResults (P : Prims) (cfg : EStep.Cfg) (real : Beta K V → Option (Mat K V ℝ)) (any : VP K V)
    (corpus : ℕ → Doc V) (q : Params K V C × EStep.FastState) (i : ℕ) : VP K V :=
  (((real q.1.beta).bind fun beta => fastRun P cfg q.2.weight (corpus i).words (corpus i).cls
    ⟨q.1.alpha, beta, q.1.eta⟩)).getD any

/-- The hypothesis on the E step in `C115_fit_fast_partial`: the E step of fLDA, for every weight it has used so
far. -/
example (P : Prims) (cfg : EStep.Cfg) (real : Beta K V → Option (Mat K V ℝ)) (any : VP K V) (corpus : ℕ → Doc V)
    (n : ℕ) : ∀ (q : Params K V C) (t : EStep.FastState) (i : ℕ), i < n →
    fastResults P cfg real any (fun i => (corpus i).relabel π) (q.classes π, t) i =
      fastResults P cfg real any corpus (q, t) i := by
  intro q t i _
  simp only [fastResults, Params.classes, Doc.relabel]
  congr 2
  funext beta
  exact fastRun_classes π P cfg t.weight (corpus i).words (corpus i).cls ⟨q.alpha, beta, q.eta⟩

/-- The hypothesis on the corpus: every class has a document. -/
example (π : Equiv.Perm (Fin 3)) : SameTop π (labels (fun i => (⟨fun _ => i, (i : ℤ) % 3⟩ : Doc V)) 5) := by
  apply sameTop_of_all
  intro c
  refine List.mem_map.2 ⟨c, List.mem_range.2 (by omega), ?_⟩
  simp only
  omega

end Verif.Train
