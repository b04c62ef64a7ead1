import Mathlib.Data.EReal.Basic
import Verif.Model.Decision
import Verif.Props.EStep
import Verif.Props.Pool

/-! Properties C60 and C61: the decision function and the predictions. -/
namespace Verif.Decision

open MathUtils MStep EStep Finset

variable {K V C D : ℕ}

/-- The share of each topic in a document with variational parameters `x`. -/
noncomputable def share (alpha x : Vec K ℝ) (k : Fin K) : ℝ := (x k - alpha k) / ∑ j, (x j - alpha j)

/-- `p` is the first index at which `f` is largest. -/
def IsFirstMax (f : Fin C → ℝ) (p : Fin C) : Prop := (∀ c, f c ≤ f p) ∧ ∀ c < p, f c < f p

/-! ### Sums -/

@[simp] theorem fin_add (a b : ℝ) : (Ieee.fin a + Ieee.fin b : Ieee ℝ) = .fin (a + b) := rfl
@[simp] theorem fin_mul (a b : ℝ) : (Ieee.fin a * Ieee.fin b : Ieee ℝ) = .fin (a * b) := rfl

theorem fold_fin (e z : Vec K ℝ) (l : List (Fin K)) (a : ℝ) :
    l.foldl (fun x k => x + Ieee.fin (e k) * Ieee.fin (z k)) (Ieee.fin a) =
      .fin (a + (l.map fun k => e k * z k).sum) := by
  induction l generalizing a with
  | nil => simp
  | cons k l ih =>
    rw [List.foldl_cons, fin_mul, fin_add, ih, List.map_cons, List.sum_cons, add_assoc]

theorem score_fin (e z : Vec K ℝ) : score e (fun k => .fin (z k)) = .fin (∑ k, e k * z k) := by
  have h0 : (0 : Ieee ℝ) = .fin 0 := rfl
  rw [score, h0, fold_fin, zero_add, ← List.ofFn_eq_map, List.sum_ofFn]

theorem add_not_finite {a b : Ieee ℝ} (h : ¬ a.Finite ∨ ¬ b.Finite) : ¬ (a + b).Finite := by
  change ¬ (Ieee.add a b).Finite
  cases a <;> cases b <;> simp_all [Ieee.add, Ieee.Finite]

theorem mul_not_finite {a : ℝ} {b : Ieee ℝ} (h : ¬ b.Finite) : ¬ (Ieee.fin a * b).Finite := by
  change ¬ (Ieee.mul (.fin a) b).Finite
  cases b with
  | fin b => simp [Ieee.Finite] at h
  | nan => simp [Ieee.mul, Ieee.Finite]
  | pinf => simp only [Ieee.mul, Ieee.infMul]; split_ifs <;> simp [Ieee.Finite]
  | ninf => simp only [Ieee.mul, Ieee.infMul]; split_ifs <;> simp [Ieee.Finite]

theorem fold_not_finite (e : Vec K ℝ) (z : Vec K (Ieee ℝ)) (hz : ∀ k, ¬ (z k).Finite) (l : List (Fin K)) :
    ∀ a : Ieee ℝ, (¬ a.Finite ∨ l ≠ []) →
      ¬ (l.foldl (fun x k => x + Ieee.fin (e k) * z k) a).Finite := by
  induction l with
  | nil => intro a h; simpa using h
  | cons k l ih =>
    intro a _
    exact ih _ (.inl (add_not_finite (.inr (mul_not_finite (hz k)))))

/-! ### C60 -/

/-- **C60**: if the sum of `gamma - alpha` is not zero the scores are the linear function `eta` of the shares
of the topics, which sum to one. -/
theorem C60_scores (alpha : Vec K ℝ) (eta : Mat K C ℝ) (X : Mat K D ℝ) (d : Fin D)
    (hd : ∑ k, (X k d - alpha k) ≠ 0) :
    (∀ c, decisionFunction alpha eta X c d = .fin (∑ k, eta k c * share alpha (fun k => X k d) k)) ∧
    ∑ k, share alpha (fun k => X k d) k = 1 := by
  constructor
  · intro c
    have : expectedZ alpha (fun k => X k d) = fun k => .fin (share alpha (fun k => X k d) k) := by
      funext k
      simp only [expectedZ, quot, share, ne_eq, hd, not_false_eq_true, if_true]
    rw [decisionFunction, this, score_fin]
  · simp only [share]
    rw [← Finset.sum_div, div_self hd]

theorem foldl_first_max {α : Type} [LinearOrder α] (f : Fin C → α) (ok : Fin C → Prop) (g : Fin C → Fin C → Bool)
    (hg : ∀ a b, ok a → ok b → (g a b = true ↔ f b < f a)) (hn : ∀ a b, ¬ ok a → g a b = false) :
    ∀ (l : List (Fin C)) (b : Fin C), ok b → l.Pairwise (· < ·) → (∀ c ∈ l, b ≤ c) →
      (let r := l.foldl (fun best c => if g c best then c else best) b
       ok r ∧ f b ≤ f r ∧ (r = b ∨ f b < f r) ∧ (∀ c ∈ l, ok c → f c ≤ f r) ∧ (∀ c ∈ l, ok c → c < r → f c < f r)) := by
  intro l
  induction l with
  | nil => intro b hb _ _; simp [hb]
  | cons a l ih =>
    intro b hob hs hb
    have hs' := List.pairwise_cons.1 hs
    simp only [List.foldl_cons]
    by_cases hlt : g a b = true
    · have hoa : ok a := by
        by_contra h
        rw [hn a b h] at hlt
        simp at hlt
      have hlt' := (hg a b hoa hob).1 hlt
      obtain ⟨h0, h1, h2, h3, h4⟩ := ih a hoa hs'.2 fun c hc => (hs'.1 c hc).le
      simp only [hlt, if_true]
      refine ⟨h0, hlt'.le.trans h1, .inr (lt_of_lt_of_le hlt' h1), ?_, ?_⟩
      · intro c hc
        rcases List.mem_cons.1 hc with rfl | hc
        · exact fun _ => h1
        · exact h3 c hc
      · intro c hc hoc hcr
        rcases List.mem_cons.1 hc with rfl | hc
        · rcases h2 with e | e
          · rw [e] at hcr; exact absurd hcr (lt_irrefl _)
          · exact e
        · exact h4 c hc hoc hcr
    · obtain ⟨h0, h1, h2, h3, h4⟩ := ih b hob hs'.2 fun c hc => (hb a List.mem_cons_self).trans (hs'.1 c hc).le
      rw [if_neg hlt]
      have hab : ok a → f a ≤ f b := fun hoa => not_lt.1 fun h => hlt ((hg a b hoa hob).2 h)
      refine ⟨h0, h1, h2, ?_, ?_⟩
      · intro c hc hoc
        rcases List.mem_cons.1 hc with rfl | hc
        · exact (hab hoc).trans h1
        · exact h3 c hc hoc
      · intro c hc hoc hcr
        rcases List.mem_cons.1 hc with rfl | hc
        · rcases h2 with e | e
          · rw [e] at hcr
            exact absurd hcr (not_lt.2 (hb c List.mem_cons_self))
          · exact lt_of_le_of_lt (hab hoc) e
        · exact h4 c hc hoc hcr

/-- The extended real number that a score stands for; NaN stands for none. -/
def Stands : Ieee ℝ → EReal → Prop
  | .fin a, x => x = a
  | .pinf, x => x = ⊤
  | .ninf, x => x = ⊥
  | .nan, _ => False

theorem gt_iff {a b : Ieee ℝ} {x y : EReal} (ha : Stands a x) (hb : Stands b y) : gt a b = true ↔ y < x := by
  cases a <;> cases b <;> simp_all [Stands, gt]

/-- **C60**, for all scores, infinite or NaN included: if the score of the first class is NaN, the first class is
predicted; otherwise the first of those with the largest score, leaving out scores that are NaN. -/
theorem C60_all_scores (v : Vec (C + 1) (Ieee ℝ)) (f : Fin (C + 1) → EReal)
    (hf : ∀ c, v c ≠ .nan → Stands (v c) (f c)) :
    (v 0 = .nan → maxIndex v = some 0) ∧
    (v 0 ≠ .nan → ∃ p, maxIndex v = some p ∧ v p ≠ .nan ∧ (∀ c, v c ≠ .nan → f c ≤ f p) ∧
      ∀ c, v c ≠ .nan → c < p → f c < f p) := by
  constructor
  · intro h
    have key : ∀ l : List (Fin (C + 1)), l.foldl (fun best c => if gt (v c) (v best) then c else best) 0 = 0 := by
      intro l
      induction l with
      | nil => rfl
      | cons a l ih =>
        have : gt (v a) (v 0) = false := by
          rw [h]
          cases v a <;> rfl
        simp only [List.foldl_cons, this, Bool.false_eq_true, if_false]
        exact ih
    rw [maxIndex, key]
  · intro h
    obtain ⟨h1, _, _, h3, h4⟩ := foldl_first_max f (fun c => v c ≠ .nan) (fun a b => gt (v a) (v b))
      (fun a b ha hb => gt_iff (hf a ha) (hf b hb)) (fun a b ha => by rw [not_not.1 ha]; rfl) (List.finRange (C + 1)) 0 h
      (List.pairwise_lt_finRange _) (fun c _ => Fin.zero_le c)
    exact ⟨_, rfl, h1, fun c hc => h3 c (List.mem_finRange c) hc, fun c hc hcr => h4 c (List.mem_finRange c) hc hcr⟩

/-- **C60**: for finite scores of at least one class the prediction is the first class with the largest
score. -/
theorem maxIndex_first (hC : 0 < C) (f : Fin C → ℝ) (v : Vec C (Ieee ℝ)) (hv : ∀ c, v c = .fin (f c)) :
    ∃ p, maxIndex v = some p ∧ IsFirstMax f p := by
  obtain ⟨C, rfl⟩ : ∃ c, C = c + 1 := ⟨C - 1, by omega⟩
  have hn : ∀ c, v c ≠ .nan := fun c h => by rw [hv] at h; cases h
  obtain ⟨p, h1, _, h3, h4⟩ := (C60_all_scores v (fun c => (f c : EReal)) fun c _ => by rw [hv]; rfl).2 (hn 0)
  exact ⟨p, h1, fun c => EReal.coe_le_coe_iff.1 (h3 c (hn c)), fun c hc => EReal.coe_lt_coe_iff.1 (h4 c (hn c) hc)⟩

theorem mapM_some {A B : Type} (f : A → Option B) (g : A → B) (l : List A) (h : ∀ a ∈ l, f a = some (g a)) :
    l.mapM f = some (l.map g) := by
  induction l with
  | nil => rfl
  | cons a l ih =>
    simp [h a List.mem_cons_self, ih fun x hx => h x (List.mem_cons_of_mem _ hx)]

/-- A prediction for column `d` for every `d`, each with property `Q`. -/
theorem predict_of {scores : Mat C D (Ieee ℝ)} {Q : Fin D → Fin C → Prop}
    (h : ∀ d, ∃ p, maxIndex (fun c => scores c d) = some p ∧ Q d p) :
    ∃ ps, predict scores = some ps ∧ ps.length = D ∧ ∀ (d : Fin D) (p : Fin C), ps[d.val]? = some p → Q d p := by
  choose g hg using h
  refine ⟨(List.finRange D).map g, mapM_some _ _ _ fun d _ => (hg d).1, by simp, ?_⟩
  intro d p hp
  simp only [List.getElem?_map, Option.map_eq_some_iff] at hp
  obtain ⟨d', h1, rfl⟩ := hp
  have : d' = d := by
    rw [List.getElem?_eq_some_iff] at h1
    obtain ⟨_, h1⟩ := h1
    rw [← h1]
    simp
  rw [this]
  exact (hg d).2

/-- **C60**: `predict` of documents whose `gamma - alpha` does not sum to zero: one prediction per document,
the first class with the largest score, where the scores are `eta` applied to the shares of the topics. -/
theorem C60_predict (hC : 0 < C) (alpha : Vec K ℝ) (eta : Mat K C ℝ) (X : Mat K D ℝ)
    (hX : ∀ d, ∑ k, (X k d - alpha k) ≠ 0) :
    ∃ ps, predict (decisionFunction alpha eta X) = some ps ∧ ps.length = D ∧
      ∀ (d : Fin D) (p : Fin C), ps[d.val]? = some p →
        IsFirstMax (fun c => ∑ k, eta k c * share alpha (fun k => X k d) k) p :=
  predict_of fun d => maxIndex_first hC _ _ fun c => (C60_scores alpha eta X d (hX d)).1 c

/-- **C60**: whatever the scores, infinite or NaN included, there is one prediction per document, and each is
the index of a class. -/
theorem C60_in_range (hC : 0 < C) (scores : Mat C D (Ieee ℝ)) :
    ∃ ps, predict scores = some ps ∧ ps.length = D := by
  obtain ⟨ps, h1, h2, _⟩ := predict_of (scores := scores) (Q := fun _ _ => True) fun d => by
    obtain ⟨C, rfl⟩ : ∃ c, C = c + 1 := ⟨C - 1, by omega⟩
    exact ⟨_, rfl, trivial⟩
  exact ⟨ps, h1, h2⟩

/-- Without classes `predict` is undefined on the first document. -/
theorem C60_no_classes (hD : 0 < D) (scores : Mat 0 D (Ieee ℝ)) : predict scores = none := by
  obtain ⟨D, rfl⟩ : ∃ c, D = c + 1 := ⟨D - 1, by omega⟩
  simp [predict, List.finRange_succ, maxIndex]

/-- **C60**: the hypothesis of `C60_predict` holds of the result of the E steps (those of `C36`) for a
document with words, each possible under the model. -/
theorem C60_nonempty {X : Vec V ℕ} {m : Model K V C} {gamma : Vec K ℝ} (h : Mass X m gamma)
    (hX : ∃ n, X n ≠ 0) (hc : ∀ n, X n ≠ 0 → ∃ k, 0 < m.beta k n) : ∑ k, (gamma k - m.alpha k) ≠ 0 := by
  rw [Finset.sum_sub_distrib, h.1 hc, add_sub_cancel_left, ← numWords_cast]
  exact_mod_cast numWords_ne.2 hX

/-- **C60**, with `transform`: `transform_predict` of documents with words, under any schedule and number of
workers, gives the variational parameters and for each document the first class with the largest score. -/
theorem C60_transform_predict (hC : 0 < C) (m : Model K V C) (hm : m.Valid) (hK : 0 < K) {P : Prims}
    {cfg : EStep.Cfg} {draw : ℕ → ℝ} {X : ℕ → Vec V ℕ} {eval : Model K V C → ℕ → Vec K ℝ}
    (he : ∀ i s r, unsupervised P cfg (draw i) (X i) m = some (s, r) → eval m i = s.gamma)
    {W : ℕ} {owner : Bool} {s : Pool.St (Model K V C × (ℕ → Option (Vec K ℝ))) (Vec K ℝ) W}
    (h : Pool.Reachable (Pool.transformCfg W D owner eval) (m, fun _ => none) s) (hr : s.main = .ret)
    (hX : ∀ i < D, (∃ n, X i n ≠ 0) ∧ ∀ n, X i n ≠ 0 → ∃ k, 0 < m.beta k n) :
    ∃ (g : Mat K D ℝ) (ps : List (Fin C)), (∀ d : Fin D, s.model.2 d = some fun k => g k d) ∧
      transformPredict m.alpha m.eta g = some (g, ps) ∧ ps.length = D ∧
      ∀ (d : Fin D) (p : Fin C), ps[d.val]? = some p →
        IsFirstMax (fun c => ∑ k, m.eta k c * share m.alpha (fun k => g k d) k) p := by
  obtain ⟨_, h2, _⟩ := Pool.C02_transform_columns h hr
  obtain ⟨ps, p1, p2, p3⟩ := C60_predict hC m.alpha m.eta (fun k (d : Fin D) => eval m d k) (by
    intro d
    obtain ⟨s, r, h, _⟩ := C35_unsupervised_defined (P := P) (cfg := cfg) (draw := draw d) (X := X d) hm hK
    rw [he d s r h]
    exact C60_nonempty (C36_unsupervised hm hK h) (hX d d.isLt).1 (hX d d.isLt).2)
  refine ⟨fun k d => eval m d k, ps, fun d => by rw [h2]; simp, ?_, p2, p3⟩
  rw [transformPredict, p1, Option.map_some]

/-- **C60**: `predict(X)` runs `transform` once more; both runs give the same predictions, whatever the
schedules and the numbers of workers. -/
theorem C60_same_predictions {M : Type} {W W' : ℕ} {owner owner' : Bool} {eval : M → ℕ → Vec K ℝ} {p : M}
    {s : Pool.St (M × (ℕ → Option (Vec K ℝ))) (Vec K ℝ) W}
    {s' : Pool.St (M × (ℕ → Option (Vec K ℝ))) (Vec K ℝ) W'}
    (h : Pool.Reachable (Pool.transformCfg W D owner eval) (p, fun _ => none) s) (hr : s.main = .ret)
    (h' : Pool.Reachable (Pool.transformCfg W' D owner' eval) (p, fun _ => none) s') (hr' : s'.main = .ret)
    {g g' : Mat K D ℝ} (hg : ∀ d : Fin D, s.model.2 d = some fun k => g k d)
    (hg' : ∀ d : Fin D, s'.model.2 d = some fun k => g' k d) (alpha : Vec K ℝ) (eta : Mat K C ℝ) :
    predict (decisionFunction alpha eta g) = predict (decisionFunction alpha eta g') := by
  have e1 := (Pool.C02_transform_columns h hr).2.1
  have e2 := (Pool.C02_transform_columns h' hr').2.1
  have : g = g' := by
    funext k d
    have a := hg d
    have b := hg' d
    rw [e1] at a
    rw [e2] at b
    exact congrFun (Option.some.inj (a.symm.trans b)) k
  rw [this]

/-! ### C61 -/

/-- **C61**, the part that holds: the score of a class is finite exactly if the sum of `gamma - alpha` is not
zero.  Missing: the documents without words, whose scores are never finite (`C61_empty`). -/
theorem C61_finite_iff_partial (hK : 0 < K) (alpha : Vec K ℝ) (eta : Mat K C ℝ) (X : Mat K D ℝ) (c : Fin C)
    (d : Fin D) : (decisionFunction alpha eta X c d).Finite ↔ ∑ k, (X k d - alpha k) ≠ 0 := by
  constructor
  · intro hf h0
    refine fold_not_finite _ _ ?_ _ _ (.inr ?_) hf
    · intro k
      simp only [expectedZ, quot, h0, ne_eq, not_true_eq_false, if_false]
      split_ifs <;> simp [Ieee.Finite]
    · intro hn
      have := congrArg List.length hn
      simp at this
      omega
  · intro h
    rw [(C60_scores alpha eta X d h).1 c]
    trivial

theorem fold_nan (e : Vec K ℝ) (l : List (Fin K)) :
    ∀ a : Ieee ℝ, (a = .nan ∨ l ≠ []) →
      l.foldl (fun x k => x + Ieee.fin (e k) * (Ieee.nan : Ieee ℝ)) a = .nan := by
  induction l with
  | nil => intro a h; simpa using h
  | cons k l ih =>
    intro a _
    refine ih _ (.inl ?_)
    change Ieee.add a (Ieee.mul (.fin (e k)) .nan) = .nan
    cases a <;> simp [Ieee.add, Ieee.mul]

theorem foldl_nan (v : Vec C (Ieee ℝ)) (hv : ∀ c, v c = .nan) (l : List (Fin C)) (b : Fin C) :
    l.foldl (fun best c => if gt (v c) (v best) then c else best) b = b := by
  induction l generalizing b with
  | nil => rfl
  | cons a l ih => simp [hv, gt]

/-- **C61 is false**: for a document whose `gamma` is `alpha`, as the E step returns it for a document without
words, every score is NaN and `predict` returns class 0 whatever the model. -/
theorem C61_empty (hK : 0 < K) (alpha : Vec K ℝ) (eta : Mat K (C + 1) ℝ) (X : Mat K D ℝ) (d : Fin D)
    (hd : ∀ k, X k d = alpha k) :
    (∀ c, decisionFunction alpha eta X c d = .nan) ∧
    maxIndex (fun c => decisionFunction alpha eta X c d) = some 0 := by
  have h1 : ∀ c, decisionFunction alpha eta X c d = .nan := by
    intro c
    have : expectedZ alpha (fun k => X k d) = fun _ => .nan := by
      funext k
      simp [expectedZ, quot, hd]
    rw [decisionFunction, this, score]
    refine fold_nan _ _ _ (.inr ?_)
    intro hn
    have := congrArg List.length hn
    simp at this
    omega
  exact ⟨h1, by rw [maxIndex, foldl_nan _ h1]⟩

/-- **C61 is false**, with the E step: for every valid model and a document without words. -/
theorem C61_empty_document (hK : 0 < K) {m : Model K V (C + 1)} (hm : m.Valid) (P : Prims) (cfg : EStep.Cfg)
    (draw : ℝ) {X : Vec V ℕ} (hX : ∀ n, X n = 0) :
    ∃ s r, unsupervised P cfg draw X m = some (s, r) ∧
      ∀ (g : Mat K D ℝ) (d : Fin D), (∀ k, g k d = s.gamma k) →
        ∀ c, ¬ (decisionFunction m.alpha m.eta g c d).Finite := by
  obtain ⟨s, r, h, hg, _⟩ := C40_unsupervised (P := P) (cfg := cfg) (draw := draw) hm hK hX
  refine ⟨s, r, h, fun g d hgd c => ?_⟩
  rw [(C61_empty hK m.alpha m.eta g d fun k => by rw [hgd, hg]).1 c]
  simp [Ieee.Finite]

/-! ### Examples -/

/-- Two topics, three classes of which the last two have the same score: the hypotheses of `C60_predict`
hold, and class 1 is predicted. -/
example : (∀ d : Fin 1, ∑ k, ((fun (k : Fin 2) (_ : Fin 1) => if k = 0 then (2 : ℝ) else 4) k d - 1) ≠ 0) ∧
    IsFirstMax (fun c : Fin 3 => ∑ k : Fin 2, (if c = 0 then 0 else (1 : ℝ)) *
      share (fun _ => 1) (fun k => if k = 0 then (2 : ℝ) else 4) k) 1 := by
  constructor
  · intro d; norm_num [Fin.sum_univ_two]
  · constructor
    · intro c
      fin_cases c <;> norm_num [Fin.sum_univ_two, share]
    · intro c hc
      fin_cases c <;> simp_all <;> norm_num [Fin.sum_univ_two, share]

/-- Minus infinity, NaN, minus infinity, two, plus infinity, plus infinity. -/
def someScores : Vec 6 (Ieee ℝ) := ![.ninf, .nan, .ninf, .fin 2, .pinf, .pinf]

/-- Class 4 is predicted by `C60_all_scores`. -/
example : maxIndex someScores = some 4 := by
  have hf : ∀ c, someScores c ≠ .nan → Stands (someScores c) ((![⊥, 0, ⊥, ((2 : ℝ) : EReal), ⊤, ⊤] : Fin 6 → EReal) c) := by
    intro c hc
    fin_cases c <;> simp_all [someScores, Stands]
  obtain ⟨p, h1, h2, h3, h4⟩ := (C60_all_scores someScores _ hf).2 (by simp [someScores])
  rw [h1]
  have h5 := h3 4 (by simp [someScores])
  fin_cases p
  · simp at h5
  · simp [someScores] at h2
  · simp at h5
  · simp at h5
  · rfl
  · have := h4 4 (by simp [someScores]) (by decide)
    simp at this

end Verif.Decision
