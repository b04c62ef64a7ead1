import Verif.Model.Corpus
import Mathlib.Data.List.Perm.Basic
import Mathlib.Algebra.BigOperators.Group.List.Basic
import Mathlib.Algebra.Order.Field.Rat
import Mathlib.Tactic.Linarith
import Mathlib.Tactic.FieldSimp
import Mathlib.Tactic.Push
import Mathlib.Tactic.Ring
import Mathlib.Tactic.NormNum
import Mathlib.Tactic.Positivity

/-! Properties C17 and C18 of the corpora. -/
namespace Verif.Corpus

variable {D : Type}

/-! ### C17 -/

theorem swapAt_perm {a b : List Nat} {i j : Nat} (h : swapAt a i j = some b) :
    b.Perm a := by
  unfold swapAt at h
  cases hi : a[i]? with
  | none => simp [hi] at h
  | some x =>
    cases hj : a[j]? with
    | none => simp [hi, hj] at h
    | some y =>
      simp only [hi, hj, Option.some.injEq] at h
      subst h
      rw [List.getElem?_eq_some_iff] at hi hj
      obtain ⟨h1, rfl⟩ := hi
      obtain ⟨h2, rfl⟩ := hj
      exact List.set_set_perm h1 h2

theorem swapAt_isSome {a : List Nat} {i j : Nat} (hi : i < a.length) (hj : j < a.length) :
    (swapAt a i j).isSome := by
  simp [swapAt, List.getElem?_eq_getElem hi, List.getElem?_eq_getElem hj]

theorem shuffleFrom_perm (draw : Nat → Nat) : ∀ (k i : Nat) (a : List Nat), i + k ≤ a.length →
    ∃ b, shuffleFrom draw a i k = some b ∧ b.Perm a := by
  intro k
  induction k with
  | zero => intro i a _; exact ⟨a, rfl, List.Perm.refl _⟩
  | succ k ih =>
    intro i a h
    have hlt : draw i % (i + 1) < a.length := by
      have : draw i % (i + 1) < i + 1 := Nat.mod_lt _ (Nat.succ_pos i)
      omega
    obtain ⟨b, hb⟩ := Option.isSome_iff_exists.1 (swapAt_isSome (a := a) (i := i) (by omega) hlt)
    have hp := swapAt_perm hb
    obtain ⟨c, hc, hcp⟩ := ih (i + 1) b (by rw [hp.length_eq]; omega)
    exact ⟨c, by simp [shuffleFrom, hb, hc], hcp.trans hp⟩

theorem shuffle_perm (draw : Nat → Nat) (a : List Nat) :
    ∃ b, shuffle draw a = some b ∧ b.Perm a := by
  unfold shuffle
  cases a with
  | nil => exact ⟨[], rfl, List.Perm.refl _⟩
  | cons x a => exact shuffleFrom_perm draw _ 1 (x :: a) (by simp; omega)

theorem shuffles_perm (ds : List (Nat → Nat)) :
    ∀ a : List Nat, ∃ b, shuffles a ds = some b ∧ b.Perm a := by
  induction ds with
  | nil => intro a; exact ⟨a, rfl, List.Perm.refl _⟩
  | cons d ds ih =>
    intro a
    obtain ⟨b, hb, hp⟩ := shuffle_perm d a
    obtain ⟨c, hc, hcp⟩ := ih b
    exact ⟨c, by simp [shuffles, hb, hc], hcp.trans hp⟩

/-- **C17**.  After any number of shuffles with any random numbers, reading the documents
`0 .. size-1` works and gives a permutation of the columns of `X`, each with the label of its own
column. -/
theorem C17_shuffle_keeps_labels (X : List D) (y : List Int) (hy : X.length ≤ y.length)
    (ds : List (Nat → Nat)) :
    ∃ c, (ClassCorpus.mk' X y).shuffles ds = some c ∧ c.size = X.length ∧
      ∃ docs, (List.range c.size).mapM c.at = some docs ∧ docs.Perm (X.zip y) := by
  obtain ⟨idx, hidx, hp⟩ := shuffles_perm ds (List.range X.length)
  have hlen : idx.length = X.length := by simpa using hp.length_eq
  refine ⟨⟨X, y, idx⟩, by simp [ClassCorpus.shuffles, ClassCorpus.mk', hidx], rfl, ?_⟩
  have hzl : (X.zip y).length = X.length := by simp; omega
  have key : ∀ k, k ≤ X.length →
      (List.range k).mapM (ClassCorpus.at (⟨X, y, idx⟩ : ClassCorpus D)) =
        some ((idx.take k).filterMap fun i => (X.zip y)[i]?) := by
    intro k
    induction k with
    | zero => intro _; rfl
    | succ k ih =>
      intro hk
      rw [List.range_succ, List.mapM_append, ih (by omega)]
      have hk' : k < idx.length := by omega
      have hmem : idx[k] < X.length := by
        have : idx[k] ∈ List.range X.length := hp.subset (List.getElem_mem hk')
        simpa using this
      have hat : ClassCorpus.at (⟨X, y, idx⟩ : ClassCorpus D) k = some (X[idx[k]], y[idx[k]]) := by
        simp [ClassCorpus.at, List.getElem?_eq_getElem hk', List.getElem?_eq_getElem hmem,
          List.getElem?_eq_getElem (show idx[k] < y.length by omega)]
      have hz : (X.zip y)[idx[k]]? = some (X[idx[k]], y[idx[k]]) := by
        rw [List.getElem?_eq_getElem (by rw [hzl]; exact hmem)]
        simp
      rw [← List.take_append_getElem hk', List.filterMap_append]
      simp [hat, hz]
  refine ⟨_, key X.length (Nat.le_refl _), ?_⟩
  rw [← hlen, List.take_length]
  refine (hp.filterMap _).trans ?_
  have : (List.range X.length).filterMap (fun i => (X.zip y)[i]?) = X.zip y := by
    rw [← hzl]
    generalize X.zip y = l
    apply List.ext_getElem?
    intro i
    have hall : ∀ n ≤ l.length, (List.range n).filterMap (fun i => l[i]?) = l.take n := by
      intro n
      induction n with
      | zero => intro _; rfl
      | succ n ih =>
        intro hn
        rw [List.range_succ, List.filterMap_append, ih (by omega),
          ← List.take_append_getElem (show n < l.length by omega)]
        simp [List.getElem?_eq_getElem (show n < l.length by omega)]
    rw [hall _ (Nat.le_refl _), List.take_length]
  rw [this]

example : ((ClassCorpus.mk' ["a", "b", "c"] [0, 1, 7]).shuffles [fun _ => 0, fun i => i + 4]).map
      (fun c => (List.range c.size).mapM c.at) = some (some [("b", 1), ("a", 0), ("c", 7)]) := rfl

/-! ### C18 -/

theorem maxCoeff_spec : ∀ (y : List Int) (m : Int), maxCoeff y = some m →
    m ∈ y ∧ ∀ l ∈ y, l ≤ m := by
  intro y
  induction y with
  | nil => intro m h; cases h
  | cons a y ih =>
    intro m h
    cases y with
    | nil => simp [maxCoeff] at h; subst h; simp
    | cons b y =>
      rw [maxCoeff] at h
      cases hm : maxCoeff (b :: y) with
      | none => simp [hm] at h
      | some m' =>
        simp only [hm, Option.some.injEq] at h
        obtain ⟨h1, h2⟩ := ih m' hm
        split at h
        · subst h
          exact ⟨List.mem_cons_of_mem _ h1, fun l hl => by
            rcases List.mem_cons.1 hl with rfl | hl
            · omega
            · exact h2 l hl⟩
        · subst h
          exact ⟨List.mem_cons_self, fun l hl => by
            rcases List.mem_cons.1 hl with rfl | hl
            · omega
            · have := h2 l hl; omega⟩

theorem maxCoeff_isSome : ∀ (y : List Int), y ≠ [] → (maxCoeff y).isSome := by
  intro y
  induction y with
  | nil => intro h; exact absurd rfl h
  | cons a y ih =>
    intro _
    cases y with
    | nil => rfl
    | cons b y =>
      rw [maxCoeff]
      have := ih (by simp)
      cases hm : maxCoeff (b :: y) with
      | none => rw [hm] at this; cases this
      | some m => rfl

/-- The loop counts: entry `c` grows by the number of labels `c`. -/
theorem countLoop_spec (y : List Int) : ∀ v : List ℚ, (∀ l ∈ y, 0 ≤ l ∧ l < v.length) →
    ∃ w, countLoop v y = some w ∧ w.length = v.length ∧ w.sum = v.sum + y.length ∧
      ∀ (c : Nat) (hc : c < v.length) (hc' : c < w.length), w[c] = v[c] + (y.count (c : Int) : ℚ) := by
  induction y with
  | nil => intro v _; exact ⟨v, rfl, rfl, by simp, fun c h h' => by simp⟩
  | cons l y ih =>
    intro v hv
    have hl := hv l (by simp)
    have hlt : l.toNat < v.length := by omega
    have hincr : incr v l = some (v.set l.toNat (v[l.toNat] + 1)) := by
      simp [incr, List.getElem?_eq_getElem hlt, not_lt.2 hl.1]
    obtain ⟨w, h1, h2, h3, h4⟩ := ih (v.set l.toNat (v[l.toNat] + 1)) (by
      intro x hx; simpa using hv x (List.mem_cons_of_mem _ hx))
    refine ⟨w, by simp [countLoop, hincr, h1], by simpa using h2, ?_, ?_⟩
    · rw [h3]
      have : (v.set l.toNat (v[l.toNat] + 1)).sum = v.sum + 1 := by
        rw [List.sum_set]
        have hs := List.sum_take_add_sum_drop v l.toNat
        rw [List.drop_eq_getElem_cons hlt, List.sum_cons] at hs
        rw [if_pos hlt]
        rw [← hs]
        ring
      rw [this]
      push_cast [List.length_cons]
      ring
    · intro c hc hc'
      rw [h4 c (by simpa using hc) hc', List.getElem_set]
      by_cases hcl : l.toNat = c
      · have : l = (c : Int) := by omega
        subst this
        simp
        ring
      · have : l ≠ (c : Int) := by omega
        rw [if_neg hcl, List.count_cons_of_ne this]

/-- **C18**.  For a nonempty label vector without negative labels the constructor succeeds;
`get_prior(c)` is defined exactly for the labels up to the largest one and is the fraction of the
documents that have label `c`; the priors are nonnegative and sum to one. -/
theorem C18_priors (y : List Int) (hne : y ≠ []) (hpos : ∀ l ∈ y, 0 ≤ l) :
    ∃ p m, priors y = some p ∧ m ∈ y ∧ (∀ l ∈ y, l ≤ m) ∧
      (∀ c : Int, getPrior p c =
        if 0 ≤ c ∧ c ≤ m then some ((y.count c : ℚ) / (y.length : ℚ)) else none) ∧
      (∀ q ∈ p, 0 ≤ q) ∧ p.sum = 1 := by
  obtain ⟨m, hm⟩ := Option.isSome_iff_exists.1 (maxCoeff_isSome y hne)
  obtain ⟨hmem, hmax⟩ := maxCoeff_spec y m hm
  have hm0 := hpos m hmem
  have hlenr : (List.replicate (m + 1).toNat (0 : ℚ)).length = (m + 1).toNat := by simp
  obtain ⟨w, h1, h2, h3, h4⟩ := countLoop_spec y (List.replicate (m + 1).toNat 0) (by
    intro l hl
    have := hmax l hl
    exact ⟨hpos l hl, by rw [hlenr]; omega⟩)
  have hlen : (0 : ℚ) < (y.length : ℚ) := by
    have : 0 < y.length := List.length_pos_iff.2 hne
    exact_mod_cast this
  have hsum : w.sum = y.length := by rw [h3]; simp
  have hsum0 : w.sum ≠ 0 := by rw [hsum]; exact ne_of_gt hlen
  have hw : ∀ (c : Nat) (hc : c < w.length), w[c] = (y.count (c : Int) : ℚ) := by
    intro c hc
    have := h4 c (by rw [← h2]; exact hc) hc
    simpa using this
  refine ⟨w.map (· / w.sum), m, ?_, hmem, hmax, ?_, ?_, ?_⟩
  · simp only [priors, hm, h1]
    rw [if_neg (by omega), if_neg hsum0]
  · intro c
    by_cases hc : 0 ≤ c ∧ c ≤ m
    · rw [if_pos hc]
      have hlt : c.toNat < w.length := by rw [h2, hlenr]; omega
      have hcc : ((c.toNat : Nat) : Int) = c := by omega
      simp only [getPrior, not_lt.2 hc.1, if_false, List.getElem?_map,
        List.getElem?_eq_getElem hlt, Option.map_some]
      rw [hw c.toNat hlt, hcc, hsum]
    · rw [if_neg hc]
      unfold getPrior
      by_cases hc0 : c < 0
      · simp [hc0]
      · rw [if_neg hc0, List.getElem?_eq_none]
        rw [List.length_map, h2, hlenr]
        omega
  · intro q hq
    obtain ⟨a, ha, rfl⟩ := List.mem_map.1 hq
    obtain ⟨c, hc, rfl⟩ := List.mem_iff_getElem.1 ha
    rw [hw c hc, hsum]
    exact div_nonneg (Nat.cast_nonneg _) (Nat.cast_nonneg _)
  · have : ∀ (l : List ℚ) (k : ℚ), (l.map (· / k)).sum = l.sum / k := by
      intro l k
      induction l with
      | nil => simp
      | cons a l ih => simp [ih, add_div]
    rw [this, div_self hsum0]

/-- **C18**.  Constructing the corpus is undefined behaviour for an empty label vector and for any
label vector with a negative label (the library's own convention for unlabelled documents). -/
theorem C18_undefined (y : List Int) : priors y = none ↔ y = [] ∨ ∃ l ∈ y, l < 0 := by
  constructor
  · intro h
    by_contra hcon
    push Not at hcon
    obtain ⟨p, m, hp, _⟩ := C18_priors y hcon.1 hcon.2
    rw [h] at hp
    cases hp
  · rintro (rfl | ⟨l, hl, hneg⟩)
    · rfl
    · have hloop : ∀ (y : List Int), l ∈ y → ∀ v : List ℚ, countLoop v y = none := by
        intro y
        induction y with
        | nil => intro h; cases h
        | cons a y ih =>
          intro hl v
          rw [countLoop]
          cases hi : incr v a with
          | none => rfl
          | some v' =>
            rcases List.mem_cons.1 hl with rfl | hl
            · simp [incr, hneg] at hi
            · exact ih hl v'
      unfold priors
      cases maxCoeff y with
      | none => rfl
      | some m =>
        simp only
        split
        · rfl
        · rw [hloop y hl]

example : ([0, 2, 2, 1] : List Int) ≠ [] ∧ (∀ l ∈ ([0, 2, 2, 1] : List Int), 0 ≤ l) ∧
    priors [0, 2, 2, 1] = some [1 / 4, 1 / 4, 1 / 2] := by
  refine ⟨by decide, by decide, ?_⟩
  simp [priors, maxCoeff, countLoop, incr]
  norm_num

end Verif.Corpus
