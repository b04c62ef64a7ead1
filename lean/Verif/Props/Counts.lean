import Verif.Model.Counts
import Verif.Model.FastExp
import Verif.Props.FastExp

/-
C126: the number of words of a document.
-/
namespace Verif.Counts

open MathUtils EStep Apps

variable {K V : ℕ}

/-- The counts above zero, added up: the specification knows nothing of an order. -/
def gains (l : List ℤ) : ℤ := (l.map fun x => max x 0).sum

/-- The counts below zero, added up. -/
def losses (l : List ℤ) : ℤ := (l.map fun x => min x 0).sum

theorem gains_append (l l' : List ℤ) : gains (l ++ l') = gains l + gains l' := by simp [gains]

theorem losses_append (l l' : List ℤ) : losses (l ++ l') = losses l + losses l' := by simp [losses]

theorem gains_perm {l l' : List ℤ} (h : l.Perm l') : gains l = gains l' := (h.map _).sum_eq

theorem losses_perm {l l' : List ℤ} (h : l.Perm l') : losses l = losses l' := (h.map _).sum_eq

theorem gains_nonneg (l : List ℤ) : 0 ≤ gains l :=
  List.sum_nonneg (by intro x hx; obtain ⟨y, _, rfl⟩ := List.mem_map.1 hx; exact le_max_right _ _)

theorem losses_nonpos (l : List ℤ) : losses l ≤ 0 := by
  induction l with
  | nil => simp [losses]
  | cons x l ih =>
    have : losses (x :: l) = min x 0 + losses l := by simp [losses]
    have := min_le_right x 0
    omega

theorem sum_split (l : List ℤ) : l.sum = gains l + losses l := by
  induction l with
  | nil => simp [gains, losses]
  | cons x l ih =>
    have h1 : gains (x :: l) = max x 0 + gains l := by simp [gains]
    have h2 : losses (x :: l) = min x 0 + losses l := by simp [losses]
    rw [List.sum_cons, h1, h2, ih]
    omega

theorem gains_of_nonneg {l : List ℤ} (h : ∀ x ∈ l, 0 ≤ x) : gains l = l.sum ∧ losses l = 0 := by
  have h2 : losses l = 0 := by
    unfold losses
    rw [List.map_congr_left (g := fun _ => (0 : ℤ)) (fun x hx => min_eq_right (h x hx))]
    simp
  have := sum_split l
  exact ⟨by omega, h2⟩

theorem wrap_id {x : ℤ} (h : IsInt x) : wrap x = x := by
  unfold IsInt intMin intMax at h
  unfold wrap
  rw [Int.bmod_eq_of_le] <;> omega

theorem wrap_isInt (x : ℤ) : IsInt (wrap x) := by
  unfold IsInt intMin intMax wrap
  have h1 := Int.le_bmod (x := x) (m := 4294967296) (by norm_num)
  have h2 := Int.bmod_lt (x := x) (m := 4294967296) (by norm_num)
  norm_num at h1 h2
  omega

theorem wrap_add (x y : ℤ) : wrap (wrap x + wrap y) = wrap (x + y) := by
  unfold wrap
  rw [Int.add_bmod_bmod, Int.bmod_add_bmod]

/-- Some sum is computed, whatever the counts (so what follows is not about nothing). -/
theorem total_exists {W : Set Way} (hW : W.Nonempty) (l : List ℤ) : ∃ r, Total W l r := by
  obtain ⟨w, hw⟩ := hW
  induction l with
  | nil => exact ⟨_, .nil⟩
  | cons x l ih =>
    obtain ⟨r, hr⟩ := ih
    by_cases hl : l = []
    · subst hl; exact ⟨_, .one x⟩
    · exact ⟨_, .add w hw (by simp) hl (.one x) hr (List.Perm.refl _)⟩

/-- C126, the part that holds: if the counts above zero and those below zero each stay within the range of `int`,
every order, every grouping and every way to add gives the sum. -/
theorem total_exact {W : Set Way} {l : List ℤ} (h1 : gains l ≤ intMax) (h2 : intMin ≤ losses l) {r : Option ℤ}
    (h : Total W l r) : r = some l.sum := by
  induction h with
  | nil => simp
  | one x => simp
  | @add l l' l'' a b w hw hl hl' ha hb hp iha ihb =>
    rw [gains_perm hp, gains_append] at h1
    rw [losses_perm hp, losses_append] at h2
    have g1 := gains_nonneg l
    have g2 := gains_nonneg l'
    have g3 := losses_nonpos l
    have g4 := losses_nonpos l'
    have s1 := sum_split l
    have s2 := sum_split l'
    rw [iha (by omega) (by omega), ihb (by omega) (by omega), hp.sum_eq, List.sum_append]
    simp only [Option.bind_some, add]
    rw [if_pos]
    unfold IsInt
    omega

/-- C126: a document whose counts add up to an `int` has the number of words one expects, however Eigen adds. -/
theorem C126_words_partial {W : Set Way} (X : Vec V ℕ) (h : (numWords X : ℤ) ≤ intMax) {r : Option ℤ}
    (hr : Total W (List.ofFn fun n => (X n : ℤ)) r) : r = some (numWords X : ℤ) := by
  have hn : ∀ x ∈ List.ofFn (fun n => (X n : ℤ)), 0 ≤ x := by
    intro x hx
    obtain ⟨n, rfl⟩ := (List.mem_ofFn' _ _).1 hx
    exact Int.natCast_nonneg _
  have hs : (List.ofFn fun n => (X n : ℤ)).sum = (numWords X : ℤ) := by
    rw [List.sum_ofFn, numWords]; push_cast; rfl
  obtain ⟨g1, g2⟩ := gains_of_nonneg hn
  rw [total_exact (by rw [g1, hs]; exact h) (by rw [g2]; decide) hr, hs]

/-- What is computed without undefined behaviour is the sum up to a multiple of 2^32. -/
theorem total_wraps {W : Set Way} {l : List ℤ} (hi : ∀ x ∈ l, IsInt x) {r : Option ℤ} (h : Total W l r) {v : ℤ}
    (hv : r = some v) : v = wrap l.sum := by
  induction h generalizing v with
  | nil => cases hv; rfl
  | one x => cases hv; simp [wrap_id (hi x (by simp))]
  | @add l l' l'' a b w hw hl hl' ha hb hp iha ihb =>
    cases a with
    | none => cases hv
    | some a =>
      cases b with
      | none => cases hv
      | some b =>
        have ia := iha (fun x hx => hi x (hp.mem_iff.2 (List.mem_append_left _ hx))) rfl
        have ib := ihb (fun x hx => hi x (hp.mem_iff.2 (List.mem_append_right _ hx))) rfl
        rw [hp.sum_eq, List.sum_append, ← wrap_add, ← ia, ← ib]
        simp only [Option.bind_some, add] at hv
        split_ifs at hv with hb
        · rw [wrap_id hb]; exact (Option.some.inj hv).symm
        · cases w with
          | plain => cases hv
          | packet => exact (Option.some.inj hv).symm

/-- C126 fails: with more words than an `int` holds, no order of the additions gives their number. -/
theorem C126_too_many {W : Set Way} (X : Vec V ℕ) (hi : ∀ n, (X n : ℤ) ≤ intMax) (h : intMax < (numWords X : ℤ))
    {r : Option ℤ} (hr : Total W (List.ofFn fun n => (X n : ℤ)) r) :
    r = none ∨ ∃ v, r = some v ∧ v ≠ numWords X ∧ ((numWords X : ℤ) < 4294967296 → v = numWords X - 4294967296 ∧ v < 0) := by
  have hs : (List.ofFn fun n => (X n : ℤ)).sum = (numWords X : ℤ) := by
    rw [List.sum_ofFn, numWords]; push_cast; rfl
  have hint : ∀ x ∈ List.ofFn (fun n => (X n : ℤ)), IsInt x := by
    intro x hx
    obtain ⟨n, rfl⟩ := (List.mem_ofFn' _ _).1 hx
    have := hi n
    exact ⟨le_trans (by decide) (Int.natCast_nonneg (X n)), this⟩
  cases r with
  | none => exact .inl rfl
  | some v =>
    refine .inr ⟨v, rfl, ?_, ?_⟩
    · have hv := total_wraps hint hr rfl
      rw [hs] at hv
      have := (wrap_isInt (numWords X : ℤ)).2
      omega
    · intro hlt
      have hv := total_wraps hint hr rfl
      rw [hs] at hv
      have e : wrap (numWords X : ℤ) = numWords X - 4294967296 := by
        have e1 : wrap ((numWords X : ℤ) - 4294967296) = wrap (numWords X : ℤ) := by
          unfold wrap
          rw [Int.sub_eq_add_neg, show (-4294967296 : ℤ) = ((4294967296 : ℕ) : ℤ) * (-1) by norm_num,
            Int.add_mul_bmod_self_left]
        rw [← e1, wrap_id]
        unfold IsInt intMin intMax
        unfold intMax at h
        omega
      rw [hv, e]
      exact ⟨rfl, by omega⟩

/-- C126 fails: if the additions are those of C++, the program has undefined behaviour for every document with
more words than an `int` holds. -/
theorem C126_undefined (X : Vec V ℕ) (hi : ∀ n, (X n : ℤ) ≤ intMax) (h : intMax < (numWords X : ℤ))
    {r : Option ℤ} (hr : Total {.plain} (List.ofFn fun n => (X n : ℤ)) r) : r = none := by
  have key : ∀ {l : List ℤ} {r : Option ℤ}, Total {.plain} l r → ∀ v, r = some v → v = l.sum := by
    intro l r h
    induction h with
    | nil => intro v hv; cases hv; rfl
    | one x => intro v hv; cases hv; simp
    | @add l l' l'' a b w hw hl hl' ha hb hp iha ihb =>
      intro v hv
      cases a with
      | none => cases hv
      | some a =>
        cases b with
        | none => cases hv
        | some b =>
          rw [hp.sum_eq, List.sum_append, ← iha a rfl, ← ihb b rfl]
          cases w with
          | packet => cases hw
          | plain =>
            simp only [Option.bind_some, add] at hv
            split_ifs at hv
            exact (Option.some.inj hv).symm
  rcases C126_too_many X hi h hr with h | ⟨v, hv, hne, _⟩
  · exact h
  · exact absurd (by
      rw [key hr v hv, List.sum_ofFn, numWords]; push_cast; rfl) hne

/-- With counts below zero even a total that is an `int` may be computed or not, depending on the order. -/
theorem C126_order : ∃ l : List ℤ, (∀ x ∈ l, IsInt x) ∧ IsInt l.sum ∧ Total {.plain} l none ∧
    Total {.plain} l (some l.sum) := by
  refine ⟨[2147483647, 1, -1], ?_, ?_, ?_, ?_⟩
  · intro x hx
    fin_cases hx <;> decide
  · decide
  · have := Total.add (W := {Way.plain}) .plain rfl (by simp) (by simp)
      (Total.add (W := {Way.plain}) (l'' := [2147483647, 1]) .plain rfl (by simp) (by simp) (.one 2147483647) (.one 1)
        (List.Perm.refl _)) (.one (-1)) (List.Perm.refl ([2147483647, 1] ++ [(-1 : ℤ)]))
    exact this
  · have := Total.add (W := {Way.plain}) .plain rfl (by simp) (by simp) (.one 2147483647)
      (Total.add (W := {Way.plain}) (l'' := [1, -1]) .plain rfl (by simp) (by simp) (.one 1) (.one (-1))
        (List.Perm.refl _)) (List.Perm.refl ([(2147483647 : ℤ)] ++ [1, -1]))
    exact this

/-- What the E steps do with the right number: the shares of the words add up to one, and the first topics of the
document to the prior and its words. -/
theorem C126_used {W : Set Way} (X : Vec V ℕ) (alpha : Vec K ℝ) (hK : 0 < K) (h0 : 0 < numWords X)
    (h : (numWords X : ℤ) ≤ intMax) {num : ℤ} (hr : Total W (List.ofFn fun n => (X n : ℤ)) (some num)) :
    (∑ n, shares (fun n => (X n : ℤ)) num n) = 1 ∧ (∀ n, 0 ≤ shares (fun n => (X n : ℤ)) num n) ∧
      (∑ k, firstGamma alpha num k) = (∑ k, alpha k) + numWords X := by
  have e := Option.some.inj (C126_words_partial X h hr)
  have hN : (0 : ℝ) < numWords X := by exact_mod_cast h0
  refine ⟨?_, ?_, ?_⟩
  · simp only [shares, e]
    rw [← Finset.sum_div, div_eq_one_iff_eq (by push_cast; exact hN.ne')]
    push_cast [numWords]; rfl
  · intro n
    simp only [shares, e]
    positivity
  · have hK' : (K : ℝ) ≠ 0 := by positivity
    simp only [firstGamma, e, Finset.sum_add_distrib, Finset.sum_const, Finset.card_univ, Fintype.card_fin,
      nsmul_eq_mul]
    push_cast
    field_simp

/-- What the E steps do with the number of a document of 2^31 to 2^32 words, if there is one: the shares of its
words are negative, and the first topics of the document add up to less than nothing. -/
theorem C126_misused {W : Set Way} (X : Vec V ℕ) (alpha : Vec K ℝ) (hK : 0 < K) (hi : ∀ n, (X n : ℤ) ≤ intMax)
    (h : intMax < (numWords X : ℤ)) (h' : (numWords X : ℤ) < 4294967296) {num : ℤ}
    (hr : Total W (List.ofFn fun n => (X n : ℤ)) (some num)) :
    (∀ n, 0 < X n → shares (fun n => (X n : ℤ)) num n < 0) ∧
      (∑ k, firstGamma alpha num k) = (∑ k, alpha k) + numWords X - 4294967296 := by
  rcases C126_too_many X hi h hr with h2 | ⟨v, hv, _, hlt⟩
  · cases h2
  · cases hv
    obtain ⟨e, hneg⟩ := hlt h'
    refine ⟨?_, ?_⟩
    · intro n hn
      apply div_neg_of_pos_of_neg
      · show (0 : ℝ) < ((X n : ℤ) : ℝ)
        exact_mod_cast hn
      · exact_mod_cast hneg
    · have hK' : (K : ℝ) ≠ 0 := by positivity
      simp only [firstGamma, e, Finset.sum_add_distrib, Finset.sum_const, Finset.card_univ, Fintype.card_fin,
        nsmul_eq_mul]
      push_cast
      field_simp
      ring

/-- Counts below zero are not refused.  With the prior that the builder chooses, 1/K for every topic, a document
with one word less than none has no topics to begin with, and `digamma` divides by zero for every topic. -/
theorem C126_negative {W : Set Way} (X : Vec V ℤ) (hK : 0 < K) (h1 : gains (List.ofFn X) ≤ intMax)
    (h2 : intMin ≤ losses (List.ofFn X)) (hs : ∑ n, X n = -1) {r : Option ℤ} (hr : Total W (List.ofFn X) r) :
    ∃ num, r = some num ∧ ∀ k : Fin K, firstGamma (fun _ => 1 / (K : ℝ)) num k = 0 ∧
      FastExp.digamma (firstGamma (fun _ => 1 / (K : ℝ)) num k) = none := by
  have e := total_exact h1 h2 hr
  rw [List.sum_ofFn, hs] at e
  have hK' : (K : ℝ) ≠ 0 := by positivity
  have h0 : ∀ k : Fin K, firstGamma (fun _ => 1 / (K : ℝ)) (-1) k = 0 := by
    intro k
    simp only [firstGamma]
    push_cast
    field_simp
    ring
  refine ⟨-1, e, fun k => ⟨h0 k, ?_⟩⟩
  rw [h0 k]
  unfold FastExp.digamma FastExp.digammaLoop
  simp

/-- The hypotheses are met: a small document, for every way to add. -/
example : ∃ r, Total Set.univ (List.ofFn fun n : Fin 3 => ((![2, 0, 1] : Vec 3 ℕ) n : ℤ)) r ∧ r = some 3 := by
  obtain ⟨r, hr⟩ := total_exists (W := Set.univ) ⟨.plain, trivial⟩ (List.ofFn fun n : Fin 3 => ((![2, 0, 1] : Vec 3 ℕ) n : ℤ))
  have := C126_words_partial (![2, 0, 1] : Vec 3 ℕ) (by decide) hr
  exact ⟨r, hr, this⟩

/-- The hypotheses are met: a document with 2^31 words, half of them of each of two kinds. -/
example : ∃ X : Vec 2 ℕ, (∀ n, (X n : ℤ) ≤ intMax) ∧ intMax < (numWords X : ℤ) ∧ (numWords X : ℤ) < 4294967296 ∧
    ∃ num, Total {.packet} (List.ofFn fun n => (X n : ℤ)) (some num) := by
  refine ⟨![1073741824, 1073741824], ?_, ?_, ?_, ?_⟩
  · intro n; fin_cases n <;> decide
  · rw [numWords, Fin.sum_univ_two]; decide
  · rw [numWords, Fin.sum_univ_two]; decide
  · have := Total.add (W := {Way.packet}) .packet rfl (by simp) (by simp) (.one 1073741824)
      (.one 1073741824) (List.Perm.refl ([(1073741824 : ℤ)] ++ [1073741824]))
    exact ⟨_, this⟩

/-- The hypotheses are met: counts 1 and -2. -/
example : ∃ X : Vec 2 ℤ, gains (List.ofFn X) ≤ intMax ∧ intMin ≤ losses (List.ofFn X) ∧ ∑ n, X n = -1 :=
  ⟨![1, -2], by decide, by decide, by decide⟩

end Verif.Counts
