import Verif.Props.Rounded
import Mathlib.Tactic.Ring
import Mathlib.Tactic.NormNum

/-! Rounding to a number of bits meets the assumptions of C96; property C97. -/
namespace Verif.Rounded

open MathUtils EStep MStep Train Pool Finset

/-! ### Rounding to `p` bits -/

theorem nearest_err (x : ℝ) : |(nearest x : ℝ) - x| ≤ 1 / 2 := by
  have h1 := Int.floor_le x
  have h2 := Int.lt_floor_add_one x
  rw [abs_le]
  unfold nearest
  split_ifs <;> push_cast <;> constructor <;> linarith

theorem nearest_int (z : ℤ) : nearest z = z := by
  unfold nearest
  rw [if_pos (by simp), Int.floor_intCast]

theorem nearest_half {z : ℤ} (h : Even z) : nearest (z + 1 / 2) = z := by
  have e : ⌊(z : ℝ) + 1 / 2⌋ = z := by
    rw [Int.floor_eq_iff]
    constructor <;> norm_num
  unfold nearest
  rw [e, if_neg (by norm_num), if_neg (by norm_num), if_pos h]

theorem roundTo_err {p : ℕ} (x : ℝ) : |roundTo p x - x| ≤ (1 / 2) ^ p * |x| := by
  rcases eq_or_ne x 0 with rfl | hx
  · have : nearest 0 = 0 := by simpa using nearest_int 0
    simp [roundTo, this]
  have hpos : 0 < |x| := abs_pos.2 hx
  have hlog : (2 : ℝ) ^ Int.log 2 |x| ≤ |x| := by
    have := Int.zpow_log_le_self (b := 2) (r := |x|) (by norm_num) hpos
    exact_mod_cast this
  have hu : (0 : ℝ) < 2 ^ (Int.log 2 |x| - ((p : ℤ) - 1)) := zpow_pos (by norm_num) _
  have e : roundTo p x - x = (nearest (x / 2 ^ (Int.log 2 |x| - ((p : ℤ) - 1))) -
      x / 2 ^ (Int.log 2 |x| - ((p : ℤ) - 1))) * 2 ^ (Int.log 2 |x| - ((p : ℤ) - 1)) := by
    rw [sub_mul, div_mul_cancel₀ _ hu.ne']
    rfl
  rw [e, abs_mul, abs_of_pos hu]
  have e2 : (1 / 2 : ℝ) * 2 ^ (Int.log 2 |x| - ((p : ℤ) - 1)) = (1 / 2) ^ p * 2 ^ Int.log 2 |x| := by
    have : Int.log 2 |x| - ((p : ℤ) - 1) = Int.log 2 |x| + 1 + -(p : ℤ) := by ring
    rw [this, zpow_add₀ (by norm_num), zpow_add₀ (by norm_num), zpow_neg, zpow_natCast, zpow_one, one_div_pow]
    ring
  calc _ ≤ (1 / 2 : ℝ) * 2 ^ (Int.log 2 |x| - ((p : ℤ) - 1)) :=
        mul_le_mul_of_nonneg_right (nearest_err _) hu.le
    _ = (1 / 2) ^ p * 2 ^ Int.log 2 |x| := e2
    _ ≤ (1 / 2) ^ p * |x| := mul_le_mul_of_nonneg_left hlog (by positivity)

theorem summation_left (fl : ℝ → ℝ) (l : List ℝ) : Summation fl l (sumLeft fl l) := by
  cases l with
  | nil => exact .nil
  | cons x l =>
    induction l using List.reverseRecOn with
    | nil => exact .one x
    | append_singleton l y ih =>
      have e : sumLeft fl (x :: (l ++ [y])) = fl (sumLeft fl (x :: l) + y) := by
        simp [sumLeft, List.foldl_append]
      rw [e]
      exact .add (by simp) (by simp) ih (.one y) (by simp)

/-- Numbers with `p` significant bits. -/
noncomputable def binary (p : ℕ) (hp : 0 < p) : Arith where
  fl := roundTo p
  u := (1 / 2) ^ p
  u_nonneg := by positivity
  u_lt := pow_lt_one₀ (by norm_num) (by norm_num) hp.ne'
  err := roundTo_err
  sum v := sumLeft (roundTo p) (List.ofFn v)
  sum_spec v := summation_left _ _

/-- In double precision, a corpus of a million documents over a hundred thousand words: two schedules differ by less
than a relative 5 · 10⁻¹⁰. -/
example : (4 * 1000000 + 2 * 100000 + 10) * (binary 53 (by norm_num)).u < 5 / 10 ^ 10 := by
  norm_num [binary]

/-! ### C97 -/

theorem roundTo_scaled {p : ℕ} (hp : 0 < p) {y : ℝ} (h1 : 2 ^ (p - 1) ≤ y) (h2 : y < 2 ^ p) (j : ℤ) :
    roundTo p (y * 2 ^ j) = nearest y * 2 ^ j := by
  have hy : 0 < y := lt_of_lt_of_le (by positivity) h1
  have hj : (0 : ℝ) < 2 ^ j := zpow_pos (by norm_num) _
  have hx : |y * 2 ^ j| = y * 2 ^ j := abs_of_pos (mul_pos hy hj)
  have hc : ((p - 1 : ℕ) : ℤ) = (p : ℤ) - 1 := by omega
  have hlog : Int.log 2 (y * 2 ^ j) = (p : ℤ) - 1 + j := by
    have a1 : (p : ℤ) - 1 + j ≤ Int.log 2 (y * 2 ^ j) := by
      rw [← Int.zpow_le_iff_le_log (by norm_num) (mul_pos hy hj)]
      push_cast
      rw [zpow_add₀ (by norm_num), ← hc, zpow_natCast]
      exact mul_le_mul_of_nonneg_right h1 hj.le
    have a2 : Int.log 2 (y * 2 ^ j) < (p : ℤ) + j := by
      rw [← Int.lt_zpow_iff_log_lt (by norm_num) (mul_pos hy hj)]
      push_cast
      rw [zpow_add₀ (by norm_num), zpow_natCast]
      exact mul_lt_mul_of_pos_right h2 hj
    omega
  unfold roundTo
  rw [hx, hlog]
  have e : (p : ℤ) - 1 + j - ((p : ℤ) - 1) = j := by ring
  rw [e, mul_div_cancel_right₀ _ hj.ne']

theorem roundTo_int {p : ℕ} (hp : 0 < p) {z : ℤ} (h1 : (2 : ℝ) ^ (p - 1) ≤ z) (h2 : (z : ℝ) < 2 ^ p) (j : ℤ) :
    roundTo p (z * 2 ^ j) = z * 2 ^ j := by
  rw [roundTo_scaled hp h1 h2, nearest_int]

/-- The numbers of the example: `2 ^ (p - 1)`, and the powers of two around. -/
theorem facts {p : ℕ} (hp : 2 ≤ p) : roundTo p 1 = 1 ∧ roundTo p 2 = 2 ∧ roundTo p (1 / 2) = 1 / 2 ∧
    roundTo p ((1 / 2) ^ p) = (1 / 2) ^ p ∧ roundTo p ((1 / 2) ^ p + (1 / 2) ^ p) = (1 / 2) ^ p + (1 / 2) ^ p ∧
    roundTo p ((1 / 2) ^ p + (1 / 2) ^ p + 1) = (1 / 2) ^ p + (1 / 2) ^ p + 1 ∧
    roundTo p (1 + (1 / 2) ^ p) = 1 ∧ roundTo p ((1 / 2) ^ p + (1 / 2) ^ p + 1 + 1) = 2 ∧
    roundTo p (((1 / 2) ^ p + (1 / 2) ^ p + 1) / 2) = ((1 / 2) ^ p + (1 / 2) ^ p + 1) / 2 ∧
    roundTo p (1 - (1 / 2) ^ p) = 1 - (1 / 2) ^ p := by
  obtain ⟨r, rfl⟩ : ∃ r, p = r + 2 := ⟨p - 2, by omega⟩
  have hp0 : 0 < r + 2 := by omega
  have hP : (0 : ℝ) < 2 ^ r := by positivity
  have hP1 : (1 : ℝ) ≤ 2 ^ r := one_le_pow₀ (by norm_num)
  have e1 : (2 : ℝ) ^ (r + 2 - 1) = 2 * 2 ^ r := by
    rw [show r + 2 - 1 = r + 1 by omega, pow_succ]; ring
  have e2 : (2 : ℝ) ^ (r + 2) = 4 * 2 ^ r := by rw [pow_add]; ring
  have ee : (1 / 2 : ℝ) ^ (r + 2) = 1 / (4 * 2 ^ r) := by rw [one_div_pow, e2]
  have z1 : (2 : ℝ) ^ (-1 - r : ℤ) = 1 / (2 * 2 ^ r) := by
    rw [zpow_sub₀ (by norm_num), zpow_natCast]
    norm_num
    ring
  have z2 : (2 : ℝ) ^ (-r : ℤ) = 1 / 2 ^ r := by
    rw [zpow_neg, zpow_natCast, one_div]
  have z3 : (2 : ℝ) ^ (-2 - r : ℤ) = 1 / (4 * 2 ^ r) := by
    rw [zpow_sub₀ (by norm_num), zpow_natCast]
    norm_num
    ring
  have z4 : (2 : ℝ) ^ (-2 - r + (-1 - r) : ℤ) = 1 / (4 * 2 ^ r) * (1 / (2 * 2 ^ r)) := by
    rw [zpow_add₀ (by norm_num), z3, z1]
  have c : ((2 ^ (r + 1) : ℤ) : ℝ) = 2 * 2 ^ r := by push_cast; rw [pow_succ]; ring
  have c' : ((2 ^ (r + 1) + 1 : ℤ) : ℝ) = 2 * 2 ^ r + 1 := by push_cast; rw [pow_succ]; ring
  have c'' : ((2 ^ (r + 2) - 1 : ℤ) : ℝ) = 4 * 2 ^ r - 1 := by push_cast; rw [pow_add]; ring
  have A0 := fun j => roundTo_int hp0 (z := 2 ^ (r + 1)) (by rw [e1, c]) (by rw [e2, c]; linarith) j
  have A1 := fun j => roundTo_int hp0 (z := 2 ^ (r + 1) + 1) (by rw [e1, c']; linarith)
    (by rw [e2, c']; linarith) j
  have A2 := fun j => roundTo_int hp0 (z := 2 ^ (r + 2) - 1) (by rw [e1, c'']; linarith)
    (by rw [e2, c'']; linarith) j
  have A3 : ∀ j : ℤ, roundTo (r + 2) ((2 * 2 ^ r + 1 / 2) * 2 ^ j) = 2 * 2 ^ r * 2 ^ j := by
    intro j
    rw [roundTo_scaled hp0 (by rw [e1]; linarith) (by rw [e2]; linarith), ← c, nearest_half]
    rw [pow_succ]
    exact (even_two).mul_left _
  simp only [c, c', c''] at A0 A1 A2
  rw [ee]
  refine ⟨?_, ?_, ?_, ?_, ?_, ?_, ?_, ?_, ?_, ?_⟩
  · have := A0 (-1 - r)
    rw [z1] at this
    convert this using 2 <;> field_simp
  · have := A0 (-r)
    rw [z2] at this
    convert this using 2 <;> field_simp
  · have := A0 (-2 - r)
    rw [z3] at this
    convert this using 2 <;> field_simp <;> norm_num
  · have := A0 (-2 - r + (-1 - r))
    rw [z4] at this
    convert this using 2 <;> field_simp
  · have := A0 (-2 - r + (-1 - r) + 1)
    rw [zpow_add₀ (by norm_num), z4] at this
    convert this using 2 <;> field_simp <;> norm_num
  · have := A1 (-1 - r)
    rw [z1] at this
    convert this using 2 <;> field_simp <;> ring
  · have := A3 (-1 - r)
    rw [z1] at this
    convert this using 2 <;> field_simp <;> ring
  · have := A3 (-r)
    rw [z2] at this
    convert this using 2 <;> field_simp <;> ring
  · have := A1 (-2 - r)
    rw [z3] at this
    convert this using 2 <;> field_simp <;> ring
  · have := A2 (-2 - r)
    rw [z3] at this
    convert this using 2 <;> field_simp

/-- Three documents over two words: one with both words, two with the first. -/
def someDocs (i : ℕ) : Doc 2 := if i = 0 then ⟨![1, 1], -1⟩ else ⟨![1, 0], -1⟩

/-- The first document is about the first topic, the others nearly not. -/
noncomputable def somePhi (e : ℝ) (i : ℕ) : Mat 2 2 ℝ :=
  if i = 0 then ![![1, 1], ![0, 0]] else ![![e, e], ![1 - e, 1 - e]]

/-- `partial_fit` on these documents. -/
noncomputable def someRun {C : ℕ} (p : ℕ) (hp : 0 < p) :
    Cfg (Params 2 2 C × Unit × Option (Buf 2 2)) (Params 2 2 C × Unit) (VP 2 2) :=
  trainCfg (rounded (binary p hp) someDocs) id (fun _ i => ⟨somePhi ((1 / 2) ^ p) i, 0⟩) true 2 3 id

theorem someRun_beta {C p : ℕ} (hp : 0 < p) {q : Params 2 2 C} {l : List ℕ} (hl : l.Perm (List.range 3))
    (hlag : Lag 2 l) : ∃ s, Reachable (someRun p hp) (q, (), some none) s ∧ Returned s ∧
    s.model = (trainBatch (rounded (binary p hp) someDocs) id (OrderFree.docs (rounded (binary p hp) someDocs)
      (q, (), some none) (l.map fun i => (i, ⟨somePhi ((1 / 2) ^ p) i, 0⟩)))).1 := by
  obtain ⟨s, h1, h2, h3⟩ := C95_possible (someRun (C := C) p hp) (q, (), some none) hl hlag
  refine ⟨s, h1, h2, ?_⟩
  have := partial_fit_order h1 h2
  rw [h3, List.map_id] at this
  exact this

/-- **C97**: with numbers of any number of bits, two workers and an unsupervised M step, two runs of `partial_fit` on
the same corpus in the same order, from the same model, can give different topics. -/
theorem C97_depends {C p : ℕ} (hp : 2 ≤ p) (q : Params 2 2 C) :
    (∀ i k n, 0 ≤ somePhi ((1 / 2) ^ p) i k n ∧ roundTo p (somePhi ((1 / 2) ^ p) i k n) = somePhi ((1 / 2) ^ p) i k n) ∧
    (∀ i n, ∑ k, somePhi ((1 / 2) ^ p) i k n = 1) ∧
    ∃ s s' : St (Params 2 2 C × Unit × Option (Buf 2 2)) (VP 2 2) 2,
      Reachable (someRun p (by omega)) (q, (), some none) s ∧ s.main = .ret ∧
      Reachable (someRun p (by omega)) (q, (), some none) s' ∧ s'.main = .ret ∧
      s.model.1.beta ≠ s'.model.1.beta := by
  obtain ⟨f1, f2, fh, fe, fee, fee1, ft, fs, fq, fm⟩ := facts hp
  have hp0 : 0 < p := by omega
  have f0 : roundTo p 0 = 0 := fl_zero (A := binary p hp0)
  have he : (0 : ℝ) < (1 / 2) ^ p := by positivity
  have he1 : (1 / 2 : ℝ) ^ p ≤ 1 := pow_le_one₀ (by norm_num) (by norm_num)
  refine ⟨?_, ?_, ?_⟩
  · intro i k n
    unfold somePhi
    split <;> fin_cases k <;> fin_cases n <;> simp_all
  · intro i n
    unfold somePhi
    split <;> fin_cases n <;> simp
  · obtain ⟨s, h1, h2, h3⟩ := someRun_beta (C := C) hp0 (q := q) (l := [0, 1, 2]) (by decide) (by
      intro k i h
      match k, h with
      | 0, h => simp at h; omega
      | 1, h => simp at h; omega
      | 2, h => simp at h; omega)
    obtain ⟨s', h1', h2', h3'⟩ := someRun_beta (C := C) hp0 (q := q) (l := [1, 2, 0]) (by decide) (by
      intro k i h
      match k, h with
      | 0, h => simp at h; omega
      | 1, h => simp at h; omega
      | 2, h => simp at h; omega)
    refine ⟨s, s', h1, h2, h1', h2', ?_⟩
    intro hE
    have hE' := congrArg (fun b : Beta 2 2 => match b with
      | .noRows => none
      | .matrix m => some (m 0 0)) hE
    rw [h3, h3'] at hE'
    clear h3 h3' hE
    generalize (1 / 2 : ℝ) ^ p = e at *
    simp [trainBatch, OrderFree.docs, trainDoc, rounded, rDoc, rBeta, rEntry, quot, binary, someDocs, somePhi,
      sumLeft, f0, f1, ft, fe, fee, fee1, fs] at hE'
    have h11 : (1 : ℝ) + 1 = 2 := by norm_num
    have hinv : (2 : ℝ)⁻¹ = 1 / 2 := by norm_num
    rw [h11, f2, if_neg (by norm_num), hinv] at hE'
    simp only [fh, fq, Ieee.fin.injEq] at hE'
    linarith

/-- **C97**, what holds: with one worker the results arrive in the order of the corpus, so that two runs of
`partial_fit` on the same corpus in the same order from the same model and M step give the same parameters, bit for
bit, in any arithmetic and for every M step.  Missing: more workers, for which this is false (`C97_depends`). -/
theorem C97_one_worker_partial {Q R S T : Type} {b : BatchStep Q R S} {next : T → T} {eval : Q × T → ℕ → R}
    {owner owner' : Bool} {n : ℕ} {order : ℕ → ℕ} {m : Q × T × Option S} {s s' : St (Q × T × Option S) R 1}
    (h : Reachable (trainCfg b next eval owner 1 n order) m s) (hr : s.main = .ret)
    (h' : Reachable (trainCfg b next eval owner' 1 n order) m s') (hr' : s'.main = .ret) :
    s.model = s'.model ∧ s.model = (trainBatch b next (OrderFree.docs b m (((List.range n).map order).map
      fun i => (i, eval (trainParams m) i)))).1 := by
  have key : ∀ {owner : Bool} {s : St (Q × T × Option S) R 1},
      Reachable (trainCfg b next eval owner 1 n order) m s → s.main = .ret →
      s.model = (trainBatch b next (OrderFree.docs b m (((List.range n).map order).map
        fun i => (i, eval (trainParams m) i)))).1 := by
    intro owner s h hr
    have h1 := C95_bounded h
    have h2 := (C95_one_worker n _ (C01_each_document_once h hr).1).1 h1
    rw [partial_fit_order h hr, h2]
  exact ⟨(key h hr).trans (key h' hr').symm, key h hr⟩

/-- Such runs exist: three documents, one worker, the unsupervised M step in single precision. -/
example {C : ℕ} (q : Params 2 2 C) : ∃ s : St (Params 2 2 C × Unit × Option (Buf 2 2)) (VP 2 2) 1,
    Reachable (trainCfg (rounded (binary 24 (by norm_num)) someDocs) id
    (fun _ i => (⟨somePhi ((1 / 2) ^ 24) i, 0⟩ : VP 2 2)) true 1 3 id) (q, (), some none) s ∧ s.main = .ret := by
  obtain ⟨s, h1, h2, _⟩ := C95_possible (trainCfg (rounded (binary 24 (by norm_num)) someDocs) id
    (fun _ i => (⟨somePhi ((1 / 2) ^ 24) i, 0⟩ : VP 2 2)) true 1 3 id) (q, (), some none) (l := List.range 3)
    (List.Perm.refl _) ((C95_one_worker 3 _ (List.Perm.refl _)).2 rfl)
  exact ⟨s, h1, h2⟩

/-- The hypotheses of C96 are met by the runs of C97: the topics of both runs are numbers, and by `C96_schedules` their
relative distance is at most `26 u`. -/
example {C : ℕ} (q : Params 2 2 C) {s s' : St (Params 2 2 C × Unit × Option (Buf 2 2)) (VP 2 2) 2}
    (h : Reachable (someRun 53 (by norm_num)) (q, (), some none) s) (hr : s.main = .ret)
    (h' : Reachable (someRun 53 (by norm_num)) (q, (), some none) s') (hr' : s'.main = .ret) :
    ∃ x x' : ℝ, ∃ beta beta' : Mat 2 2 (Ieee ℝ), s.model.1.beta = .matrix beta ∧ s'.model.1.beta = .matrix beta' ∧
      beta 0 0 = .fin x ∧ beta' 0 0 = .fin x' ∧ |x - x'| ≤ 26 * (1 / 2) ^ 53 * max x x' := by
  have hphi : ∀ i < 3, ∀ k v, 0 ≤ (⟨somePhi ((1 / 2) ^ 53) i, 0⟩ : VP 2 2).phi k v := fun i _ k v =>
    ((C97_depends (p := 53) (by norm_num) q).1 i k v).1
  obtain ⟨beta, beta', e, e', hb⟩ := C96_schedules (order := id) (order' := id) (.inl rfl) (by simp) (by simp)
    (by norm_num) hphi h hr h' hr'
  obtain ⟨beta2, e2, hb2⟩ := C96_topics (order := id) (.inl rfl) (by simp) (by norm_num) hphi h hr
  have hbb : beta = beta2 := by
    rw [e] at e2
    cases e2
    rfl
  subst hbb
  have hpos : 0 < topicMass (results (C := C) someDocs (fun _ i => (⟨somePhi ((1 / 2) ^ 53) i, 0⟩ : VP 2 2))
      (q, ()) (List.range 3)) 0 := by
    simp [topicMass, expectedCounts, results, someDocs, somePhi, List.range_succ]
    positivity
  obtain ⟨y, hy, _⟩ := (hb2 0).1 hpos
  rcases hb 0 0 with h1 | ⟨x, x', h1, h2, h3⟩
  · rw [(hy 0).1] at h1
    cases h1.1
  · refine ⟨x, x', beta, beta', e, e', h1, h2, ?_⟩
    have : (binary 53 (by norm_num)).u = (1 / 2) ^ 53 := rfl
    rw [this] at h3
    convert h3 using 3
    norm_num

end Verif.Rounded
