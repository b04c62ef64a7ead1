import Mathlib.Algebra.Order.BigOperators.Group.Finset
import Mathlib.Algebra.Order.Field.Basic
import Mathlib.Algebra.Order.Ring.Pow
import Mathlib.Tactic.Linarith
import Mathlib.Tactic.Positivity
import Mathlib.Tactic.FieldSimp
import Verif.Props.Arrival
import Verif.Props.Schedule
import Verif.Model.Rounded

/-! Properties C96 and C97: training in floating point arithmetic. -/
namespace Verif.Rounded

open MathUtils EStep MStep Train Pool Finset

variable {K V C : ℕ} (A : Arith)

/-! ### Relative errors -/

/-- `x` and `y` differ by at most `m` roundings. -/
def Within (m : ℕ) (x y : ℝ) : Prop := (1 - A.u) ^ m * y ≤ x ∧ (1 - A.u) ^ m * x ≤ y

variable {A}

theorem pow_pos' (m : ℕ) : 0 < (1 - A.u) ^ m := pow_pos (by linarith [A.u_lt]) m

theorem pow_le_one' (m : ℕ) : (1 - A.u) ^ m ≤ 1 :=
  pow_le_one₀ (by linarith [A.u_lt]) (by linarith [A.u_nonneg])

theorem Within.refl (m : ℕ) {x : ℝ} (hx : 0 ≤ x) : Within A m x x :=
  ⟨mul_le_of_le_one_left hx (pow_le_one' m), mul_le_of_le_one_left hx (pow_le_one' m)⟩

theorem Within.symm {m : ℕ} {x y : ℝ} (h : Within A m x y) : Within A m y x := ⟨h.2, h.1⟩

theorem Within.trans {m m' : ℕ} {x y z : ℝ} (h : Within A m x y) (h' : Within A m' y z) : Within A (m + m') x z := by
  constructor
  · rw [pow_add, mul_assoc]
    exact (mul_le_mul_of_nonneg_left h'.1 (pow_pos' m).le).trans h.1
  · rw [pow_add, mul_comm ((1 - A.u) ^ m), mul_assoc]
    exact (mul_le_mul_of_nonneg_left h.2 (pow_pos' m').le).trans h'.2

theorem Within.mono {m m' : ℕ} (hm : m ≤ m') {x y : ℝ} (hx : 0 ≤ x) (hy : 0 ≤ y) (h : Within A m x y) :
    Within A m' x y := by
  obtain ⟨d, rfl⟩ := Nat.exists_eq_add_of_le hm
  exact h.trans (Within.refl d hy)

theorem Within.add {m : ℕ} {x y x' y' : ℝ} (h : Within A m x y) (h' : Within A m x' y') :
    Within A m (x + x') (y + y') := by
  constructor
  · rw [mul_add]; exact add_le_add h.1 h'.1
  · rw [mul_add]; exact add_le_add h.2 h'.2

theorem Within.mul_left {m : ℕ} {x y c : ℝ} (hc : 0 ≤ c) (h : Within A m x y) : Within A m (c * x) (c * y) := by
  constructor
  · rw [mul_left_comm]; exact mul_le_mul_of_nonneg_left h.1 hc
  · rw [mul_left_comm]; exact mul_le_mul_of_nonneg_left h.2 hc

theorem Within.sum {ι : Type} {s : Finset ι} {m : ℕ} {x y : ι → ℝ} (h : ∀ i ∈ s, Within A m (x i) (y i)) :
    Within A m (∑ i ∈ s, x i) (∑ i ∈ s, y i) := by
  constructor
  · rw [mul_sum]; exact sum_le_sum fun i hi => (h i hi).1
  · rw [mul_sum]; exact sum_le_sum fun i hi => (h i hi).2

theorem Within.nonneg {m : ℕ} {x y : ℝ} (h : Within A m x y) (hy : 0 ≤ y) : 0 ≤ x :=
  (mul_nonneg (pow_pos' m).le hy).trans h.1

theorem Within.pos {m : ℕ} {x y : ℝ} (h : Within A m x y) (hy : 0 < y) : 0 < x :=
  (mul_pos (pow_pos' m) hy).trans_le h.1

theorem Within.div {m m' : ℕ} {x y s t : ℝ} (h : Within A m x y) (h' : Within A m' s t) (hx : 0 ≤ x) (hy : 0 ≤ y)
    (hs : 0 < s) (ht : 0 < t) : Within A (m + m') (x / s) (y / t) := by
  have key : ∀ {x y s t : ℝ}, Within A m x y → Within A m' s t → 0 ≤ x → 0 ≤ y → 0 < s → 0 < t →
      (1 - A.u) ^ (m + m') * (y / t) ≤ x / s := by
    intro x y s t h h' hx hy hs ht
    rw [pow_add, ← mul_div_assoc, div_le_div_iff₀ ht hs]
    calc (1 - A.u) ^ m * (1 - A.u) ^ m' * y * s = ((1 - A.u) ^ m * y) * ((1 - A.u) ^ m' * s) := by ring
      _ ≤ x * t := mul_le_mul h.1 h'.2 (mul_nonneg (pow_pos' _).le hs.le) hx
  exact ⟨key h h' hx hy hs ht, key h.symm h'.symm hy hx ht hs⟩

theorem within_fl {x : ℝ} (hx : 0 ≤ x) : Within A 1 (A.fl x) x := by
  have h := A.err x
  rw [abs_of_nonneg hx, abs_le] at h
  have h1 := A.u_nonneg
  have h2 := A.u_lt
  constructor
  · rw [pow_one]; linarith
  · rw [pow_one]
    have : (1 - A.u) * A.fl x ≤ (1 - A.u) * ((1 + A.u) * x) :=
      mul_le_mul_of_nonneg_left (by linarith) (by linarith)
    nlinarith [mul_nonneg (mul_nonneg h1 h1) hx]

theorem fl_nonneg {x : ℝ} (hx : 0 ≤ x) : 0 ≤ A.fl x := (within_fl hx).nonneg hx

theorem fl_zero : A.fl 0 = 0 := by
  have := A.err 0
  simpa using this

/-- The error in a form with the difference. -/
theorem Within.abs_le {m : ℕ} {x y : ℝ} (h : Within A m x y) (hx : 0 ≤ x) (hy : 0 ≤ y) :
    |x - y| ≤ m * A.u * max x y := by
  have hb : 1 - m * A.u ≤ (1 - A.u) ^ m := by
    have := one_add_mul_le_pow (a := -A.u) (by linarith [A.u_lt]) m
    have e : 1 + -A.u = 1 - A.u := by ring
    rw [e] at this
    linarith
  have h1 : (1 - m * A.u) * y ≤ x := (mul_le_mul_of_nonneg_right hb hy).trans h.1
  have h2 : (1 - m * A.u) * x ≤ y := (mul_le_mul_of_nonneg_right hb hx).trans h.2
  have h3 : 0 ≤ m * A.u := mul_nonneg (Nat.cast_nonneg m) A.u_nonneg
  have h4 : m * A.u * y ≤ m * A.u * max x y := mul_le_mul_of_nonneg_left (le_max_right _ _) h3
  have h5 : m * A.u * x ≤ m * A.u * max x y := mul_le_mul_of_nonneg_left (le_max_left _ _) h3
  rw [_root_.abs_le]
  constructor <;> linarith

/-- Sums, in whatever order. -/
theorem within_summation {l : List ℝ} {s : ℝ} (h : Summation A.fl l s) (hl : ∀ x ∈ l, 0 ≤ x) :
    0 ≤ s ∧ Within A l.length s l.sum := by
  induction h with
  | nil => exact ⟨le_rfl, Within.refl _ le_rfl⟩
  | one x => exact ⟨hl x (by simp), by simpa using Within.refl 1 (hl x (by simp))⟩
  | @add l l' l'' a b hne hne' _ _ hp ih ih' =>
    obtain ⟨ha, iha⟩ := ih fun x hx => hl x (hp.mem_iff.2 (List.mem_append_left _ hx))
    obtain ⟨hb, ihb⟩ := ih' fun x hx => hl x (hp.mem_iff.2 (List.mem_append_right _ hx))
    have hlen : l''.length = l.length + l'.length := by rw [hp.length_eq, List.length_append]
    have h1 : 0 < l.length := List.length_pos_iff.2 hne
    have h2 : 0 < l'.length := List.length_pos_iff.2 hne'
    have hsa : 0 ≤ l.sum := iha.symm.nonneg ha
    have hsb : 0 ≤ l'.sum := ihb.symm.nonneg hb
    have hab : 0 ≤ a + b := add_nonneg ha hb
    refine ⟨fl_nonneg hab, ?_⟩
    rw [hp.sum_eq, List.sum_append]
    have e1 := (iha.mono (m' := l''.length - 1) (by omega) ha hsa).add
      (ihb.mono (m' := l''.length - 1) (by omega) hb hsb)
    have e2 := (within_fl hab).trans e1
    have e3 : 1 + (l''.length - 1) = l''.length := by omega
    rwa [e3] at e2

theorem within_sum {n : ℕ} {v : Vec n ℝ} (hv : ∀ i, 0 ≤ v i) :
    0 ≤ A.sum v ∧ Within A n (A.sum v) (∑ i, v i) := by
  have := within_summation (A.sum_spec v) (by
    intro x hx
    obtain ⟨i, rfl⟩ := (List.mem_ofFn' _ _).1 hx
    exact hv i)
  rw [List.length_ofFn, List.sum_ofFn] at this
  exact this

/-! ### Normalisation and gamma -/

/-- **C96**, responsibilities: a column that was normalised sums to one up to `r + 1` roundings, unless it is zero;
its entries are nonnegative and at most `r + 1` roundings away from the exact ones. -/
theorem C96_normalize {r : ℕ} {v : Vec r ℝ} (hv : ∀ i, 0 ≤ v i) (hne : ∃ i, v i ≠ 0) :
    (∀ i, 0 ≤ rNormalize A v i ∧ Within A (r + 1) (rNormalize A v i) (v i / ∑ j, v j)) ∧
    Within A (r + 1) (∑ i, rNormalize A v i) 1 := by
  obtain ⟨i0, hi0⟩ := hne
  have hpos : 0 < ∑ j, v j :=
    (lt_of_le_of_ne (hv i0) (Ne.symm hi0)).trans_le (single_le_sum (fun j _ => hv j) (mem_univ i0))
  obtain ⟨hs0, hs⟩ := within_sum (A := A) hv
  have hs1 : 0 < A.sum v := hs.pos hpos
  have hN : rNormalize A v = fun i => A.fl (v i / A.sum v) := by
    unfold rNormalize
    rw [if_pos hs1.ne']
  have hq : ∀ i, 0 ≤ v i / A.sum v := fun i => div_nonneg (hv i) hs1.le
  have hW : ∀ i, Within A (r + 1) (rNormalize A v i) (v i / ∑ j, v j) := by
    intro i
    rw [hN]
    have h1 := (Within.refl (A := A) 0 (hv i)).div hs (hv i) (hv i) hs1 hpos
    have h2 := (within_fl (A := A) (hq i)).trans h1
    have e : 1 + (0 + r) = r + 1 := by omega
    rwa [e] at h2
  refine ⟨fun i => ⟨by rw [hN]; exact fl_nonneg (hq i), hW i⟩, ?_⟩
  have := Within.sum (s := univ) fun i _ => hW i
  rwa [← sum_div, div_self hpos.ne'] at this

/-- One summand of gamma. -/
theorem within_term {x : ℕ} {p : ℝ} (hp : 0 ≤ p) : 0 ≤ A.fl (A.fl x * p) ∧
    Within A 2 (A.fl (A.fl x * p)) (x * p) := by
  have hx : (0 : ℝ) ≤ x := Nat.cast_nonneg x
  have h0 : 0 ≤ A.fl x * p := mul_nonneg (fl_nonneg hx) hp
  refine ⟨fl_nonneg h0, ?_⟩
  have h1 : Within A 1 (A.fl x * p) (x * p) := by
    rw [mul_comm _ p, mul_comm _ p]
    exact (within_fl hx).mul_left hp
  exact (within_fl h0).trans h1

theorem within_gamma {X : Vec V ℕ} {alpha : Vec K ℝ} {phi : Mat K V ℝ} (ha : ∀ k, 0 ≤ alpha k)
    (hphi : ∀ k n, 0 ≤ phi k n) (k : Fin K) :
    0 ≤ rGamma A X alpha phi k ∧ Within A (V + 2) (rGamma A X alpha phi k) (alpha k + ∑ n, X n * phi k n) := by
  have key : ∀ (l : List (Fin V)) (j : ℕ) (g e : ℝ), 0 ≤ g → 0 ≤ e → Within A (j + 2) g e →
      0 ≤ l.foldl (fun g n => if X n = 0 then g else A.fl (g + A.fl (A.fl (X n) * phi k n))) g ∧
      Within A (j + l.length + 2)
        (l.foldl (fun g n => if X n = 0 then g else A.fl (g + A.fl (A.fl (X n) * phi k n))) g)
        (e + (l.map fun n => X n * phi k n).sum) := by
    intro l
    induction l with
    | nil =>
      intro j g e hg he h
      simpa using ⟨hg, h⟩
    | cons n l ih =>
      intro j g e hg he h
      have hterm : 0 ≤ (X n : ℝ) * phi k n := mul_nonneg (Nat.cast_nonneg _) (hphi k n)
      simp only [List.foldl_cons, List.map_cons, List.sum_cons, List.length_cons]
      rw [← add_assoc e]
      have hj : j + (l.length + 1) + 2 = (j + 1) + l.length + 2 := by omega
      rw [hj]
      split
      · rename_i hX
        apply ih (j + 1) g _ hg (add_nonneg he hterm)
        rw [hX]
        simp only [Nat.cast_zero, zero_mul, add_zero]
        exact h.mono (by omega) hg he
      · obtain ⟨t0, t1⟩ := within_term (A := A) (x := X n) (hphi k n)
        have hs : 0 ≤ g + A.fl (A.fl (X n) * phi k n) := add_nonneg hg t0
        apply ih (j + 1) _ _ (fl_nonneg hs) (add_nonneg he hterm)
        have h1 := h.add (t1.mono (m' := j + 2) (by omega) t0 hterm)
        have h2 := (within_fl hs).trans h1
        have e : 1 + (j + 2) = j + 1 + 2 := by omega
        rwa [e] at h2
  have h := key (List.finRange V) 0 (alpha k) (alpha k) (ha k) (ha k) (Within.refl _ (ha k))
  rw [List.length_finRange, zero_add] at h
  have e : ((List.finRange V).map fun n => (X n : ℝ) * phi k n).sum = ∑ n, (X n : ℝ) * phi k n := by
    rw [← List.ofFn_eq_map, List.sum_ofFn]
  rw [e] at h
  exact h

/-- **C96**, mass conservation: if the columns of `phi` of the words of the document sum to one up to `j` roundings
then `gamma` accounts for the prior and every word, up to `V + 2 + j` roundings. -/
theorem C96_gamma {X : Vec V ℕ} {alpha : Vec K ℝ} {phi : Mat K V ℝ} (ha : ∀ k, 0 ≤ alpha k)
    (hphi : ∀ k n, 0 ≤ phi k n) {j : ℕ} (hcol : ∀ n, X n ≠ 0 → Within A j (∑ k, phi k n) 1) :
    Within A (V + 2 + j) (∑ k, rGamma A X alpha phi k) (∑ k, alpha k + ∑ n, (X n : ℝ)) := by
  have h1 := Within.sum (s := univ) fun k _ => (within_gamma (A := A) (X := X) ha hphi k).2
  apply h1.trans
  rw [sum_add_distrib]
  refine (Within.refl j (sum_nonneg fun k _ => ha k)).add ?_
  rw [sum_comm]
  refine Within.sum fun n _ => ?_
  rw [← mul_sum]
  by_cases hX : X n = 0
  · rw [hX]
    simp only [Nat.cast_zero, zero_mul]
    exact Within.refl j le_rfl
  · have := (hcol n hX).mul_left (c := (X n : ℝ)) (Nat.cast_nonneg _)
    rwa [mul_one] at this

/-! ### Training -/

/-- The buffer, after the documents `ds`. -/
def RBuf (A : Arith) (b : Buf K V) (ds : List (Given K V)) : Prop :=
  match b with
  | none => ds = []
  | some b => ∀ k n, 0 ≤ b k n ∧ Within A (ds.length + 2) (b k n) (expectedCounts ds k n)

theorem expectedCounts_snoc (ds : List (Given K V)) (d : Given K V) (k : Fin K) (n : Fin V) :
    expectedCounts (ds ++ [d]) k n = expectedCounts ds k n + d.1.words n * d.2.phi k n := by
  simp [expectedCounts]

theorem expectedCounts_nonneg {ds : List (Given K V)} (h : ∀ d ∈ ds, ∀ k n, 0 ≤ d.2.phi k n) (k : Fin K)
    (n : Fin V) : 0 ≤ expectedCounts ds k n := by
  apply List.sum_nonneg
  intro x hx
  obtain ⟨d, hd, rfl⟩ := List.mem_map.1 hx
  exact mul_nonneg (Nat.cast_nonneg _) (h d hd k n)

theorem rBuf_doc {b : Buf K V} {ds : List (Given K V)} (h : RBuf A b ds)
    (hds : ∀ d ∈ ds, ∀ k n, 0 ≤ d.2.phi k n) {d : Given K V} (hd : ∀ k n, 0 ≤ d.2.phi k n) :
    RBuf A (rDoc A d.1.words d.2.phi b) (ds ++ [d]) := by
  intro k n
  obtain ⟨t0, t1⟩ := within_term (A := A) (x := d.1.words n) (hd k n)
  rw [mul_comm (A.fl _)] at t0 t1
  have he := expectedCounts_nonneg hds k n
  have ht : 0 ≤ (d.1.words n : ℝ) * d.2.phi k n := mul_nonneg (Nat.cast_nonneg _) (hd k n)
  have key : ∀ x : ℝ, 0 ≤ x → Within A (ds.length + 2) x (expectedCounts ds k n) →
      0 ≤ A.fl (x + A.fl (d.2.phi k n * A.fl (d.1.words n))) ∧ Within A ((ds ++ [d]).length + 2)
        (A.fl (x + A.fl (d.2.phi k n * A.fl (d.1.words n)))) (expectedCounts (ds ++ [d]) k n) := by
    intro x hx hw
    have h0 := add_nonneg hx t0
    refine ⟨fl_nonneg h0, ?_⟩
    rw [expectedCounts_snoc]
    have h1 := (within_fl h0).trans (hw.add (t1.mono (m' := ds.length + 2) (by omega) t0 ht))
    have e : 1 + (ds.length + 2) = (ds ++ [d]).length + 2 := by
      rw [List.length_append, List.length_singleton]
      omega
    rwa [e] at h1
  cases b with
  | none =>
    have : ds = [] := h
    subst this
    exact key 0 le_rfl (Within.refl _ le_rfl)
  | some b => exact key (b k n) (h k n).1 (h k n).2

/-- The results of the E step for the documents `l`. -/
def results {T : Type} (corpus : ℕ → Doc V) (eval : Params K V C × T → ℕ → VP K V) (m : Params K V C × T)
    (l : List ℕ) : List (Given K V) :=
  l.map fun i => (corpus i, eval m i)

theorem docs_rBuf {T : Type} {corpus : ℕ → Doc V} {eval : Params K V C × T → ℕ → VP K V} {p : Params K V C × T}
    {q : Params K V C} {t : T} {b0 : Buf K V} (h0 : RBuf A b0 []) (l : List ℕ)
    (hphi : ∀ i ∈ l, ∀ k n, 0 ≤ (eval p i).phi k n) :
    ∃ b, OrderFree.docs (rounded A corpus) (q, t, some b0) (l.map fun i => (i, eval p i)) = (q, t, some b) ∧
      RBuf A b (results corpus eval p l) ∧ (b = none → l = [] ∧ b0 = none) := by
  induction l using List.reverseRecOn with
  | nil => exact ⟨b0, rfl, h0, fun h => ⟨rfl, h⟩⟩
  | append_singleton l i ih =>
    obtain ⟨b, h1, h2, _⟩ := ih fun j hj => hphi j (List.mem_append_left _ hj)
    refine ⟨rDoc A (corpus i).words (eval p i).phi b, ?_, ?_, ?_⟩
    · rw [OrderFree.docs] at h1 ⊢
      rw [List.map_append, List.foldl_append, h1]
      rfl
    · rw [results, List.map_append]
      refine rBuf_doc (d := (corpus i, eval p i)) h2 ?_ (hphi i (by simp))
      intro d hd
      obtain ⟨j, hj, rfl⟩ := List.mem_map.1 hd
      exact hphi j (List.mem_append_left _ hj)
    · intro h
      simp [rDoc] at h

theorem expectedCounts_perm {ds ds' : List (Given K V)} (h : ds.Perm ds') (k : Fin K) (n : Fin V) :
    expectedCounts ds k n = expectedCounts ds' k n := (h.map _).sum_eq

/-- The topics that are computed from a buffer: for a topic with words they are numbers, close to the exact ones,
and sum to one; for a topic without words they are NaN. -/
theorem rBeta_within {b : Mat K V ℝ} {ds : List (Given K V)} (h : RBuf A (some b) ds)
    (hds : ∀ d ∈ ds, ∀ k n, 0 ≤ d.2.phi k n) (k : Fin K) :
    (0 < topicMass ds k → ∃ x : Vec V ℝ, (∀ n, rEntry A (b k) n = .fin (x n)) ∧
      (∀ n, 0 ≤ x n ∧ Within A (2 * ds.length + V + 5) (x n) (expectedCounts ds k n / topicMass ds k)) ∧
      Within A (V + 1) (∑ n, x n) 1) ∧
    (topicMass ds k = 0 → ∀ n, rEntry A (b k) n = .nan) := by
  have hb : ∀ n, 0 ≤ b k n := fun n => (h k n).1
  have he : ∀ n, 0 ≤ expectedCounts ds k n := expectedCounts_nonneg hds k
  obtain ⟨hs0, hs⟩ := within_sum (A := A) hb
  have hs' : Within A (ds.length + 2) (∑ n, b k n) (topicMass ds k) := Within.sum fun n _ => (h k n).2
  constructor
  · intro hpos
    have hbpos : 0 < ∑ n, b k n := hs'.pos hpos
    have hspos : 0 < A.sum (b k) := hs.pos hbpos
    have hq : ∀ n, 0 ≤ b k n / A.sum (b k) := fun n => div_nonneg (hb n) hspos.le
    refine ⟨fun n => A.fl (b k n / A.sum (b k)), ?_, ?_, ?_⟩
    · intro n
      simp [rEntry, quot, hspos.ne']
    · intro n
      refine ⟨fl_nonneg (hq n), ?_⟩
      have h1 := (within_fl (A := A) (hq n)).trans ((h k n).2.div (hs.trans hs') (hb n) (he n) hspos hpos)
      have e : 1 + (ds.length + 2 + (V + (ds.length + 2))) = 2 * ds.length + V + 5 := by omega
      rwa [e] at h1
    · have hW : ∀ n ∈ univ, Within A (V + 1) (A.fl (b k n / A.sum (b k))) (b k n / ∑ n, b k n) := by
        intro n _
        have h1 := (Within.refl (A := A) 0 (hb n)).div hs (hb n) (hb n) hspos hbpos
        have h2 := (within_fl (A := A) (hq n)).trans h1
        have e : 1 + (0 + V) = V + 1 := by omega
        rwa [e] at h2
      have := Within.sum hW
      rwa [← sum_div, div_self hbpos.ne'] at this
  · intro hz n
    have h0 : ∑ n, b k n = 0 := by
      have := hs'.2
      rw [hz] at this
      exact le_antisymm (nonpos_of_mul_nonpos_right this (pow_pos' _)) (sum_nonneg fun n _ => hb n)
    have h1 : A.sum (b k) = 0 := by
      have := hs.2
      rw [h0] at this
      exact le_antisymm (nonpos_of_mul_nonpos_right this (pow_pos' _)) hs0
    have h2 : b k n = 0 := (sum_eq_zero_iff_of_nonneg fun n _ => hb n).1 h0 n (mem_univ n)
    simp [rEntry, quot, h1, h2]

variable {T : Type}

/-- After `partial_fit`. -/
theorem rounded_topics {corpus : ℕ → Doc V} {next : T → T} {eval : Params K V C × T → ℕ → VP K V} {q : Params K V C}
    {t : T} {b0 : Buf K V} (h0 : b0 = none ∨ b0 = some fun _ _ => 0) {owner : Bool} {W n : ℕ} {order : ℕ → ℕ}
    (ho : ((List.range n).map order).Perm (List.range n)) (hn : 0 < n)
    (hphi : ∀ i < n, ∀ k v, 0 ≤ (eval (q, t) i).phi k v)
    {s : St (Params K V C × T × Option (Buf K V)) (VP K V) W}
    (h : Reachable (trainCfg (rounded A corpus) next eval owner W n order) (q, t, some b0) s) (hr : s.main = .ret) :
    ∃ beta : Mat K V (Ieee ℝ), s.model.1.beta = .matrix beta ∧ ∀ k,
      (0 < topicMass (results corpus eval (q, t) (List.range n)) k →
        ∃ x : Vec V ℝ, (∀ v, beta k v = .fin (x v)) ∧
          (∀ v, 0 ≤ x v ∧ Within A (2 * n + V + 5) (x v)
            (expectedCounts (results corpus eval (q, t) (List.range n)) k v /
              topicMass (results corpus eval (q, t) (List.range n)) k)) ∧
          Within A (V + 1) (∑ v, x v) 1) ∧
      (topicMass (results corpus eval (q, t) (List.range n)) k = 0 → ∀ v, beta k v = .nan) := by
  rw [partial_fit_order h hr]
  have hp := ((C01_each_document_once h hr).1.map order).trans ho
  generalize ((consumed s.log).map Prod.fst).map order = l at hp ⊢
  have hphi' : ∀ i ∈ l, ∀ k v, 0 ≤ (eval (q, t) i).phi k v := fun i hi =>
    hphi i (by simpa using hp.mem_iff.1 hi)
  have hb0 : RBuf A b0 ([] : List (Given K V)) := by
    rcases h0 with rfl | rfl
    · rfl
    · exact fun k n => ⟨le_rfl, Within.refl _ le_rfl⟩
  obtain ⟨b, h1, h2, h3⟩ := docs_rBuf (A := A) (corpus := corpus) (eval := eval) (p := (q, t)) (q := q) (t := t)
    hb0 l hphi'
  have hpar : trainParams (q, t, some b0) = (q, t) := rfl
  rw [hpar, h1]
  cases b with
  | none =>
    have := (h3 rfl).1
    subst this
    have := hp.length_eq
    simp at this
    omega
  | some b =>
    have hperm : (results corpus eval (q, t) l).Perm (results corpus eval (q, t) (List.range n)) := hp.map _
    have he : ∀ k v, expectedCounts (results corpus eval (q, t) l) k v =
        expectedCounts (results corpus eval (q, t) (List.range n)) k v := expectedCounts_perm hperm
    have ht : ∀ k, topicMass (results corpus eval (q, t) l) k =
        topicMass (results corpus eval (q, t) (List.range n)) k := fun k => sum_congr rfl fun v _ => he k v
    have hlen : (results corpus eval (q, t) l).length = n := by
      rw [hperm.length_eq, results, List.length_map, List.length_range]
    refine ⟨fun k v => rEntry A (b k) v, rfl, fun k => ?_⟩
    have := rBeta_within h2 (by
      intro d hd
      obtain ⟨j, hj, rfl⟩ := List.mem_map.1 hd
      exact hphi' j hj) k
    rw [ht, hlen] at this
    simp only [he] at this
    exact this

/-- **C96**: `partial_fit` with the unsupervised M step in floating point, with any schedule, number of workers and
shuffle of the corpus: the probability of a word in a topic is the exact one (for the results of the E step) up to
`2 D + V + 5` relative roundings, the probabilities of a topic sum to one up to `V + 1`; and a topic that no word
was assigned to is NaN. -/
theorem C96_topics {corpus : ℕ → Doc V} {next : T → T} {eval : Params K V C × T → ℕ → VP K V} {q : Params K V C}
    {t : T} {b0 : Buf K V} (h0 : b0 = none ∨ b0 = some fun _ _ => 0) {owner : Bool} {W n : ℕ} {order : ℕ → ℕ}
    (ho : ((List.range n).map order).Perm (List.range n)) (hn : 0 < n)
    (hphi : ∀ i < n, ∀ k v, 0 ≤ (eval (q, t) i).phi k v)
    {s : St (Params K V C × T × Option (Buf K V)) (VP K V) W}
    (h : Reachable (trainCfg (rounded A corpus) next eval owner W n order) (q, t, some b0) s) (hr : s.main = .ret) :
    ∃ beta : Mat K V (Ieee ℝ), s.model.1.beta = .matrix beta ∧ ∀ k,
      (0 < topicMass (results corpus eval (q, t) (List.range n)) k →
        ∃ x : Vec V ℝ, (∀ v, beta k v = .fin (x v) ∧ 0 ≤ x v ∧
          |x v - expectedCounts (results corpus eval (q, t) (List.range n)) k v /
              topicMass (results corpus eval (q, t) (List.range n)) k| ≤
            (2 * n + V + 5) * A.u * max (x v) (expectedCounts (results corpus eval (q, t) (List.range n)) k v /
              topicMass (results corpus eval (q, t) (List.range n)) k)) ∧
          |∑ v, x v - 1| ≤ (V + 1) * A.u * max (∑ v, x v) 1) ∧
      (topicMass (results corpus eval (q, t) (List.range n)) k = 0 → ∀ v, beta k v = .nan) := by
  obtain ⟨beta, e, hk⟩ := rounded_topics h0 ho hn hphi h hr
  refine ⟨beta, e, fun k => ⟨fun hpos => ?_, (hk k).2⟩⟩
  obtain ⟨x, h1, h2, h3⟩ := (hk k).1 hpos
  have hc : ∀ v, 0 ≤ expectedCounts (results corpus eval (q, t) (List.range n)) k v :=
    expectedCounts_nonneg (by
      intro d hd
      obtain ⟨j, hj, rfl⟩ := List.mem_map.1 hd
      exact hphi j (by simpa using hj)) k
  refine ⟨x, fun v => ⟨h1 v, (h2 v).1, ?_⟩, ?_⟩
  · have := (h2 v).2.abs_le (h2 v).1 (div_nonneg (hc v) hpos.le)
    push_cast at this
    exact this
  · have := h3.abs_le (sum_nonneg fun v _ => (h2 v).1) zero_le_one
    push_cast at this
    exact this

/-- **C96**: two runs of `partial_fit` from the same model, with any schedules, numbers of workers and shuffles, give
the same topics up to `4 D + 2 V + 10` relative roundings. -/
theorem C96_schedules {corpus : ℕ → Doc V} {next : T → T} {eval : Params K V C × T → ℕ → VP K V} {q : Params K V C}
    {t : T} {b0 : Buf K V} (h0 : b0 = none ∨ b0 = some fun _ _ => 0) {owner owner' : Bool} {W W' n : ℕ}
    {order order' : ℕ → ℕ} (ho : ((List.range n).map order).Perm (List.range n))
    (ho' : ((List.range n).map order').Perm (List.range n)) (hn : 0 < n)
    (hphi : ∀ i < n, ∀ k v, 0 ≤ (eval (q, t) i).phi k v)
    {s : St (Params K V C × T × Option (Buf K V)) (VP K V) W}
    {s' : St (Params K V C × T × Option (Buf K V)) (VP K V) W'}
    (h : Reachable (trainCfg (rounded A corpus) next eval owner W n order) (q, t, some b0) s) (hr : s.main = .ret)
    (h' : Reachable (trainCfg (rounded A corpus) next eval owner' W' n order') (q, t, some b0) s')
    (hr' : s'.main = .ret) :
    ∃ beta beta' : Mat K V (Ieee ℝ), s.model.1.beta = .matrix beta ∧ s'.model.1.beta = .matrix beta' ∧ ∀ k v,
      (beta k v = .nan ∧ beta' k v = .nan) ∨ ∃ x x', beta k v = .fin x ∧ beta' k v = .fin x' ∧
        |x - x'| ≤ (4 * n + 2 * V + 10) * A.u * max x x' := by
  obtain ⟨beta, e, hk⟩ := rounded_topics h0 ho hn hphi h hr
  obtain ⟨beta', e', hk'⟩ := rounded_topics h0 ho' hn hphi h' hr'
  refine ⟨beta, beta', e, e', fun k v => ?_⟩
  have hmass : 0 ≤ topicMass (results corpus eval (q, t) (List.range n)) k := by
    refine sum_nonneg fun v _ => expectedCounts_nonneg ?_ k v
    intro d hd
    obtain ⟨j, hj, rfl⟩ := List.mem_map.1 hd
    exact hphi j (by simpa using hj)
  rcases hmass.eq_or_lt with hz | hpos
  · exact .inl ⟨(hk k).2 hz.symm v, (hk' k).2 hz.symm v⟩
  · obtain ⟨x, a1, a2, _⟩ := (hk k).1 hpos
    obtain ⟨x', b1, b2, _⟩ := (hk' k).1 hpos
    refine .inr ⟨x v, x' v, a1 v, b1 v, ?_⟩
    have := ((a2 v).2.trans (b2 v).2.symm).abs_le (a2 v).1 (b2 v).1
    push_cast at this
    convert this using 3
    ring

end Verif.Rounded
