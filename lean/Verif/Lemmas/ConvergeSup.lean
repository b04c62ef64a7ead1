import Verif.Props.Converge
import Verif.Props.SupervisedBound
import Verif.Lemmas.WeightMono

/-! How much a sweep of the supervised expectation step gains, in terms of how much it changes. -/
namespace Verif.EStep

open MathUtils Finset

variable {K V C : ℕ}

/-! ### One column -/

/-- The part of the objective that depends on the responsibilities of one word with count `x`. -/
noncomputable def colGain (x : ℕ) (N : ℝ) (b ey psi h q : Vec K ℝ) : ℝ :=
  (x : ℝ) * ((∑ k, q k * (Real.log (b k) - Real.log (q k))) + ∑ k, q k * (psi k + (x : ℝ) / N * ey k)) -
    Real.log (∑ k, h k * q k)

theorem dot_pos {h q : Vec K ℝ} (hh : ∀ k, 0 < h k) (hq : IsDist q) : 0 < ∑ k, h k * q k := by
  obtain ⟨k, hk⟩ : ∃ k, q k ≠ 0 := by
    by_contra hcon
    push Not at hcon
    have := hq.2
    simp [hcon] at this
  exact Finset.sum_pos' (fun k _ => mul_nonneg (hh k).le (hq.1 k))
    ⟨k, mem_univ _, mul_pos (hh k) (lt_of_le_of_ne (hq.1 k) (Ne.symm hk))⟩

/-- A fixed point update makes the column proportional to the weights. -/
theorem column_soft {x : ℕ} {N : ℝ} {b ey psi h q r : Vec K ℝ} (hb : ∀ k, 0 ≤ b k) (hb1 : ∃ k, 0 < b k)
    (hu : ColumnUpdate exact x N b ey psi h q r) :
    IsDist r ∧ (∀ k, b k = 0 → r k = 0) ∧
      ∀ k, r k * ∑ j, b j * Real.exp (psi j + (x : ℝ) / N * ey j - h j / ((∑ k, h k * q k) * x)) =
        b k * Real.exp (psi k + (x : ℝ) / N * ey k - h k / ((∑ k, h k * q k) * x)) := by
  obtain ⟨_, hr1, Z, hZ⟩ := hu
  have hexp : ∀ x, exact.exp x = Real.exp x := fun _ => rfl
  simp only [hexp] at hZ
  set w : Vec K ℝ := fun k => b k * Real.exp (psi k + (x : ℝ) / N * ey k - h k / ((∑ k, h k * q k) * x)) with hw
  have hZs : Z = ∑ k, w k := by
    rw [← Finset.sum_congr rfl fun k _ => hZ k, ← Finset.sum_mul, hr1, one_mul]
  have hv : ∀ k, 0 ≤ w k := fun k => mul_nonneg (hb k) (Real.exp_pos _).le
  have hZ0 : 0 < Z := by
    rw [hZs]
    obtain ⟨k, hk⟩ := hb1
    exact Finset.sum_pos' (fun k _ => hv k) ⟨k, mem_univ _, mul_pos hk (Real.exp_pos _)⟩
  refine ⟨⟨fun k => ?_, hr1⟩, fun k hk => ?_, fun k => ?_⟩
  · have : 0 ≤ r k * Z := by rw [hZ k]; exact hv k
    exact nonneg_of_mul_nonneg_left this hZ0
  · have := hZ k
    rw [hk, zero_mul] at this
    exact (mul_eq_zero.1 this).resolve_right hZ0.ne'
  · rw [← hZ k, hZs]

theorem known_of_supp {b q : Vec K ℝ} (hb : ∀ k, 0 ≤ b k) (hq : IsDist q) (hs : ∀ k, b k = 0 → q k = 0) :
    ∃ k, 0 < b k := by
  by_contra hcon
  push Not at hcon
  have := hq.2
  simp [fun k => hs k (le_antisymm (hcon k) (hb k))] at this

theorem column_gain {x : ℕ} (hx : x ≠ 0) {N : ℝ} {b ey psi h q r : Vec K ℝ} (hb : ∀ k, 0 ≤ b k) (hh : ∀ k, 0 < h k)
    (hq : IsDist q) (hs : ∀ k, b k = 0 → q k = 0) (hu : ColumnUpdate exact x N b ey psi h q r) :
    colGain x N b ey psi h q + (x : ℝ) * ((∑ k, |q k - r k|) ^ 2 / 4) ≤ colGain x N b ey psi h r ∧ IsDist r ∧
      ∀ k, b k = 0 → r k = 0 := by
  obtain ⟨hr, hrs, hw⟩ := column_soft hb (known_of_supp hb hq hs) hu
  refine ⟨?_, hr, hrs⟩
  have hS := dot_pos hh hq
  have hR := dot_pos hh hr
  set S := ∑ k, h k * q k with hSd
  have hx0 : (0 : ℝ) < x := by exact_mod_cast Nat.pos_of_ne_zero hx
  have key := Converge.word_gain (e := fun k => Real.exp (psi k + (x : ℝ) / N * ey k - h k / (S * x)))
    hb (fun k => Real.exp_pos _) hq.1 hq.2 hs hr.2 hw
  simp only [Real.log_exp] at key
  have expand : ∀ p : Vec K ℝ, ∑ k, p k * (psi k + (x : ℝ) / N * ey k - h k / (S * x)) =
      (∑ k, p k * (psi k + (x : ℝ) / N * ey k)) - (∑ k, h k * p k) / (S * x) := by
    intro p
    rw [Finset.sum_div, ← Finset.sum_sub_distrib]
    refine Finset.sum_congr rfl fun k _ => ?_
    ring
  rw [expand, expand, ← hSd] at key
  have hlog : Real.log (∑ k, h k * r k) ≤ Real.log S + ((∑ k, h k * r k) / S - 1) := by
    have := Real.log_le_sub_one_of_pos (div_pos hR hS)
    rw [Real.log_div hR.ne' hS.ne'] at this
    linarith
  have e1 : (x : ℝ) * (S / (S * x)) = 1 := by field_simp
  have e2 : (x : ℝ) * ((∑ k, h k * r k) / (S * x)) = (∑ k, h k * r k) / S := by field_simp
  have := mul_le_mul_of_nonneg_left key hx0.le
  unfold colGain
  rw [← hSd]
  simp only [mul_add, mul_sub, e1, e2] at this ⊢
  linarith

theorem sq_step {a b G H : ℝ} {i : ℕ} (hG : a ^ 2 ≤ 4 * G) (hH : b ^ 2 ≤ 4 * i * H) (hH0 : 0 ≤ H) :
    (a + b) ^ 2 ≤ 4 * ((i + 1 : ℕ) : ℝ) * (G + H) := by
  push_cast
  rcases Nat.eq_zero_or_pos i with rfl | hi
  · have : b = 0 := by
      have : b ^ 2 ≤ 0 := by simpa using hH
      exact pow_eq_zero_iff (n := 2) (by norm_num) |>.1 (le_antisymm this (sq_nonneg b))
    subst this
    simp
    nlinarith
  · have hi' : (0 : ℝ) < i := by exact_mod_cast hi
    have h1 : b ^ 2 / i ≤ 4 * H := by
      rw [div_le_iff₀ hi']
      linarith
    have h2 : 2 * a * b ≤ i * a ^ 2 + b ^ 2 / i := by
      have h3 : 0 ≤ (i * a - b) ^ 2 / i := div_nonneg (sq_nonneg _) hi'.le
      have : (i * a - b) ^ 2 / i = i * a ^ 2 + b ^ 2 / i - 2 * a * b := by
        field_simp
        ring
      linarith
    have h4 : (1 + (i : ℝ)) * a ^ 2 ≤ (1 + i) * (4 * G) := mul_le_mul_of_nonneg_left hG (by linarith)
    nlinarith

theorem columns_gain {x : ℕ} (hx : x ≠ 0) {N : ℝ} {b ey psi h : Vec K ℝ} (hb : ∀ k, 0 ≤ b k) (hh : ∀ k, 0 < h k)
    {fp : ℕ} {q r : Vec K ℝ} (hu : Times (ColumnUpdate exact x N b ey psi h) fp q r)
    (hq : IsDist q) (hs : ∀ k, b k = 0 → q k = 0) :
    ∃ G : ℝ, 0 ≤ G ∧ (∑ k, |q k - r k|) ^ 2 ≤ 4 * (fp : ℝ) * G ∧
      colGain x N b ey psi h q + (x : ℝ) * G ≤ colGain x N b ey psi h r ∧ IsDist r ∧ ∀ k, b k = 0 → r k = 0 := by
  induction hu with
  | zero a => exact ⟨0, le_rfl, by simp, by simp, hq, hs⟩
  | @succ i q p r h1 _ ih =>
    obtain ⟨a1, a2, a3⟩ := column_gain hx hb hh hq hs h1
    obtain ⟨G, g0, g1, g2, g3, g4⟩ := ih a2 a3
    refine ⟨(∑ k, |q k - p k|) ^ 2 / 4 + G, by positivity, ?_, by linarith, g3, g4⟩
    refine le_trans ?_ (sq_step (a := ∑ k, |q k - p k|) (b := ∑ k, |p k - r k|) (by linarith) g1 g0)
    refine pow_le_pow_left₀ (Finset.sum_nonneg fun k _ => abs_nonneg _) ?_ 2
    rw [← Finset.sum_add_distrib]
    exact Finset.sum_le_sum fun k _ => abs_sub_le _ _ _

/-! ### One word -/

/-- The objective that grows. -/
noncomputable def lyap (X : Vec V ℕ) (y : Fin C) (m : Model K V C) (s : VP K V) : ℝ :=
  (∑ n, (X n : ℝ) * ((∑ k, s.phi k n * (Real.log (m.beta k n) - Real.log (s.phi k n))) +
      ∑ k, s.phi k n * ((X n : ℝ) / (∑ i, (X i : ℝ)) * m.eta k y))) +
    (∑ k, Real.log (Real.Gamma (s.gamma k))) - Real.log (docPartition exact X m.eta s.phi)

/-- What holds between the updates, repeated words included. -/
structure Fine (X : Vec V ℕ) (m : Model K V C) (s : VP K V) : Prop where
  dist : ∀ n, IsDist fun k => s.phi k n
  counts : Counts X m.alpha s
  supp : ∀ n, X n ≠ 0 → ∀ k, m.beta k n = 0 → s.phi k n = 0

theorem logGamma_tangent {x y : ℝ} (hx : 0 < x) (hy : 0 < y) :
    logDeriv Real.Gamma x * (y - x) ≤ Real.log (Real.Gamma y) - Real.log (Real.Gamma x) := by
  rcases lt_trichotomy x y with h | h | h
  · have := Real.convexOn_log_Gamma.le_slope_of_hasDerivAt hx hy h (Digamma.hasDerivAt_logGamma hx)
    rw [slope_def_field, le_div_iff₀ (by linarith)] at this
    exact this
  · subst h; simp
  · have := Real.convexOn_log_Gamma.slope_le_of_hasDerivAt hy hx h (Digamma.hasDerivAt_logGamma hx)
    rw [slope_def_field, div_le_iff₀ (by linarith)] at this
    have e : logDeriv Real.Gamma x * (y - x) = -(logDeriv Real.Gamma x * (x - y)) := by ring
    rw [e]
    change Real.log (Real.Gamma x) - Real.log (Real.Gamma y) ≤ logDeriv Real.Gamma x * (x - y) at this
    linarith

theorem word_lyap {X : Vec V ℕ} {y : Fin C} {m : Model K V C} (hm : m.Valid) {fp : ℕ} {n : Fin V} (hn : X n ≠ 0)
    {s s' : VP K V} (hs : Fine X m s) (h : WordUpdate exact X y m fp n s s') :
    Fine X m s' ∧ ∃ G : ℝ, 0 ≤ G ∧ (∑ k, |s.phi k n - s'.phi k n|) ^ 2 ≤ 4 * (fp : ℝ) * G ∧
      lyap X y m s + (X n : ℝ) * G ≤ lyap X y m s' := by
  obtain ⟨psi, hpsi, hT, hother, hgam⟩ := h
  have hh : ∀ k, 0 < hDoc exact X m.eta s.phi n k := hDoc_pos (fun l => hs.dist l) n y
  obtain ⟨G, g0, g1, g2, g3, g4⟩ := columns_gain hn (fun k => hm.beta_nonneg k n) hh hT (hs.dist n) (hs.supp n hn)
  have hdist : ∀ l, IsDist fun k => s'.phi k l := by
    intro l
    by_cases hl : l = n
    · rw [hl]; exact g3
    · have : (fun k => s'.phi k l) = fun k => s.phi k l := funext fun k => hother k l hl
      rw [this]
      exact hs.dist l
  have hcounts : Counts X m.alpha s' := by
    intro k
    rw [hgam k, hs.counts k, add_assoc]
    congr 1
    symm
    rw [← sub_eq_iff_eq_add', ← Finset.sum_sub_distrib, Finset.sum_eq_single n]
    · ring
    · intro l _ hl
      rw [hother k l hl, sub_self]
    · simp
  refine ⟨⟨hdist, hcounts, fun l hl k hk => ?_⟩, G, g0, g1, ?_⟩
  · by_cases hln : l = n
    · subst hln
      exact g4 k hk
    · rw [hother k l hln]
      exact hs.supp l hl k hk
  have hg : ∀ k, 0 < s.gamma k := fun k => (counts_pos hm hs.counts (fun k n => (hs.dist n).1 k) k).2
  have hg' : ∀ k, 0 < s'.gamma k := fun k => (counts_pos hm hcounts (fun k n => (hdist n).1 k) k).2
  have e1 : (X n : ℝ) * ((∑ k, s'.phi k n * psi k) - ∑ k, s.phi k n * psi k) ≤
      (∑ k, Real.log (Real.Gamma (s'.gamma k))) - ∑ k, Real.log (Real.Gamma (s.gamma k)) := by
    rw [← Finset.sum_sub_distrib, ← Finset.sum_sub_distrib, Finset.mul_sum]
    refine Finset.sum_le_sum fun k _ => ?_
    refine le_trans (le_of_eq ?_) (logGamma_tangent (hg k) (hg' k))
    have : logDeriv Real.Gamma (s.gamma k) = psi k := Option.some.inj (hpsi k)
    rw [this, hgam k]
    ring
  have e4 := hDoc_phi (P := exact) (eta := m.eta) (phi := s.phi) hn
  have e5 := hDoc_phi (P := exact) (eta := m.eta) (phi := s'.phi) hn
  rw [hDoc_congr (phi' := s.phi) fun k l hl => hother k l hl] at e5
  unfold colGain at g2
  rw [e4, e5] at g2
  have split : ∀ t : VP K V, ∑ k, t.phi k n * (psi k + (X n : ℝ) / (∑ i, (X i : ℝ)) * m.eta k y) =
      (∑ k, t.phi k n * psi k) + ∑ k, t.phi k n * ((X n : ℝ) / (∑ i, (X i : ℝ)) * m.eta k y) := fun t => by
    rw [← Finset.sum_add_distrib]
    exact Finset.sum_congr rfl fun k _ => by ring
  rw [split, split] at g2
  set D : VP K V → Fin V → ℝ := fun t l => (X l : ℝ) * ((∑ k, t.phi k l * (Real.log (m.beta k l) - Real.log (t.phi k l))) +
      ∑ k, t.phi k l * ((X l : ℝ) / (∑ i, (X i : ℝ)) * m.eta k y)) with hD
  have e6 : (∑ l, D s' l) - ∑ l, D s l = D s' n - D s n := by
    rw [← Finset.sum_sub_distrib, Finset.sum_eq_single n]
    · intro l _ hl
      simp only [hD, hother _ l hl, sub_self]
    · simp
  have f1 : D s' n = (X n : ℝ) * ((∑ k, s'.phi k n * (Real.log (m.beta k n) - Real.log (s'.phi k n))) +
      ∑ k, s'.phi k n * ((X n : ℝ) / (∑ i, (X i : ℝ)) * m.eta k y)) := rfl
  have f2 : D s n = (X n : ℝ) * ((∑ k, s.phi k n * (Real.log (m.beta k n) - Real.log (s.phi k n))) +
      ∑ k, s.phi k n * ((X n : ℝ) / (∑ i, (X i : ℝ)) * m.eta k y)) := rfl
  unfold lyap
  change (∑ l, D s l) + _ - _ + _ ≤ (∑ l, D s' l) + _ - _
  have e7 : ∑ l, D s' l = (∑ l, D s l) + D s' n - D s n := by linarith
  rw [e7, f1, f2]
  simp only [mul_add, mul_sub] at g2 e1 ⊢
  linarith

/-! ### A sweep -/

theorem sweep_lyap {X : Vec V ℕ} {y : Fin C} {m : Model K V C} (hm : m.Valid) {fp : ℕ} {ns : List (Fin V)}
    {s s' : VP K V} (h : WordUpdates exact X y m fp ns s s') : ns.Nodup → (∀ n ∈ ns, X n ≠ 0) → Fine X m s →
    Fine X m s' ∧ (∀ k, ∀ n, n ∉ ns → s'.phi k n = s.phi k n) ∧ ∃ G : Fin V → ℝ, (∀ n, 0 ≤ G n) ∧ (∀ n, n ∉ ns → G n = 0) ∧
      (∀ n, (∑ k, |s.phi k n - s'.phi k n|) ^ 2 ≤ 4 * (fp : ℝ) * G n) ∧
      lyap X y m s + ∑ n, (X n : ℝ) * G n ≤ lyap X y m s' := by
  induction h with
  | nil s => exact fun _ _ hs => ⟨hs, fun _ _ _ => rfl, fun _ => 0, fun _ => le_rfl, fun _ _ => rfl, by simp, by simp⟩
  | @cons n ns s s' s'' h1 _ ih =>
    intro hnd hX hs
    rw [List.nodup_cons] at hnd
    obtain ⟨a1, g, g0, g1, g2⟩ := word_lyap hm (hX n List.mem_cons_self) hs h1
    obtain ⟨b1, b2, G, G0, G1, G2, G3⟩ := ih hnd.2 (fun l hl => hX l (List.mem_cons_of_mem _ hl)) a1
    obtain ⟨_, _, _, hother, _⟩ := h1
    have hGn := G1 n hnd.1
    refine ⟨b1, fun k l hl => ?_, Function.update G n g, fun l => ?_, fun l hl => ?_, fun l => ?_, ?_⟩
    · rw [List.mem_cons, not_or] at hl
      rw [b2 k l hl.2, hother k l hl.1]
    · by_cases hl : l = n
      · subst hl; simpa using g0
      · simpa [hl] using G0 l
    · rw [List.mem_cons, not_or] at hl
      simpa [hl.1] using G1 l hl.2
    · by_cases hl : l = n
      · subst hl
        rw [Function.update_self]
        simp only [b2 _ l hnd.1]
        exact g1
      · rw [Function.update_of_ne hl]
        have := G2 l
        simp only [hother _ l hl] at this
        exact this
    · have : ∑ l, (X l : ℝ) * Function.update G n g l = (X n : ℝ) * g + ∑ l, (X l : ℝ) * G l := by
        have e : ∀ l, (X l : ℝ) * Function.update G n g l = (X l : ℝ) * G l + if l = n then (X n : ℝ) * g else 0 := fun l => by
          by_cases hl : l = n
          · subst hl; simp [hGn]
          · simp [hl]
        rw [Finset.sum_congr rfl fun l _ => e l, Finset.sum_add_distrib]
        simp
        ring
      rw [this]
      linarith

theorem present_nodup (X : Vec V ℕ) : (present X).Nodup := (List.nodup_finRange V).filter _

theorem present_mem {X : Vec V ℕ} {n : Fin V} : n ∈ present X ↔ X n ≠ 0 := by simp [present]

/-- What a sweep gains is at least the square of the change of the topic counts. -/
theorem sweep_change {X : Vec V ℕ} {y : Fin C} {m : Model K V C} (hm : m.Valid) {fp : ℕ} {s s' : VP K V}
    (h : WordUpdates exact X y m fp (present X) s s') (hs : Fine X m s) :
    Fine X m s' ∧ (∑ k, |s'.gamma k - s.gamma k|) ^ 2 ≤
      4 * (∑ n, (X n : ℝ)) * fp * (lyap X y m s' - lyap X y m s) := by
  obtain ⟨h1, _, G, G0, _, G2, G3⟩ := sweep_lyap hm h (present_nodup X) (fun n hn => present_mem.1 hn) hs
  refine ⟨h1, ?_⟩
  set D : Fin V → ℝ := fun n => ∑ k, |s.phi k n - s'.phi k n| with hD
  have hX0 : ∀ n, (0 : ℝ) ≤ X n := fun n => Nat.cast_nonneg _
  have a1 : ∑ k, |s'.gamma k - s.gamma k| ≤ ∑ n, (X n : ℝ) * D n := by
    simp only [hD, Finset.mul_sum]
    rw [Finset.sum_comm]
    refine Finset.sum_le_sum fun k _ => ?_
    rw [h1.counts k, hs.counts k, add_sub_add_left_eq_sub, ← Finset.sum_sub_distrib]
    refine (Finset.abs_sum_le_sum_abs _ _).trans (Finset.sum_le_sum fun n _ => le_of_eq ?_)
    rw [← mul_sub, abs_mul, abs_of_nonneg (hX0 n), abs_sub_comm]
  have a2 : (∑ n, (X n : ℝ) * D n) ^ 2 ≤ (∑ n, (X n : ℝ)) * ∑ n, (X n : ℝ) * D n ^ 2 := by
    have := Finset.sum_mul_sq_le_sq_mul_sq univ (fun n => √(X n : ℝ)) fun n => √(X n : ℝ) * D n
    have e1 : ∀ n, √(X n : ℝ) * (√(X n : ℝ) * D n) = X n * D n := fun n => by
      rw [← mul_assoc, Real.mul_self_sqrt (hX0 n)]
    have e2 : ∀ n, (√(X n : ℝ) * D n) ^ 2 = X n * D n ^ 2 := fun n => by rw [mul_pow, Real.sq_sqrt (hX0 n)]
    simp only [e1, e2, Real.sq_sqrt (hX0 _)] at this
    exact this
  have a3 : ∑ n, (X n : ℝ) * D n ^ 2 ≤ 4 * (fp : ℝ) * ∑ n, (X n : ℝ) * G n := by
    rw [Finset.mul_sum]
    refine Finset.sum_le_sum fun n _ => ?_
    have := mul_le_mul_of_nonneg_left (G2 n) (hX0 n)
    calc (X n : ℝ) * D n ^ 2 ≤ X n * (4 * fp * G n) := this
      _ = _ := by ring
  have a4 : 4 * (fp : ℝ) * ∑ n, (X n : ℝ) * G n ≤ 4 * (fp : ℝ) * (lyap X y m s' - lyap X y m s) :=
    mul_le_mul_of_nonneg_left (by linarith) (by positivity)
  have a5 := pow_le_pow_left₀ (Finset.sum_nonneg fun k _ => abs_nonneg _) a1 2
  have a6 := mul_le_mul_of_nonneg_left (a3.trans a4) (Finset.sum_nonneg fun n _ => hX0 n : (0 : ℝ) ≤ ∑ n, (X n : ℝ))
  calc _ ≤ _ := a5.trans a2
    _ ≤ _ := a6
    _ = _ := by ring

/-! ### The range of the objective -/

theorem osc_le {p q v : Vec K ℝ} (hp : IsDist p) (hq : IsDist q) {D : ℝ} (hD : ∀ k j, v k - v j ≤ D) :
    (∑ k, p k * v k) - ∑ k, q k * v k ≤ D := by
  have h1 : ∑ k, p k * v k = ∑ k, ∑ j, p k * q j * v k := by
    refine Finset.sum_congr rfl fun k _ => ?_
    rw [← Finset.sum_mul, ← Finset.mul_sum, hq.2, mul_one]
  have h2 : ∑ k, q k * v k = ∑ k, ∑ j, p k * q j * v j := by
    rw [Finset.sum_comm]
    refine Finset.sum_congr rfl fun k _ => ?_
    rw [← Finset.sum_mul, ← Finset.sum_mul, hp.2, one_mul]
  have h3 : D = ∑ k, ∑ j, p k * q j * D := by
    simp only [← Finset.sum_mul, ← Finset.mul_sum, hp.2, hq.2, one_mul, mul_one]
  rw [h1, h2, ← Finset.sum_sub_distrib]
  refine le_trans (Finset.sum_le_sum fun k _ => ?_) h3.symm.le
  rw [← Finset.sum_sub_distrib]
  refine Finset.sum_le_sum fun j _ => ?_
  rw [← mul_sub]
  exact mul_le_mul_of_nonneg_left (hD k j) (mul_nonneg (hp.1 k) (hq.1 j))

/-- Averages of positive numbers whose ratios are bounded. -/
theorem avg_le {p q v : Vec K ℝ} (hp : IsDist p) (hq : IsDist q) {D : ℝ} (hD : ∀ k j, v k ≤ D * v j) :
    ∑ k, p k * v k ≤ D * ∑ k, q k * v k := by
  have h1 : ∑ k, p k * v k = ∑ k, ∑ j, p k * q j * v k := by
    refine Finset.sum_congr rfl fun k _ => ?_
    rw [← Finset.sum_mul, ← Finset.mul_sum, hq.2, mul_one]
  have h2 : D * ∑ k, q k * v k = ∑ k, ∑ j, p k * q j * (D * v j) := by
    rw [Finset.sum_comm, Finset.mul_sum]
    refine Finset.sum_congr rfl fun k _ => ?_
    rw [← Finset.sum_mul, ← Finset.sum_mul, hp.2, one_mul]
    ring
  rw [h1, h2]
  exact Finset.sum_le_sum fun k _ => Finset.sum_le_sum fun j _ =>
    mul_le_mul_of_nonneg_left (hD k j) (mul_nonneg (hp.1 k) (hq.1 j))

theorem share_le (X : Vec V ℕ) (n : Fin V) : (X n : ℝ) / (∑ i, (X i : ℝ)) ≤ 1 :=
  div_le_one_of_le₀ (Finset.single_le_sum (f := fun i => (X i : ℝ)) (fun i _ => Nat.cast_nonneg _) (mem_univ n))
    (Finset.sum_nonneg fun i _ => Nat.cast_nonneg _)

theorem share_nonneg (X : Vec V ℕ) (n : Fin V) : 0 ≤ (X n : ℝ) / (∑ i, (X i : ℝ)) :=
  div_nonneg (Nat.cast_nonneg _) (Finset.sum_nonneg fun i _ => Nat.cast_nonneg _)

theorem hDoc_ratio {X : Vec V ℕ} {eta : Mat K C ℝ} {phi : Mat K V ℝ} (h : ∀ n, IsDist fun k => phi k n) {E : ℝ} (hE0 : 0 ≤ E)
    (hE : ∀ k j c, eta k c - eta j c ≤ E) (n : Fin V) (k j : Fin K) :
    hDoc exact X eta phi n k ≤ Real.exp E * hDoc exact X eta phi n j := by
  unfold hDoc
  rw [Finset.mul_sum]
  refine Finset.sum_le_sum fun c _ => ?_
  have h1 : 0 ≤ ∏ l ∈ univ.filter (fun l => X l ≠ 0 ∧ l ≠ n),
      ∑ j, phi j l * exact.exp ((X l : ℝ) / (∑ i, (X i : ℝ)) * eta j c) :=
    Finset.prod_nonneg fun l _ => Finset.sum_nonneg fun j _ => mul_nonneg ((h l).1 j) (exact.exp_pos _).le
  have h2 : exact.exp ((X n : ℝ) / (∑ i, (X i : ℝ)) * eta k c) ≤
      Real.exp E * exact.exp ((X n : ℝ) / (∑ i, (X i : ℝ)) * eta j c) := by
    change Real.exp _ ≤ Real.exp E * Real.exp _
    rw [← Real.exp_add, Real.exp_le_exp]
    have a := share_le X n
    have b := share_nonneg X n
    have := hE k j c
    nlinarith
  calc _ ≤ _ := mul_le_mul_of_nonneg_left h2 h1
    _ = _ := by ring

theorem partition_ratio {X : Vec V ℕ} {y : Fin C} {eta : Mat K C ℝ} {phi phi' : Mat K V ℝ} (h : ∀ n, IsDist fun k => phi k n)
    (h' : ∀ n, IsDist fun k => phi' k n) {E : ℝ} (hE0 : 0 ≤ E) (hE : ∀ k j c, eta k c - eta j c ≤ E) :
    Real.log (docPartition exact X eta phi) - Real.log (docPartition exact X eta phi') ≤ E := by
  have pos : ∀ {f : Mat K V ℝ}, (∀ n, IsDist fun k => f k n) → ∀ (l : Fin V) (c : Fin C),
      0 < ∑ j, f j l * exact.exp ((X l : ℝ) / (∑ i, (X i : ℝ)) * eta j c) := fun hf l c => by
    rw [← factor_doc]
    exact factor_pos (hf l) c
  have dpos : ∀ {f : Mat K V ℝ}, (∀ n, IsDist fun k => f k n) → 0 < docPartition exact X eta f := fun hf =>
    Finset.sum_pos (fun c _ => Finset.prod_pos fun l _ => pos hf l c) ⟨y, mem_univ y⟩
  rw [← Real.log_div (dpos h).ne' (dpos h').ne', Real.log_le_iff_le_exp (div_pos (dpos h) (dpos h')), div_le_iff₀ (dpos h')]
  unfold docPartition
  rw [Finset.mul_sum]
  refine Finset.sum_le_sum fun c _ => ?_
  have h1 : ∀ l, ∑ j, phi j l * exact.exp ((X l : ℝ) / (∑ i, (X i : ℝ)) * eta j c) ≤
      Real.exp ((X l : ℝ) / (∑ i, (X i : ℝ)) * E) *
        ∑ j, phi' j l * exact.exp ((X l : ℝ) / (∑ i, (X i : ℝ)) * eta j c) := fun l => by
    refine avg_le (v := fun j => exact.exp ((X l : ℝ) / (∑ i, (X i : ℝ)) * eta j c)) (h l) (h' l) fun k j => ?_
    change Real.exp _ ≤ Real.exp _ * Real.exp _
    rw [← Real.exp_add, Real.exp_le_exp, ← mul_add]
    exact mul_le_mul_of_nonneg_left (by linarith [hE k j c]) (share_nonneg X l)
  refine (Finset.prod_le_prod (fun l _ => (pos h l c).le) fun l _ => h1 l).trans ?_
  rw [Finset.prod_mul_distrib]
  refine mul_le_mul_of_nonneg_right ?_ (Finset.prod_nonneg fun l _ => (pos h' l c).le)
  rw [← Real.exp_sum, Real.exp_le_exp, ← Finset.sum_mul]
  have h2 : ∑ l ∈ univ.filter (fun l => X l ≠ 0), (X l : ℝ) / (∑ i, (X i : ℝ)) ≤ 1 := by
    refine (Finset.sum_le_sum_of_subset_of_nonneg (Finset.filter_subset _ _) fun l _ _ => share_nonneg X l).trans ?_
    rw [← Finset.sum_div]
    exact div_self_le_one _
  nlinarith

/-- The responsibilities of the words of the document came out of a fixed point update with bounded weights. -/
def Soft (X : Vec V ℕ) (y : Fin C) (m : Model K V C) (D : Fin V → ℝ) (s : VP K V) (n : Fin V) : Prop :=
  ∃ v : Vec K ℝ, (∀ k j, v k - v j ≤ D n) ∧
    ∀ k, s.phi k n * (∑ j, m.beta j n * Real.exp (v j + (X n : ℝ) / (∑ i, (X i : ℝ)) * m.eta j y)) =
      m.beta k n * Real.exp (v k + (X n : ℝ) / (∑ i, (X i : ℝ)) * m.eta k y)

theorem lyap_range {X : Vec V ℕ} {y : Fin C} {m : Model K V C} (hm : m.Valid) {A B E : ℝ} (hA0 : 0 < A)
    (hA : ∀ k, A ≤ m.alpha k) (hB : ∀ k, m.alpha k + ∑ n, (X n : ℝ) ≤ B) (hE0 : 0 ≤ E)
    (hE : ∀ k j c, m.eta k c - m.eta j c ≤ E) {s t : VP K V} (hs : Fine X m s) (ht : Fine X m t)
    (hsoft : ∀ n, X n ≠ 0 → Soft X y m (fun n => logDeriv Real.Gamma B - logDeriv Real.Gamma A + Real.exp E / X n) s n) :
    lyap X y m t - lyap X y m s ≤ 2 * (∑ n, (X n : ℝ)) * (logDeriv Real.Gamma B - logDeriv Real.Gamma A) +
      (∑ n, (X n : ℝ)) * Real.exp E + E := by
  set Q := logDeriv Real.Gamma B - logDeriv Real.Gamma A with hQ
  have hX0 : ∀ n, (0 : ℝ) ≤ X n := fun n => Nat.cast_nonneg _
  set D : VP K V → Fin V → ℝ := fun t l => (X l : ℝ) * ((∑ k, t.phi k l * (Real.log (m.beta k l) - Real.log (t.phi k l))) +
      ∑ k, t.phi k l * ((X l : ℝ) / (∑ i, (X i : ℝ)) * m.eta k y)) with hD
  have a1 : (∑ n, D t n) - ∑ n, D s n ≤ (∑ n, (X n : ℝ)) * Q + (∑ n, (X n : ℝ)) * Real.exp E := by
    rw [← Finset.sum_sub_distrib, Finset.sum_mul, Finset.sum_mul, ← Finset.sum_add_distrib]
    refine Finset.sum_le_sum fun n _ => ?_
    by_cases hn : X n = 0
    · simp [hD, hn]
    have hx1 : (1 : ℝ) ≤ X n := by exact_mod_cast Nat.one_le_iff_ne_zero.2 hn
    obtain ⟨v, v1, v2⟩ := hsoft n hn
    have key := Converge.word_gain (e := fun k => Real.exp (v k + (X n : ℝ) / (∑ i, (X i : ℝ)) * m.eta k y))
      (fun k => hm.beta_nonneg k n) (fun k => Real.exp_pos _) (ht.dist n).1 (ht.dist n).2 (ht.supp n hn) (hs.dist n).2 v2
    simp only [Real.log_exp] at key
    have split : ∀ t : VP K V, ∑ k, t.phi k n * (v k + (X n : ℝ) / (∑ i, (X i : ℝ)) * m.eta k y) =
        (∑ k, t.phi k n * v k) + ∑ k, t.phi k n * ((X n : ℝ) / (∑ i, (X i : ℝ)) * m.eta k y) := fun t => by
      rw [← Finset.sum_add_distrib]
      exact Finset.sum_congr rfl fun k _ => by ring
    rw [split, split] at key
    have o := osc_le (hs.dist n) (ht.dist n) v1
    have sq : 0 ≤ (∑ k, |t.phi k n - s.phi k n|) ^ 2 / 4 := by positivity
    simp only [hD]
    rw [← mul_sub]
    have e : (X n : ℝ) * (Q + Real.exp E / X n) = X n * Q + Real.exp E := by field_simp
    have h1 := mul_le_mul_of_nonneg_left (show ((∑ k, t.phi k n * (Real.log (m.beta k n) - Real.log (t.phi k n))) +
      ∑ k, t.phi k n * ((X n : ℝ) / (∑ i, (X i : ℝ)) * m.eta k y)) - ((∑ k, s.phi k n * (Real.log (m.beta k n) - Real.log (s.phi k n))) +
      ∑ k, s.phi k n * ((X n : ℝ) / (∑ i, (X i : ℝ)) * m.eta k y)) ≤ Q + Real.exp E / X n by linarith) (hX0 n)
    rw [e] at h1
    have h2 : Real.exp E ≤ X n * Real.exp E := le_mul_of_one_le_left (Real.exp_pos E).le hx1
    linarith
  have mem : ∀ {u : VP K V}, Fine X m u → ∀ k, A ≤ u.gamma k ∧ u.gamma k ≤ B := fun hu k => by
    have h0 := counts_pos hm hu.counts (fun k n => (hu.dist n).1 k) k
    refine ⟨(hA k).trans h0.1, le_trans ?_ (hB k)⟩
    rw [hu.counts k]
    gcongr with n
    refine mul_le_of_le_one_right (hX0 n) ?_
    rw [← (hu.dist n).2]
    exact Finset.single_le_sum (f := fun k => _) (fun k _ => (hu.dist n).1 k) (mem_univ k)
  have pos : ∀ {u : VP K V}, Fine X m u → ∀ k, 0 < u.gamma k := fun hu k => hA0.trans_le (mem hu k).1
  have a2 : (∑ k, Real.log (Real.Gamma (t.gamma k))) - ∑ k, Real.log (Real.Gamma (s.gamma k)) ≤ (∑ n, (X n : ℝ)) * Q := by
    have h1 : (∑ k, Real.log (Real.Gamma (t.gamma k))) - ∑ k, Real.log (Real.Gamma (s.gamma k)) ≤
        ∑ k, logDeriv Real.Gamma (t.gamma k) * (t.gamma k - s.gamma k) := by
      rw [← Finset.sum_sub_distrib]
      refine Finset.sum_le_sum fun k _ => ?_
      have := logGamma_tangent (pos ht k) (pos hs k)
      have e : logDeriv Real.Gamma (t.gamma k) * (s.gamma k - t.gamma k) =
        -(logDeriv Real.Gamma (t.gamma k) * (t.gamma k - s.gamma k)) := by ring
      rw [e] at this
      linarith
    refine h1.trans ?_
    have h2 : ∑ k, logDeriv Real.Gamma (t.gamma k) * (t.gamma k - s.gamma k) =
        ∑ n, (X n : ℝ) * ((∑ k, t.phi k n * logDeriv Real.Gamma (t.gamma k)) -
          ∑ k, s.phi k n * logDeriv Real.Gamma (t.gamma k)) := by
      have : ∀ k, logDeriv Real.Gamma (t.gamma k) * (t.gamma k - s.gamma k) =
          ∑ n, (X n : ℝ) * (t.phi k n * logDeriv Real.Gamma (t.gamma k) - s.phi k n * logDeriv Real.Gamma (t.gamma k)) :=
        fun k => by
          rw [show t.gamma k - s.gamma k = ∑ n, ((X n : ℝ) * t.phi k n - (X n : ℝ) * s.phi k n) by
            rw [ht.counts k, hs.counts k, Finset.sum_sub_distrib]; ring, Finset.mul_sum]
          exact Finset.sum_congr rfl fun n _ => by ring
      rw [Finset.sum_congr rfl fun k _ => this k, Finset.sum_comm]
      refine Finset.sum_congr rfl fun n _ => ?_
      rw [← Finset.mul_sum, Finset.sum_sub_distrib]
    rw [h2, Finset.sum_mul]
    refine Finset.sum_le_sum fun n _ => mul_le_mul_of_nonneg_left ?_ (hX0 n)
    refine osc_le (ht.dist n) (hs.dist n) fun k j => ?_
    have p1 := FastExp.psi_mono (pos ht k) (mem ht k).2
    have p2 := FastExp.psi_mono hA0 (mem ht j).1
    simp only [Digamma.psi] at p1 p2
    linarith
  have a3 := partition_ratio (X := X) (y := y) hs.dist ht.dist hE0 hE
  unfold lyap
  change (∑ n, D t n) + _ - _ - ((∑ n, D s n) + _ - _) ≤ _
  linarith

/-! ### After the first sweep -/

theorem times_soft {x : ℕ} (hx : x ≠ 0) {N : ℝ} {b ey psi h : Vec K ℝ} (hb : ∀ k, 0 ≤ b k) (hb1 : ∃ k, 0 < b k)
    (hh : ∀ k, 0 < h k) {Q R : ℝ} (hQ : ∀ k j, psi k - psi j ≤ Q) (hR : ∀ k j, h k ≤ R * h j) {fp : ℕ} {q r : Vec K ℝ}
    (hu : Times (ColumnUpdate exact x N b ey psi h) fp q r) (hq : IsDist q) :
    IsDist r ∧ (0 < fp → (∀ k, b k = 0 → r k = 0) ∧ ∃ v : Vec K ℝ, (∀ k j, v k - v j ≤ Q + R / x) ∧
      ∀ k, r k * (∑ j, b j * Real.exp (v j + (x : ℝ) / N * ey j)) = b k * Real.exp (v k + (x : ℝ) / N * ey k)) := by
  induction hu with
  | zero a => exact ⟨hq, fun h => absurd h (lt_irrefl _)⟩
  | @succ i q p r h1 h2 ih =>
    obtain ⟨a1, a2, a3⟩ := column_soft hb hb1 h1
    obtain ⟨b1, b2⟩ := ih a1
    refine ⟨b1, fun _ => ?_⟩
    rcases Nat.eq_zero_or_pos i with rfl | hi
    · cases h2
      refine ⟨a2, fun k => psi k - h k / ((∑ k, h k * q k) * x), fun k j => ?_, ?_⟩
      · have hx0 : (0 : ℝ) < x := by exact_mod_cast Nat.pos_of_ne_zero hx
        have hS := dot_pos hh hq
        have c1 : h j / ((∑ k, h k * q k) * x) ≤ R / x := by
          rw [← div_div]
          refine div_le_div_of_nonneg_right ?_ hx0.le
          rw [div_le_iff₀ hS, Finset.mul_sum]
          have : h j = ∑ k, h j * q k := by rw [← Finset.mul_sum, hq.2, mul_one]
          rw [this]
          refine Finset.sum_le_sum fun k _ => ?_
          rw [← mul_assoc]
          exact mul_le_mul_of_nonneg_right (hR j k) (hq.1 k)
        have c2 : 0 ≤ h k / ((∑ k, h k * q k) * x) := div_nonneg (hh k).le (mul_pos hS hx0).le
        linarith [hQ k j]
      · intro k
        have e : ∀ j, psi j - h j / ((∑ k, h k * q k) * x) + (x : ℝ) / N * ey j =
          psi j + (x : ℝ) / N * ey j - h j / ((∑ k, h k * q k) * x) := fun j => by ring
        simp only [e]
        exact a3 k
    · exact b2 hi

theorem sweep_soft {X : Vec V ℕ} {y : Fin C} {m : Model K V C} (hm : m.Valid) {A B E : ℝ} (hA0 : 0 < A)
    (hA : ∀ k, A ≤ m.alpha k) (hB : ∀ k, m.alpha k + ∑ n, (X n : ℝ) ≤ B) (hE0 : 0 ≤ E)
    (hE : ∀ k j c, m.eta k c - m.eta j c ≤ E) {fp : ℕ} (hfp : 0 < fp) {ns : List (Fin V)} {s s' : VP K V}
    (h : WordUpdates exact X y m fp ns s s') : (∀ n ∈ ns, X n ≠ 0 ∧ m.Known n) → (∀ n, IsDist fun k => s.phi k n) →
    Counts X m.alpha s → ∀ n, (n ∈ ns ∨ Soft X y m (fun n => logDeriv Real.Gamma B - logDeriv Real.Gamma A + Real.exp E / X n) s n) →
      Soft X y m (fun n => logDeriv Real.Gamma B - logDeriv Real.Gamma A + Real.exp E / X n) s' n := by
  induction h with
  | nil s => exact fun _ _ _ n hn => hn.resolve_left (by simp)
  | @cons n ns s s' s'' h1 _ ih =>
    intro hX hd hc l hl
    have hX0 : ∀ n, (0 : ℝ) ≤ X n := fun n => Nat.cast_nonneg _
    obtain ⟨psi, hpsi, hT, hother, hgam⟩ := h1
    have hn := hX n List.mem_cons_self
    have mem : ∀ k, A ≤ s.gamma k ∧ s.gamma k ≤ B := fun k => by
      have h0 := counts_pos hm hc (fun k n => (hd n).1 k) k
      refine ⟨(hA k).trans h0.1, le_trans ?_ (hB k)⟩
      rw [hc k]
      gcongr with n
      refine mul_le_of_le_one_right (hX0 n) ?_
      rw [← (hd n).2]
      exact Finset.single_le_sum (f := fun k => _) (fun k _ => (hd n).1 k) (mem_univ k)
    have hQ : ∀ k j, psi k - psi j ≤ logDeriv Real.Gamma B - logDeriv Real.Gamma A := fun k j => by
      have e1 : logDeriv Real.Gamma (s.gamma k) = psi k := Option.some.inj (hpsi k)
      have e2 : logDeriv Real.Gamma (s.gamma j) = psi j := Option.some.inj (hpsi j)
      have p1 := FastExp.psi_mono (hA0.trans_le (mem k).1) (mem k).2
      have p2 := FastExp.psi_mono hA0 (mem j).1
      simp only [Digamma.psi] at p1 p2
      linarith
    have hh : ∀ k, 0 < hDoc exact X m.eta s.phi n k := hDoc_pos (fun l => hd l) n y
    obtain ⟨c1, c2⟩ := times_soft hn.1 (fun k => hm.beta_nonneg k n) hn.2 hh hQ
      (fun k j => hDoc_ratio hd hE0 hE n k j) hT (hd n)
    have hd' : ∀ l, IsDist fun k => s'.phi k l := by
      intro l
      by_cases hl : l = n
      · rw [hl]; exact c1
      · have : (fun k => s'.phi k l) = fun k => s.phi k l := funext fun k => hother k l hl
        rw [this]
        exact hd l
    have hc' : Counts X m.alpha s' := by
      intro k
      rw [hgam k, hc k, add_assoc]
      congr 1
      symm
      rw [← sub_eq_iff_eq_add', ← Finset.sum_sub_distrib, Finset.sum_eq_single n]
      · ring
      · intro l _ hl
        rw [hother k l hl, sub_self]
      · simp
    refine ih (fun l hl => hX l (List.mem_cons_of_mem _ hl)) hd' hc' l ?_
    by_cases hln : l = n
    · subst hln
      exact .inr (c2 hfp).2
    · rcases hl with hl | hl
      · exact .inl ((List.mem_cons.1 hl).resolve_left hln)
      · obtain ⟨v, v1, v2⟩ := hl
        exact .inr ⟨v, v1, fun k => by rw [hother k l hln]; exact v2 k⟩

theorem sweep_idle {P : Prims} {X : Vec V ℕ} {y : Fin C} {m : Model K V C} {ns : List (Fin V)} {s s' : VP K V}
    (h : WordUpdates P X y m 0 ns s s') : ∀ k, s'.gamma k = s.gamma k := by
  induction h with
  | nil s => exact fun _ => rfl
  | @cons n ns s s' s'' h1 _ ih =>
    intro k
    obtain ⟨_, _, hT, _, hgam⟩ := h1
    have : (fun k => s'.phi k n) = fun k => s.phi k n := by
      generalize (fun k => s'.phi k n) = r at hT
      cases hT
      rfl
    rw [ih k, hgam k, congrFun this k]
    simp

end Verif.EStep
