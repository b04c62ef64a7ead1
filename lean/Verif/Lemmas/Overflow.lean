import Verif.Model.Overflow
import Verif.Props.LimitsSharp

/-
Lemmas about numbers of the machine with infinities and NaN.
-/
namespace Verif.Overflow

open MathUtils EStep Limits Finset
open Rounded hiding fl_nonneg

variable {K V C : ℕ} {F : Format} {D : Device F}

theorem nearest_neg (x : ℝ) : nearest (-x) = -nearest x := by
  by_cases h : x = ⌊x⌋
  · have e : -x = ((-⌊x⌋ : ℤ) : ℝ) := by push_cast; linarith
    rw [e, nearest_int]
    conv_rhs => rw [h]
    rw [nearest_int]
  · have h0 : (⌊x⌋ : ℝ) < x := lt_of_le_of_ne (Int.floor_le x) (Ne.symm h)
    have h1 := Int.lt_floor_add_one x
    have hf : ⌊-x⌋ = -⌊x⌋ - 1 := by
      rw [Int.floor_eq_iff]
      push_cast
      constructor <;> linarith
    unfold nearest
    rw [hf]
    push_cast
    have hev : Even (-⌊x⌋ - 1) ↔ ¬ Even ⌊x⌋ := by
      rw [Int.not_even_iff_odd]
      constructor
      · rintro ⟨a, ha⟩; exact ⟨-a - 1, by omega⟩
      · rintro ⟨a, ha⟩; exact ⟨-a - 1, by omega⟩
    simp only [hev]
    generalize ⌊x⌋ = n at *
    split_ifs <;> first | omega | (exfalso; linarith) | (exfalso; tauto)

theorem fl_neg (x : ℝ) : fl F (-x) = -fl F x := by
  unfold fl
  simp only [abs_neg, neg_div, nearest_neg]
  push_cast
  ring

theorem abs_fl (x : ℝ) : |fl F x| = fl F |x| := by
  rcases le_total 0 x with h | h
  · rw [abs_of_nonneg h, abs_of_nonneg (fl_nonneg h)]
  · have : 0 ≤ fl F (-x) := fl_nonneg (by linarith)
    rw [abs_of_nonpos h, fl_neg, abs_of_nonpos]
    rw [fl_neg] at this
    linarith

theorem fl_fl' (hF : F.Ok) (x : ℝ) : fl F (fl F x) = fl F x := by
  rcases le_total 0 x with h | h
  · exact fl_fl hF h
  · have := fl_fl hF (x := -x) (by linarith)
    rw [fl_neg, fl_neg] at this
    linarith

/-- Rounding, from above. -/
theorem abs_fl_le (x : ℝ) : |fl F x| ≤ (1 + F.u) * |x| + F.tiny := by
  have := fl_err (F := F) (abs_nonneg x)
  rw [abs_le] at this
  rw [abs_fl]
  linarith [this.2]

theorem toNum_fin {x : ℝ} (h : |fl F x| < 2 ^ F.high) : toNum F x = .fin (fl F x) := by
  rw [abs_lt] at h
  unfold toNum
  rw [if_neg (by linarith [h.2]), if_neg (by linarith [h.1])]

theorem nMul_fin {a b : ℝ} (h : |fl F (a * b)| < 2 ^ F.high) : nMul F (.fin a) (.fin b) = .fin (fl F (a * b)) :=
  toNum_fin h

theorem nAdd_fin {a b : ℝ} (h : |fl F (a + b)| < 2 ^ F.high) : nAdd F (.fin a) (.fin b) = .fin (fl F (a + b)) :=
  toNum_fin h

theorem nSub_fin {a b : ℝ} (h : |fl F (a - b)| < 2 ^ F.high) : nSub F (.fin a) (.fin b) = .fin (fl F (a - b)) := by
  rw [sub_eq_add_neg] at h ⊢
  exact toNum_fin h

theorem nDiv_fin {a b : ℝ} (hb : b ≠ 0) (h : |fl F (a / b)| < 2 ^ F.high) :
    nDiv F (.fin a) (.fin b) = .fin (fl F (a / b)) := by
  simp only [nDiv]
  rw [if_neg hb]
  exact toNum_fin h

/-! ### NaN and infinity spread -/

theorem nAdd_nan_left (a : Num) : nAdd F .nan a = .nan := by cases a <;> rfl

theorem nAdd_nan_right (a : Num) : nAdd F a .nan = .nan := by cases a <;> rfl

theorem nMul_nan_right (a : Num) : nMul F a .nan = .nan := by cases a <;> rfl

theorem numSum_nan {l : List Num} {s : Num} (h : NumSum F l s) (hn : .nan ∈ l) : s = .nan := by
  induction h with
  | nil => cases hn
  | one x => exact (List.mem_singleton.1 hn).symm
  | @add l l' l'' a b _ _ _ _ hp iha ihb =>
    rcases List.mem_append.1 (hp.mem_iff.1 hn) with h | h
    · rw [iha h, nAdd_nan_left]
    · rw [ihb h, nAdd_nan_right]

/-- Positive infinity or a finite number of at least `b`. -/
def AtLeast (b : ℝ) : Num → Prop
  | .fin a => b ≤ a
  | .pinf => True
  | .ninf => False
  | .nan => False

theorem toNum_nonneg {x : ℝ} (h : 0 ≤ x) : AtLeast 0 (toNum F x) := by
  have h1 := fl_nonneg (F := F) h
  have h2 : (0 : ℝ) < 2 ^ F.high := by positivity
  unfold toNum
  split_ifs with h3 h4
  · trivial
  · linarith
  · exact h1

theorem nAdd_nonneg {a b : Num} (ha : AtLeast 0 a) (hb : AtLeast 0 b) : AtLeast 0 (nAdd F a b) := by
  cases a <;> cases b <;> simp only [AtLeast] at ha hb
  · exact toNum_nonneg (add_nonneg ha hb)
  all_goals trivial

theorem numSum_nonneg {l : List Num} {s : Num} (h : NumSum F l s) (hn : ∀ x ∈ l, AtLeast 0 x) : AtLeast 0 s := by
  induction h with
  | nil => exact le_rfl
  | one x => exact hn x (by simp)
  | @add l l' l'' a b _ _ _ _ hp iha ihb =>
    exact nAdd_nonneg (iha fun x hx => hn x (hp.mem_iff.2 (List.mem_append_left _ hx)))
      (ihb fun x hx => hn x (hp.mem_iff.2 (List.mem_append_right _ hx)))

theorem numSum_pinf {l : List Num} {s : Num} (h : NumSum F l s) (hn : ∀ x ∈ l, AtLeast 0 x) (hi : .pinf ∈ l) :
    s = .pinf := by
  induction h with
  | nil => cases hi
  | one x => exact (List.mem_singleton.1 hi).symm
  | @add l l' l'' a b _ _ ha hb hp iha ihb =>
    have hl : ∀ x ∈ l, AtLeast 0 x := fun x hx => hn x (hp.mem_iff.2 (List.mem_append_left _ hx))
    have hl' : ∀ x ∈ l', AtLeast 0 x := fun x hx => hn x (hp.mem_iff.2 (List.mem_append_right _ hx))
    have na := numSum_nonneg ha hl
    have nb := numSum_nonneg hb hl'
    rcases List.mem_append.1 (hp.mem_iff.1 hi) with h | h
    · rw [iha hl h]
      cases b <;> simp only [AtLeast] at nb <;> rfl
    · rw [ihb hl' h]
      cases a <;> simp only [AtLeast] at na <;> rfl

/-! ### Finite sums -/

/-- Sums that stay far below the largest number are finite. -/
theorem numSum_fin (hF : F.Ok) {N : List Num} {s : Num} (h : NumSum F N s) : ∀ l : List ℝ, N = l.map .fin →
    (∀ x ∈ l, fl F x = x) → (l.map abs).sum ≤ 2 ^ F.high / 2 * (1 - F.u) ^ l.length →
    ∃ r r' : ℝ, s = .fin r ∧ Summation (fl F) l r ∧ Summation (fl F) (l.map abs) r' ∧ |r| ≤ r' := by
  have hb := base hF
  induction h with
  | nil =>
    intro l hl _ _
    have : l = [] := by simpa using hl.symm
    subst this
    exact ⟨0, 0, rfl, .nil, .nil, by simp⟩
  | one x =>
    intro l hl _ _
    obtain ⟨a, rfl, rfl⟩ : ∃ a, l = [a] ∧ x = .fin a := by
      match l, hl with
      | [a], hl => exact ⟨a, rfl, by simpa using hl⟩
    exact ⟨a, |a|, rfl, .one a, .one |a|, le_rfl⟩
  | @add N N' N'' a b hne hne' ha hb' hp iha ihb =>
    intro l hl hr hs
    subst hl
    -- split `l` as the sum does
    obtain ⟨l₁, hl₁, hperm⟩ : ∃ l₁ : List ℝ, N ++ N' = l₁.map .fin ∧ l.Perm l₁ := by
      have hall : ∀ y ∈ N ++ N', ∃ x : ℝ, Ieee.fin x = y := by
        intro y hy
        obtain ⟨x, _, hx⟩ := List.mem_map.1 (hp.mem_iff.2 hy)
        exact ⟨x, hx⟩
      obtain ⟨l₁, h₁⟩ : ∃ l₁ : List ℝ, l₁.map Ieee.fin = N ++ N' := by
        have := (Set.range_list_map (Ieee.fin : ℝ → Ieee ℝ))
        have h2 : N ++ N' ∈ Set.range (List.map (Ieee.fin : ℝ → Ieee ℝ)) := by
          rw [this]; exact fun y hy => hall y hy
        exact h2
      refine ⟨l₁, h₁.symm, ?_⟩
      rw [← h₁] at hp
      have hinj : Function.Injective (Ieee.fin : ℝ → Ieee ℝ) := fun a b h => by cases h; rfl
      exact (List.map_perm_map_iff hinj).1 hp
    obtain ⟨m, m', rfl, rfl, rfl⟩ : ∃ m m', l₁ = m ++ m' ∧ N = m.map .fin ∧ N' = m'.map .fin := by
      obtain ⟨m, m', h1, h2, h3⟩ := List.map_eq_append_iff.1 hl₁.symm
      exact ⟨m, m', h1, h2.symm, h3.symm⟩
    have hsum : (l.map abs).sum = (m.map abs).sum + (m'.map abs).sum := by
      rw [(hperm.map abs).sum_eq, List.map_append, List.sum_append]
    have hlen : l.length = m.length + m'.length := by rw [hperm.length_eq, List.length_append]
    have s0 : ∀ m : List ℝ, 0 ≤ (m.map abs).sum := fun m => List.sum_nonneg (by
      intro x hx
      obtain ⟨y, _, rfl⟩ := List.mem_map.1 hx
      exact abs_nonneg y)
    have hpow : ∀ j ≤ l.length, 2 ^ F.high / 2 * (1 - F.u) ^ l.length ≤ 2 ^ F.high / 2 * (1 - F.u) ^ j := fun j hj =>
      mul_le_mul_of_nonneg_left (pow_le_pow_of_le_one hb.1.le hb.2 hj) (by positivity)
    obtain ⟨r, r', ea, sa, sa', la⟩ := iha m rfl
      (fun x hx => hr x (hperm.mem_iff.2 (List.mem_append_left _ hx)))
      (by linarith [s0 m', hpow m.length (by omega)])
    obtain ⟨t, t', eb, sb, sb', lb⟩ := ihb m' rfl
      (fun x hx => hr x (hperm.mem_iff.2 (List.mem_append_right _ hx)))
      (by linarith [s0 m, hpow m'.length (by omega)])
    have mne : m ≠ [] := fun h => hne (by rw [h]; rfl)
    have mne' : m' ≠ [] := fun h => hne' (by rw [h]; rfl)
    have hS : Summation (fl F) l (fl F (r + t)) := .add mne mne' sa sb hperm
    have hS' : Summation (fl F) (l.map abs) (fl F (r' + t')) :=
      .add (fun h => mne (List.map_eq_nil_iff.1 h)) (fun h => mne' (List.map_eq_nil_iff.1 h)) sa' sb'
        (by rw [← List.map_append]; exact hperm.map abs)
    have hle : |fl F (r + t)| ≤ fl F (r' + t') := by
      rw [abs_fl]
      exact fl_mono hF (abs_nonneg _) ((abs_add_le r t).trans (add_le_add la lb))
    have hnear := near_summation hF hS' (by
        intro x hx
        obtain ⟨y, _, rfl⟩ := List.mem_map.1 hx
        exact abs_nonneg y) (by
        intro x hx
        obtain ⟨y, hy, rfl⟩ := List.mem_map.1 hx
        rw [← abs_fl, hr y hy])
    have hlt : fl F (r' + t') < 2 ^ F.high := by
      have h1 := hnear.2.2.2
      rw [List.length_map, add_zero] at h1
      have h2 : (1 - F.u) ^ l.length * fl F (r' + t') ≤ (1 - F.u) ^ l.length * (2 ^ F.high / 2) := by linarith
      have h3 := le_of_mul_le_mul_left h2 (pow_pos hb.1 _)
      have : (0 : ℝ) < 2 ^ F.high := by positivity
      linarith
    refine ⟨fl F (r + t), fl F (r' + t'), ?_, hS, hS', hle⟩
    rw [ea, eb]
    exact nAdd_fin (hle.trans_lt hlt)

/-! ### The loop of `sum_cols_scaled` -/

/-- The loop of `sum_cols_scaled` on finite numbers. -/
noncomputable def rScaled (F : Format) (w : Vec V ℝ) (phi : Mat K V ℝ) (start : ℝ) (k : Fin K) : ℝ :=
  (List.finRange V).foldl (fun g n => if w n = 0 then g else fl F (g + fl F (w n * phi k n))) start

theorem near_rScaled (hF : F.Ok) {w : Vec V ℝ} {phi : Mat K V ℝ} {start : ℝ} {k : Fin K} (hw : ∀ n, 0 ≤ w n)
    (hphi : ∀ n, 0 ≤ phi k n) (h0 : 0 ≤ start) (hr : fl F start = start) :
    start ≤ rScaled F w phi start k ∧ fl F (rScaled F w phi start k) = rScaled F w phi start k ∧
    Near F (V + 1) (V * F.tiny) (rScaled F w phi start k) (start + ∑ n, w n * phi k n) := by
  have key : ∀ (l : List (Fin V)) (j : ℕ) (g e : ℝ), 0 ≤ g → fl F g = g → 0 ≤ e → Near F (j + 1) (j * F.tiny) g e →
      g ≤ l.foldl (fun g n => if w n = 0 then g else fl F (g + fl F (w n * phi k n))) g ∧
      fl F (l.foldl (fun g n => if w n = 0 then g else fl F (g + fl F (w n * phi k n))) g) =
        l.foldl (fun g n => if w n = 0 then g else fl F (g + fl F (w n * phi k n))) g ∧
      Near F (j + l.length + 1) ((j + l.length : ℕ) * F.tiny)
        (l.foldl (fun g n => if w n = 0 then g else fl F (g + fl F (w n * phi k n))) g)
        (e + (l.map fun n => w n * phi k n).sum) := by
    intro l
    induction l with
    | nil =>
      intro j g e hg rg he h
      simpa using ⟨rg, h⟩
    | cons n l ih =>
      intro j g e hg rg he h
      have hterm : 0 ≤ w n * phi k n := mul_nonneg (hw n) (hphi n)
      simp only [List.foldl_cons, List.map_cons, List.sum_cons, List.length_cons]
      rw [← add_assoc e]
      have hj : j + (l.length + 1) = (j + 1) + l.length := by omega
      rw [hj]
      split
      · rename_i hX
        apply ih (j + 1) g _ hg rg (add_nonneg he hterm)
        rw [hX]
        simp only [zero_mul, add_zero]
        refine h.mono hF (by omega) ?_ hg he
        have := tiny_pos (F := F)
        push_cast
        nlinarith
      · have t1 := near_fl hF hterm
        have t0 := fl_nonneg (F := F) hterm
        have hs : 0 ≤ g + fl F (w n * phi k n) := add_nonneg hg t0
        have hge : g ≤ fl F (g + fl F (w n * phi k n)) := by
          conv_lhs => rw [← rg]
          exact fl_mono hF hg (by linarith)
        have := ih (j + 1) _ _ (fl_nonneg hs) (fl_fl hF hs) (add_nonneg he hterm) (by
          have h1 := h.add (t1.mono hF (m' := j + 1) (by omega) le_rfl t0 hterm)
          have h2 := (near_of_rel hF hs (fl_add_err hg t0 rg (fl_fl hF hterm))).trans hF le_rfl (by
            have := tiny_pos (F := F)
            positivity) h1
          have e : 1 + (j + 1) = j + 1 + 1 := by omega
          rw [e, zero_add] at h2
          refine h2.mono hF le_rfl (le_of_eq ?_) (fl_nonneg hs) (add_nonneg he hterm)
          push_cast; ring)
        exact ⟨hge.trans this.1, this.2⟩
  have h := key (List.finRange V) 0 start start h0 hr h0 (by simpa using Near.refl hF h0 le_rfl)
  rw [List.length_finRange, zero_add] at h
  have e : ((List.finRange V).map fun n => w n * phi k n).sum = ∑ n, w n * phi k n := by
    rw [← List.ofFn_eq_map, List.sum_ofFn]
  rw [e] at h
  exact h

/-- The loop is the one on finite numbers as long as its result is finite. -/
theorem nScaled_fin (hF : F.Ok) {w : Vec V ℝ} {phi : Mat K V ℝ} {start : ℝ} {k : Fin K} (hw : ∀ n, 0 ≤ w n)
    (hphi : ∀ n, 0 ≤ phi k n) (h0 : 0 ≤ start) (hr : fl F start = start)
    (hlt : rScaled F w phi start k < 2 ^ F.high) :
    nScaled F (fun n => .fin (w n)) (fun k n => .fin (phi k n)) (.fin start) k = .fin (rScaled F w phi start k) := by
  have key : ∀ (l : List (Fin V)) (g : ℝ), 0 ≤ g → fl F g = g →
      g ≤ l.foldl (fun g n => if w n = 0 then g else fl F (g + fl F (w n * phi k n))) g ∧
      (l.foldl (fun g n => if w n = 0 then g else fl F (g + fl F (w n * phi k n))) g < 2 ^ F.high →
      l.foldl (fun (g : Num) n => if (.fin (w n) : Num) = .fin 0 then g else
        nAdd F g (nMul F (.fin (w n)) (.fin (phi k n)))) (.fin g) =
        .fin (l.foldl (fun g n => if w n = 0 then g else fl F (g + fl F (w n * phi k n))) g)) := by
    intro l
    induction l with
    | nil => intro g _ _; exact ⟨le_rfl, fun _ => rfl⟩
    | cons n l ih =>
      intro g hg rg
      simp only [List.foldl_cons]
      by_cases hX : w n = 0
      · rw [if_pos hX, if_pos (by rw [hX])]
        exact ih g hg rg
      · have hterm : 0 ≤ w n * phi k n := mul_nonneg (hw n) (hphi n)
        have t0 := fl_nonneg (F := F) hterm
        have hs : 0 ≤ g + fl F (w n * phi k n) := add_nonneg hg t0
        have hge : g ≤ fl F (g + fl F (w n * phi k n)) := by
          conv_lhs => rw [← rg]
          exact fl_mono hF hg (by linarith)
        have hge' : fl F (w n * phi k n) ≤ fl F (g + fl F (w n * phi k n)) := by
          conv_lhs => rw [← fl_fl hF hterm]
          exact fl_mono hF t0 (by linarith)
        obtain ⟨i1, i2⟩ := ih _ (fl_nonneg (F := F) hs) (fl_fl hF hs)
        rw [if_neg hX, if_neg (fun h => hX (Ieee.fin.inj h))]
        refine ⟨hge.trans i1, fun hlt => ?_⟩
        have hb := lt_of_le_of_lt i1 hlt
        rw [nMul_fin (by rw [abs_of_nonneg t0]; exact hge'.trans_lt hb),
          nAdd_fin (by rw [abs_of_nonneg (fl_nonneg hs)]; exact hb)]
        exact i2 hlt
  exact (key (List.finRange V) start h0 hr).2 hlt

/-! ### The words of a document -/

/-- Bounds on the sizes, the precision and the range that hold for `float` and `double`. -/
structure Wide (F : Format) : Prop where
  ok : F.Ok
  u : F.u ≤ 1 / 2 ^ 24
  low : F.low ≤ -149
  sub : F.low + F.prec ≤ -100
  high : 128 ≤ F.high

theorem wide_float : Wide float := ⟨float_ok, by unfold Format.u float; norm_num, by decide, by decide, by decide⟩

theorem wide_double : Wide double := ⟨double_ok, by unfold Format.u double; norm_num, by decide, by decide, by decide⟩

theorem Wide.tiny (h : Wide F) : F.tiny ≤ 1 / 2 ^ 149 := by
  have h1 : (2 : ℝ) ^ F.low ≤ 2 ^ (-149 : ℤ) := zpow_le_zpow_right₀ (by norm_num) h.low
  have e : (2 : ℝ) ^ (-149 : ℤ) = 1 / 2 ^ 149 := by rw [zpow_neg, one_div]; norm_cast
  have := two_zpow_pos F.low
  rw [e] at h1
  unfold Format.tiny
  linarith

theorem Wide.big (h : Wide F) : (2 : ℝ) ^ 128 ≤ 2 ^ F.high := pow_le_pow_right₀ (by norm_num) h.high

/-- Some millions of roundings. -/
theorem Wide.pow (h : Wide F) {m : ℕ} {q : ℝ} (hm : m * (1 / 2 ^ 24) ≤ 1 - q) : q ≤ (1 - F.u) ^ m := by
  have h1 := one_add_mul_le_pow (a := -F.u) (by have := u_le h.ok; linarith) m
  have h2 : (m : ℝ) * F.u ≤ m * (1 / 2 ^ 24) := mul_le_mul_of_nonneg_left h.u (Nat.cast_nonneg m)
  rw [← sub_eq_add_neg 1 F.u] at h1
  linarith

theorem near_nat (hF : F.Ok) (x : ℕ) : 0 ≤ fl F (x : ℝ) ∧ (1 - F.u) * x ≤ fl F x ∧ (1 - F.u) * fl F x ≤ x := by
  obtain ⟨h0, h1, h2⟩ := fl_nat hF x
  rw [pow_one] at h1 h2
  exact ⟨h0, by linarith, by linarith⟩

theorem Wide.nat_lt (h : Wide F) {x : ℕ} (hx : x ≤ 2 ^ 31) : fl F (x : ℝ) ≤ 2 ^ 31 := by
  have := fl_le h.ok (j := 31) (x := (x : ℝ)) (Nat.cast_nonneg x) (by have := h.low; omega)
    (by have : (x : ℝ) ≤ ((2 ^ 31 : ℕ) : ℝ) := Nat.cast_le.2 hx
        push_cast at this; exact_mod_cast this)
  exact_mod_cast this

theorem Wide.toNum_nat (h : Wide F) {x : ℕ} (hx : x ≤ 2 ^ 31) : toNum F (x : ℝ) = .fin (fl F x) := by
  apply toNum_fin
  rw [abs_of_nonneg (fl_nonneg (Nat.cast_nonneg x))]
  have h1 := h.nat_lt hx
  have h2 := h.big
  have h3 : (2 : ℝ) ^ 31 < 2 ^ 128 := by norm_num
  linarith

/-- The shares of the words, as real numbers. -/
noncomputable def rRatio (F : Format) (X : Vec V ℕ) : Vec V ℝ := fun n => fl F (fl F (X n) / fl F (numWords X))

theorem word_le {X : Vec V ℕ} (n : Fin V) : X n ≤ numWords X := single_le_sum (f := X) (fun _ _ => Nat.zero_le _) (mem_univ n)

theorem near_ratio (h : Wide F) {X : Vec V ℕ} (hX : 0 < numWords X) (hX' : numWords X ≤ 2 ^ 31) :
    (∀ n, nRatio F X n = .fin (rRatio F X n)) ∧ (∀ n, 0 ≤ rRatio F X n) ∧
    Near F 3 (V * F.tiny) (∑ n, rRatio F X n) 1 := by
  have hF := h.ok
  have hb := base hF
  obtain ⟨n0, n1, n2⟩ := near_nat hF (numWords X)
  have hN : (0 : ℝ) < numWords X := Nat.cast_pos.2 hX
  have npos : 0 < fl F (numWords X : ℝ) := lt_of_lt_of_le (mul_pos hb.1 hN) n1
  have q0 : ∀ n, 0 ≤ fl F (X n : ℝ) / fl F (numWords X) := fun n => div_nonneg (near_nat hF (X n)).1 n0
  have hnear : ∀ n, Near F 2 0 (fl F (X n : ℝ) / fl F (numWords X)) (X n / numWords X) := by
    intro n
    obtain ⟨x0, x1, x2⟩ := near_nat hF (X n)
    have hx : (0 : ℝ) ≤ X n := Nat.cast_nonneg _
    constructor
    · rw [add_zero, ← mul_div_assoc, div_le_div_iff₀ hN npos]
      calc (1 - F.u) ^ 2 * X n * fl F (numWords X) = ((1 - F.u) * X n) * ((1 - F.u) * fl F (numWords X)) := by ring
        _ ≤ fl F (X n) * numWords X := mul_le_mul x1 n2 (mul_nonneg hb.1.le n0) x0
    · rw [add_zero, ← mul_div_assoc, div_le_div_iff₀ npos hN]
      calc (1 - F.u) ^ 2 * fl F (X n) * numWords X = ((1 - F.u) * fl F (X n)) * ((1 - F.u) * numWords X) := by ring
        _ ≤ X n * fl F (numWords X) := mul_le_mul x2 n1 (mul_nonneg hb.1.le hN.le) hx
  refine ⟨fun n => ?_, fun n => fl_nonneg (q0 n), ?_⟩
  · unfold nRatio
    rw [h.toNum_nat ((word_le n).trans hX'), h.toNum_nat hX']
    apply nDiv_fin npos.ne'
    rw [abs_of_nonneg (fl_nonneg (q0 n))]
    have h1 : fl F (X n : ℝ) / fl F (numWords X) ≤ 1 := by
      rw [div_le_one npos]
      exact fl_mono hF (Nat.cast_nonneg _) (Nat.cast_le.2 (word_le n))
    have h2 := fl_le hF (j := 0) (q0 n) (by have := h.low; omega) (by simpa using h1)
    have h3 := h.big
    have h4 : (1 : ℝ) < 2 ^ 128 := by norm_num
    rw [zpow_zero] at h2
    linarith
  · have h1 := Near.sum (F := F) (s := univ) fun (n : Fin V) _ =>
      (near_fl hF (q0 n)).trans hF tiny_pos.le le_rfl (hnear n)
    rw [sum_const, card_univ, Fintype.card_fin, nsmul_eq_mul, add_zero, ← sum_div] at h1
    have e : (∑ n, (X n : ℝ)) = (numWords X : ℝ) := by unfold numWords; push_cast; rfl
    rw [e, div_self hN.ne'] at h1
    exact h1

theorem million {m : ℕ} (hm : m ≤ 2 ^ 20) : (m : ℝ) ≤ 2 ^ 20 := by exact_mod_cast hm

theorem Wide.count_tiny (h : Wide F) {m : ℕ} (hm : m ≤ 2 ^ 20) : (m : ℝ) * F.tiny ≤ 1 / 2 ^ 129 := by
  have h1 : (m : ℝ) ≤ 2 ^ 20 := million hm
  have h2 := mul_le_mul h1 h.tiny tiny_pos.le (by norm_num)
  have e : (2 : ℝ) ^ 20 * (1 / 2 ^ 149) = 1 / 2 ^ 129 := by norm_num
  rw [e] at h2
  exact h2

theorem Wide.pow_count (h : Wide F) {m : ℕ} (hm : m ≤ 2 ^ 20) : 93 / 100 ≤ (1 - F.u) ^ (m + 1) := by
  apply h.pow
  have h1 : (m : ℝ) ≤ 2 ^ 20 := million hm
  have e : (2 : ℝ) ^ 20 = 1048576 := by norm_num
  rw [e] at h1
  push_cast
  norm_num
  linarith

/-- The shares sum to one, roughly. -/
theorem ratio_sum (h : Wide F) {X : Vec V ℕ} (hX : 0 < numWords X) (hX' : numWords X ≤ 2 ^ 31) (hV : V ≤ 2 ^ 20) :
    999 / 1000 ≤ ∑ n, rRatio F X n ∧ ∑ n, rRatio F X n ≤ 1001 / 1000 := by
  obtain ⟨_, _, h1, h2⟩ := near_ratio h hX hX'
  have h3 := h.count_tiny hV
  have h4 : 9999 / 10000 ≤ (1 - F.u) ^ 3 := h.pow (by norm_num)
  have h5 : (1 : ℝ) / 2 ^ 129 ≤ 1 / 10000 := by norm_num
  generalize (1 : ℝ) / 2 ^ 129 = t at *
  constructor
  · linarith
  · by_contra hc
    push Not at hc
    have := mul_le_mul_of_nonneg_right h4 (by linarith : 0 ≤ ∑ n, rRatio F X n)
    linarith

/-- The first `phi`. -/
theorem first_phi (h : Wide F) (hK : 0 < K) (hK' : K ≤ 2 ^ 20) : ∃ p : ℝ, toNum F (fl double (1 / K)) = .fin p ∧
    99 / 100 / K ≤ p ∧ p ≤ 101 / 100 / K := by
  have hk : (0 : ℝ) < K := Nat.cast_pos.2 hK
  have hk1 : (1 : ℝ) ≤ K := by exact_mod_cast hK
  have hk2 : (K : ℝ) ≤ 2 ^ 20 := million hK'
  have hz : (2 : ℝ) ^ (-20 : ℤ) ≤ 1 / K := by
    rw [zpow_neg, ← one_div]
    exact one_div_le_one_div_of_le hk (by exact_mod_cast hk2)
  have e1 := fl_err_big (F := double) (x := 1 / (K : ℝ)) (j := -20) (by decide) hz
  have u1 := wide_double.u
  have p1 : 0 < 1 / (K : ℝ) := by positivity
  have le1 : 1 / (K : ℝ) ≤ 1 := by rw [div_le_one hk]; exact hk1
  rw [abs_le] at e1
  have m1 : double.u * (1 / (K : ℝ)) ≤ 1 / 1000 * (1 / K) :=
    mul_le_mul_of_nonneg_right (u1.trans (by norm_num)) p1.le
  have hz2 : (2 : ℝ) ^ (-21 : ℤ) ≤ fl double (1 / K) := by
    have : (2 : ℝ) ^ (-20 : ℤ) = 2 * 2 ^ (-21 : ℤ) := by norm_num
    linarith [e1.1]
  have e2 := fl_err_big (F := F) (x := fl double (1 / (K : ℝ))) (j := -21) (by have := h.sub; omega) hz2
  rw [abs_le] at e2
  have p2 : 0 < fl double (1 / (K : ℝ)) := (two_zpow_pos _).trans_le hz2
  have m2 : F.u * fl double (1 / (K : ℝ)) ≤ 1 / 1000 * fl double (1 / K) :=
    mul_le_mul_of_nonneg_right (h.u.trans (by norm_num)) p2.le
  have d1 : 99 / 100 / (K : ℝ) = 99 / 100 * (1 / K) := by ring
  have d2 : 101 / 100 / (K : ℝ) = 101 / 100 * (1 / K) := by ring
  rw [d1, d2]
  generalize fl double (1 / (K : ℝ)) = q at *
  refine ⟨fl F q, toNum_fin ?_, by linarith [e1.1, e2.1], by linarith [e1.2, e2.2]⟩
  rw [abs_of_nonneg (fl_nonneg p2.le)]
  have h3 := h.big
  have h4 : (2 : ℝ) < 2 ^ 128 := by norm_num
  linarith [e1.2, e2.2]

end Verif.Overflow
