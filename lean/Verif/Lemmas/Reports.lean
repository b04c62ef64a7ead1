import Verif.Model.Reports
import Verif.Lemmas.Overflow
import Mathlib.NumberTheory.Harmonic.GammaDeriv
import Mathlib.Analysis.SpecialFunctions.Gamma.BohrMollerup
import Mathlib.Analysis.Complex.ExponentialBounds

/-
Bounds of numbers of the machine by powers of two, and of the logarithm of the gamma function (C138).
-/
namespace Verif.Overflow

open MathUtils EStep Limits Classical

variable {K V C : ℕ} {F : Format}

/-- A finite number of absolute value at most `2^e`. -/
def Bnd (e : ℕ) (x : Num) : Prop := ∃ r : ℝ, x = .fin r ∧ |r| ≤ 2 ^ e

theorem abs_fl_pow (hF : F.Ok) {x : ℝ} {e : ℕ} (h : |x| ≤ 2 ^ e) : |fl F x| ≤ 2 ^ e := by
  rw [abs_fl]
  have := fl_le hF (abs_nonneg x) (j := e) (by have := hF.low; omega) (by rw [zpow_natCast]; exact h)
  rwa [zpow_natCast] at this

theorem Bnd.mono {e e' : ℕ} {x : Num} (h : Bnd e x) (he : e ≤ e') : Bnd e' x := by
  obtain ⟨r, h1, h2⟩ := h
  exact ⟨r, h1, h2.trans (pow_le_pow_right₀ (by norm_num) he)⟩

theorem bnd_toNum (hF : F.Ok) {x : ℝ} {e : ℕ} (he : e < F.high) (h : |x| ≤ 2 ^ e) : Bnd e (toNum F x) := by
  have h1 := abs_fl_pow hF h
  exact ⟨fl F x, toNum_fin (h1.trans_lt (pow_lt_pow_right₀ (by norm_num) he)), h1⟩

theorem bnd_fin {x : ℝ} {e : ℕ} (h : |x| ≤ 2 ^ e) : Bnd e (.fin x) := ⟨x, rfl, h⟩

theorem Bnd.neg {e : ℕ} {x : Num} (h : Bnd e x) : Bnd e (nNeg x) := by
  obtain ⟨r, rfl, h2⟩ := h
  exact ⟨-r, rfl, by rwa [abs_neg]⟩

theorem Bnd.add (hF : F.Ok) {e : ℕ} {x y : Num} (hx : Bnd e x) (hy : Bnd e y) (he : e + 1 < F.high) : Bnd (e + 1) (nAdd F x y) := by
  obtain ⟨r, rfl, hr⟩ := hx
  obtain ⟨s, rfl, hs⟩ := hy
  refine bnd_toNum hF he ((abs_add_le r s).trans ?_)
  rw [pow_succ]
  linarith

theorem Bnd.sub (hF : F.Ok) {e : ℕ} {x y : Num} (hx : Bnd e x) (hy : Bnd e y) (he : e + 1 < F.high) : Bnd (e + 1) (nSub F x y) :=
  hx.add hF hy.neg he

theorem Bnd.mul (hF : F.Ok) {e e' : ℕ} {x y : Num} (hx : Bnd e x) (hy : Bnd e' y) (he : e + e' < F.high) : Bnd (e + e') (nMul F x y) := by
  obtain ⟨r, rfl, hr⟩ := hx
  obtain ⟨s, rfl, hs⟩ := hy
  refine bnd_toNum hF he ?_
  rw [abs_mul, pow_add]
  exact mul_le_mul hr hs (abs_nonneg _) (by positivity)

/-- A multiple of a power of two with a factor that the format can hold is not rounded. -/
theorem fl_count (hF : F.Ok) {s e : ℕ} (hs : s ≤ 2 ^ F.prec) : fl F ((s : ℝ) * 2 ^ e) = s * 2 ^ e := by
  have hl := hF.low
  rcases hs.eq_or_lt with rfl | hs
  · have := fl_pow hF (j := (F.prec + e : ℕ)) (by push_cast; omega)
    rw [zpow_natCast, pow_add] at this
    push_cast
    exact this
  rcases Nat.eq_zero_or_pos s with rfl | h0
  · simp [Limits.fl_zero]
  have := fl_mul (F := F) (z := s) (j := e) (by
    unfold unit
    refine max_le ?_ (by omega)
    have h1 : ((s : ℤ) : ℝ) * 2 ^ (e : ℤ) < 2 ^ ((F.prec + e : ℕ) : ℤ) := by
      rw [zpow_natCast, zpow_natCast, pow_add, Int.cast_natCast]
      exact mul_lt_mul_of_pos_right (by exact_mod_cast hs) (by positivity)
    have h2 : (0 : ℝ) < ((s : ℤ) : ℝ) * 2 ^ (e : ℤ) := by
      rw [Int.cast_natCast]
      have : (0 : ℝ) < s := by exact_mod_cast h0
      have := two_zpow_pos (e : ℤ)
      positivity
    rw [abs_of_pos h2]
    have h3 : (2 : ℝ) ^ Int.log 2 (((s : ℤ) : ℝ) * 2 ^ (e : ℤ)) < 2 ^ ((F.prec + e : ℕ) : ℤ) := (log_le h2).trans_lt h1
    have h4 := (zpow_lt_zpow_iff_right₀ (by norm_num : (1 : ℝ) < 2)).1 h3
    push_cast at h4 ⊢
    omega)
  rw [zpow_natCast, Int.cast_natCast] at this
  exact this

theorem numSum_bnd (hF : F.Ok) {e : ℕ} {l : List Num} {s : Num} (h : NumSum F l s) : (∀ x ∈ l, Bnd e x) → l.length ≤ 2 ^ F.prec →
    (l.length : ℝ) * 2 ^ e < 2 ^ F.high → ∃ r : ℝ, s = .fin r ∧ |r| ≤ l.length * 2 ^ e := by
  induction h with
  | nil => intro _ _ _; exact ⟨0, rfl, by simp⟩
  | one x =>
    intro hl _ _
    obtain ⟨r, h1, h2⟩ := hl x (by simp)
    exact ⟨r, h1, by simpa using h2⟩
  | @add l l' l'' a b _ _ _ _ hp iha ihb =>
    intro hl hc hh
    have hlen : l''.length = l.length + l'.length := by rw [hp.length_eq, List.length_append]
    rw [hlen] at hc hh ⊢
    have p : (0 : ℝ) < 2 ^ e := by positivity
    have n1 : (0 : ℝ) ≤ l.length * 2 ^ e := by positivity
    have n2 : (0 : ℝ) ≤ l'.length * 2 ^ e := by positivity
    push_cast at hh
    rw [add_mul] at hh
    obtain ⟨r, rfl, hr⟩ := iha (fun x hx => hl x (hp.mem_iff.2 (List.mem_append_left _ hx))) (by omega) (by linarith)
    obtain ⟨t, rfl, ht⟩ := ihb (fun x hx => hl x (hp.mem_iff.2 (List.mem_append_right _ hx))) (by omega) (by linarith)
    have hs : |r + t| ≤ ((l.length + l'.length : ℕ) : ℝ) * 2 ^ e := by
      push_cast
      rw [add_mul]
      exact (abs_add_le r t).trans (by linarith)
    have h1 : |fl F (r + t)| ≤ ((l.length + l'.length : ℕ) : ℝ) * 2 ^ e := by
      rw [abs_fl, ← fl_count hF hc]
      exact fl_mono hF (abs_nonneg _) hs
    refine ⟨fl F (r + t), toNum_fin (h1.trans_lt ?_), h1⟩
    push_cast
    rw [add_mul]
    exact hh

theorem Bnd.sum (hF : F.Ok) {D : Device F} {n e j : ℕ} {v : Vec n Num} (hv : ∀ i, Bnd e (v i)) (hn : n ≤ 2 ^ j) (hj : j ≤ F.prec)
    (he : e + j < F.high) : Bnd (e + j) (D.nsum v) := by
  have hn' : (n : ℝ) ≤ 2 ^ j := by exact_mod_cast hn
  have h1 : (n : ℝ) * 2 ^ e ≤ 2 ^ (e + j) := by
    rw [pow_add, mul_comm]
    exact mul_le_mul_of_nonneg_left hn' (by positivity)
  obtain ⟨r, h2, h3⟩ := numSum_bnd hF (e := e) (D.nsum_spec v) (by
      intro x hx
      obtain ⟨i, rfl⟩ := List.mem_ofFn.1 hx
      exact hv i)
    (by rw [List.length_ofFn]; exact hn.trans (Nat.pow_le_pow_right (by norm_num) hj))
    (by rw [List.length_ofFn]; exact h1.trans_lt (pow_lt_pow_right₀ (by norm_num) he))
  rw [List.length_ofFn] at h3
  exact ⟨r, h2, h3.trans h1⟩

theorem Bnd.total (hF : F.Ok) {G : GammaDevice F} {r c e j : ℕ} {v : Mat r c Num} (hv : ∀ k n, Bnd e (v k n)) (hn : r * c ≤ 2 ^ j)
    (hj : j ≤ F.prec) (he : e + j < F.high) : Bnd (e + j) (nTotal G v) :=
  Bnd.sum hF (fun _ => hv _ _) hn hj he

/-! ### Logarithms -/

theorem abs_log_le {x : ℝ} (h0 : 1 / 2 ^ 1074 ≤ x) (h1 : x ≤ 2 ^ 64) : |Real.log x| ≤ 745 := by
  have hx : 0 < x := lt_of_lt_of_le (by positivity) h0
  have l1 := Real.log_le_log (by positivity) h0
  have l2 := Real.log_le_log hx h1
  rw [one_div, Real.log_inv, Real.log_pow] at l1
  rw [Real.log_pow] at l2
  have h2 := Real.log_two_lt_d9
  push_cast at l1 l2
  rw [abs_le]
  constructor <;> linarith

theorem bnd_log {L : LogDevice F} {x : ℝ} (h0 : 1 / 2 ^ 1074 ≤ x) (h1 : x ≤ 2 ^ 64) : Bnd 10 (nLog L (.fin x)) := by
  have hx : 0 < x := lt_of_lt_of_le (by positivity) h0
  have e := abs_le.1 (L.log_err x hx)
  have l := abs_log_le h0 h1
  have l' := abs_le.1 l
  simp only [nLog]
  rw [if_pos hx]
  refine bnd_fin ?_
  rw [abs_le]
  constructor <;> norm_num <;> linarith

theorem factorial_log (n : ℕ) (hn : 1 ≤ n) (hn' : n ≤ 2 ^ 61) : Real.log (n.factorial : ℝ) ≤ n * 43 := by
  have h1 : (n.factorial : ℝ) ≤ (n : ℝ) ^ n := by exact_mod_cast Nat.factorial_le_pow n
  have h2 := Real.log_le_log (by exact_mod_cast Nat.factorial_pos n) h1
  rw [Real.log_pow] at h2
  have h3 : Real.log (n : ℝ) ≤ 43 := by
    have := Real.log_le_log (by exact_mod_cast hn) (show (n : ℝ) ≤ 2 ^ 61 by exact_mod_cast hn')
    rw [Real.log_pow] at this
    have := Real.log_two_lt_d9
    push_cast at *
    linarith
  exact h2.trans (mul_le_mul_of_nonneg_left h3 (by positivity))

/-- The logarithm of the gamma function, crudely. -/
theorem abs_logGamma {x : ℝ} (h0 : 1 / 2 ^ 20 ≤ x) (h1 : x ≤ 2 ^ 60) : |Real.log (Real.Gamma x)| ≤ 2 ^ 67 := by
  have hx : 0 < x := lt_of_lt_of_le (by positivity) h0
  have e : Real.Gamma (x + 1 + 1) = (x + 1) * (x * Real.Gamma x) := by
    rw [Real.Gamma_add_one (by linarith), Real.Gamma_add_one hx.ne']
  have hG := Real.Gamma_pos_of_pos hx
  have el : Real.log (Real.Gamma (x + 1 + 1)) = Real.log (x + 1) + (Real.log x + Real.log (Real.Gamma x)) := by
    rw [e, Real.log_mul (by linarith) (by positivity), Real.log_mul hx.ne' hG.ne']
  have m := Real.Gamma_strictMonoOn_Ici.monotoneOn
  have lo : 1 ≤ Real.Gamma (x + 1 + 1) := by
    have := m (Set.mem_Ici.2 le_rfl) (Set.mem_Ici.2 (show (2 : ℝ) ≤ x + 1 + 1 by linarith)) (by linarith)
    rwa [Real.Gamma_two] at this
  obtain ⟨n, hn⟩ : ∃ n, n = ⌈x⌉₊ := ⟨_, rfl⟩
  have n1 : x ≤ n := hn ▸ Nat.le_ceil x
  have n2 : (n : ℝ) < x + 1 := hn ▸ Nat.ceil_lt_add_one hx.le
  have hi : Real.Gamma (x + 1 + 1) ≤ ((n + 1).factorial : ℝ) := by
    have := m (Set.mem_Ici.2 (show (2 : ℝ) ≤ x + 1 + 1 by linarith)) (Set.mem_Ici.2 (show (2 : ℝ) ≤ n + 1 + 1 by linarith))
      (show x + 1 + 1 ≤ (n : ℝ) + 1 + 1 by linarith)
    have e2 := Real.Gamma_nat_eq_factorial (n + 1)
    push_cast at e2
    rwa [e2] at this
  have l1 := Real.log_nonneg lo
  have l2 := Real.log_le_log (by linarith) hi
  have hn3 : n + 1 ≤ 2 ^ 61 := by
    have : ((n + 1 : ℕ) : ℝ) ≤ ((2 ^ 61 : ℕ) : ℝ) := by push_cast; linarith
    exact_mod_cast this
  have l3 := factorial_log (n + 1) (by omega) hn3
  push_cast at l3
  have l4 : 0 ≤ Real.log (x + 1) := Real.log_nonneg (by linarith)
  have l5 : Real.log (x + 1) ≤ x := by have := Real.log_le_sub_one_of_pos (show 0 < x + 1 by linarith); linarith
  have l6 := abs_le.1 (abs_log_le (x := x) (le_trans (one_div_le_one_div_of_le (by positivity) (pow_le_pow_right₀ (by norm_num) (by norm_num))) h0)
    (h1.trans (by norm_num)))
  rw [abs_le]
  constructor <;> linarith

theorem bnd_lgamma (hF : F.Ok) {G : GammaDevice F} (hh : 68 < F.high) {x : ℝ} (h0 : 1 / 2 ^ 20 ≤ x) (h1 : x ≤ 2 ^ 60) :
    Bnd 68 (nLgamma G (.fin x)) := by
  have hx : 0 < x := lt_of_lt_of_le (by positivity) h0
  have hn : ¬ ∃ n : ℕ, x = -n := by
    rintro ⟨n, rfl⟩
    have : (0 : ℝ) ≤ n := Nat.cast_nonneg n
    linarith
  simp only [nLgamma]
  rw [if_neg hn]
  have l := abs_logGamma h0 h1
  have l' := abs_le.1 l
  have e := abs_le.1 (G.lgamma_err x hx)
  refine bnd_toNum hF hh ?_
  rw [abs_le]
  constructor <;> linarith

end Verif.Overflow
