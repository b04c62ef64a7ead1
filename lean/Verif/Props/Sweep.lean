import Verif.Model.Sweep
import Verif.Props.OverflowScale

/-
C130, the supervised step: a word to which all topics give probability zero makes it undefined.
-/
namespace Verif.Overflow

open MathUtils EStep Limits Finset
open Rounded hiding fl_nonneg fl_zero

variable {K V C : ℕ} {F : Format} {D : Device F}

/-- Zero or NaN: what the product of zero and any number is. -/
def ZeroOrNan (x : Num) : Prop := x = .fin 0 ∨ x = .nan

theorem toNum_zero : toNum F 0 = .fin 0 := by
  have := toNum_fin (F := F) (x := 0) (by rw [Limits.fl_zero, abs_zero]; positivity)
  rwa [Limits.fl_zero] at this

theorem zero_mul_num (x : Num) : ZeroOrNan (nMul F (.fin 0) x) := by
  cases x with
  | fin a => left; show toNum F (0 * a) = _; rw [zero_mul, toNum_zero]
  | pinf => right; show Ieee.infMul true (0 : ℝ) = _; unfold Ieee.infMul; rw [if_pos rfl]
  | ninf => right; show Ieee.infMul false (0 : ℝ) = _; unfold Ieee.infMul; rw [if_pos rfl]
  | nan => right; rfl

theorem numSum_zeroOrNan {l : List Num} {s : Num} (h : NumSum F l s) (h0 : ∀ x ∈ l, ZeroOrNan x) : ZeroOrNan s := by
  by_cases hn : .nan ∈ l
  · exact Or.inr (numSum_nan h hn)
  · refine Or.inl (numSum_zero h fun x hx => ?_)
    rcases h0 x hx with e | e
    · exact e
    · exact absurd (e ▸ hx) hn

theorem nsum_nan {n : ℕ} {v : Vec n Num} (i : Fin n) (h : v i = .nan) : D.nsum v = .nan :=
  numSum_nan (D.nsum_spec v) ((List.mem_ofFn' _ _).2 ⟨i, h⟩)

theorem nan_of_zeros {x y : Num} (hx : ZeroOrNan x) (hy : ZeroOrNan y) : nDiv F x y = .nan := by
  rcases hx with rfl | rfl <;> rcases hy with rfl | rfl
  · unfold nDiv; simp only [if_true]
  all_goals rfl

/-- The column of a word that no topic knows. -/
theorem fixedPoint_unknown {x : ℕ} {xr : Num} {ey : Vec K ℝ} {bcol : Vec K ℝ} (hb : ∀ k, bcol k = 0) {psi h col : Vec K Num} :
    ∀ r, nFixedPoint D x xr bcol ey psi h col = some r → ∀ k, r k = .nan := by
  intro r hr k
  unfold nFixedPoint at hr
  obtain ⟨e, _, he⟩ := Option.map_eq_some_iff.1 hr
  rw [← he]
  have hz : ∀ k, ZeroOrNan (nMul F (.fin (bcol k)) (e k)) := fun k => by
    rw [hb k]; exact zero_mul_num _
  refine nan_of_zeros (hz k) (numSum_zeroOrNan (D.nsum_spec _) fun x hx => ?_)
  obtain ⟨i, rfl⟩ := (List.mem_ofFn' _ _).1 hx
  exact hz i

theorem fixedPoints_unknown {x : ℕ} {xr : Num} {ey : Vec K ℝ} {bcol : Vec K ℝ} (hb : ∀ k, bcol k = 0) {psi h : Vec K Num} :
    ∀ (fp : ℕ) (col r : Vec K Num), nFixedPoints D x xr bcol ey psi h (fp + 1) col = some r → ∀ k, r k = .nan
  | 0, col, r, hr => by
    rw [nFixedPoints] at hr
    obtain ⟨c, h1, h2⟩ := Option.bind_eq_some_iff.1 hr
    rw [nFixedPoints] at h2
    cases h2
    exact fixedPoint_unknown hb _ h1
  | fp + 1, col, r, hr => by
    rw [nFixedPoints] at hr
    obtain ⟨c, _, h2⟩ := Option.bind_eq_some_iff.1 hr
    exact fixedPoints_unknown hb fp c r h2

/-- NaN in the digamma values is converted to an index. -/
theorem fixedPoints_nan {x : ℕ} {xr : Num} {ey bcol : Vec K ℝ} {psi h : Vec K Num} (k : Fin K) (hp : psi k = .nan) (fp : ℕ)
    (col : Vec K Num) : nFixedPoints D x xr bcol ey psi h (fp + 1) col = none := by
  rw [nFixedPoints]
  unfold nFixedPoint
  simp only
  rw [mapNum_none k]
  · rfl
  · rw [hp, nAdd_nan_left]
    unfold nSub
    rw [nAdd_nan_left]
    rfl

variable {X : Vec V ℕ} {y : Fin C} {beta : Mat K V ℝ} {eta : Mat K C ℝ} {fp : ℕ}

theorem sweepWord_nan {s : NumSweep K V C} (k : Fin K) (hp : s.psi k = .nan) {n : Fin V} (hn : X n ≠ 0) :
    nSweepWord D X y beta eta (fp + 1) s n = none := by
  unfold nSweepWord
  rw [if_neg hn]
  cases nExpEta D X eta n with
  | none => rfl
  | some e =>
    rw [Option.bind_some]
    simp only
    rw [fixedPoints_nan k hp]
    rfl

theorem sweepWords_nan (k : Fin K) : ∀ (l : List (Fin V)) (s : NumSweep K V C), s.psi k = .nan → (∃ n ∈ l, X n ≠ 0) →
    nSweepWords D X y beta eta (fp + 1) l s = none
  | [], _, _, h => by obtain ⟨_, h, _⟩ := h; cases h
  | n :: l, s, hp, h => by
    rw [nSweepWords]
    by_cases hn : X n = 0
    · have : nSweepWord D X y beta eta (fp + 1) s n = some s := by
        unfold nSweepWord; rw [if_pos hn]
      rw [this, Option.bind_some]
      obtain ⟨m, hm, hX⟩ := h
      refine sweepWords_nan k l s hp ⟨m, ?_, hX⟩
      rcases List.mem_cons.1 hm with rfl | hm
      · exact absurd hn hX
      · exact hm
    · rw [sweepWord_nan k hp hn]
      rfl

/-- What is NaN after a word that no topic knows. -/
def AllNan (s : NumSweep K V C) : Prop := ∀ k, s.gamma k = .nan ∧ s.psi k = .nan

theorem sweepWord_unknown {s r : NumSweep K V C} {n : Fin V} (hn : X n ≠ 0) (hb : ∀ k, beta k n = 0)
    (h : nSweepWord D X y beta eta (fp + 1) s n = some r) : AllNan r := by
  unfold nSweepWord at h
  rw [if_neg hn] at h
  obtain ⟨e, _, h⟩ := Option.bind_eq_some_iff.1 h
  obtain ⟨col, hc, rfl⟩ := Option.map_eq_some_iff.1 h
  have hcol := fixedPoints_unknown hb _ _ _ hc
  intro k
  have hg : nAdd F (s.gamma k) (nMul F (toNum F (X n)) (nSub F (col k) (s.phi k n))) = .nan := by
    rw [hcol k]
    unfold nSub
    rw [nAdd_nan_left, nMul_nan_right, nAdd_nan_right]
  refine ⟨hg, ?_⟩
  show D.npsi (nAdd F (s.gamma k) (nMul F (toNum F (X n)) (nSub F (col k) (s.phi k n)))) = _
  rw [hg, D.npsi_nan]

theorem sweepWords_append (l l' : List (Fin V)) (s : NumSweep K V C) : nSweepWords D X y beta eta fp (l ++ l') s =
    (nSweepWords D X y beta eta fp l s).bind (nSweepWords D X y beta eta fp l') := by
  induction l generalizing s with
  | nil => rfl
  | cons n l ih =>
    rw [List.cons_append, nSweepWords, nSweepWords, Option.bind_assoc]
    congr 1
    funext t
    exact ih t

/-- A pass over a document with an unknown word: undefined, or all of `gamma` is NaN and there is no word after it. -/
theorem sweepWords_unknown (hK : 0 < K) {n : Fin V} (hn : X n ≠ 0) (hb : ∀ k, beta k n = 0) (s r : NumSweep K V C)
    (h : nSweepWords D X y beta eta (fp + 1) (List.finRange V) s = some r) : AllNan r ∧ ∀ n', n < n' → X n' = 0 := by
  obtain ⟨l, l', hl⟩ := List.append_of_mem (List.mem_finRange n)
  have hlt : ∀ n', n < n' → n' ∈ l' := by
    intro n' hlt
    have hs := List.pairwise_lt_finRange V
    have hm : n' ∈ l ++ n :: l' := by rw [← hl]; exact List.mem_finRange n'
    rw [hl] at hs
    rcases List.mem_append.1 hm with h1 | h1
    · have := (List.pairwise_append.1 hs).2.2 n' h1 n List.mem_cons_self
      exact absurd (hlt.trans this) (lt_irrefl _)
    · rcases List.mem_cons.1 h1 with rfl | h1
      · exact absurd hlt (lt_irrefl _)
      · exact h1
  rw [hl, sweepWords_append] at h
  obtain ⟨t, _, h⟩ := Option.bind_eq_some_iff.1 h
  rw [nSweepWords] at h
  obtain ⟨u, h1, h⟩ := Option.bind_eq_some_iff.1 h
  have hu := sweepWord_unknown hn hb h1
  by_cases hex : ∃ n' ∈ l', X n' ≠ 0
  · rw [sweepWords_nan ⟨0, hK⟩ l' u (hu _).2 hex] at h
    cases h
  · push Not at hex
    refine ⟨?_, fun n' hn' => hex n' (hlt n' hn')⟩
    have hid : ∀ l : List (Fin V), (∀ n' ∈ l, X n' = 0) → nSweepWords D X y beta eta (fp + 1) l u = some u := by
      intro l
      induction l with
      | nil => intro _; rfl
      | cons a l ih =>
        intro hz
        rw [nSweepWords]
        unfold nSweepWord
        rw [if_pos (hz a List.mem_cons_self), Option.bind_some]
        exact ih fun n' hn' => hz n' (List.mem_cons_of_mem _ hn')
    rw [hid l' hex] at h
    cases h
    exact hu

theorem nConverged_nan (hK : 0 < K) {old new : Vec K Num} (h : ∀ k, new k = .nan) (tol : ℝ) : nConverged D old new tol = false := by
  unfold nConverged
  have hs : D.nsum (fun k => nAbs (nSub F (old k) (new k))) = .nan := by
    apply nsum_nan ⟨0, hK⟩
    rw [h]
    unfold nSub nNeg
    rw [nAdd_nan_right]
    rfl
  rw [hs]
  rfl

/-! ### C130 -/

/-- C130, the full statement is false: a document with a word to which all topics give probability zero makes the
supervised step convert NaN to an index into the table of exponentials in its second pass, whatever the rest of the
model and of the document. -/
theorem C130_supervised_undefined (hK : 0 < K) {n : Fin V} (hn : X n ≠ 0) (hb : ∀ k, beta k n = 0) {alpha : Vec K ℝ} {tol : ℝ}
    (hc : nConverged D (fun _ => .fin 0) (nFirst F X alpha).1 tol = false) (iterations : ℕ) :
    nSupervisedRun D X y alpha beta eta (fp + 1) tol (iterations + 2) = none := by
  unfold nSupervisedRun
  rw [nSupervisedLoop, hc]
  simp only [Bool.false_eq_true, if_false]
  cases h : nPhiGamma D X y beta eta (fp + 1) (nFirst F X alpha) with
  | none => rfl
  | some s =>
    rw [Option.bind_some]
    unfold nPhiGamma at h
    obtain ⟨p, _, h⟩ := Option.bind_eq_some_iff.1 h
    obtain ⟨r, h1, rfl⟩ := Option.map_eq_some_iff.1 h
    have hr := (sweepWords_unknown hK hn hb _ _ h1).1
    rw [nSupervisedLoop, nConverged_nan hK fun k => (hr k).1]
    simp only [Bool.false_eq_true, if_false]
    unfold nPhiGamma
    cases nProducts D X eta r.phi (List.finRange V) fun _ => .fin 1 with
    | none => rfl
    | some q =>
      rw [Option.bind_some, sweepWords_nan ⟨0, hK⟩]
      · rfl
      · show D.npsi (r.gamma _) = _
        rw [(hr _).1, D.npsi_nan]
      · exact ⟨n, List.mem_finRange n, hn⟩

/-- C130, the full statement is false: if another word follows, already the first pass is undefined. -/
theorem C130_supervised_first (hK : 0 < K) {n n' : Fin V} (hn : X n ≠ 0) (hb : ∀ k, beta k n = 0) (hlt : n < n') (hn' : X n' ≠ 0)
    {alpha : Vec K ℝ} {tol : ℝ} (hc : nConverged D (fun _ => .fin 0) (nFirst F X alpha).1 tol = false) (iterations : ℕ) :
    nSupervisedRun D X y alpha beta eta (fp + 1) tol (iterations + 1) = none := by
  unfold nSupervisedRun
  rw [nSupervisedLoop, hc]
  simp only [Bool.false_eq_true, if_false]
  unfold nPhiGamma
  cases nProducts D X eta (nFirst F X alpha).2 (List.finRange V) fun _ => .fin 1 with
  | none => rfl
  | some p =>
    rw [Option.bind_some]
    cases h : nSweepWords D X y beta eta (fp + 1) (List.finRange V) ⟨(nFirst F X alpha).2, (nFirst F X alpha).1,
      fun k => D.npsi ((nFirst F X alpha).1 k), p⟩ with
    | none => rfl
    | some r => exact absurd ((sweepWords_unknown hK hn hb _ _ h).2 n' hlt) hn'

/-- With a tolerance of zero the first test does not stop the loop. -/
theorem not_converged {old new : Vec K Num} (hnan : ∀ k, ∃ x, nSub F (old k) (new k) = .fin x) (hK : 0 < fl F (K : ℝ)) (hK' : fl F (K : ℝ) < 2 ^ F.high) :
    nConverged D old new 0 = false := by
  unfold nConverged
  have hs : AtLeast 0 (D.nsum (fun k => nAbs (nSub F (old k) (new k)))) := by
    refine numSum_nonneg (D.nsum_spec _) fun x hx => ?_
    obtain ⟨k, rfl⟩ := (List.mem_ofFn' _ _).1 hx
    obtain ⟨z, hz⟩ := hnan k
    simp only [hz]
    exact abs_nonneg z
  have hd : toNum F (K : ℝ) = .fin (fl F (K : ℝ)) := toNum_fin (by rw [abs_of_pos hK]; exact hK')
  rw [hd]
  generalize D.nsum (fun k => nAbs (nSub F (old k) (new k))) = S at hs ⊢
  cases S with
  | fin a =>
    unfold nDiv
    simp only
    rw [if_neg hK.ne']
    have h0 : 0 ≤ fl F (a / fl F (K : ℝ)) := Limits.fl_nonneg (div_nonneg hs hK.le)
    unfold toNum
    split_ifs with h1 h2
    · rfl
    · have : (0 : ℝ) < 2 ^ F.high := by positivity
      linarith
    · simpa using h0
  | pinf =>
    unfold nDiv
    simp only
    rw [if_neg (by linarith)]
  | ninf => exact absurd hs (by simp [AtLeast])
  | nan => exact absurd hs (by simp [AtLeast])

example : ∃ (D : Device double) (alpha : Vec 2 ℝ) (beta : Mat 2 2 ℝ) (eta : Mat 2 2 ℝ) (X : Vec 2 ℕ), X 1 ≠ 0 ∧
    (∀ k, beta k 1 = 0) ∧ (∀ k, 0 < alpha k) ∧ (∀ k n, 0 ≤ beta k n) ∧ (∀ k, ∑ n, beta k n = 1) ∧
    ∀ i, nSupervisedRun D X 0 alpha beta eta 10 0 (i + 2) = none := by
  refine ⟨plainDevice wide_double, fun _ => 1 / 2, fun _ n => if n = 0 then 1 else 0, fun k c => if k = c then 1 else 0, ![3, 1],
    by decide, fun k => by norm_num, fun k => by norm_num, fun k n => by dsimp only; split_ifs <;> norm_num, fun k => by
      rw [Fin.sum_univ_two]; norm_num, fun i => ?_⟩
  obtain ⟨g, p, hf, hk⟩ := first_fin wide_double (K := 2) (X := ![3, 1]) (alpha := fun _ => 1 / 2) (by decide) (by norm_num)
    (by norm_num) (fun _ => by norm_num) (fun _ => by norm_num) (fun _ => half_rep wide_double)
  refine C130_supervised_undefined (n := 1) (by norm_num) (by decide) (fun k => by norm_num) ?_ i
  rw [hf]
  have h2 : fl double ((2 : ℕ) : ℝ) = 2 := by
    have := fl_pow double_ok (j := 1) (by decide)
    norm_num at this ⊢
    exact this
  apply not_converged
  · intro k
    refine ⟨_, nSub_fin ?_⟩
    rw [zero_sub, fl_neg, abs_neg]
    have hg0 : 0 ≤ g k := by
      have := hk.low k
      have e : (0 : ℝ) ≤ 1 / 2 := by norm_num
      exact e.trans this
    rw [abs_of_nonneg (Limits.fl_nonneg hg0)]
    have := fl_le double_ok hg0 (j := 34) (by decide) (by exact_mod_cast hk.high k)
    exact wide_double.small_lt (this.trans (by norm_num))
  · rw [h2]; norm_num
  · rw [h2]; exact wide_double.small_lt (by norm_num)

end Verif.Overflow
