import Verif.Lemmas.Overflow

/-
C129: the fast supervised step and large class weights.
-/
namespace Verif.Overflow

open MathUtils EStep Limits Finset
open Rounded hiding fl_nonneg

variable {K V C : ℕ} {F : Format} {D : Device F}

/-! ### Sums from below -/

theorem numSum_atLeast (h : Wide F) {b : ℝ} (hb : 2 ^ (-90 : ℤ) ≤ b) {l : List Num} {s : Num} (hs : NumSum F l s) :
    l ≠ [] → (∀ x ∈ l, AtLeast b x) → 1 / 2 ≤ (1 - F.u) ^ l.length → AtLeast ((1 - F.u) ^ l.length * (l.length * b)) s := by
  have hF := h.ok
  have hbase := base hF
  have b0 : 0 < b := (two_zpow_pos _).trans_le hb
  induction hs with
  | nil => intro h; exact absurd rfl h
  | one x =>
    intro _ hx _
    have := hx x (by simp)
    cases x with
    | fin a =>
      simp only [AtLeast, List.length_singleton, pow_one, Nat.cast_one, one_mul] at this ⊢
      nlinarith [hbase.2]
    | pinf => trivial
    | ninf => exact this
    | nan => exact this
  | @add l l' l'' a c hne hne' _ _ hp iha ihb =>
    intro _ hx hq
    have h1 : 1 ≤ l.length := List.length_pos_iff.2 hne
    have h1' : 1 ≤ l'.length := List.length_pos_iff.2 hne'
    have hlen : l''.length = l.length + l'.length := by rw [hp.length_eq, List.length_append]
    have hmono : ∀ j ≤ l''.length, (1 - F.u) ^ l''.length ≤ (1 - F.u) ^ j := fun j hj =>
      pow_le_pow_of_le_one hbase.1.le hbase.2 hj
    have ia := iha hne (fun x hx' => hx x (hp.mem_iff.2 (List.mem_append_left _ hx')))
      (hq.trans (hmono _ (by omega)))
    have ib := ihb hne' (fun x hx' => hx x (hp.mem_iff.2 (List.mem_append_right _ hx')))
      (hq.trans (hmono _ (by omega)))
    cases a with
    | pinf => cases c <;> first | exact ib.elim | trivial
    | ninf => exact ia.elim
    | nan => exact ia.elim
    | fin a =>
      cases c with
      | pinf => trivial
      | ninf => exact ib.elim
      | nan => exact ib.elim
      | fin c =>
        simp only [AtLeast] at ia ib
        have r1 : (1 : ℝ) ≤ l.length := by exact_mod_cast h1
        have r1' : (1 : ℝ) ≤ l'.length := by exact_mod_cast h1'
        have q1 : (1 - F.u) ^ l''.length ≤ (1 - F.u) ^ (l.length + 1) := hmono _ (by omega)
        have q1' : (1 - F.u) ^ l''.length ≤ (1 - F.u) ^ (l'.length + 1) := hmono _ (by omega)
        have ha2 : b / 2 ≤ a := by
          have e1 : 1 / 2 ≤ (1 - F.u) ^ l.length := hq.trans (hmono _ (by omega))
          have e2 : b ≤ l.length * b := by nlinarith
          have e3 : 1 / 2 * b ≤ (1 - F.u) ^ l.length * (l.length * b) := mul_le_mul e1 e2 b0.le (by linarith)
          linarith
        have hc2 : b / 2 ≤ c := by
          have e1 : 1 / 2 ≤ (1 - F.u) ^ l'.length := hq.trans (hmono _ (by omega))
          have e2 : b ≤ l'.length * b := by nlinarith
          have e3 : 1 / 2 * b ≤ (1 - F.u) ^ l'.length * (l'.length * b) := mul_le_mul e1 e2 b0.le (by linarith)
          linarith
        have herr := fl_err_big (F := F) (x := a + c) (j := -90) (by have := h.sub; omega) (by linarith)
        rw [abs_le] at herr
        have hfin : (1 - F.u) ^ l''.length * (l''.length * b) ≤ fl F (a + c) := by
          have e1 : (1 - F.u) * (a + c) ≤ fl F (a + c) := by linarith [herr.1]
          have e2 : (1 - F.u) ^ (l.length + 1) * (l.length * b) ≤ (1 - F.u) * a := by
            rw [pow_succ', mul_assoc]
            exact mul_le_mul_of_nonneg_left ia hbase.1.le
          have e3 : (1 - F.u) ^ (l'.length + 1) * (l'.length * b) ≤ (1 - F.u) * c := by
            rw [pow_succ', mul_assoc]
            exact mul_le_mul_of_nonneg_left ib hbase.1.le
          have e4 := mul_le_mul_of_nonneg_right q1 (by positivity : 0 ≤ (l.length : ℝ) * b)
          have e5 := mul_le_mul_of_nonneg_right q1' (by positivity : 0 ≤ (l'.length : ℝ) * b)
          have e6 : (1 - F.u) ^ l''.length * (l''.length * b) =
              (1 - F.u) ^ l''.length * (l.length * b) + (1 - F.u) ^ l''.length * (l'.length * b) := by
            conv_lhs => rw [show (l''.length : ℝ) = l.length + l'.length by rw [hlen]; push_cast; rfl]
            ring
          rw [e6]
          linarith
        show AtLeast _ (toNum F (a + c))
        have hp0 : 0 ≤ fl F (a + c) := fl_nonneg (by linarith)
        have h2 : (0 : ℝ) < 2 ^ F.high := by positivity
        unfold toNum
        split_ifs with h3 h4
        · trivial
        · linarith
        · exact hfin

theorem numSum_neg {l : List Num} {s : Num} (hs : NumSum F l s) : NumSum F (l.map nNeg) (nNeg s) := by
  have hadd : ∀ a b : Num, nNeg (nAdd F a b) = nAdd F (nNeg a) (nNeg b) := by
    intro a b
    cases a <;> cases b <;> try rfl
    rename_i a b
    show nNeg (toNum F (a + b)) = toNum F (-a + -b)
    rw [show -a + -b = -(a + b) by ring]
    unfold toNum
    rw [fl_neg]
    have : (0 : ℝ) < 2 ^ F.high := by positivity
    generalize (2 : ℝ) ^ F.high = B at *
    split_ifs <;> first | rfl | (exfalso; linarith)
  induction hs with
  | nil => simpa [nNeg] using NumSum.nil
  | one x => exact .one _
  | @add l l' l'' a b hne hne' _ _ hp iha ihb =>
    rw [hadd]
    exact .add (fun h => hne (List.map_eq_nil_iff.1 h)) (fun h => hne' (List.map_eq_nil_iff.1 h)) iha ihb
      (by rw [← List.map_append]; exact hp.map nNeg)

/-! ### The first pass -/

/-- The mean topic proportions in the first pass. -/
theorem first_z (h : Wide F) {X : Vec V ℕ} (hX : 0 < numWords X) (hX' : numWords X ≤ 2 ^ 31) (hK : 0 < K)
    (hK' : K ≤ 2 ^ 20) (hV : V ≤ 2 ^ 20) (k : Fin K) :
    ∃ z : ℝ, nScaled F (nRatio F X) (fun _ _ => toNum F (fl double (1 / K))) (.fin 0) k = .fin z ∧
      9 / 10 / K ≤ z := by
  have hF := h.ok
  obtain ⟨p, hp, p1, p2⟩ := first_phi h hK hK'
  obtain ⟨r1, r2, _⟩ := near_ratio h hX hX'
  obtain ⟨s1, s2⟩ := ratio_sum h hX hX' hV
  have hk : (0 : ℝ) < K := Nat.cast_pos.2 hK
  have hk1 : (1 : ℝ) ≤ K := by exact_mod_cast hK
  have hp0 : 0 ≤ p := le_trans (by positivity) p1
  obtain ⟨_, _, n1, n2⟩ := near_rScaled hF (w := rRatio F X) (phi := fun _ _ => p) (start := 0) (k := k) r2
    (fun _ => hp0) le_rfl fl_zero
  rw [zero_add, ← sum_mul] at n1 n2
  have t := h.count_tiny hV
  have q := h.pow_count hV
  have d1 : 99 / 100 / (K : ℝ) = 99 / 100 * (1 / K) := by ring
  have d2 : 101 / 100 / (K : ℝ) = 101 / 100 * (1 / K) := by ring
  have d3 : 9 / 10 / (K : ℝ) = 9 / 10 * (1 / K) := by ring
  have dk : 1 / 2 ^ 20 ≤ 1 / (K : ℝ) := by
    apply one_div_le_one_div_of_le hk
    exact million hK'
  have dk1 : 1 / (K : ℝ) ≤ 1 := by rw [div_le_one hk]; exact hk1
  rw [d1] at p1
  rw [d2] at p2
  have tt : (1 : ℝ) / 2 ^ 129 ≤ 1 / 1000 * (1 / 2 ^ 20) := by norm_num
  have l1 : 999 / 1000 * (99 / 100 * (1 / (K : ℝ))) ≤ (∑ n, rRatio F X n) * p :=
    mul_le_mul s1 p1 (by positivity) (by linarith)
  have l2 : (∑ n, rRatio F X n) * p ≤ 1001 / 1000 * (101 / 100 * (1 / K)) :=
    mul_le_mul s2 p2 hp0 (by norm_num)
  have hz0 : 0 ≤ rScaled F (rRatio F X) (fun _ _ => p) 0 k :=
    (near_rScaled hF (w := rRatio F X) (phi := fun _ _ => p) (start := 0) (k := k) r2 (fun _ => hp0) le_rfl fl_zero).1
  have l3 := mul_le_mul q l1 (by positivity) (le_trans (by norm_num) q)
  have l4 := mul_le_mul_of_nonneg_right q hz0
  refine ⟨rScaled F (rRatio F X) (fun _ _ => p) 0 k, ?_, ?_⟩
  · have e : nRatio F X = fun n => .fin (rRatio F X n) := funext r1
    rw [e, hp]
    refine nScaled_fin hF (phi := fun _ _ => p) r2 (fun _ => hp0) le_rfl fl_zero ?_
    have h3 := h.big
    have h4 : (4 : ℝ) < 2 ^ 128 := by norm_num
    generalize (2 : ℝ) ^ 128 = B at *
    generalize (1 : ℝ) / 2 ^ 129 = t' at *
    norm_num at tt
    linarith
  · rw [d3]
    generalize (1 : ℝ) / 2 ^ 129 = t' at *
    generalize (1 : ℝ) / 2 ^ 20 = t'' at *
    linarith

/-- The score of a class whose weights are all large, in the first pass. -/
theorem first_score (h : Wide F) {X : Vec V ℕ} (hX : 0 < numWords X) (hX' : numWords X ≤ 2 ^ 31) (hK : 0 < K)
    (hK' : K ≤ 2 ^ 20) (hV : V ≤ 2 ^ 20) {eta : Vec K ℝ} {B : ℝ} (hB : 1 ≤ B) (heta : ∀ k, B ≤ eta k) {s : Num}
    (hs : NumSum F (List.ofFn fun k => nMul F (.fin (eta k))
      (nScaled F (nRatio F X) (fun _ _ => toNum F (fl double (1 / K))) (.fin 0) k)) s) :
    AtLeast (82 / 100 * B) s := by
  have hF := h.ok
  have hk : (0 : ℝ) < K := Nat.cast_pos.2 hK
  have dk : 1 / 2 ^ 20 ≤ 1 / (K : ℝ) := by
    apply one_div_le_one_div_of_le hk
    exact million hK'
  have dk0 : 0 < 1 / (K : ℝ) := by positivity
  have hlen : (List.ofFn fun k => nMul F (.fin (eta k))
      (nScaled F (nRatio F X) (fun _ _ => toNum F (fl double (1 / K))) (.fin 0) k)).length = K := List.length_ofFn
  have q := h.pow_count hK'
  have hb := base hF
  have q' : 93 / 100 ≤ (1 - F.u) ^ K := q.trans (pow_le_pow_of_le_one hb.1.le hb.2 (by omega))
  have key := numSum_atLeast h (b := 89 / 100 * B * (1 / K)) (by
      have h1 : (2 : ℝ) ^ (-90 : ℤ) ≤ 89 / 100 * (1 / 2 ^ 20) := by norm_num
      have h2 : 89 / 100 * (1 / 2 ^ 20) ≤ 89 / 100 * (1 / (K : ℝ)) := mul_le_mul_of_nonneg_left dk (by norm_num)
      have h3 : 89 / 100 * (1 / (K : ℝ)) ≤ 89 / 100 * B * (1 / K) := mul_le_mul_of_nonneg_right (by linarith) dk0.le
      linarith) hs (by
      intro h
      rw [h] at hlen
      simp at hlen
      omega) (by
      intro x hx
      obtain ⟨k, rfl⟩ := (List.mem_ofFn' _ _).1 hx
      obtain ⟨z, hz, hz1⟩ := first_z h hX hX' hK hK' hV k
      beta_reduce
      rw [hz]
      have d3 : 9 / 10 / (K : ℝ) = 9 / 10 * (1 / K) := by ring
      rw [d3] at hz1
      have hprod : B * (9 / 10 * (1 / K)) ≤ eta k * z := mul_le_mul (heta k) hz1 (by positivity) (by linarith [heta k])
      have hprod0 : B * (9 / 10 * (1 / (K : ℝ))) = 9 / 10 * (B * (1 / K)) := by ring
      have hbk : 1 / (K : ℝ) ≤ B * (1 / K) := by nlinarith
      have hnorm : (2 : ℝ) ^ (-30 : ℤ) ≤ eta k * z := by
        have h1 : (2 : ℝ) ^ (-30 : ℤ) ≤ 9 / 10 * (1 / 2 ^ 20) := by norm_num
        have h2 : 9 / 10 * (1 / 2 ^ 20) ≤ 9 / 10 * (1 / (K : ℝ)) := mul_le_mul_of_nonneg_left dk (by norm_num)
        have h3 : 9 / 10 * (1 / (K : ℝ)) ≤ 9 / 10 * (B * (1 / K)) := mul_le_mul_of_nonneg_left hbk (by norm_num)
        exact h1.trans (h2.trans (h3.trans (hprod0 ▸ hprod)))
      have herr := fl_err_big (F := F) (x := eta k * z) (j := -30) (by have := h.sub; omega) hnorm
      rw [abs_le] at herr
      have hpos : 0 < eta k * z := (two_zpow_pos _).trans_le hnorm
      have m2 : F.u * (eta k * z) ≤ 1 / 1000 * (eta k * z) :=
        mul_le_mul_of_nonneg_right (h.u.trans (by norm_num)) hpos.le
      have hfin : 89 / 100 * B * (1 / K) ≤ fl F (eta k * z) := by
        have : 89 / 100 * B * (1 / (K : ℝ)) = 89 / 100 * (B * (1 / K)) := by ring
        rw [this]
        linarith [herr.1]
      show AtLeast _ (toNum F (eta k * z))
      have hp0 : 0 ≤ fl F (eta k * z) := fl_nonneg hpos.le
      have h2 : (0 : ℝ) < 2 ^ F.high := by positivity
      unfold toNum
      split_ifs with h3 h4
      · trivial
      · linarith
      · exact hfin) (by rw [hlen]; linarith)
  rw [hlen] at key
  have e : (K : ℝ) * (89 / 100 * B * (1 / K)) = 89 / 100 * B := by field_simp
  rw [e] at key
  have hle : 82 / 100 * B ≤ (1 - F.u) ^ K * (89 / 100 * B) := by
    have := mul_le_mul_of_nonneg_right q' (by linarith : 0 ≤ 89 / 100 * B)
    linarith
  cases s with
  | fin a => exact hle.trans key
  | pinf => trivial
  | ninf => exact key
  | nan => exact key

/-! ### NaN reaches fast_exp -/

theorem mapNum_none {n : ℕ} {f : Num → Option Num} {v : Vec n Num} (i : Fin n) (h : f (v i) = none) :
    mapNum f v = none := by
  unfold mapNum
  rw [dif_neg]
  intro hc
  have := hc i
  rw [h] at this
  cases this

theorem mapNum_some {n : ℕ} {f : Num → Option Num} {v w : Vec n Num} : mapNum f v = some w ↔ ∀ i, f (v i) = some (w i) := by
  unfold mapNum
  constructor
  · intro h i
    split_ifs at h with hc
    cases h
    exact (Option.some_get (hc i)).symm
  · intro h
    have hc : ∀ i, (f (v i)).isSome := fun i => by rw [h i]; rfl
    rw [dif_pos hc]
    congr 1
    funext i
    exact Option.get_of_eq_some (hc i) (h i)

/-- If the share of one class is NaN the step is undefined. -/
theorem phi_ub {X : Vec V ℕ} {y : Fin C} {beta : Mat K V ℝ} {eta : Mat K C ℝ} {w : ℝ} {gamma : Vec K Num}
    {phi : Mat K V Num} (hX : 0 < numWords X) (hK : 0 < K) (c : Fin C)
    (hsm : ∀ sm, nSoftmax D (nScores D X eta phi) = some sm → sm c = .nan) :
    nPhi D X y beta eta w gamma phi = none := by
  unfold nPhi
  rw [if_neg hX.ne']
  cases h1 : nSoftmax D (nScores D X eta phi) with
  | none => rfl
  | some sm =>
    cases h2 : nEtaScaled F eta with
    | none => rfl
    | some es =>
      have hn : nExponents D y w es gamma sm ⟨0, hK⟩ = .nan := by
        unfold nExponents
        have : D.nsum (fun c => nMul F (es ⟨0, hK⟩ c) (sm c)) = .nan :=
          numSum_nan (D.nsum_spec _) ((List.mem_ofFn' _ _).2 ⟨c, by simp only [hsm sm h1, nMul_nan_right]⟩)
        rw [this]
        unfold nSub
        rw [show nNeg Ieee.nan = Ieee.nan from rfl, nAdd_nan_right, nMul_nan_right, nAdd_nan_right]
      simp only [Option.bind_some]
      rw [mapNum_none ⟨0, hK⟩ (by rw [hn]; rfl)]
      rfl

/-- `fast_exp` is not negative. -/
theorem nExp_nonneg (hF : F.Ok) {x e : Num} (h : nExp D x = some e) : AtLeast 0 e := by
  cases x with
  | nan => cases h
  | pinf => cases h; trivial
  | ninf => cases h; exact le_rfl
  | fin x =>
    simp only [nExp, Option.some.injEq] at h
    subst h
    cases h1 : lExp D.toMachine x with
    | none => trivial
    | some v => exact lExp_nonneg hF h1

/-- If an exponential is infinite, the share of its class is NaN. -/
theorem softmax_over (hF : F.Ok) {s sm : Vec C Num} {c : Fin C} (h : nSoftmax D s = some sm)
    (hc : nExp D (s c) = some .pinf) : sm c = .nan := by
  unfold nSoftmax at h
  cases he : mapNum (nExp D) s with
  | none => rw [he] at h; cases h
  | some e =>
    rw [he] at h
    cases h
    have h1 := mapNum_some.1 he
    have ec : e c = .pinf := by
      have := h1 c
      rw [hc] at this
      exact (Option.some.inj this).symm
    have hs : D.nsum e = .pinf := by
      refine numSum_pinf (D.nsum_spec e) ?_ ((List.mem_ofFn' _ _).2 ⟨c, ec⟩)
      intro x hx
      obtain ⟨i, rfl⟩ := (List.mem_ofFn' _ _).1 hx
      exact nExp_nonneg hF (h1 i)
    show nDiv F (e c) (D.nsum e) = .nan
    rw [ec, hs]
    rfl

theorem numSum_zero {l : List Num} {s : Num} (h : NumSum F l s) (h0 : ∀ x ∈ l, x = .fin 0) : s = .fin 0 := by
  induction h with
  | nil => rfl
  | one x => exact h0 x (by simp)
  | @add l l' l'' a b _ _ _ _ hp iha ihb =>
    rw [iha fun x hx => h0 x (hp.mem_iff.2 (List.mem_append_left _ hx)),
      ihb fun x hx => h0 x (hp.mem_iff.2 (List.mem_append_right _ hx))]
    have := nAdd_fin (F := F) (a := 0) (b := 0) (by rw [add_zero, Limits.fl_zero, abs_zero]; positivity)
    rw [add_zero, Limits.fl_zero] at this
    exact this

/-- If all exponentials are zero, the shares of the classes are NaN. -/
theorem softmax_under {s sm : Vec C Num} (h : nSoftmax D s = some sm)
    (hc : ∀ c, nExp D (s c) = some (.fin 0)) (c : Fin C) : sm c = .nan := by
  unfold nSoftmax at h
  cases he : mapNum (nExp D) s with
  | none => rw [he] at h; cases h
  | some e =>
    rw [he] at h
    cases h
    have h1 := mapNum_some.1 he
    have ec : ∀ c, e c = .fin 0 := fun c => by
      have := h1 c
      rw [hc] at this
      exact (Option.some.inj this).symm
    have hs : D.nsum e = .fin 0 := by
      refine numSum_zero (D.nsum_spec e) ?_
      intro x hx
      obtain ⟨i, rfl⟩ := (List.mem_ofFn' _ _).1 hx
      exact ec i
    show nDiv F (e c) (D.nsum e) = .nan
    rw [ec, hs]
    simp [nDiv]

/-- A class with large weights only, in the first pass. -/
theorem pass_over (h : Wide F) {r B : ℝ} (hB : 1 ≤ B) (hr : r ≤ 82 / 100 * B) (hr0 : 0 ≤ r)
    (hover : ∀ x, r ≤ x → lExpPos D.toMachine x = none)
    {X : Vec V ℕ} {y : Fin C} {alpha : Vec K ℝ} {beta : Mat K V ℝ} {eta : Mat K C ℝ} {w : ℝ} (hX : 0 < numWords X)
    (hX' : numWords X ≤ 2 ^ 31) (hK : 0 < K) (hK' : K ≤ 2 ^ 20) (hV : V ≤ 2 ^ 20) (c : Fin C)
    (heta : ∀ k, B ≤ eta k c) (i : ℕ) : nPasses D X y alpha beta eta w (i + 1) = none := by
  induction i with
  | succ i ih => rw [nPasses, ih]; rfl
  | zero =>
    rw [nPasses, nPasses, Option.bind_some]
    rw [phi_ub hX hK c]
    · rfl
    intro sm hsm
    refine softmax_over h.ok hsm ?_
    have := first_score h hX hX' hK hK' hV hB heta (D.nsum_spec _)
    unfold nScores nFirst
    revert this
    generalize D.nsum _ = s
    intro hs
    cases s with
    | nan => exact hs.elim
    | ninf => exact hs.elim
    | pinf => rfl
    | fin x =>
      have hx : r ≤ x := hr.trans hs
      simp only [nExp]
      unfold lExp
      rw [if_neg (by linarith), hover x hx]

/-- All classes with strongly negative weights only, in the first pass. -/
theorem pass_under (h : Wide F) {r B : ℝ} (hB : 1 ≤ B) (hr : r ≤ 82 / 100 * B)
    (hunder : ∀ x, x ≤ -r → lExp D.toMachine x = some 0)
    {X : Vec V ℕ} {y : Fin C} {alpha : Vec K ℝ} {beta : Mat K V ℝ} {eta : Mat K C ℝ} {w : ℝ} (hX : 0 < numWords X)
    (hX' : numWords X ≤ 2 ^ 31) (hK : 0 < K) (hK' : K ≤ 2 ^ 20) (hV : V ≤ 2 ^ 20)
    (heta : ∀ k c, eta k c ≤ -B) (i : ℕ) : nPasses D X y alpha beta eta w (i + 1) = none := by
  induction i with
  | succ i ih => rw [nPasses, ih]; rfl
  | zero =>
    rw [nPasses, nPasses, Option.bind_some]
    rw [phi_ub hX hK y]
    · rfl
    intro sm hsm
    refine softmax_under hsm ?_ y
    intro c
    have hneg := numSum_neg (D.nsum_spec fun k => nMul F (.fin (eta k c))
      (nScaled F (nRatio F X) (fun _ _ => toNum F (fl double (1 / K))) (.fin 0) k))
    have e : (List.ofFn fun k => nMul F (.fin (eta k c))
        (nScaled F (nRatio F X) (fun _ _ => toNum F (fl double (1 / K))) (.fin 0) k)).map nNeg =
        List.ofFn fun k => nMul F (.fin (-eta k c))
        (nScaled F (nRatio F X) (fun _ _ => toNum F (fl double (1 / K))) (.fin 0) k) := by
      rw [List.map_ofFn]
      congr 1
      funext k
      obtain ⟨z, hz, _⟩ := first_z h hX hX' hK hK' hV k
      simp only [Function.comp_apply, hz]
      show nNeg (toNum F (eta k c * z)) = toNum F (-eta k c * z)
      rw [neg_mul]
      unfold toNum
      rw [fl_neg]
      have : (0 : ℝ) < 2 ^ F.high := by positivity
      generalize (2 : ℝ) ^ F.high = B at *
      split_ifs <;> first | rfl | (exfalso; linarith)
    rw [e] at hneg
    have := first_score h hX hX' hK hK' hV (eta := fun k => -eta k c) hB (fun k => by linarith [heta k c]) hneg
    unfold nScores nFirst
    revert this
    generalize D.nsum _ = s
    intro hs
    cases s with
    | nan => exact hs.elim
    | ninf => rfl
    | pinf => exact hs.elim
    | fin x =>
      have hx : r ≤ -x := hr.trans hs
      simp only [nExp]
      rw [hunder x (by linarith)]

/-! ### C129 -/

/-- C129, the full statement is false: if all the weights of one class are 900 or more, a document with words makes the
fast supervised step convert NaN to an index into the table of exponentials, in its first pass. -/
theorem C129_over_double {D : Device double} {X : Vec V ℕ} (hX : 0 < numWords X) (hX' : numWords X ≤ 2 ^ 31)
    (hK : 0 < K) (hK' : K ≤ 2 ^ 20) (hV : V ≤ 2 ^ 20) {y c : Fin C} {alpha : Vec K ℝ} {beta : Mat K V ℝ}
    {eta : Mat K C ℝ} {w : ℝ} (heta : ∀ k, 900 ≤ eta k c) (i : ℕ) :
    nPasses D X y alpha beta eta w (i + 1) = none :=
  pass_over wide_double (r := 710) (by norm_num) (by norm_num) (by norm_num) (fun _ hx => lExpPos_over_double hx)
    hX hX' hK hK' hV c heta i

/-- C129, the full statement is false: with `float` weights of 110 are enough. -/
theorem C129_over_float {D : Device float} {X : Vec V ℕ} (hX : 0 < numWords X) (hX' : numWords X ≤ 2 ^ 31)
    (hK : 0 < K) (hK' : K ≤ 2 ^ 20) (hV : V ≤ 2 ^ 20) {y c : Fin C} {alpha : Vec K ℝ} {beta : Mat K V ℝ}
    {eta : Mat K C ℝ} {w : ℝ} (heta : ∀ k, 110 ≤ eta k c) (i : ℕ) :
    nPasses D X y alpha beta eta w (i + 1) = none :=
  pass_over wide_float (r := 89) (by norm_num) (by norm_num) (by norm_num) (fun _ hx => lExpPos_over_float hx)
    hX hX' hK hK' hV c heta i

/-- C129, the full statement is false: the same if all the weights of all classes are -900 or less. -/
theorem C129_under_double {D : Device double} {X : Vec V ℕ} (hX : 0 < numWords X) (hX' : numWords X ≤ 2 ^ 31)
    (hK : 0 < K) (hK' : K ≤ 2 ^ 20) (hV : V ≤ 2 ^ 20) {y : Fin C} {alpha : Vec K ℝ} {beta : Mat K V ℝ}
    {eta : Mat K C ℝ} {w : ℝ} (heta : ∀ k c, eta k c ≤ -900) (i : ℕ) :
    nPasses D X y alpha beta eta w (i + 1) = none :=
  pass_under wide_double (r := 710) (B := 900) (by norm_num) (by norm_num) (fun _ hx => lExp_zero_double hx)
    hX hX' hK hK' hV heta i

/-- C129, the full statement is false: with `float` weights of -110 are enough. -/
theorem C129_under_float {D : Device float} {X : Vec V ℕ} (hX : 0 < numWords X) (hX' : numWords X ≤ 2 ^ 31)
    (hK : 0 < K) (hK' : K ≤ 2 ^ 20) (hV : V ≤ 2 ^ 20) {y : Fin C} {alpha : Vec K ℝ} {beta : Mat K V ℝ}
    {eta : Mat K C ℝ} {w : ℝ} (heta : ∀ k c, eta k c ≤ -110) (i : ℕ) :
    nPasses D X y alpha beta eta w (i + 1) = none :=
  pass_under wide_float (r := 89) (B := 110) (by norm_num) (by norm_num) (fun _ hx => lExp_zero_float hx)
    hX hX' hK hK' hV heta i

end Verif.Overflow
