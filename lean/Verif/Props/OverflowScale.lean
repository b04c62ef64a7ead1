import Verif.Props.OverflowSafe

/-
C129, continued: small weights are not enough, since they are divided by their maximum.
-/
namespace Verif.Overflow

open MathUtils EStep Limits Finset
open Rounded hiding fl_nonneg fl_zero

variable {K V C : ℕ} {F : Format} {D : Device F}

theorem numSum_single {x s : Num} (h : NumSum F [x] s) : s = x := by
  generalize hl : [x] = l at h
  cases h with
  | nil => cases hl
  | one y => cases hl; rfl
  | @add m m' _ a b hne hne' _ _ hp =>
    subst hl
    have := hp.length_eq
    have h1 := List.length_pos_iff.2 hne
    have h2 := List.length_pos_iff.2 hne'
    rw [List.length_append, List.length_singleton] at this
    omega

theorem numSum_pair {x y s : Num} (h : NumSum F [x, y] s) : s = nAdd F x y ∨ s = nAdd F y x := by
  generalize hl : [x, y] = l at h
  cases h with
  | nil => cases hl
  | one z => cases hl
  | @add m m' _ a b hne hne' ha hb hp =>
    subst hl
    have h0 := hp.length_eq
    have h1 := List.length_pos_iff.2 hne
    have h2 := List.length_pos_iff.2 hne'
    rw [List.length_append] at h0
    simp only [List.length_cons, List.length_nil] at h0
    obtain ⟨p, rfl⟩ := List.length_eq_one_iff.1 (by omega : m.length = 1)
    obtain ⟨q, rfl⟩ := List.length_eq_one_iff.1 (by omega : m'.length = 1)
    rw [numSum_single ha, numSum_single hb]
    rw [List.singleton_append] at hp
    have hx := hp.mem_iff.1 (List.mem_cons_self : x ∈ [x, y])
    simp only [List.mem_cons, List.not_mem_nil, or_false] at hx
    rcases hx with rfl | rfl
    · left
      have := (List.perm_cons x).1 hp
      rw [List.perm_singleton] at this
      cases this
      rfl
    · right
      have := (List.perm_cons x).1 (hp.trans (List.Perm.swap x p []))
      rw [List.perm_singleton] at this
      cases this
      rfl

/-- `fast_exp` of small arguments. -/
theorem lExp_mid (h : Wide F) {x : ℝ} (hx : |x| ≤ 2) : ∃ e : ℝ, lExp D.toMachine x = some e ∧ 1 / 8 ≤ e ∧ e ≤ 8 ∧
    fl F e = e := by
  have hF := h.ok
  have hpos : ∀ y : ℝ, 0 ≤ y → y ≤ 2 → ∃ v, lExpPos D.toMachine y = some v ∧ 1 ≤ v ∧ v ≤ 8 := fun y h0 h1 => by
    have := lExpPos_upper (M := D.toMachine) hF (h.u.trans (by norm_num)) h0 (by linarith)
      (exp_le_two_pow 3 (by norm_num; linarith)) (by
        have := h.big
        have e : (2 : ℝ) ^ 3 < 2 ^ 128 := by norm_num
        linarith)
    norm_num at this
    exact this
  rw [abs_le] at hx
  unfold lExp
  split_ifs with h0
  · obtain ⟨v, hv, v1, v2⟩ := hpos (-x) (by linarith) (by linarith)
    have d0 : 0 ≤ 1 / v := by positivity
    rw [hv]
    refine ⟨fl F (1 / v), rfl, ?_, ?_, fl_fl hF d0⟩
    · have e1 : (2 : ℝ) ^ (-3 : ℤ) ≤ 1 / v := by
        rw [le_div_iff₀ (by linarith)]
        norm_num
        linarith
      have := le_fl hF (by have := h.low; omega) e1
      norm_num at this ⊢
      exact this
    · have e1 : 1 / v ≤ (2 : ℝ) ^ (0 : ℤ) := by
        rw [div_le_iff₀ (by linarith)]
        norm_num
        linarith
      have := fl_le hF d0 (by have := h.low; omega) e1
      rw [zpow_zero] at this
      linarith
  · push Not at h0
    obtain ⟨v, hv, v1, v2⟩ := hpos x h0 hx.2
    exact ⟨v, hv, by linarith, v2, lExpPos_rep hF h0 hv⟩

theorem softmax_mid (h : Wide F) {s : Vec 2 ℝ} (hs : ∀ c, |s c| ≤ 2) :
    ∃ p : Vec 2 ℝ, nSoftmax D (fun c => .fin (s c)) = some (fun c => .fin (p c)) ∧ (∀ c, 1 / 256 ≤ p c) ∧ ∀ c, p c ≤ 11 / 10 := by
  have hF := h.ok
  have h1 := fun c => lExp_mid (D := D) h (hs c)
  choose e he e0 e1 er using h1
  have hsum : ∑ c, e c ≤ 16 := by
    rw [Fin.sum_univ_two]; linarith [e1 0, e1 1]
  obtain ⟨t, ht, t0, tu, t1⟩ := normalize_fin (D := D) h (by norm_num) (fun c => by linarith [e0 c]) er (by
    have := h.big
    have e : (16 : ℝ) * 4 ≤ 2 ^ 128 := by norm_num
    linarith)
  obtain ⟨hd, tp, p, hp, p0, p1⟩ := t1 fun h0 => by
    have := t0 h0 0
    have := e0 0
    linarith
  have hpe : ∀ c, p c = fl F (e c / t) := fun c => Ieee.fin.inj ((hp c).symm.trans (hd c))
  refine ⟨p, ?_, fun c => ?_, fun c => (single_le_sum (fun j _ => p0 j) (mem_univ c)).trans p1⟩
  · unfold nSoftmax
    have : mapNum (nExp D) (fun c => .fin (s c)) = some fun c => .fin (e c) := mapNum_some.2 fun c => by
      simp only [nExp, he c]
    rw [this, Option.map_some, ht]
    congr 1
    funext c
    exact hp c
  · rw [hpe]
    have hq : (2 : ℝ) ^ (-8 : ℤ) ≤ e c / t := by
      rw [le_div_iff₀ tp]
      norm_num
      linarith [e0 c]
    have := le_fl hF (by have := h.low; omega) hq
    norm_num at this ⊢
    exact this

/-- The weights of the counterexample: `a` for the class of the document and -1 for the other one. -/
noncomputable def lopsided (K : ℕ) (a : ℝ) : Mat K 2 ℝ := fun _ c => if c = 0 then a else -1

theorem max_lopsided {a : ℝ} (ha : 0 < a) (hK : 0 < K) : maxCoeff (lopsided K a) = some a := by
  unfold maxCoeff
  rw [dif_pos ⟨((⟨0, hK⟩ : Fin K), (0 : Fin 2)), mem_univ _⟩]
  congr 1
  apply le_antisymm
  · refine Finset.sup'_le _ _ fun p _ => ?_
    unfold lopsided
    split_ifs <;> linarith
  · have := Finset.le_sup' (fun p : Fin K × Fin 2 => lopsided K a p.1 p.2) (mem_univ ((⟨0, hK⟩ : Fin K), (0 : Fin 2)))
    simpa [lopsided] using this

/-- NaN in `gamma` makes the next pass undefined. -/
theorem phi_ub_gamma {X : Vec V ℕ} {y : Fin C} {beta : Mat K V ℝ} {eta : Mat K C ℝ} {w : ℝ} {gamma : Vec K Num}
    {phi : Mat K V Num} (hX : 0 < numWords X) (k : Fin K) (hg : gamma k = .nan) :
    nPhi D X y beta eta w gamma phi = none := by
  unfold nPhi
  rw [if_neg hX.ne']
  cases nSoftmax D (nScores D X eta phi) with
  | none => rfl
  | some sm =>
    cases nEtaScaled F eta with
    | none => rfl
    | some es =>
      have hn : nExponents D y w es gamma sm k = .nan := by
        unfold nExponents
        rw [hg, D.npsi_nan, nAdd_nan_left]
      simp only [Option.bind_some]
      rw [mapNum_none k (by rw [hn]; rfl)]
      rfl

theorem fold_nan {w : Vec V Num} {phi : Mat K V Num} {k : Fin K} (l : List (Fin V)) :
    l.foldl (fun g n => if w n = .fin 0 then g else nAdd F g (nMul F (w n) (phi k n))) .nan = .nan := by
  induction l with
  | nil => rfl
  | cons n l ih =>
    rw [List.foldl_cons]
    split_ifs
    · exact ih
    · rw [nAdd_nan_left]; exact ih

theorem fold_nan_of {w : Vec V Num} {phi : Mat K V Num} {k : Fin K} {n : Fin V} (hw : w n ≠ .fin 0)
    (hp : phi k n = .nan) : ∀ (l : List (Fin V)) (g : Num), n ∈ l →
    l.foldl (fun g n => if w n = .fin 0 then g else nAdd F g (nMul F (w n) (phi k n))) g = .nan := by
  intro l
  induction l with
  | nil => intro g h; cases h
  | cons n' l ih =>
    intro g h
    rw [List.foldl_cons]
    rcases List.mem_cons.1 h with rfl | h
    · rw [if_neg hw, hp, nMul_nan_right, nAdd_nan_right]
      exact fold_nan l
    · exact ih _ h

/-- One pass with lopsided weights: every exponential is infinite, and `phi` and `gamma` are NaN. -/
theorem lopsided_pass (h : Wide F) {r : ℝ} (hr0 : 0 ≤ r) (hr : r ≤ 710) (hover : ∀ x, r ≤ x → lExpPos D.toMachine x = none)
    {X : Vec V ℕ} (hX : 0 < numWords X) (hX' : numWords X ≤ 2 ^ 31) (hK : 0 < K) (hK' : K ≤ 2 ^ 20)
    (hV : V ≤ 2 ^ 20) {alpha : Vec K ℝ} {beta : Mat K V ℝ} (hb : ∀ k n, 0 < beta k n) {a : ℝ} (ha0 : 2 ^ (-30 : ℤ) ≤ a)
    (ha : a ≤ 2 ^ (-20 : ℤ)) {g : Vec K ℝ} {p : Mat K V ℝ} (hk : Kept alpha g p) (hg : ∀ k, 1 / 1024 ≤ g k) :
    nPhi D X 0 beta (lopsided K a) 1 (fun k => .fin (g k)) (fun k n => .fin (p k n)) = some (fun _ _ => .nan) := by
  have hF := h.ok
  have ap : 0 < a := (two_zpow_pos _).trans_le ha0
  have ha1 : a ≤ 1 / 1048576 := by norm_num at ha ⊢; exact ha
  have ha2 : 1 / 1073741824 ≤ a := by norm_num at ha0 ⊢; exact ha0
  obtain ⟨z, hz, z0, z1⟩ := zbar_fin h hX hX' hK' hV hk.nonneg hk.sum
  have habs : ∀ k c, |lopsided K a k c| ≤ 1 := fun k c => by
    unfold lopsided
    split_ifs
    · rw [abs_of_pos ap]; linarith
    · simp
  have hscore : ∀ c, ∃ s : ℝ, nScores D X (lopsided K a) (fun k n => .fin (p k n)) c = .fin s ∧ |s| ≤ 2 := by
    intro c
    obtain ⟨s, s1, s2⟩ := products (D := D) h hK' (a := fun k => lopsided K a k c) (p := z) le_rfl (by norm_num)
      (fun k => habs k c) z0 z1
    refine ⟨s, ?_, by linarith⟩
    unfold nScores
    rw [← s1]
    congr 1
    funext k
    rw [hz k]
  choose s hs hs' using hscore
  obtain ⟨q, hq, q0, q1⟩ := softmax_mid (D := D) h hs'
  -- the scaled weights
  have f1 : fl F 1 = 1 := by
    have := fl_pow hF (j := 0) (by have := h.low; omega)
    simpa using this
  have b0 : 0 ≤ 1 / a := by positivity
  have b1 : 1 / a ≤ 2 ^ (30 : ℤ) := by
    rw [div_le_iff₀ ap]
    norm_num
    linarith
  have b2 : (2 : ℝ) ^ (20 : ℤ) ≤ 1 / a := by
    rw [le_div_iff₀ ap]
    norm_num
    linarith
  have l1 := fl_le hF b0 (by have := h.low; omega) b1
  have l2 := le_fl hF (by have := h.low; omega) b2
  norm_num at l1 l2
  rw [← one_div] at l1 l2
  generalize hB : fl F (1 / a) = B at l1 l2
  have hes : nEtaScaled F (lopsided K a) = some fun _ c => if c = 0 then .fin 1 else .fin (-B) := by
    unfold nEtaScaled
    rw [max_lopsided ap hK, Option.map_some]
    congr 1
    funext k c
    rw [if_pos ap]
    unfold lopsided
    by_cases hc : c = 0
    · rw [if_pos hc, if_pos hc, nDiv_fin ap.ne', div_self ap.ne', f1]
      rw [div_self ap.ne', f1]
      exact h.small_lt (by norm_num)
    · rw [if_neg hc, if_neg hc, nDiv_fin ap.ne', neg_div, fl_neg, hB]
      rw [neg_div, fl_neg, hB, abs_neg, abs_of_nonneg (by linarith)]
      exact h.small_lt (l1.trans (by norm_num))
  -- the exponents
  have hu := h.u.trans (by norm_num : (1 : ℝ) / 2 ^ 24 ≤ 1 / 1000)
  have hu0 := u_pos (F := F)
  have ht' : F.tiny ≤ 1 / 1000 := h.tiny.trans (by norm_num)
  have hsmall : ∀ x : ℝ, |x| ≤ 2 ^ 40 → |fl F x| < 2 ^ F.high := fun x hx => by
    have e1 := abs_fl_le (F := F) x
    have e2 : (1 + F.u) * |x| ≤ 2 * 2 ^ 40 := mul_le_mul (by linarith) hx (abs_nonneg _) (by norm_num)
    apply h.small_lt
    have e3 : (2 : ℝ) * 2 ^ 40 + 1 ≤ 2 ^ 100 := by norm_num
    linarith
  have hlow : ∀ x : ℝ, x - 1 / 1000 * |x| - 1 / 1000 ≤ fl F x := fun x => by
    have e1 := fl_le_add (F := F) (-x)
    rw [fl_neg, abs_neg] at e1
    have : F.u * |x| ≤ 1 / 1000 * |x| := mul_le_mul_of_nonneg_right hu (abs_nonneg _)
    linarith
  have hupp : ∀ x : ℝ, fl F x ≤ x + 1 / 1000 * |x| + 1 / 1000 := fun x => by
    have e1 := fl_le_add (F := F) x
    have : F.u * |x| ≤ 1 / 1000 * |x| := mul_le_mul_of_nonneg_right hu (abs_nonneg _)
    linarith
  have q00 := q0 0
  have q01 := q0 1
  have q10 := q1 0
  have q11 := q1 1
  have hbig : (2 : ℝ) ^ 40 = 1099511627776 := by norm_num
  -- the products and their sum
  have m0 : nMul F (.fin 1) (.fin (q 0)) = .fin (fl F (q 0)) := by
    have := nMul_fin (F := F) (a := 1) (b := q 0) (hsmall _ (by rw [one_mul, abs_of_nonneg (by linarith)]; linarith))
    rwa [one_mul] at this
  have bq : B * q 1 ≤ 1073741824 * (11 / 10) := mul_le_mul l1 q11 (by linarith) (by norm_num)
  have bq' : 1048576 * (1 / 256) ≤ B * q 1 := mul_le_mul l2 q01 (by norm_num) (by linarith)
  have m1 : nMul F (.fin (-B)) (.fin (q 1)) = .fin (-fl F (B * q 1)) := by
    have := nMul_fin (F := F) (a := -B) (b := q 1) (hsmall _ (by
      rw [neg_mul, abs_neg, abs_of_nonneg (by linarith)]; linarith))
    rwa [neg_mul, fl_neg] at this
  have c0 : fl F (q 0) ≤ 2 := by
    have := hupp (q 0)
    rw [abs_of_nonneg (by linarith)] at this
    linarith
  have c0' : 0 ≤ fl F (q 0) := fl_nonneg (by linarith)
  have c1 : 4000 ≤ fl F (B * q 1) := by
    have := hlow (B * q 1)
    rw [abs_of_nonneg (by linarith)] at this
    linarith
  have c1' : fl F (B * q 1) ≤ 2000000000 := by
    have := hupp (B * q 1)
    rw [abs_of_nonneg (by linarith)] at this
    linarith
  generalize fl F (q 0) = x0 at *
  generalize fl F (B * q 1) = x1 at *
  have hsum : D.nsum (fun c : Fin 2 => nMul F (if c = 0 then .fin 1 else .fin (-B)) (.fin (q c))) = .fin (fl F (x0 + -x1)) := by
    have hspec := D.nsum_spec (fun c : Fin 2 => nMul F (if c = 0 then .fin 1 else .fin (-B)) (.fin (q c)))
    have hl : List.ofFn (fun c : Fin 2 => nMul F (if c = 0 then .fin 1 else .fin (-B)) (.fin (q c))) = [.fin x0, .fin (-x1)] := by
      rw [List.ofFn_succ, List.ofFn_succ, List.ofFn_zero]
      simp only [if_true, Fin.succ_zero_eq_one, Fin.one_eq_zero_iff, OfNat.ofNat_ne_one, if_false, Nat.reduceAdd]
      rw [m0, m1]
    rw [hl] at hspec
    have hlt : |fl F (x0 + -x1)| < 2 ^ F.high := hsmall _ (by rw [abs_le]; constructor <;> linarith)
    rcases numSum_pair hspec with e | e
    · rw [e, nAdd_fin hlt]
    · rw [e, nAdd_fin (by rw [add_comm]; exact hlt), add_comm]
  have d1 : fl F (x0 + -x1) ≤ -3900 := by
    have := hupp (x0 + -x1)
    rw [abs_of_nonpos (by linarith)] at this
    linarith
  have d1' : -3000000000 ≤ fl F (x0 + -x1) := by
    have := hlow (x0 + -x1)
    rw [abs_of_nonpos (by linarith)] at this
    linarith
  generalize fl F (x0 + -x1) = x2 at *
  have d2 : 3800 ≤ fl F (1 - x2) := by
    have := hlow (1 - x2)
    rw [abs_of_nonneg (by linarith)] at this
    linarith
  have d2' : fl F (1 - x2) ≤ 4000000000 := by
    have := hupp (1 - x2)
    rw [abs_of_nonneg (by linarith)] at this
    linarith
  have s2 := nSub_fin (F := F) (a := 1) (b := x2) (hsmall _ (by rw [abs_of_nonneg (by linarith)]; linarith))
  generalize fl F (1 - x2) = x3 at *
  have d3 : 3700 ≤ fl F (1 * x3) := by
    have := hlow (1 * x3)
    rw [abs_of_nonneg (by linarith)] at this
    linarith
  have d3' : fl F (1 * x3) ≤ 5000000000 := by
    have := hupp (1 * x3)
    rw [abs_of_nonneg (by linarith)] at this
    linarith
  have s3 := nMul_fin (F := F) (a := 1) (b := x3) (hsmall _ (by rw [abs_of_nonneg (by linarith)]; linarith))
  generalize fl F (1 * x3) = x4 at *
  have hexp : ∀ k, ∃ x, nExponents D 0 1 (fun _ c => if c = 0 then .fin 1 else .fin (-B)) (fun k => .fin (g k))
      (fun c => .fin (q c)) k = .fin x ∧ 710 ≤ x := by
    intro k
    obtain ⟨b1, b2⟩ := psi_range D.toMachine (hg k) (hk.high k)
    have s4 := nAdd_fin (F := F) (a := D.psi (g k)) (b := x4) (hsmall _ (by rw [abs_of_nonneg (by linarith)]; linarith))
    refine ⟨fl F (D.psi (g k) + x4), ?_, ?_⟩
    · unfold nExponents
      have n1 : D.npsi (.fin (g k)) = .fin (D.psi (g k)) := by
        apply D.npsi_fin
        · refine le_trans ?_ (hg k)
          norm_num
        · apply h.small_lt
          have : (2 : ℝ) ^ 34 ≤ 2 ^ 100 := by norm_num
          linarith [hk.high k]
      simp only
      rw [hsum, n1, if_pos trivial, s2, s3, s4]
    · have := hlow (D.psi (g k) + x4)
      rw [abs_of_nonneg (by linarith)] at this
      linarith
  have hpinf : mapNum (nExp D) (nExponents D 0 1 (fun _ c => if c = 0 then .fin 1 else .fin (-B)) (fun k => .fin (g k))
      (fun c => .fin (q c))) = some fun _ => .pinf := mapNum_some.2 fun k => by
    obtain ⟨x, hx, hx'⟩ := hexp k
    rw [hx]
    simp only [nExp]
    unfold lExp
    rw [if_neg (by linarith), hover x (by linarith)]
  unfold nPhi
  rw [if_neg hX.ne', show nScores D X (lopsided K a) (fun k n => .fin (p k n)) = fun c => .fin (s c) from funext hs, hq,
    Option.bind_some, hes, Option.bind_some, hpinf, Option.map_some]
  congr 1
  funext k n
  have hcol : (fun k => nMul F (.fin (beta k n)) .pinf) = fun _ => .pinf := by
    funext k
    show Ieee.infMul true (beta k n) = .pinf
    unfold Ieee.infMul
    rw [if_neg (hb k n).ne']
    simp [hb k n]
  rw [hcol]
  have hs : D.nsum (fun _ : Fin K => (.pinf : Num)) = .pinf := by
    refine numSum_pinf (D.nsum_spec _) ?_ ((List.mem_ofFn' _ _).2 ⟨k, rfl⟩)
    intro x hx
    obtain ⟨i, rfl⟩ := (List.mem_ofFn' _ _).1 hx
    trivial
  unfold nNormalize
  rw [hs, if_pos (fun hc => by cases hc)]
  rfl

/-- From the second pass on the step is undefined: NaN has reached `gamma`. -/
theorem lopsided_ub (h : Wide F) {r : ℝ} (hr0 : 0 ≤ r) (hr : r ≤ 710) (hover : ∀ x, r ≤ x → lExpPos D.toMachine x = none)
    {X : Vec V ℕ} (hX : 0 < numWords X) (hX' : numWords X ≤ 2 ^ 31) (hK : 0 < K) (hK' : K ≤ 2 ^ 20)
    (hV : V ≤ 2 ^ 20) {alpha : Vec K ℝ} (hal : ∀ k, 1 / 1024 ≤ alpha k ∧ alpha k ≤ 2 ^ 32 ∧ fl F (alpha k) = alpha k)
    {beta : Mat K V ℝ} (hb : ∀ k n, 0 < beta k n) {a : ℝ} (ha0 : 2 ^ (-30 : ℤ) ≤ a) (ha : a ≤ 2 ^ (-20 : ℤ)) (i : ℕ) :
    nPasses D X 0 alpha beta (lopsided K a) 1 (i + 2) = none := by
  have hn : ∃ n, X n ≠ 0 := by
    by_contra hc
    push Not at hc
    have : numWords X = 0 := by
      unfold numWords
      exact Finset.sum_eq_zero fun n _ => hc n
    omega
  obtain ⟨n, hn⟩ := hn
  have hw : toNum F (X n) ≠ .fin 0 := by
    have hle : X n ≤ numWords X := by
      unfold numWords
      exact Finset.single_le_sum (f := X) (fun _ _ => Nat.zero_le _) (mem_univ n)
    rw [h.toNum_nat (hle.trans hX')]
    intro hc
    have h0 : fl F (X n : ℝ) = 0 := Ieee.fin.inj hc
    have h1 := le_fl h.ok (x := (X n : ℝ)) (j := 0) (by have := h.low; omega) (by
      rw [zpow_zero]
      exact_mod_cast Nat.one_le_iff_ne_zero.2 hn)
    rw [h0, zpow_zero] at h1
    linarith
  obtain ⟨g, p, hfirst, hkept⟩ := first_fin h (X := X) hX' hK hK' (fun k => by linarith [(hal k).1])
    (fun k => (hal k).2.1) (fun k => (hal k).2.2)
  have h1 : nPasses D X 0 alpha beta (lopsided K a) 1 1 = some (nGamma F X alpha fun _ _ => .nan, fun _ _ => .nan) := by
    rw [nPasses, nPasses, Option.bind_some, hfirst,
      lopsided_pass h hr0 hr hover hX hX' hK hK' hV hb ha0 ha hkept (fun k => (hal k).1.trans (hkept.low k)), Option.map_some]
  induction i with
  | zero =>
    rw [nPasses, h1, Option.bind_some, phi_ub_gamma hX ⟨0, hK⟩, Option.map_none]
    exact fold_nan_of (w := fun n => toNum F (X n)) (phi := fun (_ : Fin K) _ => .nan) (k := ⟨0, hK⟩) hw rfl _ _ (List.mem_finRange n)
  | succ i ih => rw [nPasses, ih, Option.bind_none]

/-! ### C129 -/

/-- C129, the full statement is false: the weights are divided by their maximum if it is positive, so that also weights
of at most 1 make the step undefined in `double`, if those of the class of the document are positive and small. -/
theorem C129_ratio_double {D : Device double} {X : Vec V ℕ} (hX : 0 < numWords X) (hX' : numWords X ≤ 2 ^ 31)
    (hK : 0 < K) (hK' : K ≤ 2 ^ 20) (hV : V ≤ 2 ^ 20) {alpha : Vec K ℝ}
    (hal : ∀ k, 1 / 1024 ≤ alpha k ∧ alpha k ≤ 2 ^ 32 ∧ fl double (alpha k) = alpha k) {beta : Mat K V ℝ}
    (hb : ∀ k n, 0 < beta k n) {eta : Mat K 2 ℝ} {a : ℝ} (ha0 : 2 ^ (-30 : ℤ) ≤ a) (ha : a ≤ 2 ^ (-20 : ℤ))
    (heta : ∀ k, eta k 0 = a ∧ eta k 1 = -1) (i : ℕ) : nPasses D X 0 alpha beta eta 1 (i + 2) = none := by
  have : eta = lopsided K a := by
    funext k c
    unfold lopsided
    split_ifs with hc
    · rw [hc]; exact (heta k).1
    · rw [show c = 1 by omega]; exact (heta k).2
  rw [this]
  exact lopsided_ub wide_double (r := 710) (by norm_num) le_rfl (fun _ hx => lExpPos_over_double hx) hX hX' hK hK' hV hal hb
    ha0 ha i

/-- C129, the full statement is false: the same with `float`. -/
theorem C129_ratio_float {D : Device float} {X : Vec V ℕ} (hX : 0 < numWords X) (hX' : numWords X ≤ 2 ^ 31)
    (hK : 0 < K) (hK' : K ≤ 2 ^ 20) (hV : V ≤ 2 ^ 20) {alpha : Vec K ℝ}
    (hal : ∀ k, 1 / 1024 ≤ alpha k ∧ alpha k ≤ 2 ^ 32 ∧ fl float (alpha k) = alpha k) {beta : Mat K V ℝ}
    (hb : ∀ k n, 0 < beta k n) {eta : Mat K 2 ℝ} {a : ℝ} (ha0 : 2 ^ (-30 : ℤ) ≤ a) (ha : a ≤ 2 ^ (-20 : ℤ))
    (heta : ∀ k, eta k 0 = a ∧ eta k 1 = -1) (i : ℕ) : nPasses D X 0 alpha beta eta 1 (i + 2) = none := by
  have : eta = lopsided K a := by
    funext k c
    unfold lopsided
    split_ifs with hc
    · rw [hc]; exact (heta k).1
    · rw [show c = 1 by omega]; exact (heta k).2
  rw [this]
  exact lopsided_ub wide_float (r := 89) (by norm_num) (by norm_num) (fun _ hx => lExpPos_over_float hx) hX hX' hK hK' hV
    hal hb ha0 ha i

/-! ### The hypotheses can be met -/

/-- Additions from left to right. -/
noncomputable def sumNum (F : Format) : List Num → Num
  | [] => .fin 0
  | [x] => x
  | x :: y :: l => nAdd F x (sumNum F (y :: l))

theorem sumNum_spec : ∀ l, NumSum F l (sumNum F l)
  | [] => .nil
  | [x] => .one x
  | x :: y :: l => .add (l := [x]) (l' := y :: l) (by simp) (by simp) (.one x) (sumNum_spec _) (List.Perm.refl _)

/-- A device: exponentials are rounded, sums taken in order, `digamma` exact. -/
noncomputable def plainDevice (h : Wide F) : Device F where
  sum := (plainMachine F).sum
  sum_spec := (plainMachine F).sum_spec
  stdExp x := if 0 ≤ x ∧ 2 ^ F.high ≤ fl F (Real.exp x) then none else some (if 0 ≤ x then fl F (Real.exp x) else Real.exp x)
  stdExp_over x hx := by
    have e0 := Real.exp_pos x
    have hb := h.big
    have h0 : 0 ≤ x := by
      by_contra hc
      push Not at hc
      have : Real.exp x < 1 := by
        rw [← Real.exp_zero]; exact Real.exp_lt_exp.2 hc
      have e : (1 : ℝ) ≤ 2 ^ 128 := by norm_num
      linarith
    have e1 : (2 : ℝ) ^ (F.high : ℤ) ≤ Real.exp x := by
      rw [zpow_natCast]
      linarith
    have e2 := le_fl h.ok (by have := h.low; omega) e1
    rw [zpow_natCast] at e2
    exact if_pos ⟨h0, e2⟩
  stdExp_fin x hx := by
    rw [if_neg]
    · exact fun hc => by cases hc
    · rintro ⟨h0, h1⟩
      have e0 := Real.one_le_exp h0
      have e1 := fl_err_big (F := F) (x := Real.exp x) (j := 0) (by have := h.sub; omega) (by rw [zpow_zero]; exact e0)
      have hu := h.u.trans (by norm_num : (1 : ℝ) / 2 ^ 24 ≤ 1 / 1024)
      have e2 : F.u * Real.exp x ≤ 1 / 1024 * Real.exp x := mul_le_mul_of_nonneg_right hu (by linarith)
      rw [abs_le] at e1
      linarith
  stdExp_err x v hv := by
    split_ifs at hv with _ h0
    · cases hv
      have e0 := Real.one_le_exp h0
      have e1 := fl_err_big (F := F) (x := Real.exp x) (j := 0) (by have := h.sub; omega) (by rw [zpow_zero]; exact e0)
      have hu := h.u.trans (by norm_num : (1 : ℝ) / 2 ^ 24 ≤ 1 / 1024)
      have e2 : F.u * Real.exp x ≤ 1 / 1024 * Real.exp x := mul_le_mul_of_nonneg_right hu (by linarith)
      linarith
    · cases hv
      have := Real.exp_pos x
      rw [sub_self, abs_zero]
      positivity
  psi := (plainMachine F).psi
  psi_err := (plainMachine F).psi_err
  nsum v := sumNum F (List.ofFn v)
  nsum_spec v := sumNum_spec _
  stdExp_rep x v hx hv := by
    split_ifs at hv with _ h0
    · cases hv
      exact fl_fl h.ok (Real.exp_pos x).le
    · linarith
  npsi
    | .fin x => .fin ((plainMachine F).psi x)
    | _ => .nan
  npsi_fin _ _ _ := rfl
  npsi_nan := rfl

/-- Models with two topics, two words and two classes that meet the hypotheses of the theorems above. -/
theorem half_rep (h : Wide F) : fl F (1 / 2) = 1 / 2 := by
  have := fl_pow h.ok (j := -1) (by have := h.low; omega)
  norm_num at this ⊢
  exact this

theorem mild_model (h : Wide F) {R T : ℝ} (hR : 4 ≤ R) (hT : 2 ≤ T) :
    Mild F R T (fun _ : Fin 2 => 1 / 2) (fun k n : Fin 2 => if k = n then 3 / 4 else 1 / 4)
      (fun k c : Fin 2 => if k = c then 4 else -2) 1 where
  topics := by norm_num
  voc := by norm_num
  classes := by norm_num
  prior _ := ⟨by norm_num, by norm_num, half_rep h⟩
  words k n := by split_ifs <;> norm_num
  size k c := by
    split_ifs
    · rw [abs_of_pos (by norm_num)]; exact hR
    · rw [abs_of_neg (by norm_num)]; linarith
  weight := by norm_num
  ratio := ⟨1, le_rfl, by norm_num, by linarith, Or.inl ⟨0, 0, by norm_num, fun k c => by
    rw [if_pos rfl, abs_le]
    split_ifs <;> norm_num⟩⟩

example : ∃ (D : Device double) (alpha : Vec 2 ℝ) (beta eta : Mat 2 2 ℝ), Mild double 500 250 alpha beta eta 1 ∧
    ∀ i, Safe D ![1, 2] 1 alpha beta eta 1 i :=
  ⟨plainDevice wide_double, _, _, _, mild_model wide_double (by norm_num) (by norm_num), fun i =>
    C129_double_partial (by decide) (mild_model wide_double (by norm_num) (by norm_num)) i⟩

example : ∃ (D : Device float) (alpha : Vec 2 ℝ) (beta eta : Mat 2 2 ℝ), Mild float 50 16 alpha beta eta 1 ∧
    ∀ i, Safe D ![1, 2] 1 alpha beta eta 1 i :=
  ⟨plainDevice wide_float, _, _, _, mild_model wide_float (by norm_num) (by norm_num), fun i =>
    C129_float_partial (by decide) (mild_model wide_float (by norm_num) (by norm_num)) i⟩

example : ∃ D : Device double, ∀ i, nPasses D ![1, 2] 1 (fun _ : Fin 2 => 1 / 2) (fun _ _ => 1 / 2)
    (fun _ c : Fin 2 => if c = 0 then 900 else 0) 1 (i + 1) = none :=
  ⟨plainDevice wide_double, C129_over_double (c := 0) (by decide) (by decide) (by norm_num) (by norm_num) (by norm_num)
    (fun _ => by norm_num)⟩

example : ∃ D : Device float, ∀ i, nPasses D ![1, 2] 1 (fun _ : Fin 2 => 1 / 2) (fun _ _ => 1 / 2)
    (fun _ c : Fin 2 => if c = 0 then 110 else 0) 1 (i + 1) = none :=
  ⟨plainDevice wide_float, C129_over_float (c := 0) (by decide) (by decide) (by norm_num) (by norm_num) (by norm_num)
    (fun _ => by norm_num)⟩

example : ∃ D : Device double, ∀ i, nPasses D ![1, 2] (1 : Fin 2) (fun _ : Fin 2 => 1 / 2) (fun _ _ => 1 / 2)
    (fun _ _ => -900) 1 (i + 1) = none :=
  ⟨plainDevice wide_double, C129_under_double (by decide) (by decide) (by norm_num) (by norm_num) (by norm_num)
    (fun _ _ => by norm_num)⟩

example : ∃ D : Device float, ∀ i, nPasses D ![1, 2] (1 : Fin 2) (fun _ : Fin 2 => 1 / 2) (fun _ _ => 1 / 2)
    (fun _ _ => -110) 1 (i + 1) = none :=
  ⟨plainDevice wide_float, C129_under_float (by decide) (by decide) (by norm_num) (by norm_num) (by norm_num)
    (fun _ _ => by norm_num)⟩

example : ∃ D : Device double, ∀ i, nPasses D ![1, 2] 0 (fun _ : Fin 2 => 1 / 2) (fun _ _ => 1 / 2)
    (fun _ c : Fin 2 => if c = 0 then 2 ^ (-20 : ℤ) else -1) 1 (i + 2) = none :=
  ⟨plainDevice wide_double, C129_ratio_double (a := 2 ^ (-20 : ℤ)) (by decide) (by decide) (by norm_num) (by norm_num)
    (by norm_num) (fun _ => ⟨by norm_num, by norm_num, half_rep wide_double⟩) (fun _ _ => by norm_num) (by norm_num) le_rfl
    (fun _ => ⟨by simp, by simp⟩)⟩

example : ∃ D : Device float, ∀ i, nPasses D ![1, 2] 0 (fun _ : Fin 2 => 1 / 2) (fun _ _ => 1 / 2)
    (fun _ c : Fin 2 => if c = 0 then 2 ^ (-20 : ℤ) else -1) 1 (i + 2) = none :=
  ⟨plainDevice wide_float, C129_ratio_float (a := 2 ^ (-20 : ℤ)) (by decide) (by decide) (by norm_num) (by norm_num)
    (by norm_num) (fun _ => ⟨by norm_num, by norm_num, half_rep wide_float⟩) (fun _ _ => by norm_num) (by norm_num) le_rfl
    (fun _ => ⟨by simp, by simp⟩)⟩

end Verif.Overflow
