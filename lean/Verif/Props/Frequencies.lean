import Verif.Props.Repeat
import Verif.Props.Renumber
import Verif.Props.Unknown

/-! Property C145: training a model with one topic, or with topics that are all equal, counts words. -/
namespace Verif.Train

open MathUtils EStep MStep Pool Finset

variable {K V C : ℕ} {T : Type}

/-- How often the word `v` occurs in the first `n` documents. -/
def occurrences (corpus : ℕ → Doc V) (n : ℕ) (v : Fin V) : ℕ := ∑ i ∈ range n, (corpus i).words v

/-- How many words the first `n` documents have together. -/
def totalWords (corpus : ℕ → Doc V) (n : ℕ) : ℕ := ∑ i ∈ range n, ∑ v, (corpus i).words v

theorem total_eq (corpus : ℕ → Doc V) (n : ℕ) : totalWords corpus n = ∑ v, occurrences corpus n v := by
  unfold totalWords occurrences
  rw [sum_comm]

/-- All topics are the same distribution `b`. -/
structure FlatModel (m : Model K V C) (a : ℝ) (b : Vec V ℝ) : Prop where
  alpha : ∀ k, m.alpha k = a
  beta : ∀ k v, m.beta k v = b v
  pos : 0 < a
  nonneg : ∀ v, 0 ≤ b v

/-- What every iteration of an E step for such a model leaves behind: words that the topics know belong to all of them in
equal parts. -/
structure EvenVP (K : ℕ) (b : Vec V ℝ) (s : VP K V) : Prop where
  gamma : ∃ g, 0 < g ∧ ∀ k, s.gamma k = g
  phi : ∀ k v, 0 < b v → s.phi k v = 1 / K

theorem normalizeCols_even {b : Vec V ℝ} (hK : 0 < K) {w : Vec V ℝ} (hw : ∀ v, 0 < b v → 0 < w v) (k : Fin K) {v : Fin V}
    (hv : 0 < b v) : normalizeCols (fun (_ : Fin K) v => b v * w v) k v = 1 / K := by
  have h1 := mul_pos hv (hw v hv)
  have h2 : (0 : ℝ) < K := by exact_mod_cast hK
  rw [normalizeCols_apply]
  simp only [sum_const, card_univ, Fintype.card_fin, nsmul_eq_mul]
  rw [if_neg (mul_pos h2 h1).ne', div_mul_cancel_right₀ h1.ne', one_div]

theorem gamma_even {m : Model K V C} {a : ℝ} {b : Vec V ℝ} (hm : FlatModel m a b) {X : Vec V ℕ} {p : Vec V ℝ} (hp : ∀ v, 0 ≤ p v) :
    ∃ g, 0 < g ∧ ∀ k, computeGamma X m.alpha (fun _ v => p v) k = g := by
  refine ⟨a + ∑ v, (X v : ℝ) * p v, ?_, fun k => ?_⟩
  · have : 0 ≤ ∑ v, (X v : ℝ) * p v := sum_nonneg fun v _ => mul_nonneg (Nat.cast_nonneg _) (hp v)
    have := hm.pos
    linarith
  · rw [computeGamma, sumColsScaled_apply, hm.alpha]

/-- A matrix with equal rows. -/
theorem normalizeCols_rows {f : Vec V ℝ} (hf : ∀ v, 0 ≤ f v) :
    ∃ p : Vec V ℝ, (∀ v, 0 ≤ p v) ∧ normalizeCols (fun (_ : Fin K) v => f v) = fun _ v => p v := by
  refine ⟨fun v => if ∑ _k : Fin K, f v = 0 then f v else f v / ∑ _k : Fin K, f v, fun v => ?_, ?_⟩
  · dsimp only
    split_ifs
    · exact hf v
    · exact div_nonneg (hf v) (sum_nonneg fun _ _ => hf v)
  · funext k v
    rw [normalizeCols_apply]

theorem initial_even {m : Model K V C} {a : ℝ} {b : Vec V ℝ} (hm : FlatModel m a b) (X : Vec V ℕ) : EvenVP K b (initial X m.alpha) where
  gamma := ⟨a + numWords X / K, by
    have := hm.pos
    positivity, fun k => by simp only [initial, hm.alpha]⟩
  phi _ _ _ := rfl

/-- The loop keeps what its body keeps. -/
theorem loop_keeps {S : Type} {step : S → Option S} {gam : S → Vec K ℝ} {tol : ℝ} {Q : S → Prop}
    (h : ∀ s, Q s → ∃ s', step s = some s' ∧ Q s') (i : ℕ) : ∀ (old : Vec K ℝ) (s : S), Q s → ∃ s', loop step gam tol i old s = some s' ∧ Q s' := by
  induction i with
  | zero => exact fun _ s hs => ⟨s, rfl, hs⟩
  | succ i ih =>
    intro old s hs
    unfold loop
    split_ifs
    · exact ⟨s, rfl, hs⟩
    · obtain ⟨s1, e1, h1⟩ := h s hs
      rw [e1]
      exact ih _ s1 h1

theorem unsupervised_even (P : Prims) (cfg : Cfg) (X : Vec V ℕ) {m : Model K V C} {a : ℝ} {b : Vec V ℝ} (hm : FlatModel m a b)
    (hK : 0 < K) : ∃ s, unsupervisedRun P cfg X m = some s ∧ EvenVP K b s := by
  refine loop_keeps (fun s hs => ?_) _ _ _ (initial_even hm X)
  obtain ⟨g, hg, hgam⟩ := hs.gamma
  obtain ⟨p, hp⟩ := P.psi_some g hg
  have hbeta : m.beta = fun _ v => b v := by funext k v; exact hm.beta k v
  have e : unsupervisedPhi P m.beta s.gamma = some (normalizeCols fun (_ : Fin K) v => b v * P.exp p) := by
    rw [unsupervisedPhi, show s.gamma = fun _ => g from funext hgam, mapOpt_const hp, hbeta]
    rfl
  obtain ⟨q, hq, eq⟩ := normalizeCols_rows (K := K) (f := fun v => b v * P.exp p)
    (fun v => mul_nonneg (hm.nonneg v) (P.exp_pos p).le)
  refine ⟨_, by rw [unsupervisedStep, e]; rfl, ?_, fun k v hv => normalizeCols_even hK (fun _ _ => P.exp_pos p) k hv⟩
  dsimp only
  rw [eq]
  exact gamma_even hm hq

theorem multinomial_even (P : Prims) (cfg : Cfg) (ew : ℝ) (X : Vec V ℕ) {y : ℤ} {m : Model K V C} {a : ℝ} {b : Vec V ℝ}
    (hm : FlatModel m a b) (hK : 0 < K) {e : ℝ} (he : 0 < e) (hy : colAt m.eta y = some fun _ => e) :
    ∃ s, multinomialRun P cfg ew X y m = some s ∧ EvenVP K b s := by
  refine loop_keeps (fun s hs => ?_) _ _ _ (initial_even hm X)
  obtain ⟨g, hg, hgam⟩ := hs.gamma
  obtain ⟨p, hp⟩ := P.psi_some g hg
  have hs2 : 0 < ∑ k, s.gamma k := by
    rw [sum_congr rfl fun k _ => hgam k, sum_const, card_univ, Fintype.card_fin, nsmul_eq_mul]
    exact mul_pos (by exact_mod_cast hK) hg
  obtain ⟨d, hd⟩ := P.psi_some _ hs2
  have hl : logc e = some (Real.log e) := if_pos he
  have hbeta : m.beta = fun _ v => b v := by funext k v; exact hm.beta k v
  have e1 : multinomialPhi P y m.beta m.eta s.gamma ew =
      some (normalizeCols fun (_ : Fin K) v => b v * P.exp (ew * Real.log e + p - (d + 1))) := by
    rw [multinomialPhi, hd, show s.gamma = fun _ => g from funext hgam, mapOpt_const hp, hy, hbeta]
    simp only [Option.bind_some, mapOpt_const hl]
  obtain ⟨q, hq, eq⟩ := normalizeCols_rows (K := K) (f := fun v => b v * P.exp (ew * Real.log e + p - (d + 1)))
    (fun v => mul_nonneg (hm.nonneg v) (P.exp_pos _).le)
  refine ⟨_, by rw [multinomialStep, e1]; rfl, ?_, fun k v hv => normalizeCols_even hK (fun _ _ => P.exp_pos _) k hv⟩
  dsimp only
  rw [eq]
  exact gamma_even hm hq

/-! ### Training -/

/-- The topics know every word of the corpus. -/
def KnowsCorpus (corpus : ℕ → Doc V) (n : ℕ) (b : Vec V ℝ) : Prop := ∀ i < n, ∀ v, 0 < (corpus i).words v → 0 < b v

theorem counts_even {corpus : ℕ → Doc V} {n : ℕ} {phi : ℕ → Mat K V ℝ} (h : ∀ i < n, ∀ k v, 0 < (corpus i).words v → phi i k v = 1 / K)
    (k : Fin K) (v : Fin V) : ∑ i ∈ range n, scaled (phi i) (corpus i).words k v = 1 / K * occurrences corpus n v := by
  rw [occurrences, Nat.cast_sum, mul_sum]
  refine sum_congr rfl fun i hi => ?_
  unfold scaled
  rcases Nat.eq_zero_or_pos ((corpus i).words v) with h0 | h0
  · rw [h0, Nat.cast_zero, mul_zero, mul_zero]
  · rw [h i (mem_range.1 hi) k v h0]

theorem knows_occurrences {corpus : ℕ → Doc V} {n : ℕ} (ht : 0 < totalWords corpus n) :
    KnowsCorpus corpus n fun v => (occurrences corpus n v : ℝ) / totalWords corpus n := by
  intro i hi v hv
  have h1 : 0 < occurrences corpus n v :=
    lt_of_lt_of_le hv (single_le_sum (f := fun i => (corpus i).words v) (fun _ _ => Nat.zero_le _) (mem_range.2 hi))
  positivity

/-- The parameters of LDA with equal topics that know the corpus. -/
def FlatParams (corpus : ℕ → Doc V) (n : ℕ) (q : Params K V C) : Prop :=
  ∃ a b, (∀ k, q.alpha k = a) ∧ 0 < a ∧ q.beta.IsReal (fun _ v => b v) ∧ (∀ v, 0 ≤ b v) ∧ KnowsCorpus corpus n b

theorem lda_epoch (P : Prims) (cfg : EStep.Cfg) {corpus : ℕ → Doc V} {n : ℕ} (ht : 0 < totalWords corpus n) (hK : 0 < K)
    (any : VP K V) (next : T → T) {q : Params K V C} (hq : FlatParams corpus n q) (t : T) {s0 : Buf K V} (h0 : Fresh s0) :
    ∃ q' t' s', epoch (unsupervised corpus) next (libResults (C := C) (fun _ X _ m => unsupervisedRun P cfg X m) any corpus) n
      (q, t, some s0) = (q', t', some s') ∧ Fresh s' ∧ FlatParams corpus n q' ∧
      q'.beta.IsReal fun _ v => (occurrences corpus n v : ℝ) / totalWords corpus n := by
  obtain ⟨a, b, h1, h2, h3, h4, h5⟩ := hq
  simp only [epoch, seqEpoch]
  rw [u_fold _ _ h0]
  have hn : n ≠ 0 := by
    rintro rfl
    simp [totalWords] at ht
  have hphi : ∀ i < n, ∀ k v, 0 < (corpus i).words v →
      (libResults (C := C) (fun _ X _ m => unsupervisedRun P cfg X m) any corpus (trainParams (q, t, some s0)) i).phi k v = 1 / K := by
    intro i hi k v hv
    obtain ⟨s, e1, e2⟩ := unsupervised_even P cfg (corpus i).words (m := ⟨q.alpha, fun _ v => b v, q.eta⟩) (a := a) (b := b)
      ⟨h1, fun _ _ => rfl, h2, h4⟩ hK
    simp only [libResults, trainParams, realBeta_of h3, Option.bind_some, e1, Option.getD_some]
    exact e2.phi k v (h5 i hi v hv)
  have hb : Beta.IsReal (uBeta (some fun k v => ∑ i ∈ range n, scaled
      (libResults (C := C) (fun _ X _ m => unsupervisedRun P cfg X m) any corpus (trainParams (q, t, some s0)) i).phi
        (corpus i).words k v)) fun _ v => (occurrences corpus n v : ℝ) / totalWords corpus n := by
    have hK' : (0 : ℝ) < 1 / K := by positivity
    have ht' : (∑ v, (occurrences corpus n v : ℝ)) = totalWords corpus n := by rw [total_eq, Nat.cast_sum]
    unfold Beta.IsReal uBeta
    simp only [counts_even hphi, ← mul_sum, quot_scale hK', ht']
    congr 1
    funext k v
    rw [quot, if_pos (by positivity)]
  rw [if_neg hn]
  refine ⟨_, _, _, rfl, .inr rfl, ⟨a, _, h1, h2, hb, fun v => by positivity, knows_occurrences ht⟩, hb⟩

/-- **C145**: LDA.  If all topics are equal (for example because there is one), then after any number of iterations other than
zero every topic consists of the relative frequencies of the words in the corpus. -/
theorem C145_lda (P : Prims) (cfg : EStep.Cfg) {corpus : ℕ → Doc V} {n : ℕ} (ht : 0 < totalWords corpus n) (hK : 0 < K)
    (any : VP K V) (next : T → T) {q : Params K V C} (hq : FlatParams corpus n q) {t : T} {W : ℕ} {orders : List (ℕ → ℕ)}
    (ho : ∀ p ∈ orders, ((List.range n).map p).Perm (List.range n)) (hne : orders ≠ []) {m : Params K V C × T × Option (Buf K V)}
    {l : Left (VP K V)} {logs : List (List (Obs (VP K V)))}
    (h : Calls (fitCalls (unsupervised corpus) next (libResults (C := C) (fun _ X _ m => unsupervisedRun P cfg X m) any corpus)
      W n orders) .empty (q, t, some none) l m logs) :
    m.1.beta.IsReal fun _ v => (occurrences corpus n v : ℝ) / totalWords corpus n := by
  have h1 := (C08_unsupervised (K := K) (C := C) corpus (h := []) rfl).2 T next _ q t W n orders m l logs ho h
  obtain ⟨j, hj⟩ : ∃ j, orders.length = j + 1 := ⟨orders.length - 1, by
    have := List.length_pos_iff.2 hne
    omega⟩
  have h2 : ∀ j, ∃ q' t' s', (epoch (unsupervised corpus) next
      (libResults (C := C) (fun _ X _ m => unsupervisedRun P cfg X m) any corpus) n)^[j] (q, t, some none) = (q', t', some s') ∧
      Fresh s' ∧ FlatParams corpus n q' := by
    intro j
    induction j with
    | zero => exact ⟨q, t, none, rfl, .inl rfl, hq⟩
    | succ j ih =>
      obtain ⟨q', t', s', e, hs, hf⟩ := ih
      obtain ⟨q2, t2, s2, e2, hs2, hf2, -⟩ := lda_epoch P cfg ht hK any next hf t' hs
      exact ⟨q2, t2, s2, by rw [Function.iterate_succ_apply', e, e2], hs2, hf2⟩
  obtain ⟨q', t', s', e, hs, hf⟩ := h2 j
  obtain ⟨q2, t2, s2, e2, -, -, hb⟩ := lda_epoch P cfg ht hK any next hf t' hs
  rw [h1.1, hj, Function.iterate_succ_apply', e, e2]
  exact hb

/-! ### Training with classes -/

/-- How many words the documents of the class `c` have together. -/
def classWords (corpus : ℕ → Doc V) (n : ℕ) (c : Fin C) : ℕ :=
  ∑ i ∈ range n, if (c : ℤ) = (corpus i).cls then ∑ v, (corpus i).words v else 0

/-- Every document has one of the classes. -/
def ClassInRange (C : ℕ) (corpus : ℕ → Doc V) (n : ℕ) : Prop := ∀ i < n, ∃ c : Fin C, (corpus i).cls = c

theorem sum_classWords {corpus : ℕ → Doc V} {n : ℕ} (hl : ClassInRange C corpus n) :
    ∑ c : Fin C, classWords corpus n c = totalWords corpus n := by
  unfold classWords totalWords
  rw [sum_comm]
  refine sum_congr rfl fun i hi => ?_
  obtain ⟨c, hc⟩ := hl i (mem_range.1 hi)
  rw [hc, sum_eq_single c]
  · rw [if_pos rfl]
  · intro d _ hd
    rw [if_neg]
    intro h
    exact hd (Fin.ext (by exact_mod_cast h))
  · exact fun h => absurd (mem_univ c) h

/-- The share of the words that belong to documents of a class, each class having `x` words more. -/
noncomputable def wordShare (corpus : ℕ → Doc V) (n : ℕ) (x : ℝ) (c : Fin C) : ℝ :=
  (classWords corpus n c + x) / (totalWords corpus n + C * x)

/-- Parameters with equal topics that know the corpus. -/
structure FlatMult (corpus : ℕ → Doc V) (n : ℕ) (q : MultParams K V C) (b : Vec V ℝ) (e : Fin C → ℝ) : Prop where
  alpha : ∃ a, 0 < a ∧ ∀ k, q.1 k = a
  params : q.2 = some (fun _ v => b v, fun _ c => e c)
  nonneg : ∀ v, 0 ≤ b v
  knows : KnowsCorpus corpus n b
  classes : ∀ i < n, ∀ c : Fin C, (corpus i).cls = c → ∀ v, 0 < (corpus i).words v → 0 < e c

theorem mult_epoch {R : Type} {b : BatchStep (MultParams K V C) R (MultState K V C)} {mu : ℝ} {t : ℕ → R → Mat K V ℝ}
    {corpus : ℕ → Doc V} {n : ℕ} (hb : Adding b mu (fun i => (corpus i).cls) t) (hmu : 1 ≤ mu) (ht : 0 < totalWords corpus n)
    (hl : ClassInRange C corpus n) {g : ℝ} (hg : 0 < g) {next : T → T} {eval : MultParams K V C × T → ℕ → R} {q : MultParams K V C}
    {β : Vec V ℝ} {e : Fin C → ℝ} (hq : FlatMult corpus n q β e) {tt : T}
    (hev : ∀ i < n, ∀ k v, t i (eval (q, tt) i) k v = g * (corpus i).words v) {s0 : MultState K V C} (h0 : FreshMult s0) :
    ∃ q' s', epoch b next eval n (q, tt, some s0) = (q', next tt, some s') ∧ FreshMult s' ∧
      FlatMult corpus n q' (fun v => (occurrences corpus n v : ℝ) / totalWords corpus n) (wordShare corpus n ((mu - 1) / g)) := by
  have hn : n ≠ 0 := by
    rintro rfl
    simp [totalWords] at ht
  simp only [epoch, seqEpoch]
  obtain ⟨lp, e1⟩ := (m_fold hb (eval (trainParams (q, tt, some s0))) h0 q tt n).1 (by
    intro i hi
    obtain ⟨c, hc⟩ := hl i hi
    refine ⟨_, hq.params, ?_⟩
    dsimp only
    rw [hc, colAt, dif_pos ⟨by omega, by exact_mod_cast c.2⟩]
    rfl)
  rw [e1, if_neg hn]
  have s1 : ∀ k v, ∑ i ∈ range n, t i (eval (trainParams (q, tt, some s0)) i) k v = g * occurrences corpus n v := by
    intro k v
    rw [occurrences, Nat.cast_sum, mul_sum]
    exact sum_congr rfl fun i hi => hev i (mem_range.1 hi) k v
  have s2 : ∀ k (c : Fin C), (∑ i ∈ range n, if (c : ℤ) = (corpus i).cls then ∑ v, t i (eval (trainParams (q, tt, some s0)) i) k v
      else 0) = g * classWords corpus n c := by
    intro k c
    rw [classWords, Nat.cast_sum, mul_sum]
    refine sum_congr rfl fun i hi => ?_
    split_ifs
    · refine (sum_congr rfl fun v _ => hev i (mem_range.1 hi) k v).trans ?_
      rw [← mul_sum, Nat.cast_sum]
    · rw [Nat.cast_zero, mul_zero]
  have ht' : (0 : ℝ) < totalWords corpus n := by exact_mod_cast ht
  have hx : 0 ≤ (mu - 1) / g := div_nonneg (by linarith) hg.le
  have t1 : (∑ v, (occurrences corpus n v : ℝ)) = totalWords corpus n := by rw [total_eq, Nat.cast_sum]
  have t2 : (∑ c : Fin C, ((classWords corpus n c : ℝ) + (mu - 1) / g)) = totalWords corpus n + C * ((mu - 1) / g) := by
    rw [sum_add_distrib, ← Nat.cast_sum, sum_classWords hl, sum_const, card_univ, Fintype.card_fin, nsmul_eq_mul]
  have n1 : normalizeRows (fun (_ : Fin K) v => g * (occurrences corpus n v : ℝ)) =
      fun _ v => (occurrences corpus n v : ℝ) / totalWords corpus n := by
    rw [normalizeRows_scale (fun _ _ => Nat.cast_nonneg _) hg]
    funext k v
    rw [normalizeRows_apply, t1, if_neg ht'.ne']
  have n2 : normalizeRows (fun (_ : Fin K) (c : Fin C) => g * (classWords corpus n c : ℝ) + mu - 1) =
      fun _ c => wordShare corpus n ((mu - 1) / g) c := by
    have e2 : (fun (_ : Fin K) (c : Fin C) => g * (classWords corpus n c : ℝ) + mu - 1) =
        fun _ c => g * ((classWords corpus n c : ℝ) + (mu - 1) / g) := by
      funext k c
      rw [mul_add, mul_div_cancel₀ _ hg.ne']
      ring
    rw [e2, normalizeRows_scale (fun _ _ => by positivity) hg]
    funext k c
    rw [normalizeRows_apply, t2, if_neg (by positivity)]
    rfl
  simp only [trainBatch, Option.bind_some, hb.step, multM, Option.map_some, s1, s2, n1, n2]
  refine ⟨_, _, rfl, .inr rfl, hq.alpha, rfl, fun v => by positivity, knows_occurrences ht, ?_⟩
  intro i hi c hc v hv
  have h1 : 0 < classWords corpus n c := by
    refine lt_of_lt_of_le hv (le_trans ?_ (single_le_sum (f := fun i => if (c : ℤ) = (corpus i).cls then
      ∑ v, (corpus i).words v else 0) (fun _ _ => Nat.zero_le _) (mem_range.2 hi)))
    rw [if_pos hc.symm]
    exact single_le_sum (f := fun v => (corpus i).words v) (fun _ _ => Nat.zero_le _) (mem_univ v)
  unfold wordShare
  positivity

theorem mult_fit {R : Type} {b : BatchStep (MultParams K V C) R (MultState K V C)} {mu : ℝ} {t : ℕ → R → Mat K V ℝ}
    {corpus : ℕ → Doc V} {n : ℕ} (hb : Adding b mu (fun i => (corpus i).cls) t) (hi : FitIndependent b .init) (hmu : 1 ≤ mu)
    (ht : 0 < totalWords corpus n) (hl : ClassInRange C corpus n) {g : ℝ} (hg : 0 < g) {next : T → T}
    {eval : MultParams K V C × T → ℕ → R} {Q : Vec V ℝ → Prop}
    (hQ : Q fun v => (occurrences corpus n v : ℝ) / totalWords corpus n)
    (hev : ∀ q β e tt, Q β → FlatMult corpus n q β e → ∀ i < n, ∀ k v, t i (eval (q, tt) i) k v = g * (corpus i).words v)
    {q : MultParams K V C} {β : Vec V ℝ} {e : Fin C → ℝ} (hβ : Q β) (hq : FlatMult corpus n q β e) {tt : T} {W : ℕ}
    {orders : List (ℕ → ℕ)} (ho : ∀ p ∈ orders, ((List.range n).map p).Perm (List.range n)) (hne : orders ≠ [])
    {m : MultParams K V C × T × Option (MultState K V C)} {l : Left R} {logs : List (List (Obs R))}
    (h : Calls (fitCalls b next eval W n orders) .empty (q, tt, some .init) l m logs) :
    m.1.2 = some (fun _ v => (occurrences corpus n v : ℝ) / totalWords corpus n, fun _ c => wordShare corpus n ((mu - 1) / g) c) := by
  have h1 := hi T next eval q tt W n orders m l logs ho h
  obtain ⟨j, hj⟩ : ∃ j, orders.length = j + 1 := ⟨orders.length - 1, by
    have := List.length_pos_iff.2 hne
    omega⟩
  have h2 : ∀ j, ∃ q' t' s' β' e', (epoch b next eval n)^[j] (q, tt, some .init) = (q', t', some s') ∧
      FreshMult s' ∧ Q β' ∧ FlatMult corpus n q' β' e' := by
    intro j
    induction j with
    | zero => exact ⟨q, tt, .init, β, e, rfl, .inl rfl, hβ, hq⟩
    | succ j ih =>
      obtain ⟨q', t', s', β', e', e1, hs, hβ', hf⟩ := ih
      obtain ⟨q2, s2, e2, hs2, hf2⟩ := mult_epoch hb hmu ht hl hg (next := next) hf (hev q' β' e' t' hβ' hf) hs
      exact ⟨q2, _, s2, _, _, by rw [Function.iterate_succ_apply', e1, e2], hs2, hQ, hf2⟩
  obtain ⟨q', t', s', β', e', e1, hs, hβ', hf⟩ := h2 j
  obtain ⟨q2, s2, e2, -, hf2⟩ := mult_epoch hb hmu ht hl hg (next := next) hf (hev q' β' e' t' hβ' hf) hs
  rw [h1.1, hj, Function.iterate_succ_apply', e1, e2]
  exact hf2.params

theorem colAt_class {e : Fin C → ℝ} (c : Fin C) : colAt (fun (_ : Fin K) c => e c) (c : ℤ) = some fun _ => e c := by
  rw [colAt, dif_pos ⟨by omega, by exact_mod_cast c.2⟩]
  rfl

/-- **C145**: the multinomial model.  If all topics are equal (for example because there is one), then after any number of
iterations other than zero every topic consists of the relative frequencies of the words, and the class parameters of every topic
are the shares of the classes in the words, smoothed by `K * (mu - 1)` words. -/
theorem C145_multinomial (P : Prims) (cfg : EStep.Cfg) (ew : ℝ) {mu : ℝ} (hmu : 1 ≤ mu) {corpus : ℕ → Doc V} {n : ℕ}
    (ht : 0 < totalWords corpus n) (hl : ClassInRange C corpus n) (hK : 0 < K) (any : VP K V) (next : T → T)
    {q : MultParams K V C} {β : Vec V ℝ} {e : Fin C → ℝ} (hq : FlatMult corpus n q β e) {t : T} {W : ℕ} {orders : List (ℕ → ℕ)}
    (ho : ∀ p ∈ orders, ((List.range n).map p).Perm (List.range n)) (hne : orders ≠ [])
    {m : MultParams K V C × T × Option (MultState K V C)} {l : Left (VP K V)} {logs : List (List (Obs (VP K V)))}
    (h : Calls (fitCalls (multinomial mu corpus) next
      (libResultsMult (C := C) (fun _ X y m => multinomialRun P cfg ew X y m) any corpus) W n orders) .empty
      (q, t, some .init) l m logs) :
    m.1.2 = some (fun _ v => (occurrences corpus n v : ℝ) / totalWords corpus n,
      fun _ c => wordShare corpus n (K * (mu - 1)) c) := by
  have hK' : (0 : ℝ) < 1 / K := by positivity
  have := mult_fit (t := fun i r => scaled r.phi (corpus i).words) (g := 1 / K) (Q := fun _ => True)
    ⟨fun _ _ _ _ => rfl, fun _ _ => rfl⟩ (C08_multinomial mu corpus (h := []) rfl).2 hmu ht hl hK' trivial (by
      intro q β e tt _ hq i hi k v
      unfold scaled
      rcases Nat.eq_zero_or_pos ((corpus i).words v) with h0 | h0
      · rw [h0, Nat.cast_zero, mul_zero, mul_zero]
      · obtain ⟨c, hc⟩ := hl i hi
        obtain ⟨a, ha, halpha⟩ := hq.alpha
        obtain ⟨s, e1, e2⟩ := multinomial_even P cfg ew (corpus i).words (y := (corpus i).cls)
          (m := ⟨q.1, fun _ v => β v, fun _ c => e c⟩) (a := a) (b := β) ⟨halpha, fun _ _ => rfl, ha, hq.nonneg⟩ hK
          (hq.classes i hi c hc v h0) (by rw [hc]; exact colAt_class c)
        simp only [libResultsMult, hq.params, Option.bind_some, e1, Option.getD_some]
        rw [e2.phi k v (hq.knows i hi v h0)]) trivial hq ho hne h
  rw [this, div_div_eq_mul_div, div_one, mul_comm (mu - 1)]

theorem correspondence_even (P : Prims) (cfg : Cfg) (X : Vec V ℕ) {y : ℤ} {m : Model K V C} {a : ℝ} {b : Vec V ℝ}
    (hm : FlatModel m a b) (hb : ∀ v, 0 < b v) (hK : 0 < K) {e : ℝ} (he : 0 < e) (hy : colAt m.eta y = some fun _ => e) :
    ∃ s, correspondenceRun P cfg X y m = some s ∧ EvenVP K b s.1 ∧ ∀ v, s.2 v = 1 / V := by
  refine loop_keeps (Q := fun s : VP K V × Vec V ℝ => EvenVP K b s.1 ∧ ∀ v, s.2 v = 1 / V) (fun s hs => ?_) _ _ _
    ⟨initial_even hm X, fun _ => rfl⟩
  obtain ⟨⟨⟨g, hg, hgam⟩, -⟩, htau⟩ := hs
  obtain ⟨p, hp⟩ := P.psi_some g hg
  have hl : logc e = some (Real.log e) := if_pos he
  have hbeta : m.beta = fun _ v => b v := by funext k v; exact hm.beta k v
  have e1 : correspondencePhi P y m.beta m.eta s.1.gamma s.2 =
      some (normalizeCols fun (_ : Fin K) v => b v * (P.exp p * P.exp (Real.log e * s.2 v))) := by
    rw [correspondencePhi, show s.1.gamma = fun _ => g from funext hgam, mapOpt_const hp, hy, hbeta]
    simp only [Option.bind_some, mapOpt_const hl, mul_assoc]
  have hw : ∀ v, 0 < P.exp p * P.exp (Real.log e * s.2 v) := fun v => mul_pos (P.exp_pos _) (P.exp_pos _)
  have e2 : normalizeCols (fun (_ : Fin K) v => b v * (P.exp p * P.exp (Real.log e * s.2 v))) = fun _ _ => 1 / (K : ℝ) := by
    funext k v
    exact normalizeCols_even hK (fun v _ => hw v) k (hb v)
  have e3 : correspondenceTau P y m.eta (fun (_ : Fin K) (_ : Fin V) => 1 / (K : ℝ)) = some fun _ => 1 / (V : ℝ) := by
    rw [correspondenceTau, hy]
    simp only [Option.bind_some, mapOpt_const hl, Option.some.injEq]
    funext v
    have h1 := P.exp_pos (∑ _k : Fin K, 1 / (K : ℝ) * Real.log e)
    have hV : (0 : ℝ) < V := by exact_mod_cast v.pos
    rw [normalizeCols_apply, sum_const, card_univ, Fintype.card_fin, nsmul_eq_mul, if_neg (mul_pos hV h1).ne',
      div_mul_cancel_right₀ h1.ne', one_div]
  refine ⟨_, by rw [correspondenceStep, e1, Option.bind_some, e2, e3]; rfl, ⟨?_, fun _ _ _ => rfl⟩,
    fun _ => rfl⟩
  exact gamma_even hm (p := fun _ => 1 / (K : ℝ)) fun _ => by positivity

/-- **C145**: the correspondence model, if every word of the vocabulary occurs.  (The weights `tau` of the words of a document are
then all `1 / V`; otherwise the words that no topic knows change them, and with them the wordShare of the document.) -/
theorem C145_correspondence_partial (P : Prims) (cfg : EStep.Cfg) {mu : ℝ} (hmu : 1 ≤ mu) {corpus : ℕ → Doc V} {n : ℕ}
    (hV : 0 < V) (hall : ∀ v, 0 < occurrences corpus n v) (hl : ClassInRange C corpus n) (hK : 0 < K) (any : VP K V × Vec V ℝ)
    (next : T → T) {q : MultParams K V C} {β : Vec V ℝ} (hβ : ∀ v, 0 < β v) {e : Fin C → ℝ} (hq : FlatMult corpus n q β e) {t : T}
    {W : ℕ} {orders : List (ℕ → ℕ)} (ho : ∀ p ∈ orders, ((List.range n).map p).Perm (List.range n)) (hne : orders ≠ [])
    {m : MultParams K V C × T × Option (MultState K V C)} {l : Left (VP K V × Vec V ℝ)}
    {logs : List (List (Obs (VP K V × Vec V ℝ)))}
    (h : Calls (fitCalls (correspondence mu corpus) next
      (libResultsMult (C := C) (fun _ X y m => correspondenceRun P cfg X y m) any corpus) W n orders) .empty
      (q, t, some .init) l m logs) :
    m.1.2 = some (fun _ v => (occurrences corpus n v : ℝ) / totalWords corpus n,
      fun _ c => wordShare corpus n (K * V * (mu - 1)) c) := by
  have hK' : (0 : ℝ) < 1 / (K * V) := by positivity
  have ht : 0 < totalWords corpus n := by
    rw [total_eq]
    exact sum_pos (fun v _ => hall v) ⟨⟨0, hV⟩, mem_univ _⟩
  have := mult_fit (t := fun i r k v => r.1.phi k v * ((corpus i).words v * r.2 v)) (g := 1 / (K * V)) (Q := fun β => ∀ v, 0 < β v)
    ⟨fun _ _ _ _ => rfl, fun _ _ => rfl⟩ (C08_correspondence mu corpus (h := []) rfl).2 hmu ht hl hK'
    (fun v => div_pos (by exact_mod_cast hall v) (by exact_mod_cast ht)) (by
      intro q β e tt hβ hq i hi k v
      rcases Nat.eq_zero_or_pos ((corpus i).words v) with h0 | h0
      · rw [h0, Nat.cast_zero, zero_mul, mul_zero, mul_zero]
      · obtain ⟨c, hc⟩ := hl i hi
        obtain ⟨a, ha, halpha⟩ := hq.alpha
        obtain ⟨s, e1, e2, e3⟩ := correspondence_even P cfg (corpus i).words (y := (corpus i).cls)
          (m := ⟨q.1, fun _ v => β v, fun _ c => e c⟩) (a := a) (b := β) ⟨halpha, fun _ _ => rfl, ha, hq.nonneg⟩ hβ hK
          (hq.classes i hi c hc v h0) (by rw [hc]; exact colAt_class c)
        simp only [libResultsMult, hq.params, Option.bind_some, e1, Option.getD_some]
        rw [e2.phi k v (hβ v), e3 v]
        ring) hβ hq ho hne h
  rw [this, div_div_eq_mul_div, div_one, mul_comm (mu - 1)]

/-! ### A word that does not occur -/

/-- A document of the first class with the first word twice, and one of the second class with the second word. -/
def gapCorpus (i : ℕ) : Doc 3 := if i = 0 then ⟨![2, 0, 0], 0⟩ else ⟨![0, 1, 0], 1⟩

/-- One topic, which knows the first two of three words. -/
noncomputable def gapParams : MultParams 1 3 2 := (fun _ => 1, some (fun _ v => ![1 / 2, 1 / 2, 0] v, fun _ c => ![2 / 3, 1 / 3] c))

theorem gapParams_flat : FlatMult gapCorpus 2 gapParams ![1 / 2, 1 / 2, 0] ![2 / 3, 1 / 3] where
  alpha := ⟨1, one_pos, fun _ => rfl⟩
  params := rfl
  nonneg v := by fin_cases v <;> norm_num
  knows i hi v := by
    interval_cases i <;> fin_cases v <;> simp [gapCorpus]
  classes i hi c hc v hv := by fin_cases c <;> norm_num

theorem gap_run (psi : ℝ → ℝ) {X : Vec 3 ℕ} {y : ℤ} {e : ℝ} (he : 0 < e) {eta : Mat 1 2 ℝ} (hy : colAt eta y = some fun _ => e) :
    ∃ s, correspondenceRun (exactPrims psi) ⟨1, 0, 0⟩ X y ⟨fun _ => 1, fun _ v => ![1 / 2, 1 / 2, 0] v, eta⟩ = some s ∧
      (∀ v, s.1.phi 0 v = ![1, 1, 0] v) ∧ ∀ v, s.2 v = ![e, e, 1] v / (2 * e + 1) := by
  set m : Model 1 3 2 := ⟨fun _ => 1, fun _ v => ![1 / 2, 1 / 2, 0] v, eta⟩ with hm
  set s0 := initial (K := 1) X m.alpha with hs0
  have hl : logc e = some (Real.log e) := if_pos he
  have e1 : correspondencePhi (exactPrims psi) y m.beta m.eta s0.gamma (fun _ => 1 / (3 : ℕ)) = some fun _ v => ![1, 1, 0] v := by
    have hpsi : mapOpt (exactPrims psi).psi s0.gamma = some fun k => psi (s0.gamma k) := mapOpt_eq.2 fun _ => rfl
    rw [correspondencePhi, hpsi]
    simp only [Option.bind_some, hm, hy, mapOpt_const hl, Option.some.injEq]
    have hx : ∀ x, (exactPrims psi).exp x ≠ 0 := fun x => ((exactPrims psi).exp_pos x).ne'
    funext k v
    obtain rfl : k = 0 := Subsingleton.elim _ _
    rw [normalizeCols_apply]
    fin_cases v <;> simp [hx]
  have e2 : correspondenceTau (exactPrims psi) y m.eta (fun (_ : Fin 1) v => ![1, 1, 0] v) =
      some fun v => ![e, e, 1] v / (2 * e + 1) := by
    rw [correspondenceTau, hm, hy]
    simp only [Option.bind_some, mapOpt_const hl, Option.some.injEq]
    have h2 : e + e + 1 ≠ 0 := by positivity
    have h3 : 2 * e + 1 = e + e + 1 := by ring
    funext v
    rw [normalizeCols_apply, Fin.sum_univ_three]
    simp only [exactPrims, univ_unique, sum_singleton]
    fin_cases v <;> simp [Real.exp_log he, h2, h3]
  refine ⟨(⟨fun _ v => ![1, 1, 0] v, computeGamma X m.alpha fun _ v => ![1, 1, 0] v⟩, fun v => ![e, e, 1] v / (2 * e + 1)), ?_,
    fun _ => rfl, fun _ => rfl⟩
  rw [correspondenceRun, loop, if_neg, correspondenceStep, e1, Option.bind_some, e2]
  · rfl
  · simp only [converged, decide_eq_true_eq, not_and, not_lt]
    intro _
    positivity

/-- **C145**, what does not hold for the correspondence model: the words that occur here do so two and one
times, but one iteration makes the first of them more probable than two thirds, because the word that does not occur takes a part
of the weights `tau` that differs between the classes. -/
theorem C145_gap (psi : ℝ → ℝ) (any : VP 1 3 × Vec 3 ℝ) {W : ℕ} {m : MultParams 1 3 2 × Unit × Option (MultState 1 3 2)}
    {l : Left (VP 1 3 × Vec 3 ℝ)} {logs : List (List (Obs (VP 1 3 × Vec 3 ℝ)))}
    (h : Calls (fitCalls (correspondence 1 gapCorpus) id
      (libResultsMult (C := 2) (fun _ X y m => correspondenceRun (exactPrims psi) ⟨1, 0, 0⟩ X y m) any gapCorpus) W 2 [id]) .empty
      (gapParams, (), some .init) l m logs) :
    ∃ p, m.1.2 = some p ∧ p.1 0 0 = 20 / 27 ∧ (occurrences gapCorpus 2 0 : ℝ) / totalWords gapCorpus 2 = 2 / 3 := by
  have h1 := ((C08_correspondence 1 gapCorpus (h := []) rfl).2 Unit id _ gapParams () W 2 [id] m l logs (by simp) h).1
  have hb : Adding (correspondence (K := 1) (C := 2) 1 gapCorpus) 1 (fun i => (gapCorpus i).cls)
      (fun i r k v => r.1.phi k v * ((gapCorpus i).words v * r.2 v)) := ⟨fun _ _ _ _ => rfl, fun _ _ => rfl⟩
  set ev := libResultsMult (C := 2) (fun (_ : Unit) X y m => correspondenceRun (exactPrims psi) ⟨1, 0, 0⟩ X y m) any gapCorpus with hev
  obtain ⟨lp, e1⟩ := (m_fold hb (ev (gapParams, ())) (s0 := .init) (.inl rfl) gapParams () 2).1 (by
    intro i hi
    refine ⟨_, rfl, ?_⟩
    interval_cases i <;> simp [gapCorpus, colAt])
  obtain ⟨a0, f0, g0, k0⟩ := gap_run psi (X := ![2, 0, 0]) (y := 0) (e := 2 / 3) (eta := fun _ c => ![2 / 3, 1 / 3] c) (by norm_num)
    (colAt_class (e := ![2 / 3, 1 / 3]) 0)
  obtain ⟨a1, f1, g1, k1⟩ := gap_run psi (X := ![0, 1, 0]) (y := 1) (e := 1 / 3) (eta := fun _ c => ![2 / 3, 1 / 3] c) (by norm_num)
    (colAt_class (e := ![2 / 3, 1 / 3]) 1)
  have r0 : ev (gapParams, ()) 0 = a0 := by
    simp only [hev, libResultsMult, gapParams, gapCorpus, Option.bind_some, if_pos]
    rw [f0]
    rfl
  have r1 : ev (gapParams, ()) 1 = a1 := by
    simp only [hev, libResultsMult, gapParams, gapCorpus, Option.bind_some, one_ne_zero, if_false]
    rw [f1]
    rfl
  rw [List.length_singleton, Function.iterate_one] at h1
  simp only [epoch, seqEpoch, trainParams] at h1
  rw [e1, if_neg (by omega)] at h1
  simp only [trainBatch, Option.bind_some, hb.step, multM, Option.map_some] at h1
  refine ⟨_, by rw [h1], ?_, ?_⟩
  · dsimp only
    rw [normalizeRows_apply]
    simp [sum_range_succ, r0, r1, g0, g1, k0, k1, gapCorpus, Fin.sum_univ_three]
    norm_num
  · simp [occurrences, totalWords, sum_range_succ, gapCorpus, Fin.sum_univ_three]

/-- The hypotheses of `C145_multinomial` are met by this corpus and model, and there are runs. -/
example (P : Prims) (cfg : EStep.Cfg) (any : VP 1 3) : ∃ (m : MultParams 1 3 2 × Unit × Option (MultState 1 3 2))
    (logs : List (List (Obs (VP 1 3)))),
    Calls (fitCalls (multinomial 2 gapCorpus) id (libResultsMult (C := 2) (fun _ X y m => multinomialRun P cfg 1 X y m) any gapCorpus)
      3 2 [id, id, id]) .empty (gapParams, (), some .init) .empty m logs ∧
    ∃ p, m.1.2 = some p ∧ p.1 0 0 = 2 / 3 ∧ p.2 0 0 = 3 / 5 := by
  obtain ⟨m, logs, h⟩ := calls_exist (multinomial 2 gapCorpus) id
    (libResultsMult (C := 2) (fun (_ : Unit) X y m => multinomialRun P cfg 1 X y m) any gapCorpus) (W := 3) (by omega) 2 [id, id, id]
    (gapParams, (), some .init)
  refine ⟨m, logs, h, _, C145_multinomial P cfg 1 (by norm_num) (by decide) (fun i hi => ?_) one_pos any id gapParams_flat
    (by simp) (by simp) h, ?_, ?_⟩
  · interval_cases i
    · exact ⟨0, rfl⟩
    · exact ⟨1, rfl⟩
  · simp [occurrences, totalWords, sum_range_succ, gapCorpus, Fin.sum_univ_three]
  · simp [wordShare, classWords, totalWords, sum_range_succ, gapCorpus, Fin.sum_univ_three]
    norm_num

/-- The hypotheses of `C145_lda` are met by this corpus and three equal topics. -/
example (eta : Mat 3 1 ℝ) : 0 < totalWords gapCorpus 2 ∧
    FlatParams (K := 3) gapCorpus 2 ⟨fun _ => 1 / 10, .matrix fun _ v => .fin (![1 / 2, 1 / 4, 1 / 4] v), eta⟩ := by
  refine ⟨by decide, 1 / 10, ![1 / 2, 1 / 4, 1 / 4], fun _ => rfl, by norm_num, rfl, fun v => ?_, fun i _ v _ => ?_⟩
  · fin_cases v <;> norm_num
  · fin_cases v <;> norm_num

/-- The hypotheses of `C145_correspondence_partial` are met if there is a document with all words. -/
example : (∀ v, 0 < occurrences (fun _ => (⟨![1, 2, 3], 1⟩ : Doc 3)) 1 v) ∧ ClassInRange 2 (fun _ => (⟨![1, 2, 3], 1⟩ : Doc 3)) 1 ∧
    FlatMult (fun _ => (⟨![1, 2, 3], 1⟩ : Doc 3)) 1 ((fun _ => 1, some (fun _ _ => 1 / 3, fun _ _ => 1 / 2)) : MultParams 2 3 2)
      (fun _ => 1 / 3) (fun _ => 1 / 2) :=
  ⟨by decide, fun _ _ => ⟨1, rfl⟩, ⟨⟨1, one_pos, fun _ => rfl⟩, rfl, fun _ => by norm_num, fun _ _ _ _ => by norm_num,
    fun _ _ _ _ _ _ => by norm_num⟩⟩

end Verif.Train
