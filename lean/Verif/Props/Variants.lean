import Verif.Props.Frequencies

/-! Property C147: words that the topics do not tell apart. -/
namespace Verif.EStep

open MathUtils Finset

variable {K V V' C : ℕ} {P : Prims} {cfg : Cfg} {X : Vec V ℕ} {X' : Vec V' ℕ} {m : Model K V C} {m' : Model K V' C}

/-! ### Specification -/

/-- In the larger vocabulary the word `n'` of the smaller one has variants, the words `n` with `σ n = n'`: the document `X'` counts
their occurrences in `X` together, and the probabilities of a variant are those of the word, up to a factor `c n` (how usual the
variant is) that is the same for all topics. -/
structure Variants (X : Vec V ℕ) (m : Model K V C) (X' : Vec V' ℕ) (m' : Model K V' C) (σ : Fin V → Fin V') (c : Vec V ℝ) : Prop where
  count : ∀ n', X' n' = ∑ n with σ n = n', X n
  beta : ∀ k n, X n ≠ 0 → m.beta k n = c n * m'.beta k (σ n)
  pos : ∀ n, X n ≠ 0 → 0 < c n
  nonneg : ∀ k n', 0 ≤ m'.beta k n'
  alpha : m'.alpha = m.alpha
  eta : m'.eta = m.eta

section
variable {σ : Fin V → Fin V'} {c : Vec V ℝ} (hw : Variants X m X' m' σ c)
include hw

theorem Variants.numWords : numWords X' = numWords X := by
  unfold EStep.numWords
  simp only [hw.count]
  exact Finset.sum_fiberwise _ _ _

/-- The occurrences of a word, weighted with anything that is the same for its variants. -/
theorem Variants.weighted {f : Fin V → ℝ} {f' : Fin V' → ℝ} (h : ∀ n, X n ≠ 0 → f' (σ n) = f n) :
    ∑ n, (X n : ℝ) * f n = ∑ n', (X' n' : ℝ) * f' n' := by
  rw [← Finset.sum_fiberwise univ σ]
  refine sum_congr rfl fun n' _ => ?_
  rw [hw.count, Nat.cast_sum, sum_mul]
  refine sum_congr rfl fun n hn => ?_
  rw [← (mem_filter.1 hn).2]
  by_cases h0 : X n = 0
  · simp [h0]
  · rw [h n h0]

theorem Variants.computeGamma {phi : Mat K V ℝ} {phi' : Mat K V' ℝ} (h : ∀ k n, X n ≠ 0 → phi' k (σ n) = phi k n) :
    computeGamma X m.alpha phi = computeGamma X' m'.alpha phi' := by
  funext k
  rw [computeGamma_apply, computeGamma_apply, hw.alpha, hw.weighted (h k)]

theorem Variants.initial : Agree X σ (initial X m.alpha) (initial X' m'.alpha) := by
  refine ⟨?_, fun k n _ => rfl⟩
  funext k
  simp only [EStep.initial]
  rw [hw.alpha, hw.numWords]

/-- The usualness of a variant cancels. -/
theorem Variants.update {e : Vec K ℝ} (he : ∀ k, 0 < e k) :
    Agree X σ ⟨normalizeCols fun k n => m.beta k n * e k, EStep.computeGamma X m.alpha (normalizeCols fun k n => m.beta k n * e k)⟩
      ⟨normalizeCols fun k n => m'.beta k n * e k, EStep.computeGamma X' m'.alpha (normalizeCols fun k n => m'.beta k n * e k)⟩ := by
  have : ∀ k n, X n ≠ 0 → normalizeCols (fun k n => m'.beta k n * e k) k (σ n) = normalizeCols (fun k n => m.beta k n * e k) k n := by
    intro k n hn
    have hc := hw.pos n hn
    rw [normalizeCols_apply, normalizeCols_apply]
    have e1 : ∀ k, m.beta k n * e k = c n * (m'.beta k (σ n) * e k) := fun k => by rw [hw.beta k n hn]; ring
    simp only [e1, ← mul_sum]
    by_cases h0 : ∑ k, m'.beta k (σ n) * e k = 0
    · have h1 := (sum_eq_zero_iff_of_nonneg fun k _ => mul_nonneg (hw.nonneg k (σ n)) (he k).le).1 h0 k (mem_univ k)
      simp [h0, h1]
    · have : c n * ∑ k, m'.beta k (σ n) * e k ≠ 0 := mul_ne_zero hc.ne' h0
      simp only [h0, this, ne_eq, not_false_eq_true, if_true, if_false]
      exact (mul_div_mul_left _ _ hc.ne').symm
  exact ⟨hw.computeGamma this, this⟩

theorem Variants.unsupervisedStep {s : VP K V} {s' : VP K V'} (h : Agree X σ s s') :
    Option.Rel (Agree X σ) (unsupervisedStep P X m s) (unsupervisedStep P X' m' s') := by
  unfold EStep.unsupervisedStep unsupervisedPhi
  rw [← h.1]
  cases mapOpt P.psi s.gamma with
  | none => exact .none
  | some psi => exact .some (hw.update fun k => P.exp_pos _)

theorem Variants.softmax {phi : Mat K V ℝ} {phi' : Mat K V' ℝ} (h : ∀ k n, X n ≠ 0 → phi' k (σ n) = phi k n) :
    softmaxEtaZ P (ratio X) m.eta phi = softmaxEtaZ P (ratio X') m'.eta phi' := by
  have : sumColsScaled phi (ratio X) (fun _ => 0) = sumColsScaled phi' (ratio X') (fun _ => 0) := by
    funext k
    rw [sumColsScaled_apply, sumColsScaled_apply]
    congr 1
    unfold ratio
    rw [hw.numWords]
    simp only [div_mul_eq_mul_div, ← sum_div]
    rw [hw.weighted (h k)]
  unfold softmaxEtaZ
  rw [this, hw.eta]

theorem Variants.fastStep {w : ℝ} {y : ℤ} {s : VP K V} {s' : VP K V'} (h : Agree X σ s s') :
    Option.Rel (Agree X σ) (fastStep P w X y m s) (fastStep P w X' y m' s') := by
  unfold EStep.fastStep approximatePhi
  rw [hw.numWords, ← h.1, ← hw.softmax h.2, hw.eta]
  by_cases hN : EStep.numWords X = 0
  · rw [if_pos hN, if_pos hN]
    exact .some ⟨hw.computeGamma h.2, h.2⟩
  · rw [if_neg hN, if_neg hN]
    cases mapOpt P.psi s.gamma with
    | none => exact .none
    | some psi =>
      cases softmaxEtaZ P (ratio X) m.eta s.phi with
      | none => exact .none
      | some sm =>
        cases etaScaled m.eta with
        | none => exact .none
        | some es =>
          simp only [Option.bind_some]
          cases colAt es y with
          | none => exact .none
          | some ey => exact .some (hw.update fun k => P.exp_pos _)

theorem Variants.multinomialStep {ew : ℝ} {y : ℤ} {s : VP K V} {s' : VP K V'} (h : Agree X σ s s') :
    Option.Rel (Agree X σ) (multinomialStep P ew X y m s) (multinomialStep P ew X' y m' s') := by
  unfold EStep.multinomialStep multinomialPhi
  rw [← h.1, hw.eta]
  cases mapOpt P.psi s.gamma with
  | none => exact .none
  | some psi =>
    cases P.psi (∑ k, s.gamma k) with
    | none => exact .none
    | some d =>
      cases colAt m.eta y with
      | none => exact .none
      | some ey =>
        simp only [Option.bind_some]
        cases mapOpt logc ey with
        | none => exact .none
        | some le => exact .some (hw.update fun k => P.exp_pos _)

/-- **C147**: the unsupervised step.  The topics of a document, and of each of its words, do not depend on which variants of its words
it has, nor on how usual they are. -/
theorem C147_unsupervised {draw draw' : ℝ} {s : VP K V} {s' : VP K V'} {r r' : Report}
    (h : unsupervised P cfg draw X m = some (s, r)) (h' : unsupervised P cfg draw' X' m' = some (s', r')) :
    s.gamma = s'.gamma ∧ ∀ k n, X n ≠ 0 → s.phi k n = s'.phi k (σ n) := by
  obtain ⟨h1, h2⟩ := rel_agree (loop_sim (Agree X σ) (fun _ _ h => h.1) (fun _ _ h => hw.unsupervisedStep h) _ _ _ _ hw.initial)
    (run_of_unsupervised h) (run_of_unsupervised h')
  exact ⟨h1, fun k n hn => (h2 k n hn).symm⟩

/-- **C147**: the fast supervised step. -/
theorem C147_fast {w draw draw' : ℝ} {y : ℤ} {s : VP K V} {s' : VP K V'} {r r' : Report}
    (h : fast P cfg w draw X y m = some (s, r)) (h' : fast P cfg w draw' X' y m' = some (s', r')) :
    s.gamma = s'.gamma ∧ ∀ k n, X n ≠ 0 → s.phi k n = s'.phi k (σ n) := by
  obtain ⟨h1, h2⟩ := rel_agree (loop_sim (Agree X σ) (fun _ _ h => h.1) (fun _ _ h => hw.fastStep h) _ _ _ _ hw.initial)
    (run_of_fast h) (run_of_fast h')
  exact ⟨h1, fun k n hn => (h2 k n hn).symm⟩

/-- **C147**: the multinomial step. -/
theorem C147_multinomial {ew mu prior draw draw' : ℝ} {N : ℕ} {y : ℤ} {s : VP K V} {s' : VP K V'} {r r' : Report}
    (h : multinomial P cfg ew mu prior N draw X y m = some (s, r))
    (h' : multinomial P cfg ew mu prior N draw' X' y m' = some (s', r')) :
    s.gamma = s'.gamma ∧ ∀ k n, X n ≠ 0 → s.phi k n = s'.phi k (σ n) := by
  obtain ⟨h1, h2⟩ := rel_agree (loop_sim (Agree X σ) (fun _ _ h => h.1) (fun _ _ h => hw.multinomialStep h) _ _ _ _ hw.initial)
    (run_of_multinomial h) (run_of_multinomial h')
  exact ⟨h1, fun k n hn => (h2 k n hn).symm⟩

end

/-- The hypotheses can be met: the first of two words has two variants, one twice as usual as the other. -/
theorem demo_variants {alpha : Vec K ℝ} {beta' : Mat K 2 ℝ} {eta : Mat K C ℝ} (hb : ∀ k n, 0 ≤ beta' k n) :
    Variants ![2, 1, 4] ⟨alpha, fun k => ![1 / 3 * beta' k 0, 2 / 3 * beta' k 0, 1 * beta' k 1], eta⟩ ![3, 4] ⟨alpha, beta', eta⟩
      ![0, 0, 1] ![1 / 3, 2 / 3, 1] where
  count := by decide
  beta := fun k n _ => by fin_cases n <;> rfl
  pos := fun n _ => by fin_cases n <;> norm_num
  nonneg := hb
  alpha := rfl
  eta := rfl

/-! ### The other two steps -/

/-- A word that occurs twice, or two variants of it that occur once each. -/
theorem corr_variants : Variants (fun _ => 1) (corr 2) (fun _ => 2) (corr 1) (fun _ => 0) (fun _ => 1) where
  count := fun n' => by
    have : n' = 0 := Subsingleton.elim _ _
    subst this
    simp
  beta := fun k n _ => by simp [corr]
  pos := fun _ _ => one_pos
  nonneg := fun k n => (corr_valid 1).beta_nonneg k n
  alpha := rfl
  eta := rfl

/-- **C147** is false for the correspondence step: it divides the class among the words of the vocabulary. -/
theorem C147_correspondence_depends (P : Prims) (hP : P.exp (-2) ≠ P.exp (-1)) :
    ∃ s s' r r', correspondence P ⟨1, 0, 0⟩ 2 1 0 (fun _ => 1) 0 (corr 2) = some (s, r) ∧
      correspondence P ⟨1, 0, 0⟩ 2 1 0 (fun _ => 2) 0 (corr 1) = some (s', r') ∧ s.1.gamma 0 ≠ s'.1.gamma 0 := by
  obtain ⟨s, r, h⟩ := corr_defined P 2 (fun _ => 1)
  obtain ⟨s', r', h'⟩ := corr_defined P 1 (fun _ => 2)
  refine ⟨s, s', r, r', h, h', fun hc => hP ?_⟩
  rw [(C37_correspondence (y := 0) (corr_valid 2) (by norm_num) h 0).1,
    (C37_correspondence (y := 0) (corr_valid 1) (by norm_num) h' 0).1] at hc
  simp only [Fin.sum_univ_two, Finset.univ_unique, Finset.sum_singleton, corr, Nat.cast_one, one_mul, Nat.cast_ofNat,
    Fin.default_eq_zero] at hc
  have e1 := corr_phi P h 0
  have e2 := corr_phi P h 1
  have e3 := corr_phi P h' 0
  norm_num at e1 e2 e3
  have p1 := P.exp_pos (-1)
  have p2 := P.exp_pos (-2)
  have q : s.1.phi 0 0 = s.1.phi 0 1 := mul_right_cancel₀ (by linarith) (e1.trans e2.symm)
  have q2 : s'.1.phi 0 0 = s.1.phi 0 0 := by linarith
  rw [q2] at e3
  have hne : s.1.phi 0 0 ≠ 0 := by
    rintro h0
    rw [h0, zero_mul] at e1
    exact absurd e1 (by norm_num)
  have := mul_left_cancel₀ hne (e3.trans e1.symm)
  linarith

/-- The two words of `orderModel`, the second with two variants, one before and one after the first word. -/
noncomputable def variantModel : Model 2 3 1 where
  alpha := fun _ => 1 / 2
  beta := fun k => ![orderModel.beta k 1, orderModel.beta k 0, orderModel.beta k 1]
  eta := fun _ _ => 0

theorem variantModel_valid : variantModel.Valid :=
  ⟨fun k => by simp [variantModel], fun k n => by
    fin_cases n <;> simp only [variantModel, orderModel] <;> simp <;> split_ifs <;> norm_num⟩

theorem variant_defined (X : Vec 3 ℕ) : ∃ s, supervised fastPrims ⟨1, 1 / 100, 0⟩ 1 0 X 0 variantModel = some (s, .nan) := by
  obtain ⟨⟨s, h⟩, hs⟩ := supervisedPhiGamma_total (P := fastPrims) (y := (0 : Fin 1)) (fp := 1) (X := X)
    (s := (initial X variantModel.alpha, none)) variantModel_valid (initial_dist (K := 2) (by norm_num) X variantModel.alpha)
    (initial_counts X variantModel.alpha) fun n _ => ⟨0, by fin_cases n <;> simp [variantModel, orderModel]⟩
  have hs' : supervisedPhiGamma fastPrims X (ratio X) 0 variantModel.beta variantModel.eta 1 (initial X variantModel.alpha, none) =
    some (s, h) := hs
  unfold supervised supervisedRun
  rw [loop]
  dsimp only
  rw [hs']
  split_ifs
  · exact ⟨initial X variantModel.alpha, by simp [report, bernoulli]⟩
  · exact ⟨s, by simp [loop, report, bernoulli]⟩

/-- **C147** is false for the supervised step: which variant of a word a document has decides whether it is looked at before or after
another word. -/
theorem C147_supervised_depends : (∀ k, variantModel.beta k 0 = variantModel.beta k 2) ∧
    ∃ s s', supervised fastPrims ⟨1, 1 / 100, 0⟩ 1 0 ![1, 1, 0] 0 variantModel = some (s, .nan) ∧
      supervised fastPrims ⟨1, 1 / 100, 0⟩ 1 0 ![0, 1, 1] 0 variantModel = some (s', .nan) ∧ s.gamma ≠ s'.gamma := by
  refine ⟨fun k => rfl, ?_⟩
  obtain ⟨s, hs⟩ := variant_defined ![1, 1, 0]
  obtain ⟨s', hs'⟩ := variant_defined ![0, 1, 1]
  obtain ⟨t, t', ht, ht', hne⟩ := C93_supervised_depends
  have hm : orderModel.Valid := ⟨fun k => by simp [orderModel], fun k n => by simp only [orderModel]; split_ifs <;> norm_num⟩
  have w1 : SameWords orderDoc orderModel ![0, 1, 1] variantModel ![1, 2] :=
    { count := fun n _ => by fin_cases n <;> rfl
      onto := fun n h => by
        fin_cases n
        · exact absurd rfl h
        · exact ⟨0, by simp [orderDoc], rfl⟩
        · exact ⟨1, by simp [orderDoc], rfl⟩
      mono := fun a b _ _ h => by fin_cases a <;> fin_cases b <;> revert h <;> decide
      beta := fun k n _ => by fin_cases n <;> rfl
      alpha := rfl
      eta := rfl }
  have w2 : SameWords (fun n => orderDoc (Equiv.swap 0 1 n)) (orderModel.words (Equiv.swap 0 1)) ![1, 1, 0] variantModel ![0, 1] :=
    { count := fun n _ => by fin_cases n <;> rfl
      onto := fun n h => by
        fin_cases n
        · exact ⟨0, by simp [orderDoc], rfl⟩
        · exact ⟨1, by simp [orderDoc], rfl⟩
        · exact absurd rfl h
      mono := fun a b _ _ h => by fin_cases a <;> fin_cases b <;> revert h <;> decide
      beta := fun k n _ => by fin_cases n <;> simp [variantModel, Model.words]
      alpha := rfl
      eta := rfl }
  have e1 := (C39_supervised (y := (0 : Fin 1)) w1 hm variantModel_valid (by norm_num) ht hs').1
  have e2 := (C39_supervised (y := (0 : Fin 1)) w2 ⟨hm.alpha_pos, fun k n => hm.beta_nonneg k _⟩ variantModel_valid (by norm_num) ht' hs).1
  exact ⟨s, s', hs, hs', fun h => hne (by rw [e1, e2, h])⟩

end Verif.EStep

namespace Verif.Train

open EStep MStep MathUtils Finset Pool

variable {K V V' C : ℕ} {T : Type}

theorem quot_fin {a s x : ℝ} (h : quot a s = .fin x) : s ≠ 0 ∧ x = a / s := by
  unfold quot at h
  split_ifs at h with h1
  exact ⟨h1, by simpa using h.symm⟩

/-- **C147**, one iteration of LDA: if the topics at the start do not tell the variants of a word apart, then the probability that the
iteration finds for a word is the sum of those that it finds for its variants in the larger vocabulary. -/
theorem C147_iteration (P : Prims) (cfg : EStep.Cfg) {corpus : ℕ → Doc V} {corpus' : ℕ → Doc V'} {n : ℕ} (hK : 0 < K)
    {σ : Fin V → Fin V'} {c : Vec V ℝ} {alpha : Vec K ℝ} (ha : ∀ k, 0 < alpha k) {beta : Mat K V ℝ} {beta' : Mat K V' ℝ} {eta : Mat K C ℝ}
    (hv : ∀ i < n, Variants (corpus i).words ⟨alpha, beta, eta⟩ (corpus' i).words ⟨alpha, beta', eta⟩ σ c)
    (hb : ∀ k v, 0 ≤ beta k v)
    (any : VP K V) (any' : VP K V') (next : T → T) {t : T} {W W' : ℕ} {p p' : ℕ → ℕ}
    (ho : ((List.range n).map p).Perm (List.range n)) (ho' : ((List.range n).map p').Perm (List.range n))
    {m : Params K V C × T × Option (Buf K V)} {m' : Params K V' C × T × Option (Buf K V')}
    {l : Left (VP K V)} {l' : Left (VP K V')} {logs : List (List (Obs (VP K V)))} {logs' : List (List (Obs (VP K V')))}
    (h : Calls (fitCalls (unsupervised corpus) next (libResults (C := C) (fun _ X _ m => unsupervisedRun P cfg X m) any corpus)
      W n [p]) .empty (⟨alpha, .matrix fun k v => .fin (beta k v), eta⟩, t, some none) l m logs)
    (h' : Calls (fitCalls (unsupervised corpus') next (libResults (C := C) (fun _ X _ m => unsupervisedRun P cfg X m) any' corpus')
      W' n [p']) .empty (⟨alpha, .matrix fun k v => .fin (beta' k v), eta⟩, t, some none) l' m' logs')
    {b' : Mat K V' ℝ} (hr : m'.1.beta.IsReal b') :
    ∃ b, m.1.beta.IsReal b ∧ ∀ k v', b' k v' = ∑ v with σ v = v', b k v := by
  have h1 := (C08_unsupervised (K := K) (C := C) corpus (h := []) rfl).2 T next _ _ t W n [p] m l logs (by simpa using ho) h
  have h2 := (C08_unsupervised (K := K) (C := C) corpus' (h := []) rfl).2 T next _ _ t W' n [p'] m' l' logs' (by simpa using ho') h'
  have hphi : ∀ i < n, ∀ k v, (corpus i).words v ≠ 0 →
      (libResults (C := C) (fun _ X _ m => unsupervisedRun P cfg X m) any corpus
        (⟨alpha, .matrix fun k v => .fin (beta k v), eta⟩, t) i).phi k v =
      (libResults (C := C) (fun _ X _ m => unsupervisedRun P cfg X m) any' corpus'
        (⟨alpha, .matrix fun k v => .fin (beta' k v), eta⟩, t) i).phi k (σ v) := by
    intro i hi k v hx
    obtain ⟨s, r, e1, -⟩ := C35_unsupervised_defined (P := P) (cfg := cfg) (draw := 0) (X := (corpus i).words)
      (m := ⟨alpha, beta, eta⟩) ⟨ha, hb⟩ hK
    obtain ⟨s', r', e2, -⟩ := C35_unsupervised_defined (P := P) (cfg := cfg) (draw := 0) (X := (corpus' i).words)
      (m := ⟨alpha, beta', eta⟩) ⟨ha, (hv i hi).nonneg⟩ hK
    have e3 := (C147_unsupervised (hv i hi) e1 e2).2 k v hx
    have r1 := realBeta_of (show Beta.IsReal (.matrix fun k v => .fin (beta k v)) beta from rfl)
    have r2 := realBeta_of (show Beta.IsReal (.matrix fun k v => .fin (beta' k v)) beta' from rfl)
    simp only [libResults, r1, r2, Option.bind_some, run_of_unsupervised e1, run_of_unsupervised e2, Option.getD_some]
    exact e3
  revert hphi
  generalize hf : libResults (C := C) (fun _ X _ m => unsupervisedRun P cfg X m) any corpus = f at h1
  generalize hf' : libResults (C := C) (fun _ X _ m => unsupervisedRun P cfg X m) any' corpus' = f' at h2
  intro hphi
  have h1' := h1.1
  have h2' := h2.1
  simp only [List.length_cons, List.length_nil, zero_add, Function.iterate_one, epoch, seqEpoch] at h1' h2'
  rw [u_fold _ _ (.inl rfl)] at h1' h2'
  simp only [trainParams] at h1' h2'
  by_cases hn : n = 0
  · rw [if_pos hn] at h2'
    rw [h2'] at hr
    cases hr
  rw [if_neg hn] at h1' h2'
  rw [h2'] at hr
  rw [h1']
  generalize hS : (fun k v => ∑ i ∈ range n, scaled (f (⟨alpha, .matrix fun k v => .fin (beta k v), eta⟩, t) i).phi
    (corpus i).words k v : Mat K V ℝ) = S
  generalize hS' : (fun k v => ∑ i ∈ range n, scaled (f' (⟨alpha, .matrix fun k v => .fin (beta' k v), eta⟩, t) i).phi
    (corpus' i).words k v : Mat K V' ℝ) = S' at hr
  have hsum : ∀ k v', S' k v' = ∑ v with σ v = v', S k v := by
    intro k v'
    rw [← hS, ← hS']
    beta_reduce
    rw [sum_comm]
    refine sum_congr rfl fun i hi => ?_
    have hi := mem_range.1 hi
    simp only [scaled]
    rw [(hv i hi).count, Nat.cast_sum, mul_sum]
    refine sum_congr rfl fun v hv' => ?_
    by_cases hx : (corpus i).words v = 0
    · simp [hx]
    · rw [hphi i hi k v hx, (mem_filter.1 hv').2]
  have hrow : ∀ k, ∑ v', S' k v' = ∑ v, S k v := fun k => by
    simp only [hsum]
    exact sum_fiberwise _ _ _
  have hq : ∀ k v', quot (S' k v') (∑ v', S' k v') = .fin (b' k v') := by
    intro k v'
    have := Beta.matrix.inj hr
    exact congrFun (congrFun this k) v'
  refine ⟨fun k v => S k v / ∑ v, S k v, ?_, fun k v' => ?_⟩
  · show Beta.matrix _ = Beta.matrix _
    congr 1
    funext k v
    have := (quot_fin (hq k (σ v))).1
    rw [hrow] at this
    rw [quot, if_pos this]
  · rw [(quot_fin (hq k v')).2, hrow, hsum, sum_div]

/-- The hypotheses can be met: an iteration on the document of `demo_variants`. -/
example (P : Prims) (cfg : EStep.Cfg) (any : VP 2 3) (any' : VP 2 2) (eta : Mat 2 1 ℝ) :
    ∃ (m : Params 2 3 1 × Unit × Option (Buf 2 3)) (logs : List (List (Obs (VP 2 3)))) (b : Mat 2 3 ℝ),
      Calls (fitCalls (unsupervised fun _ => ⟨![2, 1, 4], 0⟩) id (libResults (C := 1) (fun _ X _ m => unsupervisedRun P cfg X m) any
        fun _ => ⟨![2, 1, 4], 0⟩) 3 1 [id]) .empty
        (⟨fun _ => 1, .matrix fun _ v => .fin (![1 / 3 * (1 / 2), 2 / 3 * (1 / 2), 1 * (1 / 2)] v), eta⟩, (), some none) .empty m logs ∧
      m.1.beta.IsReal b ∧ b 0 0 + b 0 1 = 3 / 7 := by
  obtain ⟨m, logs, h⟩ := calls_exist (unsupervised fun _ => ⟨![2, 1, 4], 0⟩) id
    (libResults (C := 1) (fun (_ : Unit) X _ m => unsupervisedRun P cfg X m) any fun _ => ⟨![2, 1, 4], 0⟩) (W := 3) (by omega) 1 [id]
    (⟨fun _ => 1, .matrix fun _ v => .fin (![1 / 3 * (1 / 2), 2 / 3 * (1 / 2), 1 * (1 / 2)] v), eta⟩, (), some none)
  obtain ⟨m', logs', h'⟩ := calls_exist (unsupervised fun _ => ⟨![3, 4], 0⟩) id
    (libResults (C := 1) (fun (_ : Unit) X _ m => unsupervisedRun P cfg X m) any' fun _ => ⟨![3, 4], 0⟩) (W := 1) (by omega) 1 [id]
    (⟨fun _ => 1, .matrix fun _ _ => .fin (1 / 2), eta⟩, (), some none)
  have hr := C145_lda P cfg (corpus := fun _ => ⟨![3, 4], 0⟩) (n := 1) (by decide) (by norm_num) any' id
    (q := ⟨fun _ => 1, .matrix fun _ _ => .fin (1 / 2), eta⟩) ⟨1, fun _ => 1 / 2, fun _ => rfl, one_pos, rfl, fun _ => by norm_num, fun _ _ _ _ => by norm_num⟩ (by simp) (by simp) h'
  obtain ⟨b, hb, hs⟩ := C147_iteration P cfg (n := 1) (by norm_num) (beta := fun _ => ![1 / 3 * (1 / 2), 2 / 3 * (1 / 2), 1 * (1 / 2)])
    (beta' := fun _ _ => 1 / 2) (alpha := fun _ => 1) (fun _ => one_pos)
    (fun _ _ => demo_variants (beta' := fun _ _ => 1 / 2) fun _ _ => by norm_num)
    (fun k v => by fin_cases v <;> norm_num) any any' id (p := id) (p' := id) (by simp) (by simp) h h' hr
  refine ⟨m, logs, b, h, hb, ?_⟩
  have := hs 0 0
  simp only [sum_filter, Fin.sum_univ_three] at this
  simp [occurrences, totalWords] at this
  rw [← this]

end Verif.Train
