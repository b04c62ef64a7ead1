import Verif.Props.Supervised

/-! Property C39: words that do not occur in a document have no influence on its `gamma`. -/
namespace Verif.EStep

open MathUtils Finset

variable {K V V' C : ℕ} {P : Prims} {cfg : Cfg} {X : Vec V ℕ} {X' : Vec V' ℕ} {m : Model K V C}
  {m' : Model K V' C}

/-- Two documents with the same words, in vocabularies that may differ otherwise: words of the
document correspond to each other in order (`σ`), with the same counts and the same probabilities. -/
structure SameWords (X : Vec V ℕ) (m : Model K V C) (X' : Vec V' ℕ) (m' : Model K V' C)
    (σ : Fin V → Fin V') : Prop where
  count : ∀ n, X n ≠ 0 → X' (σ n) = X n
  onto : ∀ n', X' n' ≠ 0 → ∃ n, X n ≠ 0 ∧ σ n = n'
  mono : ∀ a b, X a ≠ 0 → X b ≠ 0 → a < b → σ a < σ b
  beta : ∀ k n, X n ≠ 0 → m'.beta k (σ n) = m.beta k n
  alpha : m'.alpha = m.alpha
  eta : m'.eta = m.eta

section
variable {σ : Fin V → Fin V'} (hw : SameWords X m X' m' σ)
include hw

theorem SameWords.inj {a b : Fin V} (ha : X a ≠ 0) (hb : X b ≠ 0) (h : σ a = σ b) : a = b := by
  rcases lt_trichotomy a b with hl | hl | hl
  · exact absurd h (hw.mono a b ha hb hl).ne
  · exact hl
  · exact absurd h (hw.mono b a hb ha hl).ne'

theorem SameWords.sum {M : Type} [AddCommMonoid M] {f : Fin V → M} {f' : Fin V' → M} (h0 : ∀ n, X n = 0 → f n = 0)
    (h0' : ∀ n, X' n = 0 → f' n = 0) (h : ∀ n, X n ≠ 0 → f n = f' (σ n)) : ∑ n, f n = ∑ n, f' n := by
  have e1 : ∑ n ∈ univ.filter (fun n => X n ≠ 0), f n = ∑ n, f n :=
    Finset.sum_subset (by simp) fun n _ hn => h0 n (by simpa using hn)
  have e2 : ∑ n ∈ univ.filter (fun n => X' n ≠ 0), f' n = ∑ n, f' n :=
    Finset.sum_subset (by simp) fun n _ hn => h0' n (by simpa using hn)
  rw [← e1, ← e2]
  refine Finset.sum_nbij σ (fun n hn => ?_) (fun a ha b hb hab => ?_) (fun n hn => ?_) fun n hn => ?_
  · simp only [mem_filter, mem_univ, true_and] at hn ⊢
    rw [hw.count n hn]; exact hn
  · simp only [coe_filter, mem_univ, true_and, Set.mem_ofPred_eq] at ha hb
    exact hw.inj ha hb hab
  · simp only [coe_filter, mem_univ, true_and, Set.mem_ofPred_eq] at hn
    obtain ⟨a, ha, rfl⟩ := hw.onto n hn
    exact ⟨a, by simpa using ha, rfl⟩
  · exact h n (by simpa using hn)

theorem SameWords.numWords : numWords X' = numWords X := by
  unfold EStep.numWords
  exact (hw.sum (fun n h => h) (fun n h => h) fun n h => (hw.count n h).symm).symm

theorem SameWords.ratio {n : Fin V} (hn : X n ≠ 0) : ratio X' (σ n) = ratio X n := by
  unfold EStep.ratio
  rw [hw.count n hn, hw.numWords]

theorem SameWords.sum_phi {phi : Mat K V ℝ} {phi' : Mat K V' ℝ}
    (h : ∀ k n, X n ≠ 0 → phi' k (σ n) = phi k n) (k : Fin K) :
    ∑ n, (X n : ℝ) * phi k n = ∑ n, (X' n : ℝ) * phi' k n :=
  hw.sum (fun n h => by simp [h]) (fun n h => by simp [h]) fun n hn => by rw [hw.count n hn, h k n hn]

theorem SameWords.computeGamma {phi : Mat K V ℝ} {phi' : Mat K V' ℝ}
    (h : ∀ k n, X n ≠ 0 → phi' k (σ n) = phi k n) :
    computeGamma X m.alpha phi = computeGamma X' m'.alpha phi' := by
  funext k
  rw [computeGamma_apply, computeGamma_apply, hw.alpha, hw.sum_phi h]

omit hw in
/-- Variational parameters that agree on the words of the document. -/
def Agree (X : Vec V ℕ) (σ : Fin V → Fin V') (s : VP K V) (s' : VP K V') : Prop :=
  s.gamma = s'.gamma ∧ ∀ k n, X n ≠ 0 → s'.phi k (σ n) = s.phi k n

theorem SameWords.initial : Agree X σ (initial X m.alpha) (initial X' m'.alpha) := by
  refine ⟨?_, fun k n _ => rfl⟩
  funext k
  simp only [EStep.initial]
  rw [hw.alpha, hw.numWords]

omit hw in
theorem normalizeCols_agree {w : Mat K V ℝ} {w' : Mat K V' ℝ} {n : Fin V} {n' : Fin V'}
    (h : ∀ k, w' k n' = w k n) (k : Fin K) : normalizeCols w' k n' = normalizeCols w k n := by
  rw [normalizeCols_apply, normalizeCols_apply]
  simp only [h]

theorem SameWords.update {w : Mat K V ℝ} {w' : Mat K V' ℝ} (h : ∀ k n, X n ≠ 0 → w' k (σ n) = w k n) :
    Agree X σ ⟨normalizeCols w, EStep.computeGamma X m.alpha (normalizeCols w)⟩
      ⟨normalizeCols w', EStep.computeGamma X' m'.alpha (normalizeCols w')⟩ := by
  have : ∀ k n, X n ≠ 0 → normalizeCols w' k (σ n) = normalizeCols w k n := fun k n hn =>
    normalizeCols_agree (fun k => h k n hn) k
  exact ⟨hw.computeGamma this, this⟩

theorem SameWords.unsupervisedStep {s : VP K V} {s' : VP K V'} (h : Agree X σ s s') :
    Option.Rel (Agree X σ) (unsupervisedStep P X m s) (unsupervisedStep P X' m' s') := by
  unfold EStep.unsupervisedStep unsupervisedPhi
  rw [← h.1]
  cases mapOpt P.psi s.gamma with
  | none => exact .none
  | some psi => exact .some (hw.update fun k n hn => by rw [hw.beta k n hn])

theorem SameWords.softmax {phi : Mat K V ℝ} {phi' : Mat K V' ℝ}
    (h : ∀ k n, X n ≠ 0 → phi' k (σ n) = phi k n) :
    softmaxEtaZ P (EStep.ratio X) m.eta phi = softmaxEtaZ P (EStep.ratio X') m'.eta phi' := by
  have : sumColsScaled phi (EStep.ratio X) (fun _ => 0) = sumColsScaled phi' (EStep.ratio X') (fun _ => 0) := by
    funext k
    rw [sumColsScaled_apply, sumColsScaled_apply]
    congr 1
    exact hw.sum (fun n h => by simp [EStep.ratio, h]) (fun n h => by simp [EStep.ratio, h]) fun n hn => by
      rw [hw.ratio hn, h k n hn]
  unfold softmaxEtaZ
  rw [this, hw.eta]

theorem SameWords.fastStep {w : ℝ} {y : ℤ} {s : VP K V} {s' : VP K V'} (h : Agree X σ s s') :
    Option.Rel (Agree X σ) (fastStep P w X y m s) (fastStep P w X' y m' s') := by
  unfold EStep.fastStep approximatePhi
  rw [hw.numWords, ← h.1, ← hw.softmax h.2, hw.eta]
  by_cases hN : EStep.numWords X = 0
  · rw [if_pos hN, if_pos hN]
    exact .some ⟨hw.computeGamma h.2, h.2⟩
  · rw [if_neg hN, if_neg hN]
    cases mapOpt P.psi s.gamma with
    | none => exact .none
    | some psi =>
      cases softmaxEtaZ P (EStep.ratio X) m.eta s.phi with
      | none => exact .none
      | some sm =>
        cases etaScaled m.eta with
        | none => exact .none
        | some es =>
          simp only [Option.bind_some]
          cases colAt es y with
          | none => exact .none
          | some ey => exact .some (hw.update fun k n hn => by rw [hw.beta k n hn])

theorem SameWords.multinomialStep {ew : ℝ} {y : ℤ} {s : VP K V} {s' : VP K V'} (h : Agree X σ s s') :
    Option.Rel (Agree X σ) (multinomialStep P ew X y m s) (multinomialStep P ew X' y m' s') := by
  unfold EStep.multinomialStep multinomialPhi
  rw [← h.1, hw.eta]
  cases mapOpt P.psi s.gamma with
  | none => exact .none
  | some psi =>
    cases P.psi (∑ k, s.gamma k) with
    | none => exact .none
    | some d =>
      cases colAt m.eta y with
      | none => exact .none
      | some ey =>
        simp only [Option.bind_some]
        cases mapOpt logc ey with
        | none => exact .none
        | some le => exact .some (hw.update fun k n hn => by rw [hw.beta k n hn])

/-! ### The supervised step -/

omit hw in
/-- States of the loop over the words that agree. -/
structure AgreeSweep (X : Vec V ℕ) (σ : Fin V → Fin V') (s : Sweep K V C) (s' : Sweep K V' C) : Prop where
  phi : ∀ k n, X n ≠ 0 → s'.phi k (σ n) = s.phi k n
  gamma : s'.gamma = s.gamma
  psi : s'.psi = s.psi
  products : s'.products = s.products

theorem SameWords.factor {phi : Mat K V ℝ} {phi' : Mat K V' ℝ}
    {n : Fin V} (hn : X n ≠ 0) (h : ∀ k, phi' k (σ n) = phi k n) (c : Fin C) :
    factor P (EStep.ratio X') m.eta phi' (σ n) c = factor P (EStep.ratio X) m.eta phi n c := by
  unfold EStep.factor
  simp only [hw.ratio hn, h]

theorem SameWords.sweepWord {ey : Vec K ℝ} {fp : ℕ} {s : Sweep K V C} {s' : Sweep K V' C} {n : Fin V}
    (hn : X n ≠ 0) (h : AgreeSweep X σ s s') :
    Option.Rel (AgreeSweep X σ) (sweepWord P X (EStep.ratio X) m.beta m.eta ey fp s n)
      (sweepWord P X' (EStep.ratio X') m'.beta m'.eta ey fp s' (σ n)) := by
  unfold EStep.sweepWord
  have hn' : X' (σ n) ≠ 0 := by rw [hw.count n hn]; exact hn
  rw [if_neg hn, if_neg hn', hw.eta, h.products, h.psi, hw.count n hn, hw.ratio hn, h.gamma]
  have e1 : EStep.factor P (EStep.ratio X') m.eta s'.phi (σ n) = EStep.factor P (EStep.ratio X) m.eta s.phi n :=
    funext (hw.factor hn fun k => h.phi k n hn)
  have e2 : (fun k => m'.beta k (σ n)) = fun k => m.beta k n := funext fun k => hw.beta k n hn
  have e3 : (fun k => s'.phi k (σ n)) = fun k => s.phi k n := funext fun k => h.phi k n hn
  have e4 : ∀ p, hOf P (EStep.ratio X') m.eta p (σ n) = hOf P (EStep.ratio X) m.eta p n := by
    intro p
    unfold hOf
    rw [hw.ratio hn]
  rw [e1, e2, e3]
  cases divide s.products (EStep.factor P (EStep.ratio X) m.eta s.phi n) with
  | none => exact .none
  | some p =>
    simp only [Option.bind_some, e4]
    cases fixedPoints P (X n) (EStep.ratio X n) (fun k => m.beta k n) ey s.psi
        (hOf P (EStep.ratio X) m.eta p n) fp (fun k => s.phi k n) with
    | none => exact .none
    | some col =>
      have e5 : (fun k => s.gamma k + (X n : ℝ) * (col k - s'.phi k (σ n))) =
          fun k => s.gamma k + (X n : ℝ) * (col k - s.phi k n) := funext fun k => by rw [h.phi k n hn]
      simp only [Option.bind_some, e5]
      cases mapOpt P.psi (fun k => s.gamma k + (X n : ℝ) * (col k - s.phi k n)) with
      | none => exact .none
      | some psi =>
        have e6 : ∀ k l, X l ≠ 0 → setCol s'.phi (σ n) col k (σ l) = setCol s.phi n col k l := by
          intro k l hl
          by_cases hln : l = n
          · subst hln; rw [setCol_same, setCol_same]
          · rw [setCol_ne _ _ _ hln, setCol_ne _ _ _ fun h => hln (hw.inj hl hn h), h.phi k l hl]
        refine .some ⟨e6, rfl, rfl, ?_⟩
        funext c
        simp only
        rw [hw.factor hn (fun k => e6 k n hn)]

omit hw in
theorem sweepWords_present {Xr : Vec V ℝ} {beta : Mat K V ℝ} {eta : Mat K C ℝ} {ey : Vec K ℝ} {fp : ℕ} :
    ∀ (ns : List (Fin V)) (s : Sweep K V C), sweepWords P X Xr beta eta ey fp ns s =
      sweepWords P X Xr beta eta ey fp (ns.filter fun n => X n ≠ 0) s := by
  intro ns
  induction ns with
  | nil => intro s; rfl
  | cons n ns ih =>
    intro s
    by_cases hn : X n = 0
    · have : (sweepWord P X Xr beta eta ey fp s n) = some s := by unfold EStep.sweepWord; rw [if_pos hn]
      rw [sweepWords, this, Option.bind_some, ih, List.filter_cons_of_neg (by simp [hn])]
    · rw [List.filter_cons_of_pos (by simp [hn]), sweepWords, sweepWords]
      congr 1
      funext s
      exact ih s

theorem SameWords.present : present X' = (present X).map σ := by
  have hmem : ∀ n, n ∈ EStep.present X ↔ X n ≠ 0 := fun n => by simp [EStep.present]
  have hs : (EStep.present X).Pairwise (· < ·) := (List.pairwise_lt_finRange V).sublist List.filter_sublist
  have hs' : (EStep.present X').Pairwise (· < ·) := (List.pairwise_lt_finRange V').sublist List.filter_sublist
  refine List.Perm.eq_of_pairwise (le := (· < ·)) (fun a b _ _ h1 h2 => absurd h2 h1.asymm) hs' ?_ ?_
  · rw [List.pairwise_map]
    refine hs.imp_of_mem fun {a b} ha hb hab => hw.mono a b ((hmem a).1 ha) ((hmem b).1 hb) hab
  · have hn : ((EStep.present X).map σ).Nodup := by
      rw [List.nodup_map_iff_inj_on (hs.imp ne_of_lt)]
      exact fun a ha b hb h => hw.inj ((hmem a).1 ha) ((hmem b).1 hb) h
    rw [List.perm_ext_iff_of_nodup (hs'.imp ne_of_lt) hn]
    intro a
    rw [List.mem_map]
    constructor
    · intro h
      obtain ⟨n, h1, h2⟩ := hw.onto a (by simpa [EStep.present] using h)
      exact ⟨n, (hmem n).2 h1, h2⟩
    · rintro ⟨n, h1, rfl⟩
      have := (hmem n).1 h1
      simp [EStep.present, hw.count n this, this]

theorem SameWords.sweepWords {ey : Vec K ℝ} {fp : ℕ} :
    ∀ (ns : List (Fin V)) (s : Sweep K V C) (s' : Sweep K V' C), (∀ n ∈ ns, X n ≠ 0) → AgreeSweep X σ s s' →
      Option.Rel (AgreeSweep X σ) (sweepWords P X (EStep.ratio X) m.beta m.eta ey fp ns s)
        (sweepWords P X' (EStep.ratio X') m'.beta m'.eta ey fp (ns.map σ) s') := by
  intro ns
  induction ns with
  | nil => intro s s' _ h; exact .some h
  | cons n ns ih =>
    intro s s' hn h
    rw [List.map_cons, EStep.sweepWords, EStep.sweepWords]
    have := hw.sweepWord (P := P) (ey := ey) (fp := fp) (hn n List.mem_cons_self) h
    revert this
    generalize EStep.sweepWord P X (EStep.ratio X) m.beta m.eta ey fp s n = a
    generalize EStep.sweepWord P X' (EStep.ratio X') m'.beta m'.eta ey fp s' (σ n) = b
    intro h'
    cases h' with
    | none => exact .none
    | some ht =>
      simp only [Option.bind_some]
      exact ih _ _ (fun a ha => hn a (List.mem_cons_of_mem _ ha)) ht

theorem SameWords.supervisedPhiGamma {y : ℤ} {fp : ℕ} {s : VP K V × Option (Vec K ℝ)}
    {s' : VP K V' × Option (Vec K ℝ)} (hd : ∀ n, IsDist fun k => s.1.phi k n)
    (hd' : ∀ n, IsDist fun k => s'.1.phi k n) (h : Agree X σ s.1 s'.1) :
    Option.Rel (fun s s' => Agree X σ s.1 s'.1)
      (supervisedPhiGamma P X (EStep.ratio X) y m.beta m.eta fp s)
      (supervisedPhiGamma P X' (EStep.ratio X') y m'.beta m'.eta fp s') := by
  unfold EStep.supervisedPhiGamma
  rw [← h.1, hw.eta]
  cases mapOpt P.psi s.1.gamma with
  | none => exact .none
  | some psi =>
    cases colAt m.eta y with
    | none => exact .none
    | some ey =>
      simp only [Option.bind_some]
      rw [sweepWords_present (List.finRange V), sweepWords_present (List.finRange V')]
      have hp : (List.finRange V').filter (fun n => X' n ≠ 0) =
        ((List.finRange V).filter (fun n => X n ≠ 0)).map σ := hw.present
      rw [hp]
      have := hw.sweepWords (P := P) (ey := ey) (fp := fp) ((List.finRange V).filter (fun n => X n ≠ 0))
        ⟨s.1.phi, s.1.gamma, psi, (List.finRange V).foldl
          (fun p n c => p c * EStep.factor P (EStep.ratio X) m.eta s.1.phi n c) (fun _ => 1), s.2⟩
        ⟨s'.1.phi, s.1.gamma, psi, (List.finRange V').foldl
          (fun p n c => p c * EStep.factor P (EStep.ratio X') m.eta s'.1.phi n c) (fun _ => 1), s'.2⟩
        (fun n hn => by simpa using hn) ⟨h.2, rfl, rfl, by
          funext c
          simp only
          rw [foldl_mul_apply _ (fun n c => EStep.factor P (EStep.ratio X) m.eta s.1.phi n c),
            foldl_mul_apply _ (fun n c => EStep.factor P (EStep.ratio X') m.eta s'.1.phi n c), one_mul, one_mul,
            ← Fin.prod_univ_def, ← Fin.prod_univ_def]
          exact (hw.sum (M := Additive ℝ) (f := fun n => .ofMul (EStep.factor P (EStep.ratio X) m.eta s.1.phi n c))
            (f' := fun n => .ofMul (EStep.factor P (EStep.ratio X') m.eta s'.1.phi n c))
            (fun n hn => factor_absent (hd n) hn c) (fun n hn => factor_absent (hd' n) hn c)
            fun n hn => (hw.factor hn (fun k => h.2 k n hn) c).symm).symm⟩
      rw [hw.eta] at this
      revert this
      generalize EStep.sweepWords P X _ _ _ _ _ _ _ = a
      generalize EStep.sweepWords P X' _ _ _ _ _ _ _ = b
      intro this
      cases this with
      | none => exact .none
      | some ht => exact .some ⟨ht.gamma.symm, ht.phi⟩

end

/-! ### C39 -/

theorem rel_agree {σ : Fin V → Fin V'} {a : Option (VP K V)} {b : Option (VP K V')} {s : VP K V} {s' : VP K V'}
    (h : Option.Rel (Agree X σ) a b) (ha : a = some s) (hb : b = some s') : Agree X σ s s' := by
  subst ha hb
  cases h with
  | some h => exact h

/-- **C39**, unsupervised step. -/
theorem C39_unsupervised {σ : Fin V → Fin V'} (hw : SameWords X m X' m' σ) {draw draw' : ℝ} {s : VP K V}
    {s' : VP K V'} {r r' : Report} (h : unsupervised P cfg draw X m = some (s, r))
    (h' : unsupervised P cfg draw' X' m' = some (s', r')) :
    s.gamma = s'.gamma ∧ ∀ k n, X n ≠ 0 → s'.phi k (σ n) = s.phi k n :=
  rel_agree (loop_sim (Agree X σ) (fun _ _ h => h.1) (fun _ _ h => hw.unsupervisedStep h) _ _ _ _ hw.initial)
    (run_of_unsupervised h) (run_of_unsupervised h')

/-- **C39**, fast supervised step. -/
theorem C39_fast {σ : Fin V → Fin V'} (hw : SameWords X m X' m' σ) {w draw draw' : ℝ} {y : ℤ} {s : VP K V}
    {s' : VP K V'} {r r' : Report} (h : fast P cfg w draw X y m = some (s, r))
    (h' : fast P cfg w draw' X' y m' = some (s', r')) :
    s.gamma = s'.gamma ∧ ∀ k n, X n ≠ 0 → s'.phi k (σ n) = s.phi k n :=
  rel_agree (loop_sim (Agree X σ) (fun _ _ h => h.1) (fun _ _ h => hw.fastStep h) _ _ _ _ hw.initial)
    (run_of_fast h) (run_of_fast h')

/-- **C39**, multinomial step. -/
theorem C39_multinomial {σ : Fin V → Fin V'} (hw : SameWords X m X' m' σ) {ew mu prior draw draw' : ℝ} {N : ℕ}
    {y : ℤ} {s : VP K V} {s' : VP K V'} {r r' : Report}
    (h : multinomial P cfg ew mu prior N draw X y m = some (s, r))
    (h' : multinomial P cfg ew mu prior N draw' X' y m' = some (s', r')) :
    s.gamma = s'.gamma ∧ ∀ k n, X n ≠ 0 → s'.phi k (σ n) = s.phi k n :=
  rel_agree (loop_sim (Agree X σ) (fun _ _ h => h.1) (fun _ _ h => hw.multinomialStep h) _ _ _ _ hw.initial)
    (run_of_multinomial h) (run_of_multinomial h')

/-- **C39**, supervised step. -/
theorem C39_supervised {σ : Fin V → Fin V'} (hw : SameWords X m X' m' σ) (hm : m.Valid) (hm' : m'.Valid)
    (hK : 0 < K) {fp : ℕ} {draw draw' : ℝ} {y : Fin C} {s : VP K V} {s' : VP K V'} {r r' : Report}
    (h : supervised P cfg fp draw X (y : ℤ) m = some (s, r))
    (h' : supervised P cfg fp draw' X' (y : ℤ) m' = some (s', r')) :
    s.gamma = s'.gamma ∧ ∀ k n, X n ≠ 0 → s'.phi k (σ n) = s.phi k n := by
  obtain ⟨t, ht⟩ := run_of_supervised h
  obtain ⟨t', ht'⟩ := run_of_supervised h'
  have key := loop_sim (step := supervisedPhiGamma P X (ratio X) (y : ℤ) m.beta m.eta fp)
    (step' := supervisedPhiGamma P X' (ratio X') (y : ℤ) m'.beta m'.eta fp)
    (gam := fun s => s.1.gamma) (gam' := fun s => s.1.gamma) (tol := cfg.tolerance)
    (fun s s' => Agree X σ s.1 s'.1 ∧ ((∀ n, IsDist fun k => s.1.phi k n) ∧ Counts X m.alpha s.1) ∧
      (∀ n, IsDist fun k => s'.1.phi k n) ∧ Counts X' m'.alpha s'.1) (fun _ _ h => h.1.1)
    (fun a b hab => by
      have h1 := hw.supervisedPhiGamma (P := P) (y := (y : ℤ)) (fp := fp) hab.2.1.1 hab.2.2.1 hab.1
      revert h1
      cases e1 : supervisedPhiGamma P X (ratio X) (y : ℤ) m.beta m.eta fp a with
      | none => intro h1; generalize e2 : supervisedPhiGamma P X' _ _ _ _ _ b = z at h1; cases h1; exact .none
      | some a' =>
        intro h1
        cases e2 : supervisedPhiGamma P X' (ratio X') (y : ℤ) m'.beta m'.eta fp b with
        | none => rw [e2] at h1; cases h1
        | some b' =>
          rw [e2] at h1
          cases h1 with
          | some h1 =>
            obtain ⟨p1, p2, _⟩ := supervisedPhiGamma_spec hm hab.2.1.1 hab.2.1.2 e1
            obtain ⟨q1, q2, _⟩ := supervisedPhiGamma_spec hm' hab.2.2.1 hab.2.2.2 e2
            exact .some ⟨h1, ⟨p1, p2⟩, q1, q2⟩)
    cfg.iterations (fun _ => 0) (initial X m.alpha, none) (initial X' m'.alpha, none)
    ⟨hw.initial, ⟨initial_dist hK X m.alpha, initial_counts X m.alpha⟩,
      initial_dist hK X' m'.alpha, initial_counts X' m'.alpha⟩
  unfold supervisedRun at ht ht'
  rw [ht, ht'] at key
  cases key with
  | some h => exact h.1

/-! ### The correspondence step -/

/-- A model with two topics that agree on every word of a vocabulary of `V` words. -/
noncomputable def corr (V : ℕ) : Model 2 V 1 where
  alpha := fun _ => 1
  beta := fun _ _ => 1 / 2
  eta := fun k _ => if k = 0 then 1 else Real.exp (-2)

theorem corr_valid (V : ℕ) : (corr V).Valid where
  alpha_pos := fun k => by simp [corr]
  beta_nonneg := fun k n => by simp [corr]

theorem corr_same : SameWords (fun _ => 1) (corr 1) (fun n : Fin 2 => if n = 0 then 1 else 0) (corr 2)
    (fun _ => 0) where
  count := fun n _ => by simp
  onto := fun n' h => ⟨0, by simp, by
    by_contra hc
    have : n' ≠ 0 := fun h => hc h.symm
    simp [this] at h⟩
  mono := fun a b _ _ h => by
    have := Subsingleton.elim a b
    subst this
    exact absurd h (lt_irrefl _)
  beta := fun k n _ => rfl
  alpha := rfl
  eta := rfl

theorem corr_defined (P : Prims) (V : ℕ) (X : Vec V ℕ) :
    ∃ s r, correspondence P ⟨1, 0, 0⟩ 2 1 0 X 0 (corr V) = some (s, r) :=
  C35_correspondence_defined (y := 0) (corr_valid V) fun k => by
    simp only [corr]; split
    · norm_num
    · exact Real.exp_pos _

theorem corr_phi (P : Prims) {V : ℕ} {X : Vec V ℕ} {s : VP 2 V × Vec V ℝ} {r : Report}
    (h : correspondence P ⟨1, 0, 0⟩ 2 1 0 X 0 (corr V) = some (s, r)) (n : Fin V) :
    s.1.phi 0 n * (1 + P.exp (-2 / V)) = 1 := by
  have hv := corr_valid V
  obtain ⟨f, j, f0, fs, fj, st⟩ := C38_correspondence (y := 0) hv (by norm_num) h
  obtain ⟨h1, h2, h3⟩ := st
  have hj : j = 1 := by
    have h1 : j ≤ 1 := h1
    rcases Nat.lt_or_ge j 1 with hj | hj
    · have := h2 hj
      have hj0 : j = 0 := by omega
      subst hj0
      exfalso
      have h4 : 0 ≤ change (fun i => (f i).1.gamma) 0 := by
        unfold change
        exact div_nonneg (Finset.sum_nonneg fun k _ => abs_nonneg _) (by positivity)
      exact absurd this (not_lt.2 h4)
    · omega
  subst hj
  obtain ⟨psi, hpsi, hp, _⟩ := fs 0 (by norm_num)
  rw [f0] at hpsi hp
  rw [zero_add] at hp
  rw [fj]
  have e01 : psi 1 = psi 0 := by
    have h0 := hpsi 0
    have h1 := hpsi 1
    simp only [corr] at h0 h1
    exact Option.some.inj (h1.symm.trans h0)
  obtain ⟨q1, q2, _⟩ := hp n
  have q := q1 0
  simp only [Fin.sum_univ_two, corr, if_true, Real.log_one, mul_zero, P.exp_zero, mul_one, one_ne_zero,
    if_false, Real.log_exp, e01, Fin.isValue] at q
  have hpos := P.exp_pos (psi 0)
  have e : (1 : ℝ) / V * -2 = -2 / V := by ring
  rw [e] at q
  have h5 : P.exp (psi 0) * ((f 1).1.phi 0 n * (1 + P.exp (-2 / V)) - 1) = 0 := by linarith
  have := (mul_eq_zero.1 h5).resolve_left hpos.ne'
  linarith

/-- **C39** is false for the correspondence step: adding a word to the vocabulary that does not occur
in the document changes its `gamma`, as soon as the exponential distinguishes `-1` and `-2`. -/
theorem C39_correspondence_depends (P : Prims) (hP : P.exp (-2) ≠ P.exp (-1)) :
    ∃ s s' r r', correspondence P ⟨1, 0, 0⟩ 2 1 0 (fun _ => 1) 0 (corr 1) = some (s, r) ∧
      correspondence P ⟨1, 0, 0⟩ 2 1 0 (fun n => if n = 0 then 1 else 0) 0 (corr 2) = some (s', r') ∧
      s.1.gamma 0 ≠ s'.1.gamma 0 := by
  obtain ⟨s, r, h⟩ := corr_defined P 1 (fun _ => 1)
  obtain ⟨s', r', h'⟩ := corr_defined P 2 (fun n => if n = 0 then 1 else 0)
  refine ⟨s, s', r, r', h, h', fun hc => hP ?_⟩
  rw [(C37_correspondence (y := 0) (corr_valid 1) (by norm_num) h 0).1,
    (C37_correspondence (y := 0) (corr_valid 2) (by norm_num) h' 0).1] at hc
  simp only [Fin.sum_univ_two, Finset.univ_unique, Finset.sum_singleton, corr, if_true] at hc
  simp only [Nat.cast_one, one_mul, one_ne_zero, if_false, Nat.cast_zero, zero_mul, add_zero, Fin.isValue] at hc
  have e1 := corr_phi P h 0
  have e2 := corr_phi P h' 0
  have hc' : s.1.phi 0 0 = s'.1.phi 0 0 := by
    have := add_left_cancel hc
    simpa using this
  rw [hc'] at e1
  have hne : s'.1.phi 0 0 ≠ 0 := by
    rintro h0
    rw [h0, zero_mul] at e2
    exact absurd e2 (by norm_num)
  have := mul_left_cancel₀ hne (e1.trans e2.symm)
  norm_num at this
  exact this

/-- `fast_exp` does. -/
theorem fastPrims_distinguishes : fastPrims.exp (-2) ≠ fastPrims.exp (-1) := by
  obtain ⟨v, h1, _, h3⟩ := FastExp.C30_accuracy (-2) (by norm_num)
  obtain ⟨w, k1, _, k3⟩ := FastExp.C30_accuracy (-1) (by norm_num)
  rw [fastPrims_exp, Option.some.injEq] at h1 k1
  rw [h1, k1]
  rintro rfl
  have a1 := abs_le.1 h3
  have a2 := abs_le.1 k3
  norm_num at a1 a2
  linarith [a1.2, a2.1]

/-- The hypotheses of the positive theorems are met by the same documents. -/
example : ∃ s s' r r', unsupervised fastPrims demoCfg 0 (fun _ => 1) (corr 1) = some (s, r) ∧
    unsupervised fastPrims demoCfg 0 (fun n => if n = 0 then 1 else 0) (corr 2) = some (s', r') ∧
    s.gamma = s'.gamma := by
  obtain ⟨s, r, h, _⟩ := C35_unsupervised_defined (P := fastPrims) (cfg := demoCfg) (draw := 0)
    (X := fun _ => 1) (corr_valid 1) (by norm_num)
  obtain ⟨s', r', h', _⟩ := C35_unsupervised_defined (P := fastPrims) (cfg := demoCfg) (draw := 0)
    (X := fun n => if n = 0 then 1 else 0) (corr_valid 2) (by norm_num)
  exact ⟨s, s', r, r', h, h', (C39_unsupervised corr_same h h').1⟩

end Verif.EStep
