import Verif.Props.Sweep
import Verif.Props.Absent
import Verif.Lemmas.WeightMono

/-!
Property C130: words to which all topics give probability zero (words that did not occur in the documents the topics were
learnt from).  The supervised step is in Verif/Props/Sweep.lean.
-/
namespace Verif.EStep

open MathUtils Finset

variable {K V C : ℕ} {P : Prims} {cfg : Cfg} {X : Vec V ℕ} {m : Model K V C} {y : Fin C} {draw : ℝ}

open Classical in
/-- The document without the words that no topic knows. -/
noncomputable def knownWords (m : Model K V C) (X : Vec V ℕ) : Vec V ℕ := fun n => if m.Known n then X n else 0

/-- `phi` is zero for the words that no topic knows. -/
def Unassigned (m : Model K V C) (phi : Mat K V ℝ) : Prop := ∀ n, ¬ m.Known n → ∀ k, phi k n = 0

theorem beta_unknown (hm : m.Valid) {n : Fin V} (h : ¬ m.Known n) (k : Fin K) : m.beta k n = 0 :=
  le_antisymm (not_lt.1 fun hc => h ⟨k, hc⟩) (hm.beta_nonneg k n)

theorem unassigned_of (hm : m.Valid) (e : Mat K V ℝ) : Unassigned m (normalizeCols fun k n => m.beta k n * e k n) := by
  intro n hn k
  rw [normalizeCols_apply]
  have h0 : ∀ k, m.beta k n * e k n = 0 := fun k => by rw [beta_unknown hm hn, zero_mul]
  rw [if_pos (Finset.sum_eq_zero fun k _ => h0 k), h0]

theorem weigh_known {phi : Mat K V ℝ} (h : Unassigned m phi) (k : Fin K) (n : Fin V) :
    (X n : ℝ) * phi k n = (knownWords m X n : ℝ) * phi k n := by
  unfold knownWords
  split_ifs with hn
  · rfl
  · rw [h n hn, mul_zero, mul_zero]

theorem gamma_known {phi : Mat K V ℝ} (h : Unassigned m phi) :
    computeGamma X m.alpha phi = computeGamma (knownWords m X) m.alpha phi := by
  funext k
  rw [computeGamma_apply, computeGamma_apply]
  congr 1
  exact Finset.sum_congr rfl fun n _ => weigh_known h k n

/-- A common factor of the columns disappears. -/
theorem normalizeCols_scale {b : Mat K V ℝ} (hb : ∀ k n, 0 ≤ b k n) {c : ℝ} (hc : 0 < c) :
    normalizeCols (fun k n => b k n * c) = normalizeCols b := by
  funext k n
  rw [normalizeCols_apply, normalizeCols_apply, ← Finset.sum_mul]
  by_cases h0 : ∑ k, b k n = 0
  · have := (Finset.sum_eq_zero_iff_of_nonneg fun k _ => hb k n).1 h0 k (mem_univ k)
    rw [if_pos h0, if_pos (by rw [h0, zero_mul]), this, zero_mul]
  · rw [if_neg h0, if_neg (mul_ne_zero h0 hc.ne')]
    field_simp

/-- A loop that does not stop early, with equal steps and starts that the first step makes equal. -/
theorem loop_same {S : Type} {step step' : S → Option S} {gam : S → Vec K ℝ} {tol : ℝ} (htol : tol ≤ 0) (h : ∀ s, step s = step' s)
    {s s' : S} (h0 : step s = step' s') (i : ℕ) (old old' : Vec K ℝ) :
    loop step gam tol (i + 1) old s = loop step' gam tol (i + 1) old' s' := by
  have hc : ∀ a b : Vec K ℝ, converged a b tol = false := fun a b => by
    unfold converged
    rw [decide_eq_false_iff_not]
    rintro ⟨_, hlt⟩
    have : 0 ≤ (∑ k, |a k - b k|) / (K : ℝ) := by positivity
    linarith
  have hf : step = step' := funext h
  rw [loop, loop, hc, hc, h0]
  simp only [Bool.false_eq_true, if_false]
  cases step' s' with
  | none => rfl
  | some t =>
    rw [Option.bind_some, Option.bind_some, hf]
    cases i with
    | zero => rfl
    | succ i => rw [loop, loop, hc, hc]

theorem mapOpt_const {n : ℕ} {f : ℝ → Option ℝ} {x v : ℝ} (h : f x = some v) : mapOpt f (fun _ : Fin n => x) = some fun _ => v :=
  mapOpt_eq.2 fun _ => h

/-- A symmetric prior, as the builder makes it. -/
def Symmetric (m : Model K V C) : Prop := ∃ a, ∀ k, m.alpha k = a

theorem initial_symmetric {a : ℝ} (ha : ∀ k, m.alpha k = a) : (initial X m.alpha).gamma = fun _ => a + numWords X / K := by
  funext k
  show m.alpha k + _ = _
  rw [ha]

theorem start_pos (hm : m.Valid) (hK : 0 < K) {a : ℝ} (ha : ∀ k, m.alpha k = a) (X : Vec V ℕ) : 0 < a + (numWords X : ℝ) / K := by
  have := hm.alpha_pos ⟨0, hK⟩
  rw [ha] at this
  have : (0 : ℝ) ≤ (numWords X : ℝ) / K := by positivity
  linarith

/-! ### C130: the unsupervised step -/

theorem unsupervisedStep_known (hm : m.Valid) (s : VP K V) : unsupervisedStep P X m s = unsupervisedStep P (knownWords m X) m s := by
  unfold unsupervisedStep unsupervisedPhi
  cases mapOpt P.psi s.gamma with
  | none => rfl
  | some psi =>
    simp only [Option.map_some, Option.some.injEq, VP.mk.injEq, true_and]
    exact gamma_known (unassigned_of hm fun k _ => P.exp (psi k))

theorem unsupervisedStep_initial (hm : m.Valid) (hK : 0 < K) (hs : Symmetric m) (X X' : Vec V ℕ) :
    unsupervisedPhi P m.beta (initial X m.alpha).gamma = unsupervisedPhi P m.beta (initial X' m.alpha).gamma := by
  obtain ⟨a, ha⟩ := hs
  obtain ⟨v, hv⟩ := P.psi_some _ (start_pos hm hK ha X)
  obtain ⟨v', hv'⟩ := P.psi_some _ (start_pos hm hK ha X')
  unfold unsupervisedPhi
  rw [initial_symmetric ha, initial_symmetric ha, mapOpt_const hv, mapOpt_const hv', Option.map_some, Option.map_some,
    normalizeCols_scale hm.beta_nonneg (P.exp_pos _), normalizeCols_scale hm.beta_nonneg (P.exp_pos _)]

theorem unsupervisedRun_unassigned (hm : m.Valid) (htol : cfg.tolerance ≤ 0) (hi : cfg.iterations ≠ 0) {s : VP K V} {r : Report}
    (hK : 0 < K) (h : unsupervised P cfg draw X m = some (s, r)) : Unassigned m s.phi := by
  obtain ⟨_, _, h3⟩ := C35_unsupervised hm hK h
  intro n hn
  refine h3 ⟨hi, htol.trans ?_⟩ n fun k => beta_unknown hm hn k
  have : ∀ k, 0 ≤ m.alpha k := fun k => (hm.alpha_pos k).le
  have e : 0 ≤ ∑ k, (m.alpha k + (∑ n, (X n : ℝ)) / K) := Finset.sum_nonneg fun k _ =>
    add_nonneg (this k) (by positivity)
  positivity

theorem likelihood_known {s : VP K V} (h : Unassigned m s.phi) : unsupervisedLikelihood P X m.alpha m.beta s.phi s.gamma =
    unsupervisedLikelihood P (knownWords m X) m.alpha m.beta s.phi s.gamma := by
  have h2 : ∀ k n, s.phi k n * (if X n ≠ 0 then (1 : ℝ) else 0) = s.phi k n * if knownWords m X n ≠ 0 then (1 : ℝ) else 0 := by
    intro k n
    by_cases hn : m.Known n
    · unfold knownWords; rw [if_pos hn]
    · rw [h n hn, zero_mul, zero_mul]
  have h3 : ∀ k n, s.phi k n * (X n : ℝ) = s.phi k n * (knownWords m X n : ℝ) := fun k n => by
    rw [mul_comm, weigh_known h, mul_comm]
  unfold unsupervisedLikelihood
  simp only [h2, h3]

/-- **C130**, unsupervised step (partial: a symmetric prior and no early stop).  Words that no topic knows have no
influence: the result and the reported likelihood are those of the document without them. -/
theorem C130_unsupervised_partial (hm : m.Valid) (hK : 0 < K) (hs : Symmetric m) (htol : cfg.tolerance ≤ 0)
    (hi : cfg.iterations ≠ 0) : unsupervised P cfg draw X m = unsupervised P cfg draw (knownWords m X) m := by
  have hrun : unsupervisedRun P cfg X m = unsupervisedRun P cfg (knownWords m X) m := by
    unfold unsupervisedRun
    obtain ⟨i, hi⟩ := Nat.exists_eq_succ_of_ne_zero hi
    rw [hi]
    refine loop_same htol (unsupervisedStep_known hm) ?_ i _ _
    rw [unsupervisedStep_known hm]
    unfold unsupervisedStep
    rw [unsupervisedStep_initial hm hK hs X (knownWords m X)]
  obtain ⟨s, r, h, _⟩ := C35_unsupervised_defined (P := P) (cfg := cfg) (draw := draw) (X := X) hm hK
  have hu := unsupervisedRun_unassigned hm htol hi hK h
  have h1 := run_of_unsupervised h
  unfold unsupervised
  rw [← hrun, h1, Option.bind_some, Option.bind_some, likelihood_known hu]

/-! ### The correspondence step -/

theorem correspondenceStep_known (hm : m.Valid) (s : VP K V × Vec V ℝ) :
    correspondenceStep P X (y : ℤ) m s = correspondenceStep P (knownWords m X) (y : ℤ) m s := by
  unfold correspondenceStep
  cases h : correspondencePhi P (y : ℤ) m.beta m.eta s.1.gamma s.2 with
  | none => rfl
  | some phi =>
    rw [Option.bind_some, Option.bind_some]
    have hu : Unassigned m phi := by
      unfold correspondencePhi at h
      obtain ⟨t1, _, h⟩ := Option.bind_eq_some_iff.1 h
      obtain ⟨ey, _, h⟩ := Option.bind_eq_some_iff.1 h
      obtain ⟨le, _, h⟩ := Option.bind_eq_some_iff.1 h
      cases h
      have := unassigned_of hm fun k n => P.exp (t1 k) * P.exp (le k * s.2 n)
      simpa only [mul_assoc] using this
    rw [gamma_known hu]

theorem correspondencePhi_initial (hm : m.Valid) (hK : 0 < K) (hs : Symmetric m) (X X' : Vec V ℕ) (tau : Vec V ℝ) :
    correspondencePhi P (y : ℤ) m.beta m.eta (initial X m.alpha).gamma tau =
      correspondencePhi P (y : ℤ) m.beta m.eta (initial X' m.alpha).gamma tau := by
  obtain ⟨a, ha⟩ := hs
  obtain ⟨v, hv⟩ := P.psi_some _ (start_pos hm hK ha X)
  obtain ⟨v', hv'⟩ := P.psi_some _ (start_pos hm hK ha X')
  unfold correspondencePhi
  rw [initial_symmetric ha, initial_symmetric ha, mapOpt_const hv, mapOpt_const hv', Option.bind_some, Option.bind_some]
  congr 1
  funext ey
  congr 1
  funext le
  have key : ∀ c : ℝ, 0 < c → normalizeCols (fun k n => m.beta k n * c * P.exp (le k * tau n)) =
      normalizeCols fun k n => m.beta k n * P.exp (le k * tau n) := fun c hc => by
    rw [← normalizeCols_scale (b := fun k n => m.beta k n * P.exp (le k * tau n))
      (fun k n => mul_nonneg (hm.beta_nonneg k n) (P.exp_pos _).le) hc]
    congr 1
    funext k n
    ring
  rw [key _ (P.exp_pos _), key _ (P.exp_pos _)]

/-- **C130**, correspondence step (partial: a symmetric prior and no early stop).  The result, without the reported
likelihood, is that of the document without the words that no topic knows. -/
theorem C130_correspondence_partial (hm : m.Valid) (hK : 0 < K) (hs : Symmetric m) (htol : cfg.tolerance ≤ 0)
    (hi : cfg.iterations ≠ 0) (he : ∀ k, 0 < m.eta k y) {mu : ℝ} {N : ℕ} : ∃ s r r',
    correspondence P cfg mu N draw X (y : ℤ) m = some (s, r) ∧
      correspondence P cfg mu N draw (knownWords m X) (y : ℤ) m = some (s, r') := by
  have hrun : correspondenceRun P cfg X (y : ℤ) m = correspondenceRun P cfg (knownWords m X) (y : ℤ) m := by
    unfold correspondenceRun
    obtain ⟨i, hi⟩ := Nat.exists_eq_succ_of_ne_zero hi
    rw [hi]
    refine loop_same htol (correspondenceStep_known hm) ?_ i _ _
    rw [correspondenceStep_known hm]
    unfold correspondenceStep
    rw [correspondencePhi_initial hm hK hs X (knownWords m X)]
  obtain ⟨s, r, h⟩ := C35_correspondence_defined (P := P) (cfg := cfg) (draw := draw) (X := X) (mu := mu) (N := N) hm he
  obtain ⟨s', r', h'⟩ := C35_correspondence_defined (P := P) (cfg := cfg) (draw := draw) (X := knownWords m X) (mu := mu)
    (N := N) hm he
  have h1 := run_of_correspondence h
  have h1' := run_of_correspondence h'
  rw [hrun, h1'] at h1
  cases h1
  exact ⟨s, r, r', h, h'⟩

/-! ### The multinomial step -/

theorem multinomialStep_known (hm : m.Valid) {ew : ℝ} (s : VP K V) :
    multinomialStep P ew X (y : ℤ) m s = multinomialStep P ew (knownWords m X) (y : ℤ) m s := by
  unfold multinomialStep
  cases h : multinomialPhi P (y : ℤ) m.beta m.eta s.gamma ew with
  | none => rfl
  | some phi =>
    have hu : Unassigned m phi := by
      unfold multinomialPhi at h
      obtain ⟨t1, _, h⟩ := Option.bind_eq_some_iff.1 h
      obtain ⟨d, _, h⟩ := Option.bind_eq_some_iff.1 h
      obtain ⟨ey, _, h⟩ := Option.bind_eq_some_iff.1 h
      obtain ⟨le, _, h⟩ := Option.bind_eq_some_iff.1 h
      cases h
      exact unassigned_of hm fun k _ => P.exp (ew * le k + t1 k - (d + 1))
    rw [Option.map_some, Option.map_some, gamma_known hu]

/-- **C130**, multinomial step (partial: the exact exponential, a symmetric prior and no early stop, for which the loop
looks at the probability of a report). -/
theorem C130_multinomial_partial {psi : ℝ → ℝ} (hm : m.Valid) (hK : 0 < K) (hs : Symmetric m) (htol : cfg.computeLikelihood ≤ 0)
    (hi : cfg.iterations ≠ 0) (he : ∀ k, 0 < m.eta k y) {ew mu prior : ℝ} {N : ℕ} : ∃ s r r',
    multinomial (exactPrims psi) cfg ew mu prior N draw X (y : ℤ) m = some (s, r) ∧
      multinomial (exactPrims psi) cfg ew mu prior N draw (knownWords m X) (y : ℤ) m = some (s, r') := by
  have hphi : ∀ X X' : Vec V ℕ, multinomialPhi (exactPrims psi) (y : ℤ) m.beta m.eta (initial X m.alpha).gamma ew =
      multinomialPhi (exactPrims psi) (y : ℤ) m.beta m.eta (initial X' m.alpha).gamma ew := by
    intro X X'
    obtain ⟨a, ha⟩ := hs
    obtain ⟨v, hv⟩ := (exactPrims psi).psi_some _ (start_pos hm hK ha X)
    obtain ⟨v', hv'⟩ := (exactPrims psi).psi_some _ (start_pos hm hK ha X')
    unfold multinomialPhi
    rw [initial_symmetric ha, initial_symmetric ha, mapOpt_const hv, mapOpt_const hv', Option.bind_some, Option.bind_some]
    show (Option.bind (some _) _) = Option.bind (some _) _
    rw [Option.bind_some, Option.bind_some]
    congr 1
    funext ey
    congr 1
    funext le
    have key : ∀ t d : ℝ, normalizeCols (fun k n => m.beta k n * Real.exp (ew * le k + t - (d + 1))) =
        normalizeCols fun k n => m.beta k n * Real.exp (ew * le k) := fun t d => by
      rw [← normalizeCols_scale (b := fun k n => m.beta k n * Real.exp (ew * le k))
        (fun k n => mul_nonneg (hm.beta_nonneg k n) (Real.exp_pos _).le) (Real.exp_pos (t - (d + 1)))]
      congr 1
      funext k n
      rw [mul_assoc, ← Real.exp_add]
      congr 2
      ring
    show some (normalizeCols fun k n => m.beta k n * Real.exp (ew * le k + v - (_ + 1))) =
      some (normalizeCols fun k n => m.beta k n * Real.exp (ew * le k + v' - (_ + 1)))
    rw [key, key]
  have hrun : multinomialRun (exactPrims psi) cfg ew X (y : ℤ) m = multinomialRun (exactPrims psi) cfg ew (knownWords m X) (y : ℤ) m := by
    unfold multinomialRun
    obtain ⟨i, hi⟩ := Nat.exists_eq_succ_of_ne_zero hi
    rw [hi]
    refine loop_same htol (multinomialStep_known hm) ?_ i _ _
    rw [multinomialStep_known hm]
    unfold multinomialStep
    rw [hphi X (knownWords m X)]
  obtain ⟨s, r, h⟩ := C35_multinomial_defined (P := exactPrims psi) (cfg := cfg) (draw := draw) (X := X) (ew := ew) (mu := mu)
    (prior := prior) (N := N) hm hK he
  obtain ⟨s', r', h'⟩ := C35_multinomial_defined (P := exactPrims psi) (cfg := cfg) (draw := draw) (X := knownWords m X)
    (ew := ew) (mu := mu) (prior := prior) (N := N) hm hK he
  have h1 := run_of_multinomial h
  have h1' := run_of_multinomial h'
  rw [hrun, h1'] at h1
  cases h1
  exact ⟨s, r, r', h, h'⟩

/-! ### The likelihood that the fast supervised step reports -/

/-- C130, the full statement is false: the likelihood that the fast supervised step reports for a document with a word
that no topic knows is not a number. -/
theorem C130_fast_report (hm : m.Valid) (hK : 0 < K) {w : ℝ} {n : Fin V} (hn : X n ≠ 0) (hu : ¬ m.Known n)
    (hran : RunsOnce cfg.iterations cfg.tolerance X m) (hd : draw < cfg.computeLikelihood) :
    ∃ s, fast P cfg w draw X (y : ℤ) m = some (s, .nan) := by
  obtain ⟨s, r, h⟩ := C35_fast_defined (P := P) (cfg := cfg) (draw := draw) (X := X) (y := y) (w := w) hm hK (Or.inl ⟨n, hn⟩)
  refine ⟨s, ?_⟩
  have hphi : ∀ k, s.phi k n = 0 := (C35_fast hm hK ⟨n, hn⟩ h).2.2 hran n fun k => beta_unknown hm hu k
  have h1 := run_of_fast h
  unfold fast at h ⊢
  rw [h1, Option.bind_some] at h ⊢
  have hb : bernoulli cfg.computeLikelihood draw = true := by unfold bernoulli; rw [decide_eq_true_iff]; exact hd
  unfold report at h ⊢
  rw [if_pos hb] at h ⊢
  suffices hnan : supervisedLikelihood' P X (y : ℤ) m.alpha m.beta m.eta s.phi s.gamma = some .nan by
    rw [hnan]; rfl
  have hf : ∀ c, factor P (ratio X) m.eta s.phi n c = 0 := fun c => by
    unfold factor
    exact Finset.sum_eq_zero fun k _ => by rw [hphi k, mul_zero]
  have hcol : ∃ ey, colAt m.eta (y : ℤ) = some ey := by
    unfold colAt
    rw [dif_pos ⟨by omega, by have := y.2; omega⟩]
    exact ⟨_, rfl⟩
  obtain ⟨ey, hey⟩ := hcol
  -- the product is zero
  have hprod : ∀ (l : List (Fin V)) (p : Vec C ℝ), (n ∈ l ∨ p = fun _ => 0) →
      l.foldl (fun p n => if X n = 0 then p else fun c => p c * factor P (ratio X) m.eta s.phi n c) p = fun _ => 0 := by
    intro l
    induction l with
    | nil => intro p hp; exact hp.resolve_left (by simp)
    | cons a l ih =>
      intro p hp
      rw [List.foldl_cons]
      apply ih
      rcases hp with hp | rfl
      · rcases List.mem_cons.1 hp with rfl | hp
        · right
          rw [if_neg hn]
          funext c
          rw [hf, mul_zero]
        · left; exact hp
      · right
        split_ifs
        · rfl
        · funext c; rw [zero_mul]
  unfold supervisedLikelihood' computeH
  simp only
  rw [hprod _ _ (Or.inl (List.mem_finRange n))]
  cases hfind : (List.finRange V).reverse.find? (fun n => X n ≠ 0) with
  | none =>
    have := List.find?_eq_none.1 hfind n (by simp)
    simp [hn] at this
  | some a =>
    have hfind' : (List.finRange V).reverse.find? (fun n => 0 < X n) = some a := by
      rw [← hfind]
      congr 1
      funext b
      simp [Nat.pos_iff_ne_zero]
    unfold divide
    simp only
    split_ifs with hz
    · rw [Option.map_some]
      simp only
      unfold supervisedLikelihood
      rw [hey, Option.bind_some, hfind', Option.bind_some, Option.bind_some]
      have hh : ∑ k, hOf P (ratio X) m.eta (fun c => 0 / factor P (ratio X) m.eta s.phi a c) a k * s.phi k a = 0 := by
        refine Finset.sum_eq_zero fun k _ => ?_
        unfold hOf
        simp
      rw [hh]
      cases unsupervisedLikelihood P X m.alpha m.beta s.phi s.gamma with
      | none => rfl
      | some l =>
        have : logc 0 = none := by unfold logc; rw [if_neg (lt_irrefl _)]
        rw [Option.bind_some, this]
        rfl
    · rw [Option.map_none]
      simp only
      rw [hey]
      rfl

end Verif.EStep
