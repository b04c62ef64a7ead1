import Verif.Props.Maximise
import Verif.Props.Schedule
import Verif.Props.Symmetry

/-! Property C103: what an epoch of training does to the bound of the corpus. -/
namespace Verif.Train

open MathUtils EStep MStep Pool Finset

variable {K V C : ℕ} {T : Type} {P : Prims}

/-! ### The topics after an epoch -/

/-- After any schedule of an epoch with the unsupervised M step the topics are the normalised expected counts of the
corpus. -/
theorem epoch_topics {corpus : ℕ → Doc V} {next : T → T} {eval : Params K V C × T → ℕ → VP K V} {owner : Bool}
    {W n : ℕ} {order : ℕ → ℕ} (ho : ((List.range n).map order).Perm (List.range n)) {q : Params K V C} {t : T}
    {b : Buf K V} (hb : BufIs b []) {s : St (Params K V C × T × Option (Buf K V)) (VP K V) W}
    (h : Reachable (trainCfg (unsupervised corpus) next eval owner W n order) (q, t, some b) s) (hr : s.main = .ret)
    (hn : 0 < n) :
    s.model.1 = { q with beta := betaOf ((List.range n).map fun i => (corpus i, eval (q, t) i)) } := by
  rw [partial_fit_order h hr]
  have hperm := ((C01_each_document_once h hr).1.map order).trans ho
  set l := ((consumed s.log).map Prod.fst).map order with hl
  have hne : l ≠ [] := by
    intro e
    rw [e] at hperm
    have := hperm.length_eq
    rw [List.length_nil, List.length_range] at this
    omega
  rcases (unsupervisedFree corpus).docs_state q t (l.map fun i => (i, eval (trainParams (q, t, some b)) i)) b []
    (b.isSome) ⟨hb, by cases b <;> simp⟩ with ⟨⟨d, _, hd⟩, _⟩ | ⟨_, s', hs', hI, _⟩
  · exact absurd trivial hd
  · rw [hs']
    have hI' : BufIs s' (l.map fun i => (corpus i, eval (q, t) i)) := by
      have := hI
      rw [List.nil_append, List.map_map] at this
      exact this
    simp only [trainBatch, Option.bind_some, unsupervised, uM]
    rw [hI'.beta (by simpa using hne), betaOf, betaOf]
    have hp := hperm.map fun i => (corpus i, eval (q, t) i)
    simp only [topicMass, expectedCounts_perm hp]

/-! ### C103 -/

/-- **C103**, the part that holds: after any schedule of an epoch with the unsupervised steps, if every topic knows a
word of the corpus, the new topics are a model, and at the variational parameters of the epoch the bound of the corpus
is no smaller than before.  (What is missing: the same for the variational parameters that the next epoch finds; see
`C103_decreases`.) -/
theorem C103_m_step_partial {cfg : EStep.Cfg} {draw : ℕ → ℝ} {corpus : ℕ → Doc V} {next : T → T}
    {eval : Params K V C × T → ℕ → VP K V} {owner : Bool} {W n : ℕ} {order : ℕ → ℕ}
    (ho : ((List.range n).map order).Perm (List.range n)) {q : Params K V C} {t : T} {b : Buf K V} (hb : BufIs b [])
    {beta : Mat K V ℝ} (halpha : ∀ k, 0 < q.alpha k) (hbeta : RowStochastic beta) (hK : 0 < K)
    (hev : ∀ i < n, ∃ r, EStep.unsupervised P cfg (draw i) (corpus i).words
      (⟨q.alpha, beta, q.eta⟩ : Model K V C) = some (eval (q, t) i, r))
    (hrun : ∀ i < n, RunsOnce cfg.iterations cfg.tolerance (corpus i).words (⟨q.alpha, beta, q.eta⟩ : Model K V C))
    (hknown : ∀ i < n, ∀ w, (corpus i).words w ≠ 0 → ∃ k, 0 < beta k w)
    (huse : ∀ k, ∃ i < n, ∃ w, (corpus i).words w ≠ 0 ∧ 0 < beta k w)
    {s : St (Params K V C × T × Option (Buf K V)) (VP K V) W}
    (h : Reachable (trainCfg (unsupervised corpus) next eval owner W n order) (q, t, some b) s) (hr : s.main = .ret)
    {words : ℕ → List (Fin V)} (hw : ∀ i < n, countsOf (words i) = (corpus i).words) :
    ∃ beta' : Mat K V ℝ, s.model.1.beta.IsReal beta' ∧ RowStochastic beta' ∧ s.model.1.alpha = q.alpha ∧
      s.model.1.eta = q.eta ∧
      ((List.range n).map fun i => bound (words i) (⟨q.alpha, beta, q.eta⟩ : Model K V C) (eval (q, t) i)).sum ≤
        ((List.range n).map fun i => bound (words i) (⟨q.alpha, beta', q.eta⟩ : Model K V C) (eval (q, t) i)).sum := by
  set m : Model K V C := ⟨q.alpha, beta, q.eta⟩ with hm'
  have hm : m.Valid := ⟨halpha, hbeta.1⟩
  obtain ⟨i0, hi0, _⟩ := huse ⟨0, hK⟩
  have hmod := epoch_topics ho hb h hr (Nat.zero_lt_of_lt hi0)
  set ds : List (Given K V) := (List.range n).map fun i => (corpus i, eval (q, t) i) with hds
  have hup : ∀ i < n, ∃ s1, UnsupervisedUpdate P (corpus i).words m s1 (eval (q, t) i) := fun i hi => by
    obtain ⟨r, he⟩ := hev i hi
    exact (C38_unsupervised hm hK he).ran hm rfl (hrun i hi)
  have hnn : ∀ i < n, ∀ k w, 0 ≤ (eval (q, t) i).phi k w := fun i hi k w => by
    obtain ⟨r, he⟩ := hev i hi
    exact (C35_unsupervised hm hK he).1 k w
  have hphi : ∀ d ∈ ds, ∀ k w, 0 ≤ d.2.phi k w := by
    intro d hd
    obtain ⟨i, hi, rfl⟩ := List.mem_map.1 hd
    exact hnn i (List.mem_range.1 hi)
  have hfin : ∀ i < n, Finite (words i) m (eval (q, t) i) := fun i hi => by
    obtain ⟨s1, h1⟩ := hup i hi
    refine h1.finite hm fun w hw' => hknown i hi w ?_
    rw [← hw i hi]
    exact countsOf_ne.2 hw'
  have hpos : ∀ i < n, ∀ k w, 0 < beta k w → 0 < (eval (q, t) i).phi k w := by
    intro i hi k w hkw
    obtain ⟨s1, psi, _, hp, _⟩ := hup i hi
    refine lt_of_le_of_ne (hnn i hi k w) fun h0 => ?_
    have h1 := (hp w).1 k
    rw [← h0, zero_mul] at h1
    exact (mul_pos hkw (P.exp_pos _)).ne h1
  have hmass : ∀ k, 0 < topicMass ds k := by
    intro k
    obtain ⟨i, hi, w, hwi, hkw⟩ := huse k
    have hex : 0 < expectedCounts ds k w := by
      refine lt_of_lt_of_le (?_ : 0 < ((corpus i).words w : ℝ) * (eval (q, t) i).phi k w) ?_
      · exact mul_pos (by exact_mod_cast Nat.pos_of_ne_zero hwi) (hpos i hi k w hkw)
      · refine List.single_le_sum (l := ds.map fun d => (d.1.words w : ℝ) * d.2.phi k w) ?_ _ ?_
        · intro x hx
          obtain ⟨d, hd, rfl⟩ := List.mem_map.1 hx
          exact mul_nonneg (Nat.cast_nonneg _) (hphi d hd k w)
        · exact List.mem_map.2 ⟨_, List.mem_map.2 ⟨i, List.mem_range.2 hi, rfl⟩, rfl⟩
    exact lt_of_lt_of_le hex
      (Finset.single_le_sum (f := fun w => expectedCounts ds k w) (fun w _ => expectedCounts_nonneg hphi k w) (mem_univ w))
  refine ⟨fun k w => expectedCounts ds k w / topicMass ds k, ?_, rowStochastic_normalised hphi hmass, ?_, ?_, ?_⟩
  · rw [hmod]
    exact betaOf_isReal fun k => (hmass k).ne'
  · rw [hmod]
  · rw [hmod]
  · have key : ∀ x : Mat K V ℝ,
        ((List.range n).map fun i => bound (words i) (⟨q.alpha, x, q.eta⟩ : Model K V C) (eval (q, t) i)).sum =
        ((List.range n).map fun i =>
          bound (words i) (⟨q.alpha, fun _ _ => 1, q.eta⟩ : Model K V C) (eval (q, t) i)).sum + wordLikelihood ds x := by
      intro x
      have e : wordLikelihood ds x = ((List.range n).map fun i =>
          ∑ k, ∑ w, ((corpus i).words w : ℝ) * (eval (q, t) i).phi k w * Real.log (x k w)).sum := by
        rw [wordLikelihood, hds, List.map_map]
        rfl
      rw [e, ← List.sum_map_add]
      refine congrArg List.sum (List.map_congr_left fun i hi => ?_)
      rw [bound_topics, hw i (List.mem_range.1 hi)]
    refine (key beta).le.trans (le_trans ?_ (key _).ge)
    refine add_le_add le_rfl (counts_maximise hphi hmass hbeta fun k w hkw => ?_)
    refine lt_of_le_of_ne (hbeta.1 k w) fun h0 => hkw.ne' (List.sum_eq_zero fun x hx => ?_)
    obtain ⟨d, hd, rfl⟩ := List.mem_map.1 hx
    obtain ⟨i, hi, rfl⟩ := List.mem_map.1 hd
    have hi := List.mem_range.1 hi
    by_cases hz : (corpus i).words w = 0
    · simp [hz]
    · have : (eval (q, t) i).phi k w = 0 := hfin i hi w (by
        rw [← countsOf_ne, hw i hi]; exact hz) k h0.symm
      simp [this]

/-! ### The bound can decrease -/

/-- Two topics; the second only knows the word `0`, which the first hardly uses. -/
noncomputable def lopsided : Mat 2 2 ℝ := fun k n =>
  if k = 0 then (if n = 0 then 1 / 19 else 18 / 19) else if n = 0 then 1 else 0

/-- The word `0`. -/
def oneWord : Doc 2 := ⟨countsOf [0], 0⟩

theorem lopsided_stochastic : RowStochastic lopsided := by
  refine ⟨fun k n => ?_, fun k => ?_⟩
  · fin_cases k <;> fin_cases n <;> norm_num [lopsided]
  · fin_cases k <;> norm_num [lopsided, Fin.sum_univ_two]

/-- The bound of the document with one word, if `gamma` is that of the responsibilities. -/
theorem one_word_bound {m : Model 2 2 C} {s : VP 2 2} (ha : ∀ k, m.alpha k = 1 / 10)
    (hg : ∀ k, s.gamma k = m.alpha k + ∑ n, (countsOf [(0 : Fin 2)] n : ℝ) * s.phi k n) :
    bound [0] m s = Real.log (Real.Gamma (1 / 10 + 1 / 10)) - (Real.log (Real.Gamma (1 / 10)) +
      Real.log (Real.Gamma (1 / 10))) + (Real.log (Real.Gamma (1 / 10 + s.phi 0 0)) +
      Real.log (Real.Gamma (1 / 10 + s.phi 1 0)) - Real.log (Real.Gamma (1 / 10 + s.phi 0 0 + (1 / 10 + s.phi 1 0)))) +
      (s.phi 0 0 * Real.log (m.beta 0 0) + s.phi 1 0 * Real.log (m.beta 1 0) -
        (s.phi 0 0 * Real.log (s.phi 0 0) + s.phi 1 0 * Real.log (s.phi 1 0))) := by
  have c0 : (countsOf [(0 : Fin 2)] 0 : ℝ) = 1 := by simp [countsOf]
  have c1 : (countsOf [(0 : Fin 2)] 1 : ℝ) = 0 := by simp [countsOf]
  have g : ∀ k, s.gamma k = 1 / 10 + s.phi k 0 := by
    intro k
    rw [hg, ha, Fin.sum_univ_two, c0, c1]
    ring
  rw [bound, elbo_split_gamma]
  simp only [Fin.sum_univ_two, ha, g, c0, c1, List.map_singleton, List.sum_singleton]
  ring

/-- The part of the bound that the two epochs differ in. -/
theorem gamma_gap : Real.log (Real.Gamma (1 / 10 + 1 / 2)) + Real.log (Real.Gamma (1 / 10 + 1 / 2)) + Real.log 2 <
    Real.log (Real.Gamma (1 / 10 + 1 / 20)) + Real.log (Real.Gamma (1 / 10 + 19 / 20)) + Real.log (20 / 19) := by
  have p : ∀ x : ℝ, 0 < x → Real.Gamma x ≠ 0 := fun x hx => (Real.Gamma_pos_of_pos hx).ne'
  have hc := Real.convexOn_log_Gamma.2 (show (23 / 20 : ℝ) ∈ Set.Ioi 0 by norm_num)
    (show (41 / 20 : ℝ) ∈ Set.Ioi 0 by norm_num) (show (0 : ℝ) ≤ 1 / 2 by norm_num) (show (0 : ℝ) ≤ 1 / 2 by norm_num)
    (by norm_num)
  simp only [smul_eq_mul, Function.comp_apply] at hc
  rw [show (1 / 2 : ℝ) * (23 / 20) + 1 / 2 * (41 / 20) = 3 / 5 + 1 by norm_num,
    show (23 / 20 : ℝ) = 3 / 20 + 1 by norm_num, show (41 / 20 : ℝ) = 21 / 20 + 1 by norm_num,
    Real.Gamma_add_one (by norm_num), Real.Gamma_add_one (by norm_num), Real.Gamma_add_one (by norm_num),
    Real.log_mul (by norm_num) (p _ (by norm_num)), Real.log_mul (by norm_num) (p _ (by norm_num)),
    Real.log_mul (by norm_num) (p _ (by norm_num))] at hc
  norm_num at hc ⊢
  have hl : Real.log 2 - 2 * Real.log (3 / 5) < Real.log (20 / 19) - Real.log (3 / 20) - Real.log (21 / 20) := by
    have e1 : Real.log 2 - 2 * Real.log (3 / 5) = Real.log (50 / 9) := by
      have a : Real.log (2 / (3 / 5 * (3 / 5))) = Real.log 2 - Real.log (3 / 5 * (3 / 5)) :=
        Real.log_div (by norm_num) (by norm_num)
      have b : Real.log (3 / 5 * (3 / 5)) = Real.log (3 / 5) + Real.log (3 / 5) := Real.log_mul (by norm_num) (by norm_num)
      rw [show (50 / 9 : ℝ) = 2 / (3 / 5 * (3 / 5)) by norm_num, a, b]
      ring
    have e2 : Real.log (20 / 19) - Real.log (3 / 20) - Real.log (21 / 20) = Real.log (20 / 19 / (3 / 20) / (21 / 20)) := by
      have a : Real.log (20 / 19 / (3 / 20) / (21 / 20)) = Real.log (20 / 19 / (3 / 20)) - Real.log (21 / 20) :=
        Real.log_div (by norm_num) (by norm_num)
      have b : Real.log (20 / 19 / (3 / 20)) = Real.log (20 / 19) - Real.log (3 / 20) :=
        Real.log_div (by norm_num) (by norm_num)
      rw [a, b]
    rw [e1, e2]
    exact Real.log_lt_log (by norm_num) (by norm_num)
  linarith

/-- One iteration on the document with one word. -/
theorem first_iteration {eta : Mat 2 C ℝ} {draw : ℝ} {s : VP 2 2} {r : Report}
    (h : EStep.unsupervised exact ⟨1, 3 / 5, 0⟩ draw (countsOf [0]) (⟨fun _ => 1 / 10, lopsided, eta⟩ : Model 2 2 C) =
      some (s, r)) : s.phi 0 0 = 1 / 20 ∧ s.phi 1 0 = 19 / 20 := by
  have hm : (⟨fun _ => 1 / 10, lopsided, eta⟩ : Model 2 2 C).Valid := ⟨fun _ => by norm_num, lopsided_stochastic.1⟩
  obtain ⟨f, j, f0, fs, fj, j1, j2, _⟩ := C38_unsupervised hm (by norm_num) h
  have hj : j = 1 := by
    have h1 : j ≤ 1 := j1
    by_contra hne
    have h0 : j = 0 := by omega
    have := j2 (by rw [h0]; exact Nat.one_pos)
    rw [h0] at this
    simp only [change, f0, Fin.sum_univ_two] at this
    norm_num [countsOf] at this
  rw [hj] at fs fj
  obtain ⟨psi, hpsi, hprop, _⟩ := fs 0 Nat.one_pos
  rw [zero_add, ← fj] at hprop
  have he : psi 0 = psi 1 := by
    have a := hpsi 0
    have b := hpsi 1
    rw [f0] at a b
    exact Option.some_injective _ (a.symm.trans b)
  have a0 := (hprop 0).1 0
  have a1 := (hprop 0).1 1
  have hp := exact.exp_pos (psi 1)
  simp only [Fin.sum_univ_two, he] at a0 a1
  norm_num [lopsided] at a0 a1
  constructor
  · refine mul_right_cancel₀ hp.ne' ?_
    linarith
  · refine mul_right_cancel₀ hp.ne' ?_
    linarith

/-- The second topic takes the word over completely, and the first one too. -/
theorem second_epoch {cfg : EStep.Cfg} {eta : Mat 2 C ℝ} (he : eta 0 = eta 1) {draw : ℝ} {s : VP 2 2} {r : Report}
    (h : EStep.unsupervised exact cfg draw (countsOf [0])
      (⟨fun _ => 1 / 10, fun _ n => if n = 0 then 1 else 0, eta⟩ : Model 2 2 C) = some (s, r)) :
    s.phi 0 0 = 1 / 2 ∧ s.phi 1 0 = 1 / 2 := by
  have hm : (⟨fun _ => 1 / 10, fun _ n => if n = 0 then 1 else 0, eta⟩ : Model 2 2 C).Valid :=
    ⟨fun _ => by norm_num, fun _ n => by dsimp only; split <;> norm_num⟩
  have hsym := C92_unsupervised (Equiv.swap 0 1) exact cfg draw (countsOf [0])
    (⟨fun _ => 1 / 10, fun _ n => if n = 0 then 1 else 0, eta⟩ : Model 2 2 C)
  have e : Model.topics (Equiv.swap 0 1) (⟨fun _ => 1 / 10, fun _ n => if n = 0 then 1 else 0, eta⟩ : Model 2 2 C) =
      ⟨fun _ => 1 / 10, fun _ n => if n = 0 then 1 else 0, eta⟩ := by
    simp only [Model.topics, Model.mk.injEq, true_and]
    funext k
    fin_cases k
    · simpa using he.symm
    · simpa using he
  rw [e, h] at hsym
  have h1 : s = s.topics (Equiv.swap 0 1) := by
    have := Option.some_injective _ hsym
    exact congrArg Prod.fst this
  have h2 : s.phi 0 0 = s.phi 1 0 := by
    conv_lhs => rw [h1]
    simp [VP.topics]
  have h3 := (C35_unsupervised hm (by norm_num) h).2.1 0 ⟨0, by simp⟩
  rw [Fin.sum_univ_two] at h3
  constructor <;> linarith

/-- **C103** is false: with exact `exp` and digamma, any number of iterations (at least one) and any schedule of the
first epoch, the bound that the second epoch computes for the document with one word is smaller than that of the first
epoch. -/
theorem C103_decreases {cfg : EStep.Cfg} (hi : cfg.iterations ≠ 0) (ht : cfg.tolerance ≤ 3 / 5) {next : T → T}
    {eval : Params 2 2 C × T → ℕ → VP 2 2} {owner : Bool} {W : ℕ} {order : ℕ → ℕ} (ho : order 0 = 0)
    {q : Params 2 2 C} {t : T} (ha : q.alpha = fun _ => 1 / 10) (he : q.eta 0 = q.eta 1)
    {b : Buf 2 2} (hbuf : BufIs b []) {draw : ℝ} {r : Report}
    (hev : EStep.unsupervised exact cfg draw oneWord.words (⟨q.alpha, lopsided, q.eta⟩ : Model 2 2 C) =
      some (eval (q, t) 0, r))
    {s : St (Params 2 2 C × T × Option (Buf 2 2)) (VP 2 2) W}
    (h : Reachable (trainCfg (unsupervised fun _ => oneWord) next eval owner W 1 order) (q, t, some b) s)
    (hr : s.main = .ret) :
    ∃ beta' : Mat 2 2 ℝ, s.model.1.beta.IsReal beta' ∧ RowStochastic beta' ∧
      ∀ {draw' : ℝ} {s' : VP 2 2} {r' : Report}, EStep.unsupervised exact cfg draw' oneWord.words
        (⟨s.model.1.alpha, beta', s.model.1.eta⟩ : Model 2 2 C) = some (s', r') →
      bound [0] (⟨s.model.1.alpha, beta', s.model.1.eta⟩ : Model 2 2 C) s' <
        bound [0] (⟨q.alpha, lopsided, q.eta⟩ : Model 2 2 C) (eval (q, t) 0) := by
  have ho' : ((List.range 1).map order).Perm (List.range 1) := by simp [ho]
  have hmod := epoch_topics ho' hbuf h hr Nat.one_pos
  rw [ha] at hev ⊢
  have hm : (⟨fun _ => 1 / 10, lopsided, q.eta⟩ : Model 2 2 C).Valid := ⟨fun _ => by norm_num, lopsided_stochastic.1⟩
  have hrun : RunsOnce cfg.iterations cfg.tolerance oneWord.words (⟨fun _ => 1 / 10, lopsided, q.eta⟩ : Model 2 2 C) := by
    refine ⟨hi, ht.trans (le_of_eq ?_)⟩
    norm_num [oneWord, countsOf, Fin.sum_univ_two]
  obtain ⟨s1, psi, _, hprop, _⟩ := (C38_unsupervised hm (by norm_num) hev).ran hm rfl hrun
  have hpos : ∀ k, (eval (q, t) 0).phi k 0 ≠ 0 := by
    intro k h0
    have := (hprop 0).1 k
    rw [h0, zero_mul] at this
    have hp := exact.exp_pos (psi k)
    fin_cases k
    · simp [lopsided] at this
      exact hp.ne' this
    · simp [lopsided] at this
      exact hp.ne this
  set ds : List (Given 2 2) := (List.range 1).map fun i => (oneWord, eval (q, t) i) with hds
  have hds' : ds = [(oneWord, eval (q, t) 0)] := rfl
  have c0 : (countsOf [(0 : Fin 2)] 0 : ℝ) = 1 := by simp [countsOf]
  have c1 : (countsOf [(0 : Fin 2)] 1 : ℝ) = 0 := by simp [countsOf]
  have hc : ∀ k n, expectedCounts ds k n = if n = 0 then (eval (q, t) 0).phi k 0 else 0 := by
    intro k n
    rw [hds']
    simp only [expectedCounts, List.map_singleton, List.sum_singleton, oneWord]
    fin_cases n
    · simp [c0]
    · simp [c1]
  have hmass : ∀ k, topicMass ds k = (eval (q, t) 0).phi k 0 := by
    intro k
    simp [topicMass, hc]
  have hreal : s.model.1.beta.IsReal fun _ n => if n = 0 then (1 : ℝ) else 0 := by
    have := betaOf_isReal (ds := ds) fun k => by rw [hmass]; exact hpos k
    rw [hmod]
    have e : (fun k n => expectedCounts ds k n / topicMass ds k) = fun (_ : Fin 2) (n : Fin 2) => if n = 0 then (1 : ℝ) else 0 := by
      funext k n
      rw [hc, hmass]
      split
      · exact div_self (hpos k)
      · simp
    rw [← e]
    exact this
  refine ⟨_, hreal, ⟨fun _ n => by dsimp only; split <;> norm_num, fun _ => by simp⟩, ?_⟩
  rw [hmod]
  simp only [ha]
  intro draw' s' r' h'
  obtain ⟨p0, p1⟩ := second_epoch he h'
  have hm' : (⟨fun _ => 1 / 10, fun _ n => if n = 0 then 1 else 0, q.eta⟩ : Model 2 2 C).Valid :=
    ⟨fun _ => by norm_num, fun _ n => by dsimp only; split <;> norm_num⟩
  have L2 := one_word_bound (m := ⟨fun _ => 1 / 10, fun _ n => if n = 0 then 1 else 0, q.eta⟩) (fun _ => rfl)
    fun k => (C37_unsupervised hm' (by norm_num) h' k).1
  obtain ⟨u, ru, hu, _⟩ := C35_unsupervised_defined (P := exact) (cfg := ⟨1, 3 / 5, 0⟩) (draw := 0) (X := countsOf [0])
    hm (by norm_num)
  obtain ⟨u0, u1⟩ := first_iteration hu
  have L1 := one_word_bound (m := ⟨fun _ => 1 / 10, lopsided, q.eta⟩) (fun _ => rfl)
    fun k => (C37_unsupervised hm (by norm_num) hu k).1
  have hk : ∀ n ∈ [(0 : Fin 2)], (⟨fun _ => 1 / 10, lopsided, q.eta⟩ : Model 2 2 C).Known n := by
    intro n hn
    rw [List.mem_singleton] at hn
    rw [hn]
    exact ⟨1, by norm_num [lopsided]⟩
  have hf : Finite [0] (⟨fun _ => 1 / 10, lopsided, q.eta⟩ : Model 2 2 C) u := by
    intro n hn k h0
    rw [List.mem_singleton] at hn
    rw [hn] at h0
    fin_cases k <;> norm_num [lopsided] at h0
  have hle := C90_more_iterations hm (by norm_num) hk (cfg := ⟨1, 3 / 5, 0⟩) (cfg' := cfg) (Nat.one_le_iff_ne_zero.2 hi) ht
    hu hev hf
  refine lt_of_lt_of_le ?_ hle
  rw [L1, L2, p0, p1, u0, u1]
  have hg := gamma_gap
  have l19 : lopsided 0 0 = 1 / 19 := by simp [lopsided]
  have l1 : lopsided 1 0 = 1 := by simp [lopsided]
  rw [show (20 / 19 : ℝ) = 1 / 19 / (1 / 20) by norm_num, Real.log_div (by norm_num) (by norm_num)] at hg
  have e19 : Real.log (19 / 20) = Real.log (1 / 20) - Real.log (1 / 19) := by
    rw [← Real.log_div (by norm_num) (by norm_num)]
    norm_num
  have eh : Real.log (1 / 2) = - Real.log 2 := by
    rw [one_div, Real.log_inv]
  simp only [l19, l1, if_true, Real.log_one, eh, e19]
  rw [show (1 / 10 + 1 / 20 + (1 / 10 + 19 / 20) : ℝ) = 1 / 10 + 1 / 2 + (1 / 10 + 1 / 2) by norm_num]
  linarith

/-! ### The hypotheses are met -/

/-- Two workers train on the document with one word: at the variational parameters of the epoch the bound does not
decrease, and yet the next epoch has a smaller one. -/
example : ∃ (q : Params 2 2 1) (eval : Params 2 2 1 × Unit → ℕ → VP 2 2)
    (s : St (Params 2 2 1 × Unit × Option (Buf 2 2)) (VP 2 2) 2) (beta' : Mat 2 2 ℝ) (s' : VP 2 2),
    q.beta.IsReal lopsided ∧
    Reachable (trainCfg (unsupervised fun _ => oneWord) id eval true 2 1 id) (q, (), some none) s ∧ s.main = .ret ∧
    s.model.1.beta.IsReal beta' ∧
    bound [0] (⟨q.alpha, lopsided, q.eta⟩ : Model 2 2 1) (eval (q, ()) 0) ≤
      bound [0] (⟨q.alpha, beta', q.eta⟩ : Model 2 2 1) (eval (q, ()) 0) ∧
    bound [0] (⟨q.alpha, beta', q.eta⟩ : Model 2 2 1) s' <
      bound [0] (⟨q.alpha, lopsided, q.eta⟩ : Model 2 2 1) (eval (q, ()) 0) := by
  let cfg : EStep.Cfg := ⟨10, 1 / 10, 0⟩
  let q : Params 2 2 1 := ⟨fun _ => 1 / 10, .matrix fun k n => .fin (lopsided k n), fun _ _ => 0⟩
  have hm : (⟨q.alpha, lopsided, q.eta⟩ : Model 2 2 1).Valid :=
    ⟨fun _ => by norm_num [q], lopsided_stochastic.1⟩
  obtain ⟨v, r, hv, _⟩ := C35_unsupervised_defined (P := exact) (cfg := cfg) (draw := 0) (X := oneWord.words) hm
    (by norm_num)
  obtain ⟨⟨as, s, h1, h2⟩, _⟩ := C05_returns_partial
    (c := trainCfg (unsupervised (K := 2) (C := 1) fun _ => oneWord) (id : Unit → Unit) (fun _ _ => v) true 2 1 id)
    (m := (q, (), some none)) (.inl (by norm_num [trainCfg])) (Reachable.init _ _)
  have hs : Reachable (trainCfg (unsupervised (K := 2) (C := 1) fun _ => oneWord) (id : Unit → Unit) (fun _ _ => v) true
      2 1 id) (q, (), some none) s := ⟨as, h1⟩
  obtain ⟨beta', b1, b2, b3, b4, b5⟩ := C103_m_step_partial (cfg := cfg) (draw := fun _ => 0) (P := exact)
    (words := fun _ => [0]) (by simp) (b := none) rfl (q := q) (fun _ => by norm_num [q]) lopsided_stochastic
    (by norm_num) (fun _ _ => ⟨r, hv⟩)
    (fun _ _ => ⟨by norm_num [cfg], by norm_num [cfg, q, oneWord, countsOf, Fin.sum_univ_two]⟩)
    (fun _ _ w hw => ⟨w, by
      have : w = 0 := by
        by_contra hne
        have h1 : w = 1 := by omega
        rw [h1] at hw
        simp [oneWord, countsOf] at hw
      rw [this]
      norm_num [lopsided]⟩)
    (fun k => ⟨0, Nat.one_pos, 0, by simp [oneWord, countsOf], by fin_cases k <;> norm_num [lopsided]⟩)
    hs h2 (fun _ _ => rfl)
  obtain ⟨beta'', d1, d2, d3⟩ := C103_decreases (cfg := cfg) (by norm_num [cfg]) (by norm_num [cfg]) (by simp) (q := q)
    rfl rfl (b := none) rfl hv hs h2
  have hb : beta'' = beta' := by
    have := d1.symm.trans b1
    simp only [Beta.matrix.injEq] at this
    funext k n
    simpa using congrFun (congrFun this k) n
  subst hb
  have hm' : (⟨s.model.1.alpha, beta'', s.model.1.eta⟩ : Model 2 2 1).Valid :=
    ⟨fun k => by rw [b3]; exact hm.alpha_pos k, d2.1⟩
  obtain ⟨s', r', hs', _⟩ := C35_unsupervised_defined (P := exact) (cfg := cfg) (draw := 0) (X := oneWord.words) hm'
    (by norm_num)
  have hlt := d3 hs'
  rw [b3, b4] at hlt
  refine ⟨q, fun _ _ => v, s, beta'', s', rfl, hs, h2, b1, ?_, hlt⟩
  simpa using b5

end Verif.Train
