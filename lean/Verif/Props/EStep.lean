import Verif.Lemmas.Supervised
import Mathlib.Tactic.FinCases

/-! Properties C35 – C38, C40, C41, C43 and C44 of the expectation steps. -/
namespace Verif.EStep

open MathUtils Finset

variable {K V C : ℕ} {P : Prims} {cfg : Cfg} {X : Vec V ℕ} {m : Model K V C} {y : Fin C} {draw : ℝ}

/-! ### C38: the iterates -/

/-- The update of the fast supervised step, also for documents without words. -/
def FastUpdate' (P : Prims) (w : ℝ) (X : Vec V ℕ) (y : Fin C) (m : Model K V C) (s s' : VP K V) : Prop :=
  ((∃ n, X n ≠ 0) → FastUpdate P w X y m s s') ∧
  ((∀ n, X n = 0) → s'.phi = s.phi ∧ s'.gamma = m.alpha)

theorem numWords_ne {X : Vec V ℕ} : numWords X ≠ 0 ↔ ∃ n, X n ≠ 0 := by
  unfold numWords
  rw [Ne, Finset.sum_eq_zero_iff]
  simp

theorem numWords_eq {X : Vec V ℕ} : numWords X = 0 ↔ ∀ n, X n = 0 := by
  unfold numWords
  rw [Finset.sum_eq_zero_iff]
  simp

theorem counts_empty {s : VP K V} {alpha : Vec K ℝ} (h : Counts X alpha s) (hX : ∀ n, X n = 0) :
    s.gamma = alpha := by
  funext k
  rw [h k]
  simp [hX]

theorem fastStep_update' (hm : m.Valid) {w : ℝ} {s s' : VP K V}
    (h : fastStep P w X (y : ℤ) m s = some s') : FastUpdate' P w X y m s s' := by
  refine ⟨fun hX => fastStep_update hm (numWords_ne.2 hX) h, fun hX => ?_⟩
  rw [fastStep_empty (numWords_eq.2 hX), Option.some.injEq] at h
  subst h
  exact ⟨rfl, counts_empty (computeGamma_counts X m.alpha s.phi) hX⟩

theorem run_of_unsupervised {s : VP K V} {r : Report} (h : unsupervised P cfg draw X m = some (s, r)) :
    unsupervisedRun P cfg X m = some s := by
  unfold unsupervised at h
  simp only [Option.bind_eq_some_iff, Option.map_eq_some_iff, Prod.mk.injEq] at h
  obtain ⟨s', h1, r', _, rfl, rfl⟩ := h
  exact h1

theorem run_of_fast {w : ℝ} {y : ℤ} {s : VP K V} {r : Report} (h : fast P cfg w draw X y m = some (s, r)) :
    fastRun P cfg w X y m = some s := by
  unfold fast at h
  simp only [Option.bind_eq_some_iff, Option.map_eq_some_iff, Prod.mk.injEq] at h
  obtain ⟨s', h1, r', _, rfl, rfl⟩ := h
  exact h1

theorem run_of_supervised {fp : ℕ} {y : ℤ} {s : VP K V} {r : Report}
    (h : supervised P cfg fp draw X y m = some (s, r)) :
    ∃ h', supervisedRun P cfg fp X y m = some (s, h') := by
  unfold supervised at h
  simp only [Option.bind_eq_some_iff, Option.map_eq_some_iff, Prod.mk.injEq] at h
  obtain ⟨⟨s', h'⟩, h1, r', _, rfl, rfl⟩ := h
  exact ⟨h', h1⟩

theorem run_of_multinomial {ew mu prior : ℝ} {N : ℕ} {y : ℤ} {s : VP K V} {r : Report}
    (h : multinomial P cfg ew mu prior N draw X y m = some (s, r)) :
    multinomialRun P cfg ew X y m = some s := by
  unfold multinomial at h
  simp only [Option.bind_eq_some_iff, Option.map_eq_some_iff, Prod.mk.injEq] at h
  obtain ⟨s', h1, r', _, rfl, rfl⟩ := h
  exact h1

theorem run_of_correspondence {mu : ℝ} {N : ℕ} {y : ℤ} {s : VP K V × Vec V ℝ} {r : Report}
    (h : correspondence P cfg mu N draw X y m = some (s, r)) :
    correspondenceRun P cfg X y m = some s := by
  unfold correspondence at h
  simp only [Option.bind_eq_some_iff, Option.map_eq_some_iff, Prod.mk.injEq] at h
  obtain ⟨s', h1, r', _, rfl, rfl⟩ := h
  exact h1

/-- **C38**, unsupervised step: the result is the first converged iterate of the documented update,
or the one at the iteration limit. -/
theorem C38_unsupervised (hm : m.Valid) (hK : 0 < K) {s : VP K V} {r : Report}
    (h : unsupervised P cfg draw X m = some (s, r)) :
    Reaches (UnsupervisedUpdate P X m) ⟨fun _ _ => 1 / K, fun k => m.alpha k + (∑ n, (X n : ℝ)) / K⟩ s
      cfg.iterations cfg.tolerance VP.gamma := by
  rw [← numWords_cast]
  exact loop_reaches hK (run_of_unsupervised h) (fun _ => True) trivial _ fun a b _ hab =>
    ⟨trivial, unsupervisedStep_update hm hab⟩

/-- **C38**, fast supervised step. -/
theorem C38_fast (hm : m.Valid) (hK : 0 < K) {w : ℝ} {s : VP K V} {r : Report}
    (h : fast P cfg w draw X (y : ℤ) m = some (s, r)) :
    Reaches (FastUpdate' P w X y m) ⟨fun _ _ => 1 / K, fun k => m.alpha k + (∑ n, (X n : ℝ)) / K⟩ s
      cfg.iterations cfg.tolerance VP.gamma := by
  rw [← numWords_cast]
  exact loop_reaches hK (run_of_fast h) (fun _ => True) trivial _ fun a b _ hab =>
    ⟨trivial, fastStep_update' hm hab⟩

/-- **C38**, correspondence step. -/
theorem C38_correspondence (hm : m.Valid) (hK : 0 < K) {mu : ℝ} {N : ℕ} {s : VP K V × Vec V ℝ} {r : Report}
    (h : correspondence P cfg mu N draw X (y : ℤ) m = some (s, r)) :
    Reaches (CorrespondenceUpdate P X y m)
      (⟨fun _ _ => 1 / K, fun k => m.alpha k + (∑ n, (X n : ℝ)) / K⟩, fun _ => 1 / V) s
      cfg.iterations cfg.tolerance (fun s => s.1.gamma) := by
  rw [← numWords_cast]
  exact loop_reaches hK (run_of_correspondence h) (fun _ => True) trivial _ fun a b _ hab =>
    ⟨trivial, correspondenceStep_update hm hab⟩

/-- **C38**, supervised step. -/
theorem C38_supervised (hm : m.Valid) (hK : 0 < K) {fp : ℕ} {s : VP K V} {r : Report}
    (h : supervised P cfg fp draw X (y : ℤ) m = some (s, r)) :
    Reaches (WordUpdates P X y m fp (present X))
      ⟨fun _ _ => 1 / K, fun k => m.alpha k + (∑ n, (X n : ℝ)) / K⟩ s
      cfg.iterations cfg.tolerance VP.gamma := by
  obtain ⟨h', h⟩ := run_of_supervised h
  rw [← numWords_cast]
  obtain ⟨f, j, f0, fs, fj, fst⟩ := loop_reaches hK h
    (fun s => (∀ n, IsDist fun k => s.1.phi k n) ∧ Counts X m.alpha s.1)
    ⟨initial_dist hK X m.alpha, initial_counts X m.alpha⟩
    (fun a b => WordUpdates P X y m fp (present X) a.1 b.1)
    (fun a b hI hab => by
      obtain ⟨h1, h2, h3, _⟩ := supervisedPhiGamma_spec hm hI.1 hI.2 hab
      exact ⟨⟨h1, h2⟩, h3⟩)
  exact ⟨fun i => (f i).1, j, congrArg Prod.fst f0, fs, congrArg Prod.fst fj, fst⟩

/-- **C38**, multinomial step.  The full property is false (`C38_multinomial_tolerance_ignored`): the
place of the tolerance is taken by `compute_likelihood`. -/
theorem C38_multinomial_partial (hm : m.Valid) (hK : 0 < K) {ew mu prior : ℝ} {N : ℕ} {s : VP K V}
    {r : Report} (h : multinomial P cfg ew mu prior N draw X (y : ℤ) m = some (s, r)) :
    Reaches (MultinomialUpdate P ew X y m) ⟨fun _ _ => 1 / K, fun k => m.alpha k + (∑ n, (X n : ℝ)) / K⟩ s
      cfg.iterations cfg.computeLikelihood VP.gamma := by
  rw [← numWords_cast]
  exact loop_reaches hK (run_of_multinomial h) (fun _ => True) trivial _ fun a b _ hab =>
    ⟨trivial, multinomialStep_update hm hab⟩

/-- The tolerance given to the multinomial step has no effect. -/
theorem C38_multinomial_tolerance_ignored (tol : ℝ) {ew mu prior : ℝ} {N : ℕ} {y : ℤ} :
    multinomial P { cfg with tolerance := tol } ew mu prior N draw X y m =
      multinomial P cfg ew mu prior N draw X y m := rfl

/-! ### The steps are defined -/

/-- The values between iterations. -/
def Between (X : Vec V ℕ) (m : Model K V C) (s : VP K V) : Prop :=
  (∀ k n, 0 ≤ s.phi k n) ∧ Counts X m.alpha s

theorem between_initial (X : Vec V ℕ) (m : Model K V C) : Between X m (initial X m.alpha) :=
  ⟨initial_phi_nonneg X m.alpha, initial_counts X m.alpha⟩

theorem between_pos (hm : m.Valid) {s : VP K V} (h : Between X m s) (k : Fin K) : 0 < s.gamma k :=
  (counts_pos hm h.2 h.1 k).2

theorem UnsupervisedUpdate.between (hm : m.Valid) {s s' : VP K V} (h : UnsupervisedUpdate P X m s s') :
    Between X m s' := by
  obtain ⟨psi, _, h2, h3⟩ := h
  exact ⟨(h2.dist hm fun k n => P.exp_pos _).1, h3⟩

theorem FastUpdate'.between (hm : m.Valid) {w : ℝ} {s s' : VP K V} (hs : Between X m s)
    (h : FastUpdate' P w X y m s s') : Between X m s' := by
  by_cases hX : ∃ n, X n ≠ 0
  · obtain ⟨psi, sm, es, _, _, _, h2, h3⟩ := h.1 hX
    exact ⟨(h2.dist hm fun k n => P.exp_pos _).1, h3⟩
  · push Not at hX
    obtain ⟨h1, h2⟩ := h.2 hX
    refine ⟨fun k n => by rw [h1]; exact hs.1 k n, fun k => ?_⟩
    rw [h2]
    simp [hX]

theorem MultinomialUpdate.between (hm : m.Valid) {ew : ℝ} {s s' : VP K V}
    (h : MultinomialUpdate P ew X y m s s') : Between X m s' := by
  obtain ⟨psi, d, _, _, h2, h3⟩ := h
  exact ⟨(h2.dist hm fun k n => P.exp_pos _).1, h3⟩

theorem CorrespondenceUpdate.between (hm : m.Valid) {s s' : VP K V × Vec V ℝ}
    (h : CorrespondenceUpdate P X y m s s') : Between X m s'.1 := by
  obtain ⟨psi, _, h2, h3, _⟩ := h
  exact ⟨(h2.dist hm fun k n => mul_pos (P.exp_pos _) (P.exp_pos _)).1, h3⟩

theorem unsupervisedLikelihood_total (hK : 0 < K) (alpha : Vec K ℝ) (beta phi : Mat K V ℝ) {gamma : Vec K ℝ}
    (h : ∀ k, 0 < gamma k) : ∃ l, unsupervisedLikelihood P X alpha beta phi gamma = some l := by
  obtain ⟨pg, h1⟩ := mapOpt_psi P h
  obtain ⟨ps, h2⟩ := P.psi_some (∑ k, gamma k) (Finset.sum_pos (fun k _ => h k) ⟨⟨0, hK⟩, mem_univ _⟩)
  unfold unsupervisedLikelihood
  simp only [h1, h2, Option.bind_some]
  exact ⟨_, rfl⟩

/-- For every valid model the unsupervised step computes a result, and what it reports is either NaN,
as asked for, or a number. -/
theorem C35_unsupervised_defined (hm : m.Valid) (hK : 0 < K) :
    ∃ s r, unsupervised P cfg draw X m = some (s, r) ∧ (draw < cfg.computeLikelihood → ∃ l, r = .value l) := by
  obtain ⟨s, h1, h2⟩ := loop_total (step := unsupervisedStep P X m) (gam := VP.gamma)
    (tol := cfg.tolerance) (Between X m) (fun s hs => by
      obtain ⟨s', h⟩ := unsupervisedStep_total (P := P) (X := X) (m := m) (between_pos hm hs)
      exact ⟨s', h, (unsupervisedStep_update hm h).between hm⟩)
    cfg.iterations (fun _ => 0) _ (between_initial X m)
  obtain ⟨l, hl⟩ := unsupervisedLikelihood_total (P := P) (X := X) hK m.alpha m.beta s.phi (between_pos hm h2)
  unfold unsupervised unsupervisedRun report bernoulli
  rw [h1, Option.bind_some, hl]
  by_cases hd : draw < cfg.computeLikelihood
  · exact ⟨s, .value l, by simp [hd, Report.ofOption], fun _ => ⟨l, rfl⟩⟩
  · exact ⟨s, .nan, by simp [hd], fun h => absurd h hd⟩

theorem find_last {p : Fin V → Bool} {n : Fin V} (h : p n = true) :
    ∃ l, (List.finRange V).reverse.find? p = some l ∧ p l = true := by
  have : ((List.finRange V).reverse.find? p).isSome := by
    rw [List.find?_isSome]
    exact ⟨n, by simp, h⟩
  obtain ⟨l, hl⟩ := Option.isSome_iff_exists.1 this
  exact ⟨l, hl, List.find?_some hl⟩

/-- The likelihood of the supervised and fast supervised steps never involves undefined behaviour for
a document that has a word. -/
theorem supervisedLikelihood'_total {alpha : Vec K ℝ} {beta phi : Mat K V ℝ} {gamma : Vec K ℝ}
    {eta : Mat K C ℝ} {n : Fin V} (hX : X n ≠ 0) :
    ∃ r, supervisedLikelihood' P X (y : ℤ) alpha beta eta phi gamma = some r := by
  unfold supervisedLikelihood' computeH supervisedLikelihood
  obtain ⟨l, h1, h2⟩ := find_last (p := fun n => decide (X n ≠ 0)) (n := n) (by simpa using hX)
  obtain ⟨l', h1', _⟩ := find_last (p := fun n => decide (0 < X n)) (n := n)
    (by simpa using Nat.pos_of_ne_zero hX)
  simp only [h1, h1', colAt_fin]
  split
  · exact ⟨_, rfl⟩
  · rename_i h heq
    rw [Option.map_eq_some_iff] at heq
    obtain ⟨p, _, rfl⟩ := heq
    exact ⟨_, rfl⟩

/-- The fast supervised step computes a result for every valid model, unless it reports the likelihood
of a document without words. -/
theorem C35_fast_defined (hm : m.Valid) (hK : 0 < K) {w : ℝ}
    (hX : (∃ n, X n ≠ 0) ∨ ¬ draw < cfg.computeLikelihood) :
    ∃ s r, fast P cfg w draw X (y : ℤ) m = some (s, r) := by
  obtain ⟨s, h1, h2⟩ := loop_total (step := fastStep P w X (y : ℤ) m) (gam := VP.gamma)
    (tol := cfg.tolerance) (Between X m) (fun s hs => by
      obtain ⟨s', h⟩ := fastStep_total (P := P) (X := X) (m := m) (w := w) (y := y) hK (between_pos hm hs)
      exact ⟨s', h, (fastStep_update' hm h).between hm hs⟩)
    cfg.iterations (fun _ => 0) _ (between_initial X m)
  unfold fast fastRun report bernoulli
  rw [h1, Option.bind_some]
  by_cases hd : draw < cfg.computeLikelihood
  · rcases hX with ⟨n, hX⟩ | hX
    · obtain ⟨r, hr⟩ := supervisedLikelihood'_total (P := P) (y := y) (alpha := m.alpha) (beta := m.beta)
        (phi := s.phi) (gamma := s.gamma) (eta := m.eta) hX
      exact ⟨s, r, by simp [hd, hr]⟩
    · exact absurd hd hX
  · exact ⟨s, .nan, by simp [hd]⟩

/-- The multinomial step computes a result if the classification parameters of the class are
positive. -/
theorem C35_multinomial_defined (hm : m.Valid) (hK : 0 < K) (he : ∀ k, 0 < m.eta k y) {ew mu prior : ℝ}
    {N : ℕ} : ∃ s r, multinomial P cfg ew mu prior N draw X (y : ℤ) m = some (s, r) := by
  obtain ⟨s, h1, h2⟩ := loop_total (step := multinomialStep P ew X (y : ℤ) m) (gam := VP.gamma)
    (tol := cfg.computeLikelihood) (Between X m) (fun s hs => by
      obtain ⟨s', h⟩ := multinomialStep_total (P := P) (X := X) (m := m) (ew := ew) (y := y) hK he
        (between_pos hm hs)
      exact ⟨s', h, (multinomialStep_update hm h).between hm⟩)
    cfg.iterations (fun _ => 0) _ (between_initial X m)
  unfold multinomial multinomialRun report bernoulli multinomialLikelihood
  rw [h1, Option.bind_some, colAt_fin]
  by_cases hd : draw < cfg.computeLikelihood
  · rw [decide_eq_true hd]
    exact ⟨s, _, rfl⟩
  · exact ⟨s, .nan, by simp [hd]⟩

/-- The correspondence step computes a result if the classification parameters of the class are
positive. -/
theorem C35_correspondence_defined (hm : m.Valid) (he : ∀ k, 0 < m.eta k y) {mu : ℝ}
    {N : ℕ} : ∃ s r, correspondence P cfg mu N draw X (y : ℤ) m = some (s, r) := by
  obtain ⟨s, h1, h2⟩ := loop_total (step := correspondenceStep P X (y : ℤ) m) (gam := fun s => s.1.gamma)
    (tol := cfg.tolerance) (fun s => Between X m s.1) (fun s hs => by
      obtain ⟨s', h⟩ := correspondenceStep_total (P := P) (X := X) (m := m) (y := y) he
        (between_pos hm hs)
      exact ⟨s', h, (correspondenceStep_update hm h).between hm⟩)
    cfg.iterations (fun _ => 0) (initial X m.alpha, fun _ => 1 / V) (between_initial X m)
  unfold correspondence correspondenceRun report bernoulli correspondenceLikelihood
  rw [h1, Option.bind_some, colAt_fin]
  by_cases hd : draw < cfg.computeLikelihood
  · rw [decide_eq_true hd]
    exact ⟨s, _, rfl⟩
  · exact ⟨s, .nan, by simp [hd]⟩

/-! ### C35: distributions -/

/-- At least one iteration is made: the limit is not zero, and the initial `gamma`, whose mean is
compared with the tolerance first, does not count as converged. -/
def RunsOnce (limit : ℕ) (tol : ℝ) (X : Vec V ℕ) (m : Model K V C) : Prop :=
  limit ≠ 0 ∧ tol ≤ (∑ k, (m.alpha k + (∑ n, (X n : ℝ)) / K)) / K

/-- A value reached is the initial one or the result of an update, and the latter if at least one
iteration is made. -/
theorem Reaches.cases {S : Type} {R : S → S → Prop} {s0 s : S} {limit : ℕ} {tol : ℝ} {gam : S → Vec K ℝ}
    (h : Reaches R s0 s limit tol gam) :
    (s = s0 ∧ (limit ≠ 0 → (∑ k, |gam s0 k|) / K < tol)) ∨ ∃ s1, R s1 s := by
  obtain ⟨f, j, f0, fs, fj, h1, h2, h3⟩ := h
  cases j with
  | zero =>
    refine Or.inl ⟨by rw [fj, f0], fun hl => ?_⟩
    have := h2 (Nat.pos_of_ne_zero hl)
    simpa [change, f0] using this
  | succ j => exact Or.inr ⟨f j, by rw [fj]; exact fs j (by omega)⟩

theorem Reaches.ran {S : Type} {R : S → S → Prop} {s0 s : S} {limit : ℕ} {tol : ℝ} {gam : S → Vec K ℝ}
    (h : Reaches R s0 s limit tol gam) (hm : m.Valid)
    (hs0 : gam s0 = fun k => m.alpha k + (∑ n, (X n : ℝ)) / K) (hr : RunsOnce limit tol X m) :
    ∃ s1, R s1 s := by
  rcases h.cases with ⟨_, h1⟩ | h1
  · exfalso
    have h2 := h1 hr.1
    rw [hs0] at h2
    have e : ∀ k, |m.alpha k + (∑ n, (X n : ℝ)) / K| = m.alpha k + (∑ n, (X n : ℝ)) / K := fun k =>
      abs_of_nonneg (add_nonneg (hm.alpha_pos k).le
        (div_nonneg (Finset.sum_nonneg fun n _ => Nat.cast_nonneg _) (Nat.cast_nonneg _)))
    simp only [e] at h2
    linarith [hr.2]
  · exact h1

/-- What property C35 says about the result of a step. -/
def Responsibilities (m : Model K V C) (ran : Prop) (phi : Mat K V ℝ) : Prop :=
  (∀ k n, 0 ≤ phi k n) ∧ (∀ n, (∃ k, 0 < m.beta k n) → ∑ k, phi k n = 1) ∧
    (ran → ∀ n, (∀ k, m.beta k n = 0) → ∀ k, phi k n = 0)

theorem uniform_dist (hK : 0 < K) (n : Fin V) :
    (∀ k, (0 : ℝ) ≤ (fun (_ : Fin K) (_ : Fin V) => 1 / (K : ℝ)) k n) ∧
    ∑ k : Fin K, (fun (_ : Fin K) (_ : Fin V) => 1 / (K : ℝ)) k n = 1 := by
  refine ⟨fun k => by positivity, ?_⟩
  simp only [Finset.sum_const, card_univ, Fintype.card_fin, nsmul_eq_mul]
  have : (K : ℝ) ≠ 0 := by exact_mod_cast hK.ne'
  field_simp

theorem responsibilities_of (hm : m.Valid) (hK : 0 < K) {S : Type} {R : S → S → Prop} {s0 s : S} {limit : ℕ}
    {tol : ℝ} {gam : S → Vec K ℝ} {phi : S → Mat K V ℝ} (h : Reaches R s0 s limit tol gam)
    (h0 : phi s0 = fun _ _ => 1 / (K : ℝ)) (hg : gam s0 = fun k => m.alpha k + (∑ n, (X n : ℝ)) / K)
    (hR : ∀ a b, R a b → ∃ e : Mat K V ℝ, (∀ k n, 0 < e k n) ∧
      Proportional (phi b) (fun k n => m.beta k n * e k n)) :
    Responsibilities m (RunsOnce limit tol X m) (phi s) := by
  have key : (∃ s1, R s1 s) → Responsibilities m True (phi s) := by
    rintro ⟨s1, h1⟩
    obtain ⟨e, he, hp⟩ := hR s1 s h1
    obtain ⟨d1, d2, d3⟩ := hp.dist hm he
    exact ⟨d1, d2, fun _ n hn => d3 n fun ⟨k, hk⟩ => hk.ne' (hn k)⟩
  rcases h.cases with ⟨h1, _⟩ | h1
  · refine ⟨fun k n => ?_, fun n _ => ?_, fun hr => (key (h.ran hm hg hr)).2.2 trivial⟩
    · rw [h1, h0]; exact (uniform_dist hK n).1 k
    · rw [h1, h0]; exact (uniform_dist hK n).2
  · exact ⟨(key h1).1, (key h1).2.1, fun _ => (key h1).2.2 trivial⟩

/-- **C35**, unsupervised step. -/
theorem C35_unsupervised (hm : m.Valid) (hK : 0 < K) {s : VP K V} {r : Report}
    (h : unsupervised P cfg draw X m = some (s, r)) :
    Responsibilities m (RunsOnce cfg.iterations cfg.tolerance X m) s.phi :=
  responsibilities_of hm hK (phi := VP.phi) (C38_unsupervised hm hK h) rfl rfl
    fun _ _ ⟨psi, _, h2, _⟩ => ⟨_, fun k _ => P.exp_pos (psi k), h2⟩

/-- **C35**, fast supervised step, for a document with words. -/
theorem C35_fast (hm : m.Valid) (hK : 0 < K) {w : ℝ} {s : VP K V} {r : Report} (hX : ∃ n, X n ≠ 0)
    (h : fast P cfg w draw X (y : ℤ) m = some (s, r)) :
    Responsibilities m (RunsOnce cfg.iterations cfg.tolerance X m) s.phi :=
  responsibilities_of hm hK (phi := VP.phi) (C38_fast hm hK h) rfl rfl
    fun a b hab => by
      obtain ⟨psi, sm, es, _, _, _, h2, _⟩ := hab.1 hX
      exact ⟨_, fun k n => P.exp_pos _, h2⟩

/-- **C35**, fast supervised step, for a document without words: the responsibilities stay uniform. -/
theorem C35_fast_empty (hm : m.Valid) (hK : 0 < K) {w : ℝ} {s : VP K V} {r : Report} (hX : ∀ n, X n = 0)
    (h : fast P cfg w draw X (y : ℤ) m = some (s, r)) : s.phi = fun _ _ => 1 / (K : ℝ) := by
  obtain ⟨f, j, f0, fs, fj, _⟩ := C38_fast hm hK h
  rw [fj]
  have : ∀ i ≤ j, (f i).phi = fun _ _ => 1 / (K : ℝ) := by
    intro i
    induction i with
    | zero => intro _; rw [f0]
    | succ i ih => intro hi; rw [((fs i (by omega)).2 hX).1]; exact ih (by omega)
  exact this j le_rfl

/-- **C35**, multinomial step (iterations are counted with the tolerance it really uses). -/
theorem C35_multinomial (hm : m.Valid) (hK : 0 < K) {ew mu prior : ℝ} {N : ℕ} {s : VP K V} {r : Report}
    (h : multinomial P cfg ew mu prior N draw X (y : ℤ) m = some (s, r)) :
    Responsibilities m (RunsOnce cfg.iterations cfg.computeLikelihood X m) s.phi :=
  responsibilities_of hm hK (phi := VP.phi) (C38_multinomial_partial hm hK h) rfl rfl
    fun _ _ ⟨_, _, _, _, h2, _⟩ => ⟨_, fun _ _ => P.exp_pos _, h2⟩

/-- **C35**, correspondence step. -/
theorem C35_correspondence (hm : m.Valid) (hK : 0 < K) {mu : ℝ} {N : ℕ} {s : VP K V × Vec V ℝ} {r : Report}
    (h : correspondence P cfg mu N draw X (y : ℤ) m = some (s, r)) :
    Responsibilities m (RunsOnce cfg.iterations cfg.tolerance X m) s.1.phi :=
  responsibilities_of hm hK (phi := fun s => s.1.phi) (C38_correspondence hm hK h) rfl rfl
    fun _ _ ⟨_, _, h2, _⟩ => ⟨_, fun _ _ => mul_pos (P.exp_pos _) (P.exp_pos _), h2⟩

/-- The responsibilities of the words in the correspondence step are a distribution, too. -/
theorem C35_correspondence_tau (hm : m.Valid) (hK : 0 < K) (hV : 0 < V) {mu : ℝ} {N : ℕ}
    {s : VP K V × Vec V ℝ} {r : Report} (h : correspondence P cfg mu N draw X (y : ℤ) m = some (s, r)) :
    IsDist s.2 := by
  rcases (C38_correspondence hm hK h).cases with ⟨h1, _⟩ | ⟨s1, h1⟩
  · rw [h1]
    refine ⟨fun n => by positivity, ?_⟩
    simp only [Finset.sum_const, card_univ, Fintype.card_fin, nsmul_eq_mul]
    have : (V : ℝ) ≠ 0 := by exact_mod_cast hV.ne'
    field_simp
  · obtain ⟨psi, _, _, _, h2, h3⟩ := h1
    refine ⟨fun n => ?_, h3 hV⟩
    have hp : 0 < ∑ l, P.exp (∑ k, s.1.phi k l * Real.log (m.eta k y)) :=
      Finset.sum_pos (fun l _ => P.exp_pos _) ⟨⟨0, hV⟩, mem_univ _⟩
    by_contra hc
    push Not at hc
    have := mul_neg_of_neg_of_pos hc hp
    rw [h2 n] at this
    linarith [P.exp_pos (∑ k, s.1.phi k n * Real.log (m.eta k y))]

/-- **C35** and **C37**, supervised step: every column is a distribution. -/
theorem supervised_between (hm : m.Valid) (hK : 0 < K) {fp : ℕ} {s : VP K V} {r : Report}
    (h : supervised P cfg fp draw X (y : ℤ) m = some (s, r)) :
    (∀ n, IsDist fun k => s.phi k n) ∧ Counts X m.alpha s := by
  obtain ⟨h', h⟩ := run_of_supervised h
  exact loop_inv (fun s => (∀ n, IsDist fun k => s.1.phi k n) ∧ Counts X m.alpha s.1)
    (fun a b hI hab => by
      obtain ⟨h1, h2, _, _⟩ := supervisedPhiGamma_spec hm hI.1 hI.2 hab
      exact ⟨h1, h2⟩) _ _ _ _ ⟨initial_dist hK X m.alpha, initial_counts X m.alpha⟩ h

theorem C35_supervised (hm : m.Valid) (hK : 0 < K) {fp : ℕ} {s : VP K V} {r : Report}
    (h : supervised P cfg fp draw X (y : ℤ) m = some (s, r)) (n : Fin V) : IsDist fun k => s.phi k n :=
  (supervised_between hm hK h).1 n

/-! ### C37: gamma is alpha plus the expected counts -/

/-- **C37**, unsupervised step. -/
theorem C37_unsupervised (hm : m.Valid) (hK : 0 < K) {s : VP K V} {r : Report}
    (h : unsupervised P cfg draw X m = some (s, r)) (k : Fin K) :
    s.gamma k = m.alpha k + ∑ n, (X n : ℝ) * s.phi k n ∧ m.alpha k ≤ s.gamma k := by
  have hb : Between X m s := by
    rcases (C38_unsupervised hm hK h).cases with ⟨h1, _⟩ | ⟨s1, h1⟩
    · rw [h1, ← numWords_cast]; exact between_initial X m
    · exact h1.between hm
  exact ⟨hb.2 k, (counts_pos hm hb.2 hb.1 k).1⟩

theorem fast_between (hm : m.Valid) {w : ℝ} {s : VP K V} {r : Report}
    (h : fast P cfg w draw X (y : ℤ) m = some (s, r)) : Between X m s :=
  loop_inv (Between X m) (fun _ _ hI hab => (fastStep_update' hm hab).between hm hI) _ _ _ _
    (between_initial X m) (run_of_fast h)

/-- **C37**, fast supervised step. -/
theorem C37_fast (hm : m.Valid) {w : ℝ} {s : VP K V} {r : Report}
    (h : fast P cfg w draw X (y : ℤ) m = some (s, r)) (k : Fin K) :
    s.gamma k = m.alpha k + ∑ n, (X n : ℝ) * s.phi k n ∧ m.alpha k ≤ s.gamma k := by
  have hb := fast_between hm h
  exact ⟨hb.2 k, (counts_pos hm hb.2 hb.1 k).1⟩

/-- **C37**, supervised step, where `gamma` is updated incrementally. -/
theorem C37_supervised (hm : m.Valid) (hK : 0 < K) {fp : ℕ} {s : VP K V} {r : Report}
    (h : supervised P cfg fp draw X (y : ℤ) m = some (s, r)) (k : Fin K) :
    s.gamma k = m.alpha k + ∑ n, (X n : ℝ) * s.phi k n ∧ m.alpha k ≤ s.gamma k := by
  obtain ⟨h1, h2⟩ := supervised_between hm hK h
  exact ⟨h2 k, (counts_pos hm h2 (fun k n => (h1 n).1 k) k).1⟩

/-- **C37**, multinomial step. -/
theorem C37_multinomial (hm : m.Valid) (hK : 0 < K) {ew mu prior : ℝ} {N : ℕ} {s : VP K V} {r : Report}
    (h : multinomial P cfg ew mu prior N draw X (y : ℤ) m = some (s, r)) (k : Fin K) :
    s.gamma k = m.alpha k + ∑ n, (X n : ℝ) * s.phi k n ∧ m.alpha k ≤ s.gamma k := by
  have hb : Between X m s := by
    rcases (C38_multinomial_partial hm hK h).cases with ⟨h1, _⟩ | ⟨s1, h1⟩
    · rw [h1, ← numWords_cast]; exact between_initial X m
    · exact h1.between hm
  exact ⟨hb.2 k, (counts_pos hm hb.2 hb.1 k).1⟩

/-- **C37**, correspondence step. -/
theorem C37_correspondence (hm : m.Valid) (hK : 0 < K) {mu : ℝ} {N : ℕ} {s : VP K V × Vec V ℝ} {r : Report}
    (h : correspondence P cfg mu N draw X (y : ℤ) m = some (s, r)) (k : Fin K) :
    s.1.gamma k = m.alpha k + ∑ n, (X n : ℝ) * s.1.phi k n ∧ m.alpha k ≤ s.1.gamma k := by
  have hb : Between X m s.1 := by
    rcases (C38_correspondence hm hK h).cases with ⟨h1, _⟩ | ⟨s1, h1⟩
    · rw [h1, ← numWords_cast]; exact between_initial X m
    · exact h1.between hm
  exact ⟨hb.2 k, (counts_pos hm hb.2 hb.1 k).1⟩

/-! ### C36: mass -/

theorem mass_eq {phi : Mat K V ℝ} {gamma alpha : Vec K ℝ}
    (hc : ∀ k, gamma k = alpha k + ∑ n, (X n : ℝ) * phi k n) (h : ∀ n, X n ≠ 0 → ∑ k, phi k n = 1) :
    ∑ k, gamma k = (∑ k, alpha k) + ∑ n, (X n : ℝ) := by
  simp only [hc]
  rw [Finset.sum_add_distrib, Finset.sum_comm]
  congr 1
  refine Finset.sum_congr rfl fun n _ => ?_
  rw [← Finset.mul_sum]
  by_cases hX : X n = 0
  · simp [hX]
  · rw [h n hX, mul_one]

theorem mass_le {phi : Mat K V ℝ} {gamma alpha : Vec K ℝ}
    (hc : ∀ k, gamma k = alpha k + ∑ n, (X n : ℝ) * phi k n) (h : ∀ n, ∑ k, phi k n ≤ 1) :
    ∑ k, gamma k ≤ (∑ k, alpha k) + ∑ n, (X n : ℝ) := by
  simp only [hc]
  rw [Finset.sum_add_distrib, Finset.sum_comm]
  gcongr with n
  rw [← Finset.mul_sum]
  have : (0 : ℝ) ≤ X n := Nat.cast_nonneg _
  nlinarith [h n]

/-- The columns never sum to more than one. -/
theorem col_le_of (hm : m.Valid) (hK : 0 < K) {S : Type} {R : S → S → Prop} {s0 s : S} {limit : ℕ}
    {tol : ℝ} {gam : S → Vec K ℝ} {phi : S → Mat K V ℝ} (h : Reaches R s0 s limit tol gam)
    (h0 : phi s0 = fun _ _ => 1 / (K : ℝ))
    (hR : ∀ a b, R a b → ∃ e : Mat K V ℝ, (∀ k n, 0 < e k n) ∧
      Proportional (phi b) (fun k n => m.beta k n * e k n)) (n : Fin V) : ∑ k, phi s k n ≤ 1 := by
  rcases h.cases with ⟨h1, _⟩ | ⟨s1, h1⟩
  · rw [h1, h0]; exact (uniform_dist hK n).2.le
  · obtain ⟨e, he, hp⟩ := hR s1 s h1
    obtain ⟨_, d2, d3⟩ := hp.dist hm he
    by_cases hn : m.Known n
    · exact (d2 n hn).le
    · simp [d3 n hn]

/-- What property C36 says. -/
def Mass (X : Vec V ℕ) (m : Model K V C) (gamma : Vec K ℝ) : Prop :=
  ((∀ n, X n ≠ 0 → ∃ k, 0 < m.beta k n) → ∑ k, gamma k = (∑ k, m.alpha k) + ∑ n, (X n : ℝ)) ∧
    ∑ k, gamma k ≤ (∑ k, m.alpha k) + ∑ n, (X n : ℝ)

/-- **C36**, unsupervised step. -/
theorem C36_unsupervised (hm : m.Valid) (hK : 0 < K) {s : VP K V} {r : Report}
    (h : unsupervised P cfg draw X m = some (s, r)) : Mass X m s.gamma :=
  ⟨fun hX => mass_eq (fun k => (C37_unsupervised hm hK h k).1)
      fun n hn => (C35_unsupervised hm hK h).2.1 n (hX n hn),
    mass_le (fun k => (C37_unsupervised hm hK h k).1)
      (col_le_of hm hK (phi := VP.phi) (C38_unsupervised hm hK h) rfl
        fun _ _ ⟨psi, _, h2, _⟩ => ⟨_, fun k _ => P.exp_pos (psi k), h2⟩)⟩

/-- **C36**, fast supervised step. -/
theorem C36_fast (hm : m.Valid) (hK : 0 < K) {w : ℝ} {s : VP K V} {r : Report}
    (h : fast P cfg w draw X (y : ℤ) m = some (s, r)) : Mass X m s.gamma := by
  by_cases hX : ∃ n, X n ≠ 0
  · exact ⟨fun hk => mass_eq (fun k => (C37_fast hm h k).1)
      fun n hn => (C35_fast hm hK hX h).2.1 n (hk n hn),
      mass_le (fun k => (C37_fast hm h k).1)
        (col_le_of hm hK (phi := VP.phi) (C38_fast hm hK h) rfl fun a b hab => by
          obtain ⟨psi, sm, es, _, _, _, h2, _⟩ := hab.1 hX
          exact ⟨_, fun k n => P.exp_pos _, h2⟩)⟩
  · push Not at hX
    have : ∑ k, s.gamma k = (∑ k, m.alpha k) + ∑ n, (X n : ℝ) :=
      mass_eq (fun k => (C37_fast hm h k).1) fun n hn => absurd (hX n) hn
    exact ⟨fun _ => this, this.le⟩

/-- **C36**, supervised step: exactly, since a word that has probability zero in all topics makes the
step fail. -/
theorem C36_supervised (hm : m.Valid) (hK : 0 < K) {fp : ℕ} {s : VP K V} {r : Report}
    (h : supervised P cfg fp draw X (y : ℤ) m = some (s, r)) :
    ∑ k, s.gamma k = (∑ k, m.alpha k) + ∑ n, (X n : ℝ) :=
  mass_eq (fun k => (C37_supervised hm hK h k).1) fun n _ => (C35_supervised hm hK h n).2

/-- **C36**, multinomial step. -/
theorem C36_multinomial (hm : m.Valid) (hK : 0 < K) {ew mu prior : ℝ} {N : ℕ} {s : VP K V} {r : Report}
    (h : multinomial P cfg ew mu prior N draw X (y : ℤ) m = some (s, r)) : Mass X m s.gamma :=
  ⟨fun hX => mass_eq (fun k => (C37_multinomial hm hK h k).1)
      fun n hn => (C35_multinomial hm hK h).2.1 n (hX n hn),
    mass_le (fun k => (C37_multinomial hm hK h k).1)
      (col_le_of hm hK (phi := VP.phi) (C38_multinomial_partial hm hK h) rfl
        fun _ _ ⟨_, _, _, _, h2, _⟩ => ⟨_, fun _ _ => P.exp_pos _, h2⟩)⟩

/-- **C36**, correspondence step. -/
theorem C36_correspondence (hm : m.Valid) (hK : 0 < K) {mu : ℝ} {N : ℕ} {s : VP K V × Vec V ℝ} {r : Report}
    (h : correspondence P cfg mu N draw X (y : ℤ) m = some (s, r)) : Mass X m s.1.gamma :=
  ⟨fun hX => mass_eq (fun k => (C37_correspondence hm hK h k).1)
      fun n hn => (C35_correspondence hm hK h).2.1 n (hX n hn),
    mass_le (fun k => (C37_correspondence hm hK h k).1)
      (col_le_of hm hK (phi := fun s => s.1.phi) (C38_correspondence hm hK h) rfl
        fun _ _ ⟨_, _, h2, _⟩ => ⟨_, fun _ _ => mul_pos (P.exp_pos _) (P.exp_pos _), h2⟩)⟩

/-! ### C40: documents without words -/

/-- **C40**, unsupervised step. -/
theorem C40_unsupervised (hm : m.Valid) (hK : 0 < K) (hX : ∀ n, X n = 0) :
    ∃ s r, unsupervised P cfg draw X m = some (s, r) ∧ s.gamma = m.alpha ∧
      ∀ n, (∃ k, 0 < m.beta k n) → IsDist fun k => s.phi k n := by
  obtain ⟨s, r, h, _⟩ := C35_unsupervised_defined (P := P) (cfg := cfg) (draw := draw) (X := X) hm hK
  refine ⟨s, r, h, ?_, fun n hn => ⟨fun k => (C35_unsupervised hm hK h).1 k n,
    (C35_unsupervised hm hK h).2.1 n hn⟩⟩
  exact counts_empty (fun k => (C37_unsupervised hm hK h k).1) hX

/-- **C40**, fast supervised step, where it holds: no likelihood is computed.  It is missing that the
likelihood may be asked for, which is undefined (`C40_likelihood_undefined`). -/
theorem C40_fast_partial (hm : m.Valid) (hK : 0 < K) (hX : ∀ n, X n = 0) {w : ℝ}
    (hd : ¬ draw < cfg.computeLikelihood) :
    ∃ s, fast P cfg w draw X (y : ℤ) m = some (s, .nan) ∧ s.gamma = m.alpha ∧
      ∀ n, IsDist fun k => s.phi k n := by
  obtain ⟨s, r, h⟩ := C35_fast_defined (P := P) (cfg := cfg) (draw := draw) (X := X) (y := y) (w := w) hm hK
    (Or.inr hd)
  have hr : r = .nan := by
    unfold fast report bernoulli at h
    simp only [hd, decide_false, Bool.false_eq_true, if_false, Option.map_some, Option.bind_eq_some_iff,
      Option.some.injEq, Prod.mk.injEq] at h
    obtain ⟨_, _, _, h⟩ := h
    exact h.symm
  subst hr
  refine ⟨s, h, counts_empty (fun k => (C37_fast hm h k).1) hX, fun n => ?_⟩
  rw [C35_fast_empty hm hK hX h]
  exact uniform_dist hK n

theorem no_last {p : Fin V → Bool} (h : ∀ n, p n = false) : (List.finRange V).reverse.find? p = none := by
  rw [List.find?_eq_none]
  intro x _
  rw [h x]
  simp

/-- **C40** is false for the fast supervised and the supervised steps when the likelihood is asked for
(always, with the default `compute_likelihood = 1`): column `-1` of `phi` is read. -/
theorem C40_likelihood_undefined (hX : ∀ n, X n = 0) (hd : draw < cfg.computeLikelihood) (w : ℝ) (fp : ℕ)
    (y : ℤ) : fast P cfg w draw X y m = none ∧ supervised P cfg fp draw X y m = none := by
  have h1 : (List.finRange V).reverse.find? (fun n => decide (0 < X n)) = none :=
    no_last fun n => by simp [hX n]
  have h2 : (List.finRange V).reverse.find? (fun n => decide (X n ≠ 0)) = none :=
    no_last fun n => by simp [hX n]
  have hl : ∀ phi gamma h, supervisedLikelihood P X y m.alpha m.beta m.eta phi gamma h = none := by
    intro phi gamma h
    unfold supervisedLikelihood
    rw [h1]
    cases colAt m.eta y <;> rfl
  constructor
  · unfold fast report bernoulli supervisedLikelihood' computeH
    simp only [h2, hd, decide_true, if_true, hl, Option.map_none]
    cases fastRun P cfg w X y m <;> rfl
  · unfold supervised report bernoulli
    simp only [hd, decide_true, if_true, hl, Option.map_none]
    cases supervisedRun P cfg fp X y m <;> rfl

/-! ### C41: reporting -/

/-- **C41**, for the steps for which it holds: whether the likelihood is reported, and of which
documents, makes no difference to the variational parameters.  It is missing for the multinomial step,
for which it is false (`C41_multinomial_depends`). -/
theorem C41_reporting_partial (p draw' : ℝ) :
    (∀ s s' r r', unsupervised P cfg draw X m = some (s, r) →
      unsupervised P { cfg with computeLikelihood := p } draw' X m = some (s', r') → s = s') ∧
    (∀ w (y : ℤ) s s' r r', fast P cfg w draw X y m = some (s, r) →
      fast P { cfg with computeLikelihood := p } w draw' X y m = some (s', r') → s = s') ∧
    (∀ fp (y : ℤ) s s' r r', supervised P cfg fp draw X y m = some (s, r) →
      supervised P { cfg with computeLikelihood := p } fp draw' X y m = some (s', r') → s = s') ∧
    (∀ mu N (y : ℤ) s s' r r', correspondence P cfg mu N draw X y m = some (s, r) →
      correspondence P { cfg with computeLikelihood := p } mu N draw' X y m = some (s', r') → s = s') := by
  refine ⟨fun s s' r r' h h' => ?_, fun w y s s' r r' h h' => ?_, fun fp y s s' r r' h h' => ?_,
    fun mu N y s s' r r' h h' => ?_⟩
  · exact Option.some.inj ((run_of_unsupervised h).symm.trans (run_of_unsupervised h' :))
  · exact Option.some.inj ((run_of_fast h).symm.trans (run_of_fast h' :))
  · obtain ⟨a, ha⟩ := run_of_supervised h
    obtain ⟨b, hb⟩ := run_of_supervised h'
    exact (Prod.mk.inj (Option.some.inj (ha.symm.trans hb))).1
  · exact Option.some.inj ((run_of_correspondence h).symm.trans (run_of_correspondence h' :))

/-- A model with two topics, the second of which does not have the only word. -/
noncomputable def twoTopics : Model 2 1 1 where
  alpha := fun _ => 1 / 10
  beta := fun k _ => if k = 0 then 1 else 0
  eta := fun _ _ => 1

theorem twoTopics_valid : twoTopics.Valid where
  alpha_pos := fun k => by simp only [twoTopics]; norm_num
  beta_nonneg := fun k n => by simp only [twoTopics]; split <;> norm_num

/-- **C41** is false for the multinomial step: with `compute_likelihood = 1` no iteration is made where
with `compute_likelihood = 0` one is, and the results differ. -/
theorem C41_multinomial_depends (P : Prims) : ∃ s s' r r',
    multinomial P ⟨1, 0, 1⟩ 1 2 1 1 0 (fun _ => 1) 0 twoTopics = some (s, r) ∧
    multinomial P ⟨1, 0, 0⟩ 1 2 1 1 0 (fun _ => 1) 0 twoTopics = some (s', r') ∧
    s.gamma 0 = 6 / 10 ∧ s'.gamma 0 = 11 / 10 := by
  have he : ∀ k, 0 < twoTopics.eta k 0 := fun k => by simp [twoTopics]
  obtain ⟨s, r, h⟩ := C35_multinomial_defined (P := P) (cfg := ⟨1, 0, 1⟩) (draw := 0) (X := fun _ => 1)
    (y := 0) (ew := 1) (mu := 2) (prior := 1) (N := 1) twoTopics_valid (by norm_num) he
  obtain ⟨s', r', h'⟩ := C35_multinomial_defined (P := P) (cfg := ⟨1, 0, 0⟩) (draw := 0) (X := fun _ => 1)
    (y := 0) (ew := 1) (mu := 2) (prior := 1) (N := 1) twoTopics_valid (by norm_num) he
  refine ⟨s, s', r, r', h, h', ?_, ?_⟩
  · have := run_of_multinomial h
    unfold multinomialRun at this
    rw [loop, (converged_iff (by norm_num) _ _ _).2] at this
    · simp only [if_true, Option.some.injEq] at this
      rw [← this]
      simp [initial, numWords, twoTopics]
      norm_num
    · simp [initial, numWords, twoTopics]
      norm_num [abs_of_pos]
  · obtain ⟨h1, h2, h3⟩ := C35_multinomial twoTopics_valid (by norm_num) h'
    have hran := (C38_multinomial_partial twoTopics_valid (by norm_num) h').ran (X := fun _ => 1) twoTopics_valid rfl
      ⟨by norm_num, by simp [twoTopics]; norm_num⟩
    obtain ⟨s1, psi, d, _, _, hp, _⟩ := hran
    obtain ⟨q1, q2, q3⟩ := hp 0
    have e1 := q1 1
    simp only [twoTopics, Fin.isValue, one_ne_zero, if_false, zero_mul, Fin.sum_univ_two, if_true, one_mul,
      add_zero, mul_eq_zero] at e1
    have e2 : s'.phi 1 0 = 0 := e1.resolve_right (P.exp_pos _).ne'
    have e3 := h2 0 ⟨0, by simp [twoTopics]⟩
    rw [Fin.sum_univ_two, e2, add_zero] at e3
    rw [(C37_multinomial twoTopics_valid (by norm_num) h' 0).1]
    simp [twoTopics, e3]
    norm_num

/-! ### C43: the fast supervised update -/

/-- **C43**.  Every iterate of the fast supervised step after the first is obtained by the documented
update, whose weights are spelled out in `FastUpdate`. -/
theorem C43_update (hm : m.Valid) (hK : 0 < K) {w : ℝ} {s : VP K V} {r : Report} (hX : ∃ n, X n ≠ 0)
    (hr : RunsOnce cfg.iterations cfg.tolerance X m) (h : fast P cfg w draw X (y : ℤ) m = some (s, r)) :
    ∃ s1, FastUpdate P w X y m s1 s := by
  obtain ⟨s1, h1⟩ := (C38_fast hm hK h).ran hm rfl hr
  exact ⟨s1, h1.1 hX⟩

theorem fastStep_eta_zero (hK : 0 < K) (he : ∀ k c, m.eta k c = 0) (hX : numWords X ≠ 0) (w : ℝ) (s : VP K V) :
    fastStep P w X (y : ℤ) m s = unsupervisedStep P X m s := by
  obtain ⟨sm, h2⟩ := softmaxEtaZ_total (P := P) (ratio X) m.eta s.phi y
  obtain ⟨mx, h3⟩ := maxCoeff_total m.eta ⟨0, hK⟩ y
  have hes : etaScaled m.eta = some m.eta := by
    unfold etaScaled
    rw [h3, Option.map_some]
    congr 1
    split
    · funext k c; rw [he]; simp
    · rfl
  unfold fastStep approximatePhi unsupervisedStep unsupervisedPhi
  rw [if_neg hX, h2, hes]
  simp only [Option.bind_some, colAt_fin, he]
  cases mapOpt P.psi s.gamma with
  | none => rfl
  | some psi => simp

/-- **C43** (no classifier).  With `eta = 0` the step does what the unsupervised one does, whatever the
weight. -/
theorem C43_eta_zero (hK : 0 < K) (he : ∀ k c, m.eta k c = 0) (hX : ∃ n, X n ≠ 0) {w draw' : ℝ} {s s' : VP K V}
    {r r' : Report} (h : fast P cfg w draw X (y : ℤ) m = some (s, r))
    (h' : unsupervised P cfg draw' X m = some (s', r')) : s = s' := by
  have e : fastStep P w X (y : ℤ) m = unsupervisedStep P X m :=
    funext (fastStep_eta_zero hK he (numWords_ne.2 hX) w)
  have h1 := run_of_fast h
  have h2 := run_of_unsupervised h'
  unfold fastRun at h1
  rw [e] at h1
  exact Option.some.inj (h1.symm.trans h2)

/-! ### C44: the weight -/

/-- The number of `e_step` calls. -/
def epochsOf : List (FastCall K V C) → ℕ
  | [] => 0
  | .eStep :: cs => epochsOf cs + 1
  | .doc .. :: cs => epochsOf cs

/-- The weight in the epoch numbered `i` from zero. -/
noncomputable def weightAt (c : ℝ) (t : WeightType) (i : ℕ) : ℝ :=
  match t with
  | .constant => c
  | .exponentialDecay => ∏ _j ∈ range i, c

theorem calls_append (s : FastState) (cs ds : List (FastCall K V C)) :
    (s.calls P cfg (cs ++ ds)).2 =
      (s.calls P cfg cs).2 ++ (((s.calls P cfg cs).1).calls P cfg ds).2 := by
  induction cs generalizing s with
  | nil => simp [FastState.calls]
  | cons c cs ih =>
    rw [List.cons_append, FastState.calls, FastState.calls]
    simp only
    rw [ih, List.append_assoc]

theorem calls_state (s : FastState) (cs : List (FastCall K V C)) :
    (s.calls P cfg cs).1 = { s with epochs := s.epochs + epochsOf cs } := by
  induction cs generalizing s with
  | nil => simp [FastState.calls, epochsOf]
  | cons c cs ih =>
    rw [FastState.calls]
    simp only
    rw [ih]
    cases c with
    | doc => simp [FastState.call, epochsOf]
    | eStep => simp [FastState.call, FastState.eStep, epochsOf]; omega

/-- **C44**.  After any sequence of calls on a new step, a document is processed with the weight of
the epoch, the number of `e_step` calls so far, irrespective of the number of documents. -/
theorem C44_weight (c : ℝ) (t : WeightType) (cs : List (FastCall K V C)) (draw : ℝ) (X : Vec V ℕ) (y : ℤ)
    (m : Model K V C) :
    ((FastState.new c t).calls P cfg (cs ++ [.doc draw X y m])).2 =
      ((FastState.new c t).calls P cfg cs).2 ++ [fast P cfg (weightAt c t (epochsOf cs)) draw X y m] := by
  rw [calls_append, calls_state]
  congr 1
  simp only [FastState.calls, FastState.call, FastState.new, Option.toList_some, List.append_nil, zero_add,
    List.cons.injEq, and_true]
  cases t <;> simp [FastState.weight, weightAt]

/-! ### The hypotheses are met -/

/-- A model with two topics, three words (the last with probability zero) and two classes. -/
noncomputable def demo : Model 2 3 2 where
  alpha := fun _ => 1 / 2
  beta := fun k n => if n = 2 then 0 else if k.val = n.val then 3 / 4 else 1 / 4
  eta := fun k c => if k = c then 3 / 4 else 1 / 4

theorem demo_valid : demo.Valid where
  alpha_pos := fun k => by simp [demo]
  beta_nonneg := fun k n => by
    simp only [demo]
    split
    · exact le_rfl
    · split <;> norm_num

theorem demo_eta (k c : Fin 2) : 0 < demo.eta k c := by
  simp only [demo]; split <;> norm_num

/-- A document with three words. -/
def demoX : Vec 3 ℕ := fun n => if n = 0 then 2 else if n = 1 then 1 else 0

theorem demo_known (n : Fin 3) (h : demoX n ≠ 0) : demo.Known n := by
  fin_cases n
  · exact ⟨0, by simp [demo]⟩
  · exact ⟨0, by simp [demo]⟩
  · exact absurd rfl h

/-- The defaults of the library. -/
noncomputable def demoCfg : Cfg := ⟨10, 1 / 100, 1⟩

example : RunsOnce demoCfg.iterations demoCfg.tolerance demoX demo := by
  refine ⟨by norm_num [demoCfg], ?_⟩
  simp [demo, demoCfg, demoX, Fin.sum_univ_three]
  norm_num

example : ∃ s r, unsupervised fastPrims demoCfg 0 demoX demo = some (s, r) := by
  obtain ⟨s, r, h, _⟩ := C35_unsupervised_defined (P := fastPrims) (cfg := demoCfg) (draw := 0) (X := demoX)
    demo_valid (by norm_num)
  exact ⟨s, r, h⟩

example : ∃ s r, fast fastPrims demoCfg 1 0 demoX 1 demo = some (s, r) :=
  C35_fast_defined (y := 1) demo_valid (by norm_num) (Or.inl ⟨0, by simp [demoX]⟩)

example : ∃ s r, multinomial fastPrims demoCfg 1 2 (1 / 2) 5 0 demoX 1 demo = some (s, r) :=
  C35_multinomial_defined (y := 1) demo_valid (by norm_num) fun k => demo_eta k 1

example : ∃ s r, correspondence fastPrims demoCfg 2 5 0 demoX 1 demo = some (s, r) :=
  C35_correspondence_defined (y := 1) demo_valid fun k => demo_eta k 1

end Verif.EStep
