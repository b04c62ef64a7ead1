import Verif.Props.EStep

/-! Properties C35 (definedness of the supervised step), C42, C75 and C76. -/
namespace Verif.EStep

open MathUtils Finset

variable {K V C : ℕ} {P : Prims} {cfg : Cfg} {X : Vec V ℕ} {m : Model K V C} {y : Fin C} {draw : ℝ}

/-- The supervised step computes variational parameters whenever every word of the document has
positive probability in some topic. -/
theorem supervisedRun_total (hm : m.Valid) (hK : 0 < K) (hk : ∀ n, X n ≠ 0 → m.Known n) {fp : ℕ} :
    ∃ s, supervisedRun P cfg fp X (y : ℤ) m = some s := by
  obtain ⟨s, h1, _⟩ := loop_total (step := supervisedPhiGamma P X (ratio X) (y : ℤ) m.beta m.eta fp)
    (gam := fun s => s.1.gamma) (tol := cfg.tolerance)
    (fun s => (∀ n, IsDist fun k => s.1.phi k n) ∧ Counts X m.alpha s.1) (fun s hs => by
      obtain ⟨s', h⟩ := supervisedPhiGamma_total (P := P) (y := y) (fp := fp) hm hs.1 hs.2 hk
      obtain ⟨h1, h2, _, _⟩ := supervisedPhiGamma_spec hm hs.1 hs.2 h
      exact ⟨s', h, h1, h2⟩)
    cfg.iterations (fun _ => 0) (initial X m.alpha, none)
    ⟨initial_dist hK X m.alpha, initial_counts X m.alpha⟩
  exact ⟨s, h1⟩

/-! ### C42 -/

/-- The last word of the document in the order of the vocabulary. -/
def IsLast (X : Vec V ℕ) (n : Fin V) : Prop := X n ≠ 0 ∧ ∀ l, X l ≠ 0 → l ≤ n

theorem find_isLast {X : Vec V ℕ} {n : Fin V}
    (h : (List.finRange V).reverse.find? (fun n => decide (X n ≠ 0)) = some n) : IsLast X n := by
  refine ⟨by simpa using List.find?_some h, fun l hl => ?_⟩
  rw [List.find?_eq_some_iff_append] at h
  obtain ⟨_, as, bs, e, h2⟩ := h
  have hl' : l ∈ (List.finRange V).reverse := by simp
  rw [e, List.mem_append, List.mem_cons] at hl'
  rcases hl' with hl' | rfl | hl'
  · have := h2 l hl'
    simp [hl] at this
  · exact le_rfl
  · have hs : (List.finRange V).reverse.Pairwise (· > ·) := by
      rw [List.pairwise_reverse]
      exact List.pairwise_lt_finRange V
    rw [e, List.pairwise_append] at hs
    have := (List.pairwise_cons.1 hs.2.1).1 l hl'
    exact le_of_lt this

theorem isLast_getLast {X : Vec V ℕ} {n : Fin V} (h : (present X).getLast? = some n) : IsLast X n := by
  have hn : n ∈ present X := List.mem_of_getLast? h
  unfold present at hn h
  refine ⟨by simpa using hn, fun l hl => ?_⟩
  have hs : ((List.finRange V).filter (fun n => decide (X n ≠ 0))).Pairwise (· < ·) :=
    (List.pairwise_lt_finRange V).sublist List.filter_sublist
  have hl' : l ∈ (List.finRange V).filter (fun n => decide (X n ≠ 0)) := by simp [hl]
  obtain ⟨t, ht⟩ := List.getLast?_eq_some_iff.1 h
  rw [ht] at hs hl'
  rw [List.pairwise_append] at hs
  rcases List.mem_append.1 hl' with h' | h'
  · exact le_of_lt (hs.2.2 l h' n (by simp))
  · rw [List.mem_singleton] at h'
    exact h'.le

theorem foldl_present (f : Fin V → Vec C ℝ) (X : Vec V ℕ) (p : Vec C ℝ) (c : Fin C) (l : List (Fin V)) :
    l.foldl (fun p n => if X n = 0 then p else fun c => p c * f n c) p c =
      p c * (l.map fun n => if X n ≠ 0 then f n c else 1).prod := by
  induction l generalizing p with
  | nil => simp
  | cons a l ih =>
    rw [List.foldl_cons, ih, List.map_cons, List.prod_cons, ← mul_assoc]
    by_cases h : X a = 0 <;> simp [h]

/-- **C42**, as computed for reporting (`compute_h`): for a document that has words, `h` is the
documented product for the last of them. -/
theorem C42_compute_h {eta : Mat K C ℝ} {phi : Mat K V ℝ} {h0 h : Option (Vec K ℝ)} (hX : ∃ n, X n ≠ 0)
    (hh : computeH P X (ratio X) eta phi h0 = some h) :
    ∃ n, IsLast X n ∧ h = some (hDoc P X eta phi n) := by
  unfold computeH at hh
  obtain ⟨n0, hn0⟩ := hX
  obtain ⟨n, h1, _⟩ := find_last (p := fun n => decide (X n ≠ 0)) (n := n0) (by simpa using hn0)
  simp only [h1, Option.map_eq_some_iff] at hh
  obtain ⟨p, hp, rfl⟩ := hh
  have hlast := find_isLast h1
  refine ⟨n, hlast, ?_⟩
  unfold divide at hp
  split at hp
  · rename_i hne
    rw [Option.some.injEq] at hp
    congr 1
    funext k
    unfold hOf hDoc
    refine Finset.sum_congr rfl fun c _ => ?_
    have : p c = ∏ l ∈ univ.filter (fun l => X l ≠ 0 ∧ l ≠ n), factor P (ratio X) eta phi l c := by
      rw [← hp]
      simp only
      rw [foldl_present (fun n => factor P (ratio X) eta phi n), one_mul, ← Fin.prod_univ_def,
        ← Finset.prod_filter]
      have : univ.filter (fun l => X l ≠ 0) = insert n (univ.filter (fun l => X l ≠ 0 ∧ l ≠ n)) := by
        ext l
        by_cases hl : l = n
        · simp [hl, hlast.1]
        · simp [hl]
      rw [this, Finset.prod_insert (by simp), mul_div_cancel_left₀ _ (hne c)]
    rw [this, mul_comm]
    congr 1
    · exact Finset.prod_congr rfl fun l _ => factor_doc P X eta phi l c
    · unfold ratio; rw [numWords_cast, mul_comm]
  · exact absurd hp (by simp)

/-- `compute_h` does not divide by zero if the columns of the words of the document are
distributions. -/
theorem C42_compute_h_defined {eta : Mat K C ℝ} {phi : Mat K V ℝ} {h0 : Option (Vec K ℝ)}
    (hd : ∀ n, X n ≠ 0 → IsDist fun k => phi k n) : ∃ h, computeH P X (ratio X) eta phi h0 = some h := by
  unfold computeH
  cases e : (List.finRange V).reverse.find? (fun n => decide (X n ≠ 0)) with
  | none => exact ⟨h0, rfl⟩
  | some n =>
    have := (find_isLast e).1
    simp only [divide]
    rw [if_pos fun c => (factor_pos (hd n this) c).ne']
    exact ⟨_, rfl⟩

/-- **C42**, in the supervised step: each sweep updates the words of the document in order, each of
them with the documented `h` for the responsibilities as they are at that moment (`WordUpdate`), and
leaves in `h` the documented product for the last word and the final responsibilities. -/
theorem C42_sweep (hm : m.Valid) {fp : ℕ} {s s' : VP K V × Option (Vec K ℝ)}
    (hd : ∀ n, IsDist fun k => s.1.phi k n) (hc : Counts X m.alpha s.1)
    (h : supervisedPhiGamma P X (ratio X) (y : ℤ) m.beta m.eta fp s = some s') :
    WordUpdates P X y m fp (present X) s.1 s'.1 ∧
    ((∃ n, X n ≠ 0) → ∃ n, IsLast X n ∧ s'.2 = some (hDoc P X m.eta s'.1.phi n)) ∧
    (∀ n, IsDist fun k => s'.1.phi k n) ∧ Counts X m.alpha s'.1 := by
  obtain ⟨h1, h2, h3, h4⟩ := supervisedPhiGamma_spec hm hd hc h
  refine ⟨h3, fun hX => ?_, h1, h2⟩
  rcases h4 with ⟨h5, _⟩ | ⟨n, h5, h6⟩
  · obtain ⟨n, hn⟩ := hX
    have : n ∈ present X := by simp [present, hn]
    rw [h5] at this
    exact absurd this (by simp)
  · exact ⟨n, isLast_getLast h5, h6⟩

/-- At the end of the supervised step: `h` is uninitialised if no sweep was made, and the documented
product for the last word otherwise. -/
theorem supervisedRun_h (hm : m.Valid) (hK : 0 < K) (hX : ∃ n, X n ≠ 0) {fp : ℕ} {s : VP K V}
    {h : Option (Vec K ℝ)} (hr : supervisedRun P cfg fp X (y : ℤ) m = some (s, h)) :
    (h = none ∧ ¬ RunsOnce cfg.iterations cfg.tolerance X m) ∨
      ∃ n, IsLast X n ∧ h = some (hDoc P X m.eta s.phi n) := by
  have key := loop_reaches hK hr
    (fun s => (∀ n, IsDist fun k => s.1.phi k n) ∧ Counts X m.alpha s.1)
    ⟨initial_dist hK X m.alpha, initial_counts X m.alpha⟩
    (fun _ b => ∃ n, IsLast X n ∧ b.2 = some (hDoc P X m.eta b.1.phi n))
    (fun a b hI hab => by
      obtain ⟨_, h2, h3, h4⟩ := C42_sweep hm hI.1 hI.2 hab
      exact ⟨⟨h3, h4⟩, h2 hX⟩)
  rcases key.cases with ⟨h1, h2⟩ | ⟨_, h1⟩
  · refine Or.inl ⟨(Prod.mk.inj h1).2, fun hr => ?_⟩
    obtain ⟨_, n, hn, e⟩ := key.ran (X := X) hm (by simp [initial, numWords]) hr
    have := (Prod.mk.inj h1).2
    simp only at e
    rw [this] at e
    exact absurd e (by simp)
  · exact Or.inr h1

/-! ### C75: what is reported is computed from initialised memory -/

/-- **C75**, for the supervised step: it is defined, whatever it reports, if the document has a word,
every word of it is known and at least one sweep is made.  It is missing that the last need not
be so: see `C75_uninitialised`. -/
theorem C75_supervised_partial (hm : m.Valid) (hK : 0 < K) (hX : ∃ n, X n ≠ 0)
    (hk : ∀ n, X n ≠ 0 → m.Known n) (hr : RunsOnce cfg.iterations cfg.tolerance X m) {fp : ℕ} :
    ∃ s r, supervised P cfg fp draw X (y : ℤ) m = some (s, r) := by
  obtain ⟨⟨s, h⟩, h1⟩ := supervisedRun_total (P := P) (cfg := cfg) (y := y) (fp := fp) hm hK hk
  unfold supervised report bernoulli
  rw [h1, Option.bind_some]
  by_cases hd : draw < cfg.computeLikelihood
  · rcases supervisedRun_h hm hK hX h1 with ⟨_, h2⟩ | ⟨n, _, rfl⟩
    · exact absurd hr h2
    · obtain ⟨n0, hn0⟩ := hX
      obtain ⟨l, hl, _⟩ := find_last (p := fun n => decide (0 < X n)) (n := n0)
        (by simpa using Nat.pos_of_ne_zero hn0)
      unfold supervisedLikelihood
      rw [colAt_fin, hl, decide_eq_true hd]
      exact ⟨s, _, rfl⟩
  · exact ⟨s, .nan, by simp [hd]⟩

/-- **C75** fails: if the limit is zero, or the mean of the initial `gamma` is below the tolerance,
the likelihood is computed from a vector `h` that was never assigned. -/
theorem C75_uninitialised (hK : 0 < K) {fp : ℕ} (hd : draw < cfg.computeLikelihood)
    (hr : cfg.iterations = 0 ∨
      (∑ k, |m.alpha k + (∑ n, (X n : ℝ)) / K|) / K < cfg.tolerance) :
    supervised P cfg fp draw X (y : ℤ) m = none := by
  have h1 : supervisedRun P cfg fp X (y : ℤ) m = some (initial X m.alpha, none) := by
    unfold supervisedRun
    rcases hr with hr | hr
    · rw [hr]; rfl
    · cases cfg.iterations with
      | zero => rfl
      | succ i =>
        rw [loop, (converged_iff hK _ _ _).2]
        · rfl
        · simpa [initial, numWords] using hr
  unfold supervised report bernoulli supervisedLikelihood
  rw [h1, Option.bind_some, colAt_fin, decide_eq_true hd]
  simp

/-- The document of `demo` with a tolerance of three: no sweep is made. -/
example : supervised fastPrims ⟨10, 3, 1⟩ 5 0 demoX 1 demo = none := by
  refine C75_uninitialised (y := 1) (by norm_num) (by norm_num) (Or.inr ?_)
  simp [demo, demoX, Fin.sum_univ_three]
  norm_num [abs_of_pos]

/-! ### C76: the supervised likelihood -/

/-- `∑_c ∏_l φ_lᵀ exp(X_l/N η_c)`, over the words of the document: the expected normaliser of the
class probabilities. -/
noncomputable def docPartition (P : Prims) (X : Vec V ℕ) (eta : Mat K C ℝ) (phi : Mat K V ℝ) : ℝ :=
  ∑ c, ∏ l ∈ univ.filter (fun l => X l ≠ 0),
    ∑ j, phi j l * P.exp ((X l : ℝ) / (∑ i, (X i : ℝ)) * eta j c)

/-- The supervised bound: that of the unsupervised model, plus the expected score of the class, minus
the logarithm of the expected normaliser. -/
def SupervisedBound (P : Prims) (X : Vec V ℕ) (y : Fin C) (m : Model K V C) (s : VP K V) (l : ℝ) : Prop :=
  ∃ u, unsupervisedLikelihood P X m.alpha m.beta s.phi s.gamma = some u ∧ 0 < docPartition P X m.eta s.phi ∧
    l = u + (∑ k, m.eta k y * ((∑ n, (X n : ℝ) * s.phi k n) / ∑ n, (X n : ℝ)))
      - Real.log (docPartition P X m.eta s.phi)

theorem hDoc_phi {eta : Mat K C ℝ} {phi : Mat K V ℝ} {n : Fin V} (hn : X n ≠ 0) :
    ∑ k, hDoc P X eta phi n k * phi k n = docPartition P X eta phi := by
  unfold hDoc docPartition
  simp only [Finset.sum_mul]
  rw [Finset.sum_comm]
  refine Finset.sum_congr rfl fun c _ => ?_
  have : univ.filter (fun l => X l ≠ 0) = insert n (univ.filter (fun l => X l ≠ 0 ∧ l ≠ n)) := by
    ext l
    by_cases hl : l = n
    · simp [hl, hn]
    · simp [hl]
  rw [this, Finset.prod_insert (by simp), Finset.sum_mul]
  refine Finset.sum_congr rfl fun k _ => ?_
  ring

theorem likelihood_bound {n : Fin V} (hn : IsLast X n) {s : VP K V} {h : Vec K ℝ}
    (hh : h = hDoc P X m.eta s.phi n) {l : ℝ}
    (hl : supervisedLikelihood P X (y : ℤ) m.alpha m.beta m.eta s.phi s.gamma (some h) = some (.value l)) :
    SupervisedBound P X y m s l := by
  subst hh
  unfold supervisedLikelihood at hl
  rw [colAt_fin] at hl
  simp only [Option.bind_some, Option.bind_eq_some_iff, Option.some.injEq] at hl
  obtain ⟨n', h1, h2⟩ := hl
  have h1' : (List.finRange V).reverse.find? (fun n => decide (X n ≠ 0)) = some n' := by
    rw [← h1]
    congr 1
    funext n
    simp [Nat.pos_iff_ne_zero]
  have hn' := find_isLast h1'
  have e : n' = n := le_antisymm (hn.2 n' hn'.1) (hn'.2 n hn.1)
  subst e
  rw [hDoc_phi hn.1] at h2
  cases hu : unsupervisedLikelihood P X m.alpha m.beta s.phi s.gamma with
  | none => rw [hu] at h2; simp [Report.ofOption] at h2
  | some u =>
    rw [hu] at h2
    unfold logc at h2
    by_cases hp : 0 < docPartition P X m.eta s.phi
    · simp only [Option.bind_some, if_pos hp, Report.ofOption, Report.value.injEq] at h2
      refine ⟨u, hu, hp, ?_⟩
      rw [← h2, ← sub_eq_add_neg]
      congr 2
      rw [numWords_cast]
      simp only [mul_div_assoc', Finset.mul_sum, ← Finset.sum_div]
      congr 1
      rw [Finset.sum_comm]
      refine Finset.sum_congr rfl fun n _ => ?_
      rw [Finset.sum_mul]
      exact Finset.sum_congr rfl fun k _ => by ring
    · simp [if_neg hp, Report.ofOption] at h2

/-- **C76**, fast supervised step. -/
theorem C76_fast {w : ℝ} {s : VP K V} {l : ℝ} (hX : ∃ n, X n ≠ 0) (hd : draw < cfg.computeLikelihood)
    (h : fast P cfg w draw X (y : ℤ) m = some (s, .value l)) : SupervisedBound P X y m s l := by
  unfold fast report bernoulli at h
  rw [decide_eq_true hd] at h
  simp only [if_true, Option.bind_eq_some_iff, Option.map_eq_some_iff, Prod.mk.injEq] at h
  obtain ⟨s', _, r, h2, rfl, rfl⟩ := h
  unfold supervisedLikelihood' at h2
  split at h2
  · rw [colAt_fin] at h2
    simp at h2
  · rename_i h' heq
    obtain ⟨n, hn, rfl⟩ := C42_compute_h hX heq
    exact likelihood_bound hn rfl h2

/-- **C76**, supervised step. -/
theorem C76_supervised (hm : m.Valid) (hK : 0 < K) {fp : ℕ} {s : VP K V} {l : ℝ}
    (h : supervised P cfg fp draw X (y : ℤ) m = some (s, .value l)) : SupervisedBound P X y m s l := by
  by_cases hX : ∃ n, X n ≠ 0
  swap
  · push Not at hX
    by_cases hd : draw < cfg.computeLikelihood
    · rw [(C40_likelihood_undefined hX hd 0 fp y).2] at h
      exact absurd h (by simp)
    · unfold supervised report bernoulli at h
      simp [hd, Option.bind_eq_some_iff] at h
  unfold supervised report bernoulli at h
  by_cases hd : draw < cfg.computeLikelihood
  · rw [decide_eq_true hd] at h
    simp only [if_true, Option.bind_eq_some_iff, Option.map_eq_some_iff, Prod.mk.injEq] at h
    obtain ⟨⟨s', h'⟩, h1, r, h2, rfl, rfl⟩ := h
    rcases supervisedRun_h hm hK hX h1 with ⟨rfl, _⟩ | ⟨n, hn, rfl⟩
    · unfold supervisedLikelihood at h2
      simp at h2
    · exact likelihood_bound hn rfl h2
  · simp [hd, Option.bind_eq_some_iff] at h

/-- A number is reported whenever it is asked for, if all words of the document are known. -/
theorem C76_fast_value (hm : m.Valid) (hK : 0 < K) {w : ℝ} (hX : ∃ n, X n ≠ 0)
    (hk : ∀ n, X n ≠ 0 → m.Known n) (hd : draw < cfg.computeLikelihood) :
    ∃ s l, fast P cfg w draw X (y : ℤ) m = some (s, .value l) := by
  obtain ⟨s, r, h⟩ := C35_fast_defined (P := P) (cfg := cfg) (draw := draw) (y := y) (w := w) hm hK (Or.inl hX)
  obtain ⟨d1, d2, _⟩ := C35_fast hm hK hX h
  have hb := fast_between hm h
  have hd' : ∀ n, X n ≠ 0 → IsDist fun k => s.phi k n := fun n hn => ⟨fun k => d1 k n, d2 n (hk n hn)⟩
  obtain ⟨u, hu⟩ := unsupervisedLikelihood_total (P := P) (X := X) hK m.alpha m.beta s.phi (between_pos hm hb)
  obtain ⟨h', hh⟩ := C42_compute_h_defined (P := P) (eta := m.eta) (h0 := none) hd'
  obtain ⟨n, hn, rfl⟩ := C42_compute_h hX hh
  obtain ⟨l, hl, hl'⟩ := find_last (p := fun n => decide (0 < X n)) (n := n)
    (by simpa using Nat.pos_of_ne_zero hn.1)
  have hp : 0 < docPartition P X m.eta s.phi := by
    unfold docPartition
    refine Finset.sum_pos (fun c _ => Finset.prod_pos fun l hl => ?_) ⟨y, mem_univ y⟩
    rw [← factor_doc]
    exact factor_pos (hd' l (by simpa using hl)) c
  have e : l = n := by
    have h1' : (List.finRange V).reverse.find? (fun n => decide (X n ≠ 0)) = some l := by
      rw [← hl]
      congr 1
      funext n
      simp [Nat.pos_iff_ne_zero]
    exact le_antisymm (hn.2 l (find_isLast h1').1) ((find_isLast h1').2 n hn.1)
  subst e
  have hrun := run_of_fast h
  unfold fast report bernoulli supervisedLikelihood' supervisedLikelihood
  rw [hrun, Option.bind_some, hh, decide_eq_true hd]
  simp only [if_true, colAt_fin, hl, Option.bind_some, hu, hDoc_phi hn.1, logc, if_pos hp, Report.ofOption,
    Option.map_some]
  exact ⟨_, _, rfl⟩

/-! ### The hypotheses are met -/

theorem demo_runs : RunsOnce demoCfg.iterations demoCfg.tolerance demoX demo := by
  refine ⟨by norm_num [demoCfg], ?_⟩
  simp [demo, demoCfg, demoX, Fin.sum_univ_three]
  norm_num

example : ∃ s r, supervised fastPrims demoCfg 10 0 demoX 1 demo = some (s, r) :=
  C75_supervised_partial (y := 1) demo_valid (by norm_num) ⟨0, by simp [demoX]⟩ demo_known demo_runs

example : ∃ s l, fast fastPrims demoCfg 1 0 demoX 1 demo = some (s, .value l) :=
  C76_fast_value (y := 1) demo_valid (by norm_num) ⟨0, by simp [demoX]⟩ demo_known (by norm_num [demoCfg])

end Verif.EStep
