import Verif.Props.Snapshots

/-! Property C66: the likelihood that the applications print. -/
namespace Verif.Apps

open MathUtils

variable {P : Type}

/-! ### Specification -/

/-- The finite negative likelihoods that have been reported. -/
noncomputable def negatives (es : List (Event P)) : List ℝ := es.filterMap fun
  | .expectation (.fin x) => if x < 0 then some x else none
  | _ => none

/-- The mean of a list (of a list that is not empty). -/
noncomputable def mean (l : List ℝ) : ℝ := l.sum / l.length

/-- What should be printed for an epoch: the mean, if there is one. -/
noncomputable def wanted (es : List (Event P)) : Option ℝ :=
  if negatives es = [] then none else some (mean (negatives es))

/-! ### The sum -/

theorem toInt_neg (x : ℝ) (hx : x < 0) (t : ℤ) (h : toInt x = some t) :
    t = ⌈x⌉ ∧ intMin ≤ t := by
  unfold toInt at h
  rw [if_neg (not_le.2 hx)] at h
  simp only at h
  split at h
  · next hb =>
    rw [Option.some.injEq] at h
    exact ⟨h.symm, h ▸ hb.1⟩
  · simp at h

theorem toInt_ok (x : ℝ) (hx : x < 0) (h : (intMin : ℝ) ≤ x) : toInt x = some ⌈x⌉ := by
  unfold toInt
  rw [if_neg (not_le.2 hx)]
  have h1 : intMin ≤ ⌈x⌉ := by
    have := Int.le_ceil x
    exact_mod_cast h.trans this
  have h2 : ⌈x⌉ ≤ intMax := by
    have : ⌈x⌉ ≤ 0 := Int.ceil_le.2 (by simpa using hx.le)
    exact this.trans (by decide)
  simp only [if_pos (And.intro h1 h2)]

/-- The sum after each likelihood, which is rounded towards zero. -/
noncomputable def total (t : ℤ) (l : List ℝ) : ℤ := l.foldl (fun t x => ⌈(t : ℝ) + x⌉) t

theorem total_nonpos (l : List ℝ) (hl : ∀ x ∈ l, x < 0) (t : ℤ) (ht : t ≤ 0) : total t l ≤ 0 := by
  induction l generalizing t with
  | nil => exact ht
  | cons x l ih =>
    refine ih (fun y hy => hl y (by simp [hy])) _ (Int.ceil_le.2 ?_)
    have h1 : (t : ℝ) ≤ 0 := by exact_mod_cast ht
    have h2 := hl x (by simp)
    push_cast
    linarith

theorem total_bounds (l : List ℝ) (t : ℤ) :
    (t : ℝ) + l.sum ≤ total t l ∧ (total t l : ℝ) ≤ t + l.sum + l.length ∧
      (l ≠ [] → (total t l : ℝ) < t + l.sum + l.length) := by
  induction l generalizing t with
  | nil => simp [total]
  | cons x l ih =>
    obtain ⟨h1, h2, -⟩ := ih ⌈(t : ℝ) + x⌉
    have h3 := Int.le_ceil ((t : ℝ) + x)
    have h4 := Int.ceil_lt_add_one ((t : ℝ) + x)
    have e : total t (x :: l) = total ⌈(t : ℝ) + x⌉ l := rfl
    rw [e, List.sum_cons, List.length_cons]
    push_cast
    refine ⟨by linarith, by linarith, fun _ => by linarith⟩

theorem total_int (l : List ℤ) (t : ℤ) : total t (l.map (Int.cast : ℤ → ℝ)) = t + l.sum := by
  induction l generalizing t with
  | nil => simp [total]
  | cons x l ih =>
    have e : total t ((x :: l).map (Int.cast : ℤ → ℝ)) = total ⌈(t : ℝ) + (x : ℝ)⌉ (l.map (Int.cast : ℤ → ℝ)) := rfl
    rw [e, ih, ← Int.cast_add, Int.ceil_intCast, List.sum_cons]
    ring

/-! ### One epoch -/

/-- The line with the number of the iteration. -/
def header (k : ℤ) (es : List (Event P)) : List Line := if docs es = 0 then [] else [.iteration (k + 1)]

/-- The line with the likelihood. -/
noncomputable def footer (es : List (Event P)) : List Line :=
  if total 0 (negatives es) < 0 then [.likelihood ((total 0 (negatives es)).tdiv (negatives es).length)] else []

theorem negatives_neg (es : List (Event P)) : ∀ x ∈ negatives es, x < 0 := by
  intro x hx
  simp only [negatives, List.mem_filterMap] at hx
  obtain ⟨e, -, h⟩ := hx
  split at h
  · split at h
    · next hy => rw [Option.some.injEq] at h; exact h ▸ hy
    · simp at h
  · simp at h

theorem epoch_docs (es : List (Event P)) (hes : IsDocs es) (s s' : EpochProgress)
    (h : feed EpochProgress.onEvent s es = some s') :
    s'.iterations = s.iterations ∧ s'.count = s.count + (negatives es).length ∧
      (s.likelihood ≤ 0 → s'.likelihood = total s.likelihood (negatives es) ∧
        (negatives es ≠ [] → intMin ≤ s'.likelihood)) ∧
      s'.first = (s.first && decide (docs es = 0)) ∧
      s'.printed = (if s.first ∧ docs es ≠ 0 then [.iteration (s.iterations + 1)] else []) ++ s.printed := by
  induction es generalizing s with
  | nil =>
    simp only [feed, List.foldlM_nil, Option.pure_def, Option.some.injEq] at h
    subst h
    simp [negatives, total, docs]
  | cons e es ih =>
    rw [feed, List.foldlM_cons] at h
    obtain ⟨s1, h1, h2⟩ := Option.bind_eq_some_iff.1 h
    cases e with
    | epoch p => simp [IsDocs, epochs] at hes
    | maximization l =>
      simp only [EpochProgress.onEvent, Option.some.injEq] at h1
      subst h1
      exact ih hes s h2
    | other =>
      simp only [EpochProgress.onEvent, Option.some.injEq] at h1
      subst h1
      exact ih hes s h2
    | expectation l =>
      have hd : docs (Event.expectation l :: es) = docs es + 1 := by simp [docs]
      simp only [EpochProgress.onEvent] at h1
      obtain ⟨s0, h3, h4⟩ := Option.bind_eq_some_iff.1 h1
      have hh : s0.iterations = s.iterations ∧ s0.count = s.count ∧ s0.likelihood = s.likelihood ∧
          s0.first = false ∧
          s0.printed = (if s.first then [.iteration (s.iterations + 1)] else []) ++ s.printed := by
        unfold EpochProgress.header at h3
        by_cases hf : s.first
        · rw [if_pos hf] at h3
          simp only [incr] at h3
          split at h3
          · simp only [Option.map_some, Option.some.injEq] at h3
            subst h3
            simp [hf]
          · simp at h3
        · rw [if_neg hf, Option.some.injEq] at h3
          subst h3
          simp [hf]
      obtain ⟨a1, a2, a3, a4, a5⟩ := hh
      obtain ⟨b1, b2, b3, b4, b5⟩ := ih hes s1 h2
      have key : s1.iterations = s0.iterations ∧ s1.first = s0.first ∧ s1.printed = s0.printed := by
        split at h4
        · split at h4
          · obtain ⟨t, -, h6⟩ := Option.bind_eq_some_iff.1 h4
            obtain ⟨c, -, rfl⟩ := Option.map_eq_some_iff.1 h6
            exact ⟨rfl, rfl, rfl⟩
          · rw [Option.some.injEq] at h4; subst h4; exact ⟨rfl, rfl, rfl⟩
        · rw [Option.some.injEq] at h4; subst h4; exact ⟨rfl, rfl, rfl⟩
      obtain ⟨c1, c2, c3⟩ := key
      refine ⟨by rw [b1, c1, a1], ?_, ?_, by rw [b4, c2, a4, hd]; simp, ?_⟩
      · rw [b2]
        split at h4
        · next x =>
          split at h4
          · next hx =>
            obtain ⟨t, -, h6⟩ := Option.bind_eq_some_iff.1 h4
            obtain ⟨c, h7, rfl⟩ := Option.map_eq_some_iff.1 h6
            unfold incr at h7
            split at h7
            · rw [Option.some.injEq] at h7
              have hn : negatives (Event.expectation (.fin x) :: es) = x :: negatives es := by
                simp [negatives, hx]
              rw [hn, List.length_cons]
              change c + _ = _
              rw [← h7, a2]
              push_cast
              ring
            · simp at h7
          · next hx =>
            have hn : negatives (Event.expectation (.fin x) :: es) = negatives es := by simp [negatives, hx]
            rw [Option.some.injEq] at h4
            rw [hn, ← h4, a2]
        · next hx =>
          have hn : negatives (Event.expectation l :: es) = negatives es := by
            cases l with
            | fin x => exact absurd rfl (hx x)
            | _ => simp [negatives]
          rw [Option.some.injEq] at h4
          rw [hn, ← h4, a2]
      · intro hs
        split at h4
        · next x =>
          split at h4
          · next hx =>
            obtain ⟨t, h5, h6⟩ := Option.bind_eq_some_iff.1 h4
            obtain ⟨c, h7, rfl⟩ := Option.map_eq_some_iff.1 h6
            have hn : negatives (Event.expectation (.fin x) :: es) = x :: negatives es := by
              simp [negatives, hx]
            have hneg : (s0.likelihood : ℝ) + x < 0 := by
              have : (s0.likelihood : ℝ) ≤ 0 := by rw [a3]; exact_mod_cast hs
              linarith
            obtain ⟨e1, e2⟩ := toInt_neg _ hneg t h5
            have ht : t ≤ 0 := by rw [e1]; exact Int.ceil_le.2 (by simpa using hneg.le)
            obtain ⟨d1, d2⟩ := b3 ht
            rw [hn]
            refine ⟨?_, fun _ => ?_⟩
            · rw [d1]
              change total t _ = total ⌈_⌉ _
              rw [e1, a3]
            · by_cases hz : negatives es = []
              · rw [d1, hz]; exact e2
              · exact d2 hz
          · next hx =>
            have hn : negatives (Event.expectation (.fin x) :: es) = negatives es := by simp [negatives, hx]
            rw [Option.some.injEq] at h4
            subst h4
            rw [hn, ← a3]
            exact b3 (a3 ▸ hs)
        · next hx =>
          have hn : negatives (Event.expectation l :: es) = negatives es := by
            cases l with
            | fin x => exact absurd rfl (hx x)
            | _ => simp [negatives]
          rw [Option.some.injEq] at h4
          subst h4
          rw [hn, ← a3]
          exact b3 (a3 ▸ hs)
      · rw [b5, c2, a4, c3, a5, hd]
        simp

/-- A state between two epochs, after `k` of them. -/
structure Between (k : ℤ) (s : EpochProgress) : Prop where
  iterations : s.iterations = k
  likelihood : s.likelihood = 0
  count : s.count = 0
  first : s.first = true

theorem epoch_one (es : List (Event P)) (hes : IsDocs es) (p : P) (k : ℤ) (s s' : EpochProgress)
    (hb : Between k s) (h : feed EpochProgress.onEvent s (es ++ [.epoch p]) = some s') :
    Between (k + 1) s' ∧ s'.printed.reverse = s.printed.reverse ++ (header k es ++ footer es) ∧
      (negatives es ≠ [] → intMin ≤ total 0 (negatives es)) := by
  rw [feed, List.foldlM_append] at h
  obtain ⟨t, h1, h2⟩ := Option.bind_eq_some_iff.1 h
  obtain ⟨a1, a2, a3, a4, a5⟩ := epoch_docs es hes s t h1
  obtain ⟨a3, a6⟩ := a3 hb.likelihood.le
  rw [hb.likelihood] at a3
  rw [List.foldlM_cons] at h2
  obtain ⟨t', h3, h4⟩ := Option.bind_eq_some_iff.1 h2
  simp only [List.foldlM_nil, Option.pure_def, Option.some.injEq] at h4
  subst h4
  simp only [EpochProgress.onEvent] at h3
  obtain ⟨u, h5, h6⟩ := Option.bind_eq_some_iff.1 h3
  obtain ⟨n, h7, rfl⟩ := Option.map_eq_some_iff.1 h6
  unfold incr at h7
  split at h7
  swap
  · simp at h7
  rw [Option.some.injEq] at h7
  have hu : u.iterations = t.iterations ∧ u.printed.reverse = t.printed.reverse ++ footer es := by
    unfold footer
    split at h5
    · next hneg =>
      obtain ⟨v, h8, rfl⟩ := Option.map_eq_some_iff.1 h5
      unfold divide at h8
      split at h8
      · simp at h8
      · rw [Option.some.injEq] at h8
        rw [a3] at hneg h8
        rw [if_pos hneg]
        refine ⟨rfl, ?_⟩
        rw [List.reverse_cons, ← h8, a2, hb.count, zero_add]
    · next hneg =>
      rw [Option.some.injEq] at h5
      subst h5
      rw [a3] at hneg
      rw [if_neg hneg, List.append_nil]
      exact ⟨rfl, rfl⟩
  refine ⟨⟨?_, rfl, rfl, rfl⟩, ?_, fun hz => a3 ▸ a6 hz⟩
  · change n = _
    rw [← h7, hu.1, a1, hb.iterations]
  · change u.printed.reverse = _
    rw [hu.2, a5, hb.iterations, hb.first, header]
    by_cases hz : docs es = 0 <;> simp [hz]

/-- What the listener prints for an epoch by itself. -/
theorem epoch_history (history : List (List (Event P) × P)) (hd : ∀ q ∈ history, IsDocs q.1) (k : ℤ)
    (s s' : EpochProgress) (hb : Between k s)
    (h : feed EpochProgress.onEvent s (history.flatMap fun q => q.1 ++ [.epoch q.2]) = some s') :
    Between (k + history.length) s' ∧
      s'.printed.reverse = s.printed.reverse ++
        (history.mapIdx fun i q => header (k + i) q.1 ++ footer q.1).flatten ∧
      ∀ q ∈ history, negatives q.1 ≠ [] → intMin ≤ total 0 (negatives q.1) := by
  induction history generalizing k s with
  | nil =>
    simp only [List.flatMap_nil, feed, List.foldlM_nil, Option.pure_def, Option.some.injEq] at h
    subst h
    simpa using hb
  | cons q history ih =>
    rw [List.flatMap_cons, feed, List.foldlM_append] at h
    obtain ⟨t, h1, h2⟩ := Option.bind_eq_some_iff.1 h
    obtain ⟨b1, b2, b3⟩ := epoch_one q.1 (hd q (by simp)) q.2 k s t hb h1
    obtain ⟨c1, c2, c3⟩ := ih (fun q hq => hd q (by simp [hq])) (k + 1) t b1 h2
    refine ⟨?_, ?_, ?_⟩
    · rw [List.length_cons]
      push_cast
      rwa [add_comm (history.length : ℤ) 1, ← add_assoc]
    · rw [c2, b2, List.mapIdx_cons, List.flatten_cons, List.append_assoc]
      congr 1
      simp only [Nat.cast_zero, add_zero]
      congr 3
      funext i q
      push_cast
      rw [add_assoc, add_comm (1 : ℤ)]
    · intro r hr
      rcases List.mem_cons.1 hr with rfl | hr
      · exact b3
      · exact c3 r hr

/-! ### The property -/

theorem tdiv_ceil (t : ℤ) (c : ℕ) (ht : t ≤ 0) (hc : 0 < c) : t.tdiv c = ⌈(t : ℝ) / (c : ℝ)⌉ := by
  have hc' : (0 : ℝ) < c := by exact_mod_cast hc
  obtain ⟨u, rfl⟩ : ∃ u : ℕ, t = -(u : ℤ) := ⟨t.natAbs, by omega⟩
  rw [Int.neg_tdiv]
  have : ((u : ℤ).tdiv (c : ℤ)) = ((u / c : ℕ) : ℤ) := rfl
  rw [this]
  symm
  rw [Int.ceil_eq_iff]
  have h1 : (u / c : ℕ) * c ≤ u := Nat.div_mul_le_self u c
  have h2 : u < (u / c + 1) * c := by
    have := Nat.lt_div_mul_add hc (a := u)
    nlinarith
  have h1' : ((u / c : ℕ) : ℝ) * c ≤ u := by exact_mod_cast h1
  have h2' : (u : ℝ) < (((u / c : ℕ) : ℝ) + 1) * c := by exact_mod_cast h2
  generalize u / c = w at h1' h2' ⊢
  push_cast
  constructor
  · rw [lt_div_iff₀ hc']; linarith
  · rw [div_le_iff₀ hc']; linarith

/-- A line with a likelihood that is close to the mean: less than two too large, and missing only if the mean
is greater than minus one. -/
def Close (es : List (Event P)) (l : List Line) : Prop :=
  (negatives es = [] ∧ l = []) ∨
  (negatives es ≠ [] ∧ l = [] ∧ -1 < mean (negatives es)) ∨
  (negatives es ≠ [] ∧ ∃ v : ℤ, l = [.likelihood v] ∧ mean (negatives es) ≤ v ∧ (v : ℝ) < mean (negatives es) + 2 ∧
    v ≤ 0)

theorem footer_close (es : List (Event P)) : Close es (footer es) := by
  by_cases hz : negatives es = []
  · exact Or.inl ⟨hz, by simp [footer, hz, total]⟩
  have hlen : 0 < (negatives es).length := List.length_pos_iff.2 hz
  have hlen' : (0 : ℝ) < (negatives es).length := by exact_mod_cast hlen
  obtain ⟨h1, -, h2⟩ := total_bounds (negatives es) 0
  have h2 := h2 hz
  rw [Int.cast_zero, zero_add] at h1 h2
  by_cases hneg : total 0 (negatives es) < 0
  · refine Or.inr (Or.inr ⟨hz, _, by rw [footer, if_pos hneg], ?_, ?_, ?_⟩)
    · rw [tdiv_ceil _ _ hneg.le hlen, mean]
      refine le_trans ?_ (Int.le_ceil _)
      exact div_le_div_of_nonneg_right h1 hlen'.le
    · rw [tdiv_ceil _ _ hneg.le hlen, mean]
      refine lt_of_lt_of_le (Int.ceil_lt_add_one _) ?_
      have : (total 0 (negatives es) : ℝ) / (negatives es).length ≤
          ((negatives es).sum + (negatives es).length) / (negatives es).length :=
        div_le_div_of_nonneg_right h2.le hlen'.le
      rw [add_div, div_self hlen'.ne'] at this
      linarith
    · rw [tdiv_ceil _ _ hneg.le hlen]
      refine Int.ceil_le.2 ?_
      have : (total 0 (negatives es) : ℝ) ≤ 0 := by exact_mod_cast hneg.le
      simpa using div_nonpos_of_nonpos_of_nonneg this hlen'.le
  · refine Or.inr (Or.inl ⟨hz, by rw [footer, if_neg hneg], ?_⟩)
    have h0 : total 0 (negatives es) = 0 :=
      le_antisymm (total_nonpos _ (negatives_neg es) 0 le_rfl) (not_lt.1 hneg)
    rw [h0, Int.cast_zero] at h2
    rw [mean, lt_div_iff₀ hlen']
    linarith

/-- **C66, partial.**  If the sums stay within the range of `int` then for each epoch, whatever came before, the
number that is printed exceeds the mean of its finite negative likelihoods by less than two (it is never below
the mean), and it is omitted only if there is none or the mean is above minus one.

Missing: that it is the mean, which is false (`C66_wrong`, `C66_silent`), and that the sums stay within the
range of `int`, which is false as well (`C66_overflow`). -/
theorem C66_close_partial (history : List (List (Event P) × P)) (hd : ∀ q ∈ history, IsDocs q.1)
    (s : EpochProgress)
    (h : feed EpochProgress.onEvent .new (history.flatMap fun q => q.1 ++ [.epoch q.2]) = some s) :
    ∃ out : List (List Line × List Line),
      s.printed.reverse = out.flatMap (fun o => o.1 ++ o.2) ∧ out.length = history.length ∧
      ∀ (i : ℕ) (hi : i < history.length) (ho : i < out.length),
        out[i].1 = (if docs history[i].1 = 0 then [] else [.iteration (i + 1)]) ∧
        Close history[i].1 out[i].2 := by
  obtain ⟨-, h2, -⟩ := epoch_history history hd 0 .new s ⟨rfl, rfl, rfl, rfl⟩ h
  refine ⟨history.mapIdx fun i q => (header (0 + i) q.1, footer q.1), ?_, by simp, ?_⟩
  · rw [h2, List.flatMap_def]
    simp [EpochProgress.new, List.mapIdx_eq_zipIdx_map, Function.comp_def]
  · intro i hi ho
    simp only [List.getElem_mapIdx]
    refine ⟨by simp [header], footer_close _⟩

/-- **C66** (independence).  The epochs do not influence each other: what is printed after a history, for an
epoch with the documents `es`, is what a new listener prints for it, apart from the number of the iteration. -/
theorem C66_independent (history : List (List (Event P) × P)) (hd : ∀ q ∈ history, IsDocs q.1)
    (es : List (Event P)) (hes : IsDocs es) (p : P) (s s' t : EpochProgress)
    (h : feed EpochProgress.onEvent .new (history.flatMap fun q => q.1 ++ [.epoch q.2]) = some s)
    (h' : feed EpochProgress.onEvent s (es ++ [.epoch p]) = some s')
    (ht : feed EpochProgress.onEvent .new (es ++ [.epoch p]) = some t) :
    s'.printed.reverse = s.printed.reverse ++ t.printed.reverse.map fun
      | .iteration _ => .iteration (history.length + 1)
      | .likelihood v => .likelihood v := by
  obtain ⟨hb, -, -⟩ := epoch_history history hd 0 .new s ⟨rfl, rfl, rfl, rfl⟩ h
  obtain ⟨-, h2, -⟩ := epoch_one es hes p _ s s' hb h'
  obtain ⟨-, h3, -⟩ := epoch_one es hes p 0 .new t ⟨rfl, rfl, rfl, rfl⟩ ht
  rw [h2, h3]
  congr 1
  unfold header footer
  by_cases hz : docs es = 0 <;> by_cases hn : total 0 (negatives es) < 0 <;>
    simp [hz, hn, EpochProgress.new]

/-- **C66** (whole numbers).  If the likelihoods are whole numbers then the mean is printed, rounded up. -/
theorem C66_integers (history : List (List (Event P) × P)) (hd : ∀ q ∈ history, IsDocs q.1)
    (es : List (Event P)) (hes : IsDocs es) (p : P) (l : List ℤ) (hl : negatives es = l.map (Int.cast : ℤ → ℝ))
    (hne : l ≠ []) (s s' : EpochProgress)
    (h : feed EpochProgress.onEvent .new (history.flatMap fun q => q.1 ++ [.epoch q.2]) = some s)
    (h' : feed EpochProgress.onEvent s (es ++ [.epoch p]) = some s') :
    s'.printed.head? = some (.likelihood ⌈mean (negatives es)⌉) := by
  obtain ⟨hb, -, -⟩ := epoch_history history hd 0 .new s ⟨rfl, rfl, rfl, rfl⟩ h
  obtain ⟨-, h2, -⟩ := epoch_one es hes p _ s s' hb h'
  have hz : negatives es ≠ [] := by rw [hl]; exact fun h => hne (List.map_eq_nil_iff.1 h)
  have hlen : 0 < (negatives es).length := List.length_pos_iff.2 hz
  have htot : (total 0 (negatives es) : ℝ) = (negatives es).sum := by
    rw [hl, total_int, zero_add]
    simp [Int.cast_list_sum]
  have hneg : total 0 (negatives es) < 0 := by
    have : (negatives es).sum < 0 := by
      have hn := negatives_neg es
      generalize negatives es = m at hz hn
      induction m with
      | nil => exact absurd rfl hz
      | cons x m ih =>
        rw [List.sum_cons]
        have h1 := hn x (by simp)
        by_cases hm : m = []
        · subst hm; simpa using h1
        · have := ih hm fun y hy => hn y (by simp [hy])
          linarith
    rw [← htot] at this
    exact_mod_cast this
  rw [← List.getLast?_reverse, h2, footer, if_pos hneg, tdiv_ceil _ _ hneg.le hlen, htot, mean, ← List.append_assoc,
    List.getLast?_append]
  simp

/-! ### The property is false -/

/-- Documents with the given likelihoods. -/
noncomputable def documents (l : List ℝ) : List (Event P) := l.map fun x => .expectation (.fin x)

theorem documents_docs (l : List ℝ) : IsDocs (documents l : List (Event P)) := by
  induction l with
  | nil => rfl
  | cons x l ih => exact ih

theorem documents_negatives (l : List ℝ) (hl : ∀ x ∈ l, x < 0) : negatives (documents l : List (Event P)) = l := by
  induction l with
  | nil => rfl
  | cons x l ih =>
    have := hl x (by simp)
    have h2 := ih fun y hy => hl y (by simp [hy])
    simp only [documents, negatives, List.map_cons] at h2 ⊢
    rw [List.filterMap_cons_some (b := x) (by simp [this]), h2]

theorem sum_nonpos (m : List ℝ) (hm : ∀ y ∈ m, y < 0) : m.sum ≤ 0 := by
  induction m with
  | nil => simp
  | cons y m ihm =>
    have h1 := hm y (by simp)
    have h2 := ihm fun z hz => hm z (by simp [hz])
    rw [List.sum_cons]
    linarith

/-- Documents that are not too unlikely do not leave the range of `int`. -/
theorem docs_defined (es : List (Event P)) (hes : IsDocs es) (s : EpochProgress) (h0 : s.likelihood ≤ 0)
    (hr : (intMin : ℝ) ≤ s.likelihood + (negatives es).sum) (hi : s.iterations < intMax)
    (hc : s.count + (negatives es).length ≤ intMax) :
    ∃ s', feed EpochProgress.onEvent s es = some s' := by
  induction es generalizing s with
  | nil => exact ⟨s, rfl⟩
  | cons e es ih =>
    have hh : ∃ s0, s.header = some s0 ∧ s0.likelihood = s.likelihood ∧ s0.count = s.count ∧
        s0.iterations = s.iterations := by
      unfold EpochProgress.header
      split
      · rw [incr, if_pos hi]
        exact ⟨_, rfl, rfl, rfl, rfl⟩
      · exact ⟨s, rfl, rfl, rfl, rfl⟩
    obtain ⟨s0, e1, e2, e3, e4⟩ := hh
    cases e with
    | epoch p => simp [IsDocs, epochs] at hes
    | maximization l => exact ih hes s h0 hr hi hc
    | other => exact ih hes s h0 hr hi hc
    | expectation l =>
      have skip : negatives (Event.expectation l :: es) = negatives es →
          EpochProgress.onEvent s (.expectation l : Event P) = some s0 →
          ∃ s', feed EpochProgress.onEvent s (.expectation l :: es) = some s' := by
        intro hn h1
        rw [hn] at hr hc
        rw [feed, List.foldlM_cons, h1]
        exact ih hes s0 (by rw [e2]; exact h0) (by rw [e2]; exact hr) (by rw [e4]; exact hi)
          (by rw [e3]; exact hc)
      cases l with
      | pinf => exact skip (by simp [negatives]) (by simp [EpochProgress.onEvent, e1])
      | ninf => exact skip (by simp [negatives]) (by simp [EpochProgress.onEvent, e1])
      | nan => exact skip (by simp [negatives]) (by simp [EpochProgress.onEvent, e1])
      | fin x =>
        by_cases hx : x < 0
        · have hn : negatives (Event.expectation (.fin x) :: es) = x :: negatives es := by simp [negatives, hx]
          rw [hn] at hr hc
          rw [List.length_cons] at hc
          push_cast at hc
          rw [List.sum_cons] at hr
          have hsum := sum_nonpos _ (negatives_neg es)
          have h0' : (s.likelihood : ℝ) ≤ 0 := by exact_mod_cast h0
          have ht := toInt_ok ((s0.likelihood : ℝ) + x) (by rw [e2]; linarith) (by rw [e2]; linarith)
          have hce := Int.le_ceil ((s0.likelihood : ℝ) + x)
          obtain ⟨s', h1⟩ := ih hes
            { s0 with likelihood := ⌈(s0.likelihood : ℝ) + x⌉, count := s0.count + 1 }
            (Int.ceil_le.2 (by rw [e2]; push_cast; linarith))
            (by
              change (intMin : ℝ) ≤ (⌈(s0.likelihood : ℝ) + x⌉ : ℝ) + (negatives es).sum
              rw [e2] at hce ⊢
              linarith) (by simpa [e4] using hi) (by simp only [e3]; omega)
          refine ⟨s', ?_⟩
          rw [← h1, feed, List.foldlM_cons]
          have : EpochProgress.onEvent s (.expectation (.fin x) : Event P) =
              some { s0 with likelihood := ⌈(s0.likelihood : ℝ) + x⌉, count := s0.count + 1 } := by
            simp only [EpochProgress.onEvent, e1, Option.bind_some, if_pos hx, ht,
              incr, if_pos (show s0.count < intMax by omega), Option.map_some]
          rw [this]
          rfl
        · exact skip (by simp [negatives, hx]) (by simp [EpochProgress.onEvent, e1, hx])

theorem epoch_event_defined (es : List (Event P)) (hes : IsDocs es) (p : P) (k : ℤ) (s : EpochProgress)
    (hb : Between k s) (hk : k < intMax) (hr : (intMin : ℝ) ≤ (negatives es).sum)
    (hc : ((negatives es).length : ℤ) ≤ intMax) :
    ∃ s', feed EpochProgress.onEvent s (es ++ [.epoch p]) = some s' := by
  obtain ⟨t, ht⟩ := docs_defined es hes s hb.likelihood.le (by rw [hb.likelihood]; simpa using hr)
    (by rw [hb.iterations]; exact hk) (by rw [hb.count]; simpa using hc)
  obtain ⟨a1, a2, a3, -, -⟩ := epoch_docs _ hes _ t ht
  obtain ⟨a3, -⟩ := a3 hb.likelihood.le
  rw [hb.likelihood] at a3
  have hi : t.iterations < intMax := by rw [a1, hb.iterations]; exact hk
  rw [feed, List.foldlM_append, ← feed, ht]
  simp only [Option.bind_eq_bind, Option.bind_some, List.foldlM_cons, List.foldlM_nil, EpochProgress.onEvent]
  split
  · next hneg =>
    have hne : t.count ≠ 0 := by
      intro hz
      have : negatives es = [] := by
        rw [a2, hb.count] at hz
        simpa using hz
      rw [a3, this] at hneg
      exact absurd hneg (by simp [total])
    rw [divide, if_neg hne]
    simp [incr, hi]
  · simp [incr, hi]

/-- **C66** (no undefined behaviour).  If the finite negative likelihoods of each epoch add up to an `int`, and
there are not too many documents and epochs, then everything is defined. -/
theorem C66_defined (history : List (List (Event P) × P)) (hd : ∀ q ∈ history, IsDocs q.1)
    (hr : ∀ q ∈ history, (intMin : ℝ) ≤ (negatives q.1).sum)
    (hc : ∀ q ∈ history, ((negatives q.1).length : ℤ) ≤ intMax) (hh : (history.length : ℤ) ≤ intMax) :
    ∃ s, feed EpochProgress.onEvent .new (history.flatMap fun q => q.1 ++ [.epoch q.2]) = some s := by
  have key : ∀ (k : ℤ) (s : EpochProgress), Between k s → k + history.length ≤ intMax →
      ∃ s', feed EpochProgress.onEvent s (history.flatMap fun q => q.1 ++ [.epoch q.2]) = some s' := by
    clear hh
    induction history with
    | nil => exact fun k s _ _ => ⟨s, rfl⟩
    | cons q history ih =>
      intro k s hb hk
      rw [List.length_cons] at hk
      push_cast at hk
      obtain ⟨t, ht⟩ := epoch_event_defined q.1 (hd q (by simp)) q.2 k s hb (by omega) (hr q (by simp))
        (hc q (by simp))
      obtain ⟨b1, -, -⟩ := epoch_one q.1 (hd q (by simp)) q.2 k s t hb ht
      obtain ⟨s', hs'⟩ := ih (fun q hq => hd q (by simp [hq])) (fun q hq => hr q (by simp [hq]))
        (fun q hq => hc q (by simp [hq])) (k + 1) t b1 (by omega)
      refine ⟨s', ?_⟩
      rw [List.flatMap_cons, feed, List.foldlM_append, ← feed, ht]
      exact hs'
  exact key 0 .new ⟨rfl, rfl, rfl, rfl⟩ (by simpa using hh)

theorem epoch_defined (l : List ℝ) (hl : ∀ x ∈ l, x < 0) (p : P)
    (hr : (intMin : ℝ) ≤ l.sum) (hc : (l.length : ℤ) ≤ intMax) :
    ∃ s', feed EpochProgress.onEvent .new (documents l ++ [.epoch p]) = some s' :=
  epoch_event_defined _ (documents_docs l) p 0 .new ⟨rfl, rfl, rfl, rfl⟩ (by decide)
    (by rw [documents_negatives l hl]; exact hr) (by rw [documents_negatives l hl]; exact hc)

/-- **C66 is false** (wrong number).  Two documents with likelihood -1.5 each: the number printed is -1. -/
theorem C66_wrong (p : P) : ∃ s, feed EpochProgress.onEvent .new (documents [-3 / 2, -3 / 2] ++ [.epoch p]) = some s ∧
    s.printed = [.likelihood (-1), .iteration 1] ∧
    wanted (documents [-3 / 2, -3 / 2] : List (Event P)) = some (-3 / 2) := by
  have hl : ∀ x ∈ [(-3 / 2 : ℝ), -3 / 2], x < 0 := by simp; norm_num
  obtain ⟨s, hs⟩ := epoch_defined (P := P) [-3 / 2, -3 / 2] hl p (by norm_num [intMin]) (by decide)
  obtain ⟨-, h2, -⟩ := epoch_one _ (documents_docs _) p 0 .new s ⟨rfl, rfl, rfl, rfl⟩ hs
  refine ⟨s, hs, ?_, ?_⟩
  · rw [← List.reverse_reverse s.printed, h2, footer, header, documents_negatives _ hl]
    have e : total 0 [(-3 / 2 : ℝ), -3 / 2] = -2 := by
      have e1 : ⌈((0 : ℤ) : ℝ) + (-3 / 2)⌉ = -1 := by rw [Int.ceil_eq_iff]; norm_num
      have e2 : ⌈((-1 : ℤ) : ℝ) + (-3 / 2)⌉ = -2 := by rw [Int.ceil_eq_iff]; norm_num
      simp only [total, List.foldl_cons, List.foldl_nil, e1, e2]
    rw [e]
    simp [docs, documents, EpochProgress.new]
  · rw [wanted, documents_negatives _ hl]
    simp [mean]

/-- **C66 is false** (nothing printed).  Whenever the likelihood of every document is above -1 nothing is
printed, even if there are documents. -/
theorem C66_silent (l : List ℝ) (hl : ∀ x ∈ l, -1 < x ∧ x < 0) (hc : (l.length : ℤ) ≤ intMax) (p : P) :
    ∃ s, feed EpochProgress.onEvent .new (documents l ++ [.epoch p]) = some s ∧ ∀ v, .likelihood v ∉ s.printed := by
  have hn : ∀ x ∈ l, x < 0 := fun x hx => (hl x hx).2
  have hsum : -(l.length : ℝ) ≤ l.sum := by
    clear hc hn
    induction l with
    | nil => simp
    | cons x l ih =>
      have := ih fun y hy => hl y (by simp [hy])
      have h1 := (hl x (by simp)).1
      rw [List.sum_cons, List.length_cons]
      push_cast
      linarith
  have hmin : (intMin : ℝ) ≤ l.sum := by
    have : (l.length : ℝ) ≤ (intMax : ℝ) := by exact_mod_cast hc
    refine le_trans ?_ hsum
    simp only [intMax, intMin] at this ⊢
    push_cast at this ⊢
    linarith
  obtain ⟨s, hs⟩ := epoch_defined (P := P) l hn p hmin hc
  obtain ⟨-, h2, -⟩ := epoch_one _ (documents_docs _) p 0 .new s ⟨rfl, rfl, rfl, rfl⟩ hs
  refine ⟨s, hs, fun v hv => ?_⟩
  have h0 : total 0 l = 0 := by
    clear hc hn hsum hmin hs h2
    induction l with
    | nil => rfl
    | cons x l ih =>
      have e : ⌈((0 : ℤ) : ℝ) + x⌉ = 0 := by
        rw [Int.ceil_eq_iff]
        have := hl x (by simp)
        constructor <;> push_cast <;> linarith
      change total ⌈((0 : ℤ) : ℝ) + x⌉ l = 0
      rw [e]
      exact ih fun y hy => hl y (by simp [hy])
  rw [← List.mem_reverse, h2, footer, documents_negatives l hn, h0, header] at hv
  split at hv <;> simp [EpochProgress.new] at hv

/-- **C66 is false** (undefined).  If the likelihoods of an epoch add up to less than an `int` can hold (allowing
for one per document) then the conversion is undefined: for example a million documents whose likelihoods are
about -2200. -/
theorem C66_overflow (history : List (List (Event P) × P)) (hd : ∀ q ∈ history, IsDocs q.1)
    (q : List (Event P) × P) (hq : q ∈ history)
    (hs : (negatives q.1).sum + (negatives q.1).length ≤ intMin) :
    feed EpochProgress.onEvent .new (history.flatMap fun q => q.1 ++ [.epoch q.2]) = none := by
  by_contra hne
  obtain ⟨s, h⟩ := Option.ne_none_iff_exists'.1 hne
  obtain ⟨-, -, h3⟩ := epoch_history history hd 0 .new s ⟨rfl, rfl, rfl, rfl⟩ h
  have hz : negatives q.1 ≠ [] := by
    intro e
    rw [e] at hs
    simp [intMin] at hs
    norm_num at hs
  have h4 := h3 q hq hz
  obtain ⟨-, -, h5⟩ := total_bounds (negatives q.1) 0
  have h5 := h5 hz
  have h6 : (intMin : ℝ) ≤ total 0 (negatives q.1) := by exact_mod_cast h4
  rw [Int.cast_zero, zero_add] at h5
  linarith

/-- The hypothesis can hold: a million documents with a likelihood of -2200 each. -/
example (p : P) : feed EpochProgress.onEvent .new
    ([(documents (List.replicate 1000000 (-2200)), p)].flatMap fun q => q.1 ++ [.epoch q.2]) = none := by
  refine C66_overflow _ ?_ _ (List.mem_singleton.2 rfl) ?_
  · intro q hq
    rw [List.mem_singleton.1 hq]
    exact documents_docs _
  · rw [documents_negatives _ fun x hx => by rw [List.eq_of_mem_replicate hx]; norm_num]
    rw [List.sum_replicate, List.length_replicate]
    simp only [intMin]
    norm_num

/-- The hypotheses of `C66_close_partial` can hold: two epochs. -/
example (p : P) : ∃ s, feed EpochProgress.onEvent .new (documents [-3, -5] ++ [.epoch p]) = some s ∧
    s.printed = [.likelihood (-4), .iteration 1] := by
  have hl : ∀ x ∈ [(-3 : ℝ), -5], x < 0 := by simp
  obtain ⟨s, hs⟩ := epoch_defined (P := P) [-3, -5] hl p (by norm_num [intMin]) (by decide)
  obtain ⟨-, h2, -⟩ := epoch_one _ (documents_docs _) p 0 .new s ⟨rfl, rfl, rfl, rfl⟩ hs
  refine ⟨s, hs, ?_⟩
  have e : total 0 [(-3 : ℝ), -5] = -8 := by
    have := total_int [-3, -5] 0
    simpa using this
  rw [← List.reverse_reverse s.printed, h2, footer, header, documents_negatives _ hl, e]
  simp [docs, documents, EpochProgress.new]

end Verif.Apps
