import Verif.Props.ChangingCorpora
import Verif.Props.SemiTraining

/-! Property C159: after training on several corpora a topic knows the words that occur in all of them. -/
namespace Verif.Train

open MathUtils EStep MStep Pool Finset

variable {K V C : ℕ} {S T D I : Type}

/-- The topics are distributions, each over the words that it knows in `beta0` and that occur in every corpus of the list. -/
def InAll (corpus : I → ℕ → Doc V) (size : I → ℕ) (is : List I) (beta0 beta : Mat K V ℝ) : Prop :=
  RowStochastic beta ∧ ∀ k w, 0 < beta k w ↔ 0 < beta0 k w ∧ ∀ i ∈ is, Occurs (corpus i) (size i) w

variable {corpus : I → ℕ → Doc V} {size : I → ℕ} {alpha : Vec K ℝ} {beta0 : Mat K V ℝ} {next : T → T}
  {b : I → BatchStep (Params K V C) (VP K V) S} {eval : I → Params K V C × T → ℕ → VP K V}

theorem inTurn_shared (o : ∀ i, OrderFree (b i) D) (hI : ∀ i j, (o i).Is = (o j).Is) (i0 : I)
    (hep : ∀ i (beta : Mat K V ℝ), (∀ k, ∃ w, 0 < beta k w ∧ Occurs (corpus i) (size i) w) →
      ∀ m : Params K V C × T × Option S, (o i).Resting m → m.2.2 ≠ none →
        Good alpha (Agrees (corpus i) (size i) beta) m.1 →
        (o i).Resting (epoch (b i) next (eval i) (size i) m) ∧ (epoch (b i) next (eval i) (size i) m).2.2 ≠ none ∧
          Good alpha (Restricts (corpus i) (size i) beta) (epoch (b i) next (eval i) (size i) m).1) (is : List I) :
    ∀ (beta : Mat K V ℝ) (m : Params K V C × T × Option S), RowStochastic beta → (o i0).Resting m → m.2.2 ≠ none →
      m.1.alpha = alpha → m.1.beta.IsReal beta → (∀ k, ∃ w, 0 < beta k w ∧ ∀ i ∈ is, Occurs (corpus i) (size i) w) →
      (inTurn b next eval size is m).2.2 ≠ none ∧
        Good alpha (InAll corpus size is beta) (inTurn b next eval size is m).1 := by
  induction is with
  | nil =>
    intro beta m hb _ hd ha hm _
    exact ⟨hd, ha, beta, hm, hb, fun k w => by simp⟩
  | cons i is ih =>
    intro beta m hb hr hd ha hm huse
    have hres : ∀ {j j' : I} {m : Params K V C × T × Option S}, (o j).Resting m → (o j').Resting m := by
      intro j j' m h
      unfold OrderFree.Resting at h ⊢
      rwa [hI j' j]
    obtain ⟨h1, h2, ha', beta', hm', hb', hk'⟩ := hep i beta
      (fun k => (huse k).imp fun w h => ⟨h.1, h.2 i (List.mem_cons_self ..)⟩) m (hres hr) hd
      ⟨ha, beta, hm, hb, fun _ _ _ => Iff.rfl⟩
    obtain ⟨h3, ha'', beta'', hm'', hb'', hk''⟩ := ih beta' _ hb' (hres h1) h2 ha' hm' fun k => (huse k).imp fun w h =>
      ⟨(hk' k w).2 ⟨h.1, h.2 i (List.mem_cons_self ..)⟩, fun j hj => h.2 j (List.mem_cons_of_mem _ hj)⟩
    refine ⟨h3, ha'', beta'', hm'', hb'', fun k w => ?_⟩
    rw [hk'' k w, hk' k w, List.forall_mem_cons, and_assoc]

variable {P : Prims} {cfg : Cfg}

/-- **C159**: LDA. -/
theorem C159_lda (hK : 0 < K) (hal : ∀ k, 0 < alpha k) (hb0 : RowStochastic beta0) {is : List I}
    (huse : ∀ k, ∃ w, 0 < beta0 k w ∧ ∀ i ∈ is, Occurs (corpus i) (size i) w)
    (hit : ∀ i, ∀ j < size i, Iterates cfg.iterations cfg.tolerance alpha (corpus i j).words) (any : VP K V)
    {q : Params K V C} (hqa : q.alpha = alpha) (hqb : q.beta.IsReal beta0) {t : T} {l : Left (VP K V)}
    {m : Params K V C × T × Option (Buf K V)}
    (hc : Feeds (fun i => unsupervised (corpus i)) next
      (fun i => libResults (fun _ X _ m => unsupervisedRun P cfg X m) any (corpus i)) size is .empty (q, t, some none) l m) :
    m.2.2 ≠ none ∧ m.1.alpha = alpha ∧ ∃ beta, m.1.beta.IsReal beta ∧ RowStochastic beta ∧
      ∀ k w, 0 < beta k w ↔ 0 < beta0 k w ∧ ∀ i ∈ is, ∃ j < size i, (corpus i j).words w ≠ 0 := by
  rcases is with _ | ⟨i0, is⟩
  · cases hc
    exact ⟨by simp, hqa, beta0, hqb, hb0, fun k w => by simp⟩
  let o : ∀ i, OrderFree (unsupervised (K := K) (C := C) (corpus i)) _ := fun i => unsupervisedFree (corpus i)
  have h0 : (o i0).Is none [] false := ⟨by simp [BufIs], by simp⟩
  have e := (feeds_same o (fun _ _ => rfl) i0 hc rfl (q, t, some none)
    ⟨rfl, rfl, .inr ⟨_, _, _, _, _, rfl, rfl, h0, h0, List.Perm.refl _⟩⟩).1
  obtain ⟨h1, h2⟩ := inTurn_shared (corpus := corpus) (size := size) (alpha := alpha) (next := next) o (fun _ _ => rfl) i0
    (eval := fun i => libResults (fun _ X _ m => unsupervisedRun P cfg X m) any (corpus i)) (by
      intro i beta hu m hr hd hg
      obtain ⟨w, _, j, hj, _⟩ := hu ⟨0, hK⟩
      refine (o i).epoch_sound (Pre := Good alpha (Agrees (corpus i) (size i) beta)) (fun _ _ _ _ _ => trivial) ?_ hr hd hg
      intro q t s f hq hI
      exact ⟨_, _, _, rfl, good_step hu (careful_lda hK hal (hit i) any) hq
        (hI.1.beta (range_map_ne_nil (by omega))) q.eta⟩) (i0 :: is) beta0 (q, t, some none) hb0
    (fun s hs => ⟨false, (Option.some.inj hs) ▸ h0⟩) (by simp) hqa hqb huse
  rw [e.1]
  exact ⟨fun h => h1 ((same_none e).1 h), h2⟩

/-- **C159**: fast supervised LDA, on corpora with labels. -/
theorem C159_flda (mcfg : SupCfg) (hK : 0 < K) (hal : ∀ k, 0 < alpha k) (hb0 : RowStochastic beta0) {is : List I}
    (hcls : ∀ i, Labelled (corpus i) (size i) C)
    (huse : ∀ k, ∃ w, 0 < beta0 k w ∧ ∀ i ∈ is, Occurs (corpus i) (size i) w)
    (hit : ∀ i, ∀ j < size i, Iterates cfg.iterations cfg.tolerance alpha (corpus i j).words) (any : VP K V)
    {q : Params K V C} (hqa : q.alpha = alpha) (hqb : q.beta.IsReal beta0) {t : EStep.FastState} {l : Left (VP K V)}
    {m : Params K V C × EStep.FastState × Option (MStep.FastState K V)}
    (hc : Feeds (fun i => fastSupervised mcfg (corpus i)) EStep.FastState.eStep
      (fun i => libResults (fun (t : EStep.FastState) X y m => fastRun P cfg t.weight X y m) any (corpus i)) size is .empty
      (q, t, some .init) l m) :
    m.2.2 ≠ none ∧ m.1.alpha = alpha ∧ ∃ beta, m.1.beta.IsReal beta ∧ RowStochastic beta ∧
      ∀ k w, 0 < beta k w ↔ 0 < beta0 k w ∧ ∀ i ∈ is, ∃ j < size i, (corpus i j).words w ≠ 0 := by
  rcases is with _ | ⟨i0, is⟩
  · cases hc
    exact ⟨by simp, hqa, beta0, hqb, hb0, fun k w => by simp⟩
  let o : ∀ i, OrderFree (fastSupervised (K := K) (C := C) mcfg (corpus i)) _ := fun i => fastFree mcfg (corpus i)
  have h0 : (o i0).Is .init [] false := ⟨FastIs.init, by simp [MStep.FastState.init]⟩
  have e := (feeds_same o (fun _ _ => rfl) i0 hc rfl (q, t, some .init)
    ⟨rfl, rfl, .inr ⟨_, _, _, _, _, rfl, rfl, h0, h0, List.Perm.refl _⟩⟩).1
  obtain ⟨h1, h2⟩ := inTurn_shared (corpus := corpus) (size := size) (alpha := alpha) (next := EStep.FastState.eStep) o
    (fun _ _ => rfl) i0
    (eval := fun i => libResults (fun (t : EStep.FastState) X y m => fastRun P cfg t.weight X y m) any (corpus i)) (by
      intro i beta hu m hr hd hg
      obtain ⟨w, _, j, hj, _⟩ := hu ⟨0, hK⟩
      have hn : 0 < size i := by omega
      refine (o i).epoch_sound (Pre := Good alpha (Agrees (corpus i) (size i) beta)) (fun _ _ _ _ _ => trivial) ?_ hr hd hg
      intro q t s f hq hI
      obtain ⟨e, ev, u, hM⟩ := fast_ready hI.1 (range_map_ne_nil hn) (fun d hd => by
        obtain ⟨j, hj, rfl⟩ := List.mem_map.1 hd
        exact hcls i j (List.mem_range.1 hj)) mcfg q.eta
      have := hI.1.buf
      rw [List.map_map] at this
      exact ⟨_, u, ev.length, by simp only [fastSupervised, hM, Option.map_some],
        good_step hu (careful_flda hK hal (hcls i) (hit i) any) hq (this.beta (range_map_ne_nil hn)) e⟩)
    (i0 :: is) beta0 (q, t, some .init) hb0
    (fun s hs => ⟨false, (Option.some.inj hs) ▸ h0⟩) (by simp) hqa hqb huse
  rw [e.1]
  exact ⟨fun h => h1 ((same_none e).1 h), h2⟩

/-- **C159**: semi supervised LDA, on corpora each of which has a document with a label. -/
theorem C159_semi {ucfg : Cfg} (mcfg : SupCfg) (hK : 0 < K) (hal : ∀ k, 0 < alpha k) (hb0 : RowStochastic beta0) {is : List I}
    (hcls : ∀ i, ∀ j < size i, (corpus i j).cls < (C : ℤ)) (hlab : ∀ i, ∃ j < size i, 0 ≤ (corpus i j).cls)
    (huse : ∀ k, ∃ w, 0 < beta0 k w ∧ ∀ i ∈ is, Occurs (corpus i) (size i) w)
    (hit : ∀ i, ∀ j < size i, Iterates cfg.iterations cfg.tolerance alpha (corpus i j).words)
    (hit' : ∀ i, ∀ j < size i, Iterates ucfg.iterations ucfg.tolerance alpha (corpus i j).words) (any : VP K V)
    {q : Params K V C} (hqa : q.alpha = alpha) (hqb : q.beta.IsReal beta0) {t : EStep.FastState} {l : Left (VP K V)}
    {m : Params K V C × EStep.FastState × Option (MStep.FastState K V)}
    (hc : Feeds (fun i => semiSupervised mcfg (corpus i)) EStep.FastState.eStep
      (fun i => libResults (semiResult P cfg ucfg) any (corpus i)) size is .empty (q, t, some .init) l m) :
    m.2.2 ≠ none ∧ m.1.alpha = alpha ∧ ∃ beta, m.1.beta.IsReal beta ∧ RowStochastic beta ∧
      ∀ k w, 0 < beta k w ↔ 0 < beta0 k w ∧ ∀ i ∈ is, ∃ j < size i, (corpus i j).words w ≠ 0 := by
  rcases is with _ | ⟨i0, is⟩
  · cases hc
    exact ⟨by simp, hqa, beta0, hqb, hb0, fun k w => by simp⟩
  let o : ∀ i, OrderFree (semiSupervised (K := K) (C := C) mcfg (corpus i)) _ := fun i => semiFree mcfg (corpus i)
  have h0 : (o i0).Is .init [] false := ⟨FastIs.init, by simp [MStep.FastState.init]⟩
  have e := (feeds_same o (fun _ _ => rfl) i0 hc rfl (q, t, some .init)
    ⟨rfl, rfl, .inr ⟨_, _, _, _, _, rfl, rfl, h0, h0, List.Perm.refl _⟩⟩).1
  obtain ⟨h1, h2⟩ := inTurn_shared (corpus := corpus) (size := size) (alpha := alpha) (next := EStep.FastState.eStep) o
    (fun _ _ => rfl) i0 (eval := fun i => libResults (semiResult P cfg ucfg) any (corpus i)) (by
      intro i beta hu m hr hd hg
      obtain ⟨j0, hj0, hl0⟩ := hlab i
      refine (o i).epoch_sound (Pre := Good alpha (Agrees (corpus i) (size i) beta)) (fun _ _ _ _ _ => trivial) ?_ hr hd hg
      intro q t s f hq hI
      obtain ⟨e, ev, u, hM⟩ := fast_ready hI.1
        (List.ne_nil_of_mem (List.mem_filter.2 ⟨List.mem_map.2 ⟨j0, List.mem_range.2 hj0, rfl⟩, decide_eq_true hl0⟩))
        (fun d hd => by
          obtain ⟨h1, h2⟩ := List.mem_filter.1 hd
          obtain ⟨j, hj, rfl⟩ := List.mem_map.1 h1
          exact ⟨by simpa using h2, hcls i j (List.mem_range.1 hj)⟩) mcfg q.eta
      have := hI.1.buf
      rw [List.map_map] at this
      exact ⟨_, u, ev.length, by simp only [semiSupervised, fastSupervised, hM, Option.map_some],
        good_step hu (fun _ _ _ _ hj hqa hb ha => (semi_result hK hal (hcls i) (hit i) (hit' i) any hj hqa hb ha).1) hq
          (this.beta (range_map_ne_nil (by omega))) e⟩)
    (i0 :: is) beta0 (q, t, some .init) hb0
    (fun s hs => ⟨false, (Option.some.inj hs) ▸ h0⟩) (by simp) hqa hqb huse
  rw [e.1]
  exact ⟨fun h => h1 ((same_none e).1 h), h2⟩

/-- The three documents of `threeDocs`, and the same without their second word. -/
def withOrWithout (i : Bool) (j : ℕ) : Doc 4 :=
  ⟨fun w => if i = false ∧ w = 1 then 0 else (threeDocs j).words w, (threeDocs j).cls⟩

theorem withOrWithout_occurs (i : Bool) {w : Fin 4} (hw : w ≠ 1) : Occurs (withOrWithout i) 3 w := by
  obtain ⟨j, hj, h⟩ := threeDocs_occurs w
  exact ⟨j, hj, by simpa [withOrWithout, hw] using h⟩

theorem withOrWithout_iterates (i : Bool) (j : ℕ) :
    Iterates demoCfg.iterations demoCfg.tolerance (fun _ : Fin 2 => (1 : ℝ)) (withOrWithout i j).words := by
  refine ⟨by simp [demoCfg], ?_⟩
  have h : ∀ n, n ≠ 1 → (1 : ℝ) ≤ ((withOrWithout i j).words n : ℝ) := fun n hn => by
    simp only [withOrWithout, hn, and_false, if_false, threeDocs]
    split <;> simp
  have h1 : (0 : ℝ) ≤ ((withOrWithout i j).words 1 : ℝ) := Nat.cast_nonneg _
  simp only [demoCfg, Fin.sum_univ_two, Nat.cast_ofNat, Fin.sum_univ_four]
  linarith [h 0 (by decide), h 2 (by decide), h 3 (by decide)]

/-- Witness: training on the documents, on those without their second word, and on the first ones again: both topics have lost
the second word for good, though the last corpus has it, and keep what they know of the others. -/
example (any : VP 2 4) (e : Mat 2 1 ℝ) : ∃ (m : Params 2 4 1 × Unit × Option (Buf 2 4)) (beta : Mat 2 4 ℝ),
    Feeds (fun i => unsupervised (withOrWithout i)) id
      (fun i => libResults (fun _ X _ m => unsupervisedRun fastPrims demoCfg X m) any (withOrWithout i)) (fun _ => 3)
      [true, false, true] .empty (⟨fun _ => 1, .matrix fun k w => .fin (twoOfFour k w), e⟩, (), some none) .empty m ∧
    m.1.beta.IsReal beta ∧ (∃ j < 3, (withOrWithout true j).words 1 ≠ 0) ∧ beta 0 = ![1, 0, 0, 0] ∧ beta 1 1 = 0 ∧
    0 < beta 1 0 ∧ 0 < beta 1 2 ∧ 0 < beta 1 3 := by
  obtain ⟨m, hc⟩ := feeds_exist (fun i => unsupervised (withOrWithout i)) id
    (fun i => libResults (C := 1) (fun _ X _ m => unsupervisedRun fastPrims demoCfg X m) any (withOrWithout i)) (fun _ => 3)
    (W := 3) (by norm_num) [true, false, true] (⟨fun _ => 1, .matrix fun k w => .fin (twoOfFour k w), e⟩, (), some none)
  obtain ⟨_, _, beta, h1, ⟨h2, hs⟩, h3⟩ := C159_lda (alpha := fun _ => 1) (beta0 := twoOfFour) (by norm_num)
    (fun _ => one_pos) twoOfFour_stochastic
    (fun k => ⟨0, by fin_cases k <;> simp [twoOfFour], fun i _ => withOrWithout_occurs i (by decide)⟩)
    (fun i j _ => withOrWithout_iterates i j) any
    (q := ⟨fun _ => 1, .matrix fun k w => .fin (twoOfFour k w), e⟩) rfl rfl hc
  have hz : ∀ k w, ¬ (0 < beta k w) → beta k w = 0 := fun k w h => le_antisymm (not_lt.1 h) (h2 k w)
  have hone : ∀ k, beta k 1 = 0 := fun k => hz k 1 fun h => by
    obtain ⟨j, _, hj⟩ := ((h3 k 1).1 h).2 false (by simp)
    simp [withOrWithout] at hj
  have h02 : beta 0 2 = 0 := hz 0 2 fun h => by simpa [twoOfFour] using ((h3 0 2).1 h).1
  have h03 : beta 0 3 = 0 := hz 0 3 fun h => by simpa [twoOfFour] using ((h3 0 3).1 h).1
  have hpos : ∀ w, w ≠ 1 → 0 < twoOfFour 1 w → 0 < beta 1 w := fun w hw ht =>
    (h3 1 w).2 ⟨ht, fun i _ => withOrWithout_occurs i hw⟩
  refine ⟨m, beta, hc, h1, ?_, ?_, hone 1, hpos 0 (by decide) (by simp [twoOfFour]), hpos 2 (by decide) (by simp [twoOfFour]),
    hpos 3 (by decide) (by simp [twoOfFour])⟩
  · obtain ⟨j, hj, h⟩ := threeDocs_occurs 1
    exact ⟨j, hj, by simpa [withOrWithout] using h⟩
  · have := hs 0
    rw [Fin.sum_univ_four, hone 0, h02, h03] at this
    funext w
    fin_cases w
    · simpa using this
    · exact hone 0
    · exact h02
    · exact h03

/-- The labels that C159_flda and C159_semi ask for. -/
example (i : Bool) : Labelled (withOrWithout i) 3 1 ∧ (∀ j < 3, (withOrWithout i j).cls < ((1 : ℕ) : ℤ)) ∧
    ∃ j < 3, 0 ≤ (withOrWithout i j).cls :=
  ⟨fun j _ => by simp [withOrWithout, threeDocs], fun j _ => by simp [withOrWithout, threeDocs],
    0, by norm_num, by simp [withOrWithout, threeDocs]⟩

end Verif.Train
