import Verif.Props.Continue

/-! Property C158: training one object on one corpus after the other. -/
namespace Verif.Train

open MathUtils EStep MStep Pool Finset

variable {K V C n W : ℕ} {Q R S T D I : Type}

/-- Successive calls of `partial_fit` on one object, each with its own corpus (LDA.cpp:90-130), under any schedule, number of
workers and shuffle of each call: `is` names the corpora, `size` is their number of documents, `b` the M step fed from the
corpus and `eval` what the E step gives for its documents. -/
inductive Feeds (b : I → BatchStep Q R S) (next : T → T) (eval : I → Q × T → ℕ → R) (size : I → ℕ) :
    List I → Left R → Q × T × Option S → Left R → Q × T × Option S → Prop where
  | nil (l : Left R) (m : Q × T × Option S) : Feeds b next eval size [] l m l m
  | call {i : I} {is : List I} {l l' : Left R} {m m' : Q × T × Option S} (W : ℕ) (p : ℕ → ℕ)
      (ho : ((List.range (size i)).map p).Perm (List.range (size i))) (as : List Act) (s : St (Q × T × Option S) R W)
      (h : run (trainCfg (b i) next (eval i) true W (size i) p)
        (start (trainCfg (b i) next (eval i) true W (size i) p) l m) as = some s)
      (hr : s.main = .ret) (ht : Feeds b next eval size is s.left s.model l' m') :
      Feeds b next eval size (i :: is) l m l' m'

/-- The epochs one after the other, without threads and in the order of each corpus. -/
def inTurn (b : I → BatchStep Q R S) (next : T → T) (eval : I → Q × T → ℕ → R) (size : I → ℕ) (is : List I)
    (m : Q × T × Option S) : Q × T × Option S :=
  is.foldl (fun m i => epoch (b i) next (eval i) (size i) m) m

variable {b : I → BatchStep Q R S} {next : T → T} {eval : I → Q × T → ℕ → R} {size : I → ℕ}

theorem same_iff (o : ∀ i, OrderFree (b i) D) (hI : ∀ i j, (o i).Is = (o j).Is) (i j : I) {m m' : Q × T × Option S} :
    (o i).Same m m' → (o j).Same m m' := by
  unfold OrderFree.Same
  rw [hI i j]
  exact id

theorem feeds_same (o : ∀ i, OrderFree (b i) D) (hI : ∀ i j, (o i).Is = (o j).Is) (i0 : I) {is : List I} {l l' : Left R}
    {m m' : Q × T × Option S} (h : Feeds b next eval size is l m l' m') : l = .empty → ∀ m1, (o i0).Same m m1 →
    (o i0).Same m' (inTurn b next eval size is m1) ∧ l' = .empty := by
  induction h with
  | nil l m => exact fun hl m1 hm => ⟨hm, hl⟩
  | @call i is l l' m m' W p ho as s h hr ht ih =>
    rintro rfl m1 hm
    have hR : Reachable (trainCfg (b i) next (eval i) true W (size i) p) m s := ⟨as, h⟩
    have hclean := C06_nothing_left hR hr
    have hleft : s.left = .empty := by simp [St.left, Left.empty, hclean.1, hclean.2.1, hclean.2.2.2 rfl]
    exact ih hleft _ (same_iff o hI i i0 (partial_fit_same (o i) ho (same_iff o hI i0 i hm) hR hr))

theorem inTurn_same (o : ∀ i, OrderFree (b i) D) (hI : ∀ i j, (o i).Is = (o j).Is) (i0 : I) (is : List I) :
    ∀ {m m' : Q × T × Option S}, (o i0).Same m m' →
    (o i0).Same (inTurn b next eval size is m) (inTurn b next eval size is m') := by
  induction is with
  | nil => exact fun h => h
  | cons i is ih => exact fun h => ih (same_iff o hI i i0 ((o i).epoch_same (same_iff o hI i0 i h) next (eval i) (size i)))

theorem inTurn_idle (o : ∀ i, OrderFree (b i) D) (hI : ∀ i j, (o i).Is = (o j).Is) (i0 : I) (is : List I) :
    ∀ {m : Q × T × Option S}, (∀ s, m.2.2 = some s → ∃ f, (o i0).Is s [] f) →
    ∀ s, (inTurn b next eval size is m).2.2 = some s → ∃ f, (o i0).Is s [] f := by
  induction is with
  | nil => exact fun h => h
  | cons i is ih =>
    intro m h
    refine ih fun s hs => ?_
    obtain ⟨f, hf⟩ : ∃ f, (o i).Rest (size i) f m := by
      by_cases hm : m.2.2 = none
      · exact ⟨false, fun s hs => by rw [hm] at hs; cases hs⟩
      · obtain ⟨s0, h0⟩ := Option.ne_none_iff_exists'.1 hm
        obtain ⟨f, hf⟩ := h s0 h0
        refine ⟨f, fun s hs => ⟨f, ?_, fun _ => rfl⟩⟩
        rw [h0] at hs
        rw [← Option.some.inj hs, hI i i0]
        exact hf
    obtain ⟨f', h1, -⟩ := (o i).epoch_rest hf next (eval i) s hs
    exact ⟨f', by rw [hI i0 i]; exact h1⟩

/-- Training on one corpus after the other does the epochs in turn, and keeps nothing of a corpus but the parameters: after
it, one trains on further corpora, the first of which has documents, with the same result as a new object that starts from
the parameters. -/
def OneAfterTheOther (b : I → BatchStep Q R S) (fresh : S) : Prop :=
  ∀ (T : Type) (next : T → T) (eval : I → Q × T → ℕ → R) (size : I → ℕ) (q : Q) (t : T) (is : List I) (l : Left R)
    (m : Q × T × Option S), Feeds b next eval size is .empty (q, t, some fresh) l m →
    (m.1 = (inTurn b next eval size is (q, t, some fresh)).1 ∧
      m.2.1 = (inTurn b next eval size is (q, t, some fresh)).2.1 ∧
      (m.2.2 = none ↔ (inTurn b next eval size is (q, t, some fresh)).2.2 = none)) ∧
    (m.2.2 ≠ none → ∀ (i : I) (js : List I) (l1 l2 : Left R) (m1 m2 : Q × T × Option S), size i ≠ 0 →
      Feeds b next eval size (i :: js) l m l1 m1 →
      Feeds b next eval size (i :: js) .empty (m.1, m.2.1, some fresh) l2 m2 →
      m1.1 = m2.1 ∧ (m1.2.2 = none ↔ m2.2.2 = none))

theorem one_after_the_other (o : ∀ i, OrderFree (b i) D) (hI : ∀ i j, (o i).Is = (o j).Is) [Inhabited I] {fresh : S} {f : Bool}
    (hf : (o default).Is fresh [] f) : OneAfterTheOther b fresh := by
  intro T next eval size q t is l m h
  have hself : ∀ (q : Q) (t : T), (o default).Same (q, t, some fresh) (q, t, some fresh) := fun q t =>
    ⟨rfl, rfl, .inr ⟨_, _, _, _, _, rfl, rfl, hf, hf, List.Perm.refl _⟩⟩
  obtain ⟨e, rfl⟩ := feeds_same o hI default h rfl _ (hself q t)
  refine ⟨⟨e.1, e.2.1, same_none e⟩, fun hdef i js l1 l2 m1 m2 hn h1 h2 => ?_⟩
  have hidle := inTurn_idle (next := next) (eval := eval) (size := size) o hI default is (m := (q, t, some fresh))
    (fun s hs => ⟨f, by rw [← Option.some.inj hs]; exact hf⟩)
  have hdef' : (inTurn b next eval size is (q, t, some fresh)).2.2 ≠ none := fun h => hdef ((same_none e).2 h)
  have e1 := (feeds_same o hI default h1 rfl _ e).1
  have e2 := (feeds_same o hI default h2 rfl _ (hself m.1 m.2.1)).1
  have hq := e.1
  have ht := e.2.1
  generalize inTurn b next eval size is (q, t, some fresh) = x at e1 hidle hdef' hq ht
  obtain ⟨q1, t1, y⟩ := x
  obtain ⟨s1, rfl⟩ := Option.ne_none_iff_exists'.1 hdef'
  obtain ⟨f1, hI1⟩ := hidle s1 rfl
  simp only at hq ht
  rw [hq, ht] at e2
  have key := inTurn_same (next := next) (eval := eval) (size := size) o hI default js (same_iff o hI i default
    ((o i).epoch_forget (q := q1) (t := t1) (s := s1) (s' := fresh) (f := f1) (f' := f) (by rw [hI i default]; exact hI1)
      (by rw [hI i default]; exact hf) (fun h0 => absurd h0 hn) next (eval i)))
  exact ⟨e1.1.trans (key.1.trans e2.1.symm), (same_none e1).trans ((same_none key).trans (same_none e2).symm)⟩

/-- **C158**, with every batch M step of the library. -/
theorem C158_corpora (cfg : SupCfg) (mu : ℝ) :
    OneAfterTheOther (fun corpus : ℕ → Doc V => unsupervised (K := K) (C := C) corpus) none ∧
    OneAfterTheOther (fun corpus : ℕ → Doc V => fastSupervised (K := K) (C := C) cfg corpus) MStep.FastState.init ∧
    OneAfterTheOther (fun corpus : ℕ → Doc V => semiSupervised (K := K) (C := C) cfg corpus) MStep.FastState.init ∧
    OneAfterTheOther (fun corpus : ℕ → Doc V => supervised (K := K) (C := C) cfg corpus) SupState.init ∧
    OneAfterTheOther (fun corpus : ℕ → Doc V => multinomial (K := K) (C := C) mu corpus) MultState.init ∧
    OneAfterTheOther (fun corpus : ℕ → Doc V => correspondence (K := K) (C := C) mu corpus) MultState.init := by
  have : Inhabited (ℕ → Doc V) := ⟨fun _ => ⟨fun _ => 0, 0⟩⟩
  exact ⟨one_after_the_other (fun corpus => unsupervisedFree corpus) (fun _ _ => rfl)
      (f := false) ⟨uHistory_buf (h := []) rfl, by simp⟩,
    one_after_the_other (fun corpus => fastFree cfg corpus) (fun _ _ => rfl)
      (f := false) ⟨fastHistory_is (C := C) (cfg := cfg) (h := []) rfl, by simp [MStep.FastState.init]⟩,
    one_after_the_other (fun corpus => semiFree cfg corpus) (fun _ _ => rfl)
      (f := false) ⟨semiHistory_is (C := C) (cfg := cfg) (h := []) rfl, by simp [MStep.FastState.init]⟩,
    one_after_the_other (fun corpus => supervisedFree cfg corpus) (fun _ _ => rfl)
      (f := false) ⟨supHistory_is (C := C) (cfg := cfg) (h := []) rfl, by simp [SupState.init]⟩,
    one_after_the_other (fun corpus => multinomialFree mu corpus) (fun _ _ => rfl)
      (f := false) ⟨[], rfl, multHistory_is (mu := mu) (h := []) rfl, by simp [MultState.init]⟩,
    one_after_the_other (fun corpus => correspondenceFree mu corpus) (fun _ _ => rfl)
      (f := false) ⟨[], rfl, multHistory_is (mu := mu) (h := []) rfl, by simp [MultState.init]⟩⟩

/-! The calls exist, whatever the corpora are. -/
theorem feeds_exist (b : I → BatchStep Q R S) (next : T → T) (eval : I → Q × T → ℕ → R) (size : I → ℕ) {W : ℕ} (hW : 0 < W)
    (is : List I) : ∀ m, ∃ m', Feeds b next eval size is .empty m .empty m' := by
  induction is with
  | nil => exact fun m => ⟨m, .nil _ _⟩
  | cons i is ih =>
    intro m
    obtain ⟨⟨as, s, h1, h2⟩, _⟩ := C05_returns_partial (c := trainCfg (b i) next (eval i) true W (size i) id) (m := m)
      (.inl hW) (Reachable.init _ m)
    have hclean := C06_nothing_left (c := trainCfg (b i) next (eval i) true W (size i) id) ⟨as, h1⟩ h2
    have hleft : s.left = .empty := by simp [St.left, Left.empty, hclean.1, hclean.2.1, hclean.2.2.2 rfl]
    obtain ⟨m', h⟩ := ih s.model
    have h : Feeds b next eval size is s.left s.model .empty m' := hleft.symm ▸ h
    exact ⟨m', .call W id (by simp) as s h1 h2 h⟩

/-- Witness: three corpora `A`, `B`, `B` of five and two documents, then `A` again: all the hypotheses hold, and the last
call does what it does with a new object that starts from the parameters. -/
example (A B : ℕ → Doc 4) (hAB : A ≠ B) (eval : (ℕ → Doc 4) → Params 2 4 3 × Unit → ℕ → VP 2 4) (q : Params 2 4 3) :
    ∃ (size : (ℕ → Doc 4) → ℕ) (m m1 m2 : Params 2 4 3 × Unit × Option (Buf 2 4)), size A = 5 ∧ size B = 2 ∧
      Feeds (fun corpus => unsupervised corpus) id eval size [A, B, B] .empty (q, (), some none) .empty m ∧
      m.2.2 ≠ none ∧
      Feeds (fun corpus => unsupervised corpus) id eval size [A] .empty m .empty m1 ∧
      Feeds (fun corpus => unsupervised corpus) id eval size [A] .empty (m.1, m.2.1, some none) .empty m2 ∧ m1.1 = m2.1 := by
  classical
  let size : (ℕ → Doc 4) → ℕ := fun c => if c = A then 5 else 2
  obtain ⟨m, h⟩ := feeds_exist (fun corpus => unsupervised (C := 3) corpus) id eval size (W := 3) (by norm_num) [A, B, B]
    (q, (), some none)
  obtain ⟨m1, h1⟩ := feeds_exist (fun corpus => unsupervised (C := 3) corpus) id eval size (W := 1) (by norm_num) [A] m
  obtain ⟨m2, h2⟩ := feeds_exist (fun corpus => unsupervised (C := 3) corpus) id eval size (W := 2) (by norm_num) [A]
    (m.1, m.2.1, some none)
  have key := (C158_corpora (K := 2) (V := 4) (C := 3) ⟨1, 1, 1⟩ 0).1 Unit id eval size q () [A, B, B] _ _ h
  have hd : ∀ (corpus : ℕ → Doc 4) (l : List (ℕ × VP 2 4)) (q : Params 2 4 3) (s : Buf 2 4),
      (OrderFree.docs (unsupervised corpus) (q, (), some s) l).2.2 ≠ none := by
    intro corpus l
    induction l with
    | nil => intro q s; simp [OrderFree.docs]
    | cons a l ih => intro q s; exact ih q _
  have he : ∀ (i : ℕ → Doc 4) (m : Params 2 4 3 × Unit × Option (Buf 2 4)), m.2.2 ≠ none →
      (epoch (unsupervised i) id (eval i) (size i) m).2.2 ≠ none := by
    rintro i ⟨q, t, x⟩ hx
    obtain ⟨s, rfl⟩ := Option.ne_none_iff_exists'.1 hx
    rw [OrderFree.epoch_eq]
    obtain ⟨s', hs'⟩ := Option.ne_none_iff_exists'.1
      (hd i ((List.range (size i)).map fun j => (j, eval i (trainParams (q, t, some s)) j)) q s)
    rw [trainBatch, hs']
    simp [unsupervised]
  have hm : m.2.2 ≠ none := fun h0 => by
    have := key.1.2.2.1 h0
    exact he B _ (he B _ (he A _ (by simp))) this
  refine ⟨size, m, m1, m2, by simp [size], by simp [size, hAB.symm], h, hm, h1, h2, ?_⟩
  exact (key.2 hm A [] _ _ m1 m2 (by simp [size]) h1 h2).1

end Verif.Train
