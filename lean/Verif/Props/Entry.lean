import Verif.Model.Entry
import Verif.Props.EStep
import Verif.Props.Corpus

/-! Properties C72, C85 and C86: which steps work with which documents. -/
namespace Verif.Entry

open MathUtils EStep MStep

variable {K V C : ℕ} {P : Prims}

/-! ### Specification -/

/-- The expectation steps that need no label. -/
def E.NoLabel : E → Prop
  | .classic _ => True
  | _ => False

/-- The maximisation steps that need no label. -/
def M.NoLabel : M K V C → Prop
  | .classic _ => True
  | _ => False

/-! ### Documents without a label -/

theorem mem_eigenCorpus {X : List (Vec V ℕ)} {d : Document V} (h : d ∈ eigenCorpus X) :
    d.label = none ∧ d.corpus = none := by
  obtain ⟨w, -, rfl⟩ := List.mem_map.1 h
  exact ⟨rfl, rfl⟩

theorem docE_unlabelled (draw : ℝ) (d : Document V) (hd : d.label = none) (m : Model K V C) (e : E)
    (he : ¬ e.NoLabel) : docE P draw d m e = none := by
  cases e <;> simp [docE, Document.getClass, hd, E.NoLabel] at he ⊢

theorem docE_classic (draw : ℝ) (d : Document V) (m : Model K V C) (hm : m.Valid) (hK : 0 < K) (e : E)
    (he : e.NoLabel) : ∃ r, docE P draw d m e = some r := by
  cases e <;> simp only [E.NoLabel] at he
  case classic cfg =>
    obtain ⟨s, r, h, -⟩ := C35_unsupervised_defined (P := P) (cfg := cfg) (draw := draw) (X := d.words) hm hK
    exact ⟨_, by rw [docE, h]; rfl⟩

theorem docM_unlabelled (alpha : Vec K ℝ) (eta : Mat K C ℝ) (d : Document V) (hd : d.label = none) (v : Vars K V)
    (s : M K V C) : (∃ s', docM alpha eta d v s = some s') ↔ s.NoLabel := by
  cases s <;> simp [docM, Document.getClass, hd, M.NoLabel]

/-- The kind of a maximisation step does not change. -/
theorem docM_noLabel (alpha : Vec K ℝ) (eta : Mat K C ℝ) (d : Document V) (v : Vars K V) (s s' : M K V C)
    (h : docM alpha eta d v s = some s') : s'.NoLabel ↔ s.NoLabel := by
  cases s <;> simp only [docM, Option.bind_eq_some_iff, Option.map_eq_some_iff, Option.some.injEq] at h
  case classic => subst h; rfl
  case fast => obtain ⟨_, -, _, -, rfl⟩ := h; rfl
  case supervised => obtain ⟨_, -, _, -, rfl⟩ := h; rfl
  case semi => obtain ⟨_, -, _, -, rfl⟩ := h; rfl
  case multinomial => obtain ⟨_, -, _, -, rfl⟩ := h; rfl
  case correspondence => obtain ⟨_, -, _, -, _, -, rfl⟩ := h; rfl
  case online => obtain ⟨_, -, _, -, rfl⟩ := h; rfl

/-- **C72, partial** (fit).  Training on documents without labels, in whatever order they arrive, is free of
undefined behaviour exactly if both steps are the unsupervised ones (or there are no documents).

Missing: the other steps, for which the property is false. -/
theorem C72_fit_partial (hK : 0 < K) (X : List (Vec V ℕ)) (e : E) (s : M K V C)
    (qs : List (Document V × ℝ × Model K V C)) (hq : ∀ q ∈ qs, q.1 ∈ eigenCorpus X ∧ q.2.2.Valid) :
    (∃ s', fitDocs P e qs s = some s') ↔ qs = [] ∨ (e.NoLabel ∧ s.NoLabel) := by
  induction qs generalizing s with
  | nil => simp [fitDocs]
  | cons q qs ih =>
    obtain ⟨hd, hm⟩ := hq q (by simp)
    have hd := (mem_eigenCorpus hd).1
    simp only [fitDocs, List.cons_ne_nil, false_or]
    by_cases he : e.NoLabel
    · obtain ⟨r, hr⟩ := docE_classic (P := P) q.2.1 q.1 q.2.2 hm hK e he
      rw [hr, Option.bind_some]
      constructor
      · rintro ⟨s', h⟩
        obtain ⟨s1, h1, -⟩ := Option.bind_eq_some_iff.1 h
        exact ⟨he, (docM_unlabelled q.2.2.alpha q.2.2.eta q.1 hd r.1 s).1 ⟨s1, h1⟩⟩
      · rintro ⟨-, hs⟩
        obtain ⟨s1, h1⟩ := (docM_unlabelled q.2.2.alpha q.2.2.eta q.1 hd r.1 s).2 hs
        rw [h1, Option.bind_some]
        exact (ih s1 fun q hq' => hq q (by simp [hq'])).2 (Or.inr ⟨he, (docM_noLabel _ _ _ _ _ _ h1).2 hs⟩)
    · rw [docE_unlabelled q.2.1 q.1 hd q.2.2 e he]
      simp [he]

/-- **C72, partial** (transform).  `transform` is free of undefined behaviour exactly if the expectation step is
the unsupervised one (or there are no documents). -/
theorem C72_transform_partial (hK : 0 < K) (X : List (Vec V ℕ)) (e : E) (m : Model K V C) (hm : m.Valid)
    (qs : List (Document V × ℝ)) (hq : ∀ q ∈ qs, q.1 ∈ eigenCorpus X) :
    (∃ l, transformDocs P e m qs = some l) ↔ qs = [] ∨ e.NoLabel := by
  induction qs with
  | nil => simp [transformDocs]
  | cons q qs ih =>
    have hd := (mem_eigenCorpus (hq q (by simp))).1
    simp only [transformDocs, List.cons_ne_nil, false_or]
    by_cases he : e.NoLabel
    · obtain ⟨r, hr⟩ := docE_classic (P := P) q.2 q.1 m hm hK e he
      obtain ⟨l, hl⟩ := (ih fun q hq' => hq q (by simp [hq'])).2 (Or.inr he)
      rw [hr, Option.bind_some, hl]
      simp [he]
    · rw [docE_unlabelled q.2 q.1 hd m e he]
      simp [he]

/-- **C72 is false**: with any other expectation step a single document is enough, in `fit(X)` and in
`transform(X)`.  In particular the semi-supervised step, which is meant for documents without labels. -/
theorem C72_undefined (w : Vec V ℕ) (draw : ℝ) (m : Model K V C) (s : M K V C) (e : E) (he : ¬ e.NoLabel) :
    ∀ d ∈ eigenCorpus [w], fitDocs P e [(d, draw, m)] s = none ∧ transformDocs P e m [(d, draw)] = none := by
  intro d hd
  simp [fitDocs, transformDocs, docE_unlabelled draw d (mem_eigenCorpus hd).1 m e he]

/-! ### Semi-supervised training -/

/-- **C85 is false.**  A label vector that marks a document as unlabelled (with -1, or any other negative label)
cannot be passed to `fit` or `partial_fit`: the constructor of the corpus has undefined behaviour, whatever the
steps are. -/
theorem C85_undefined (X : List (Vec V ℕ)) (y : List ℤ) (h : ∃ l ∈ y, l < 0) : classCorpus X y = none := by
  rw [classCorpus, (Corpus.C18_undefined y).2 (Or.inr h)]
  rfl

/-- **C85, partial.**  With a corpus of the user, whose documents are classification documents, the
semi-supervised steps process a document without a label (a negative one) like the unsupervised ones.

Missing: that such documents can be passed as `X` and `y` (`C85_undefined`). -/
theorem C85_documents_partial (draw : ℝ) (d : Document V) (y : ℤ) (hd : d.label = some y) (hy : y < 0)
    (m : Model K V C) (s u : E) (v : Vars K V) (st : FastState K V) :
    docE P draw d m (.semi s u) = docE P draw d m u ∧
    docM m.alpha m.eta d v (.semi st) = some (.semi { st with b := uDoc d.words v.vp.phi st.b }) := by
  simp [docE, docM, Document.getClass, hd, hy, semiDoc]

/-- **C85** (labelled documents).  A document with a label that is not negative is processed like the fast
supervised maximisation step and the supervised expectation step do. -/
theorem C85_labelled (draw : ℝ) (d : Document V) (y : ℤ) (hd : d.label = some y) (hy : 0 ≤ y)
    (m : Model K V C) (s u : E) (v : Vars K V) (st : FastState K V) :
    docE P draw d m (.semi s u) = docE P draw d m s ∧
    (∀ st', docM m.alpha m.eta d v (.semi st) = some (.semi st') ↔
      docM m.alpha m.eta d v (.fast st) = some (.fast st')) := by
  have hy' : ¬ y < 0 := not_lt.2 hy
  simp [docE, docM, Document.getClass, hd, hy', semiDoc]

/-! ### Combinations of steps -/

/-- The expectation step that processes documents with the label `y`. -/
def E.route (y : ℤ) : E → E
  | .semi s u => if y < 0 then u.route y else s.route y
  | e => e

/-- The correspondence step. -/
def E.IsCorr : E → Prop
  | .correspondence _ _ => True
  | _ => False

theorem docE_corr (draw : ℝ) (d : Document V) (y : ℤ) (hd : d.label = some y) (m : Model K V C) (e : E)
    (r : Vars K V × Report) (h : docE P draw d m e = some r) : (∃ t, r.1.asCorr = some t) ↔ (e.route y).IsCorr := by
  induction e with
  | classic cfg =>
    obtain ⟨q, -, rfl⟩ := Option.map_eq_some_iff.1 h
    simp [Vars.asCorr, E.route, E.IsCorr]
  | supervised cfg fp =>
    simp only [docE, Document.getClass, hd, Option.bind_some] at h
    obtain ⟨q, -, rfl⟩ := Option.map_eq_some_iff.1 h
    simp [Vars.asCorr, E.route, E.IsCorr]
  | fast cfg w =>
    simp only [docE, Document.getClass, hd, Option.bind_some] at h
    obtain ⟨q, -, rfl⟩ := Option.map_eq_some_iff.1 h
    simp [Vars.asCorr, E.route, E.IsCorr]
  | multinomial cfg ew mu =>
    simp only [docE, Document.getClass, hd, Option.bind_some] at h
    obtain ⟨c, -, h⟩ := Option.bind_eq_some_iff.1 h
    obtain ⟨p, -, h⟩ := Option.bind_eq_some_iff.1 h
    obtain ⟨q, -, rfl⟩ := Option.map_eq_some_iff.1 h
    simp [Vars.asCorr, E.route, E.IsCorr]
  | correspondence cfg mu =>
    simp only [docE, Document.getClass, hd, Option.bind_some] at h
    obtain ⟨c, -, h⟩ := Option.bind_eq_some_iff.1 h
    obtain ⟨q, -, rfl⟩ := Option.map_eq_some_iff.1 h
    simp [Vars.asCorr, E.route, E.IsCorr]
  | semi s u ihs ihu =>
    simp only [docE, Document.getClass, hd, Option.bind_some] at h
    rw [E.route]
    split at h
    · next hy => rw [if_pos hy]; exact ihu h
    · next hy => rw [if_neg hy]; exact ihs h

/-- **C86 is false.**  With the correspondence maximisation step, a document that is processed by any expectation
step but the correspondence one is undefined behaviour. -/
theorem C86_undefined (draw : ℝ) (d : Document V) (y : ℤ) (hd : d.label = some y) (m : Model K V C) (e : E)
    (he : ¬ (e.route y).IsCorr) (s : MultState K V C) : fitDocs P e [(d, draw, m)] (.correspondence s) = none := by
  rw [fitDocs]
  cases h : docE P draw d m e with
  | none => rfl
  | some r =>
    rw [Option.bind_some]
    have : r.1.asCorr = none := by
      by_contra hne
      exact he ((docE_corr draw d y hd m e r h).1 (Option.ne_none_iff_exists'.1 hne))
    simp [docM, Document.getClass, hd, this]

/-- The buffers of a maximisation step fit together: so they do after construction, and they stay so. -/
def M.Fits : M K V C → Prop
  | .fast s => s.y.length = s.zbar.length ∧ s.docs ≤ s.zbar.length
  | .semi s => s.y.length = s.zbar.length ∧ s.docs ≤ s.zbar.length
  | .supervised s => s.y.length = s.zbar.length ∧ s.var.length = s.zbar.length ∧ s.docs ≤ s.zbar.length
  | _ => True

/-- The correspondence maximisation step. -/
def M.IsCorr : M K V C → Prop
  | .correspondence _ => True
  | _ => False

/-- The online maximisation step. -/
def M.IsOnline : M K V C → Prop
  | .online _ _ => True
  | _ => False

theorem resize_length {α : Type} (l : List (Option α)) (n : ℕ) (h : l.length ≤ n) : (resize l n).length = n := by
  simp [resize]; omega

theorem setAt_some {α : Type} (l : List (Option α)) (i : ℕ) (v : α) (h : i < l.length) :
    ∃ l', setAt l i v = some l' ∧ l'.length = l.length := by
  exact ⟨l.set i (some v), by rw [setAt, if_pos h], by simp⟩

theorem fastDoc_fits (alpha : Vec K ℝ) (d : Doc V) (vp : VP K V) (s : FastState K V)
    (h : s.y.length = s.zbar.length ∧ s.docs ≤ s.zbar.length) :
    ∃ s', fastDoc alpha d vp s = some s' ∧ s'.y.length = s'.zbar.length ∧ s'.docs ≤ s'.zbar.length := by
  unfold fastDoc
  by_cases hg : s.zbar.length ≤ s.docs
  · simp only [if_pos hg]
    have l1 := resize_length s.y (s.docs + 1) (by omega)
    have l2 := resize_length s.zbar (s.docs + 1) (by omega)
    obtain ⟨y', e1, h1⟩ := setAt_some (resize s.y (s.docs + 1)) s.docs d.cls (by omega)
    obtain ⟨z', e2, h2⟩ := setAt_some (resize s.zbar (s.docs + 1)) s.docs (fastZbar vp.gamma alpha) (by omega)
    rw [e1, Option.bind_some, e2, Option.map_some]
    exact ⟨_, rfl, by simp only; omega, by simp only; omega⟩
  · simp only [if_neg hg]
    obtain ⟨y', e1, h1⟩ := setAt_some s.y s.docs d.cls (by omega)
    obtain ⟨z', e2, h2⟩ := setAt_some s.zbar s.docs (fastZbar vp.gamma alpha) (by omega)
    rw [e1, Option.bind_some, e2, Option.map_some]
    exact ⟨_, rfl, by simp only; omega, by simp only; omega⟩

theorem supDoc_fits (alpha : Vec K ℝ) (d : Doc V) (vp : VP K V) (s : SupState K V)
    (hN : numWords d.words * numWords d.words ≤ 2147483647)
    (h : s.y.length = s.zbar.length ∧ s.var.length = s.zbar.length ∧ s.docs ≤ s.zbar.length) :
    ∃ s', supDoc alpha d vp s = some s' ∧ s'.y.length = s'.zbar.length ∧ s'.var.length = s'.zbar.length ∧
      s'.docs ≤ s'.zbar.length := by
  unfold supDoc
  rw [if_neg (not_lt.2 hN)]
  by_cases hg : s.zbar.length ≤ s.docs
  · simp only [if_pos hg]
    have l1 := resize_length s.y (s.docs + 1) (by omega)
    have l2 := resize_length s.zbar (s.docs + 1) (by omega)
    have l3 := resize_length s.var (s.docs + 1) (by omega)
    obtain ⟨y', e1, h1⟩ := setAt_some (resize s.y (s.docs + 1)) s.docs d.cls (by omega)
    obtain ⟨z', e2, h2⟩ := setAt_some (resize s.zbar (s.docs + 1)) s.docs
      (supZbar (numWords d.words) vp.gamma alpha) (by omega)
    obtain ⟨v', e3, h3⟩ := setAt_some (resize s.var (s.docs + 1)) s.docs
      (supVar (numWords d.words) d.words vp.phi) (by omega)
    rw [e1, Option.bind_some, e2, Option.bind_some, e3, Option.map_some]
    exact ⟨_, rfl, by simp only; omega, by simp only; omega, by simp only; omega⟩
  · simp only [if_neg hg]
    obtain ⟨y', e1, h1⟩ := setAt_some s.y s.docs d.cls (by omega)
    obtain ⟨z', e2, h2⟩ := setAt_some s.zbar s.docs (supZbar (numWords d.words) vp.gamma alpha) (by omega)
    obtain ⟨v', e3, h3⟩ := setAt_some s.var s.docs (supVar (numWords d.words) d.words vp.phi) (by omega)
    rw [e1, Option.bind_some, e2, Option.bind_some, e3, Option.map_some]
    exact ⟨_, rfl, by simp only; omega, by simp only; omega, by simp only; omega⟩

theorem multAdd_some (eta : Mat K C ℝ) (y : ℤ) (hy : 0 ≤ y ∧ y < C) (t : Mat K V ℝ) (s : MultState K V C) :
    ∃ s', multAdd eta y t s = some s' := by
  simp [multAdd, colAt, hy]

theorem docM_fits (alpha : Vec K ℝ) (eta : Mat K C ℝ) (d : Document V) (y : ℤ) (hd : d.label = some y)
    (hy : 0 ≤ y ∧ y < C) (hN : numWords d.words * numWords d.words ≤ 2147483647) (v : Vars K V) (s : M K V C)
    (hs : s.Fits) (ho : ¬ s.IsOnline) (hc : s.IsCorr → ∃ t, v.asCorr = some t) :
    ∃ s', docM alpha eta d v s = some s' ∧ s'.Fits ∧ ¬ s'.IsOnline ∧ (s'.IsCorr ↔ s.IsCorr) := by
  have hneg : ¬ y < 0 := not_lt.2 hy.1
  cases s with
  | classic s => exact ⟨_, rfl, trivial, id, Iff.rfl⟩
  | fast s =>
    obtain ⟨s', h1, h2⟩ := fastDoc_fits alpha ⟨d.words, y⟩ v.vp s hs
    exact ⟨.fast s', by simp [docM, Document.getClass, hd, h1], h2, id, Iff.rfl⟩
  | semi s =>
    obtain ⟨s', h1, h2⟩ := fastDoc_fits alpha ⟨d.words, y⟩ v.vp s hs
    exact ⟨.semi s', by simp [docM, Document.getClass, hd, semiDoc, hneg, h1], h2, id, Iff.rfl⟩
  | supervised s =>
    obtain ⟨s', h1, h2⟩ := supDoc_fits alpha ⟨d.words, y⟩ v.vp s hN hs
    exact ⟨.supervised s', by simp [docM, Document.getClass, hd, h1], h2, id, Iff.rfl⟩
  | multinomial s =>
    obtain ⟨s', h1⟩ := multAdd_some eta y hy (scaled v.vp.phi d.words) s
    exact ⟨.multinomial s', by simp [docM, Document.getClass, hd, multDoc, h1], trivial, id, Iff.rfl⟩
  | correspondence s =>
    obtain ⟨t, ht⟩ := hc trivial
    obtain ⟨s', h1⟩ := multAdd_some eta y hy (fun k n => t.1.phi k n * (d.words n * t.2 n)) s
    exact ⟨.correspondence s', by simp [docM, Document.getClass, hd, ht, corrDoc, h1], trivial, id, Iff.rfl⟩
  | online cfg s => exact absurd trivial ho

/-- **C86, partial.**  Documents with labels in range, for each of which the expectation step is defined, in
whatever order they arrive: the expectation step may be combined with any of the maximisation steps (the online
one aside, see `C52`), except that the correspondence one takes only documents that are processed by the
correspondence expectation step.  The supervised step needs documents that are not too long (`C80`).

Missing: the combinations of `C86_undefined`. -/
theorem C86_combinations_partial (e : E) (qs : List (Document V × ℝ × Model K V C))
    (hl : ∀ q ∈ qs, ∃ y : ℤ, q.1.label = some y ∧ 0 ≤ y ∧ y < C)
    (hE : ∀ q ∈ qs, ∃ r, docE P q.2.1 q.1 q.2.2 e = some r)
    (hN : ∀ q ∈ qs, numWords q.1.words * numWords q.1.words ≤ 2147483647) (s : M K V C) (hs : s.Fits)
    (ho : ¬ s.IsOnline) :
    (∃ s', fitDocs P e qs s = some s') ↔
      (s.IsCorr → ∀ q ∈ qs, ∀ y, q.1.label = some y → (e.route y).IsCorr) := by
  induction qs generalizing s with
  | nil => simp [fitDocs]
  | cons q qs ih =>
    obtain ⟨y, hd, hy⟩ := hl q (by simp)
    obtain ⟨r, hr⟩ := hE q (by simp)
    have ih := fun s hs ho => ih (fun q hq => hl q (by simp [hq])) (fun q hq => hE q (by simp [hq]))
      (fun q hq => hN q (by simp [hq])) s hs ho
    have hcorr := docE_corr q.2.1 q.1 y hd q.2.2 e r hr
    rw [fitDocs, hr, Option.bind_some]
    by_cases hc : s.IsCorr → ∃ t, r.1.asCorr = some t
    · obtain ⟨s', h1, h2, h3, h4⟩ := docM_fits q.2.2.alpha q.2.2.eta q.1 y hd hy (hN q (by simp)) r.1 s hs ho hc
      rw [h1, Option.bind_some, ih s' h2 h3, h4]
      constructor
      · intro h hs' q' hq' y' hy'
        rcases List.mem_cons.1 hq' with rfl | hq'
        · rw [hd, Option.some.injEq] at hy'
          subst hy'
          exact hcorr.1 (hc hs')
        · exact h hs' q' hq' y' hy'
      · intro h hs' q' hq'
        exact h hs' q' (by simp [hq'])
    · push Not at hc
      obtain ⟨hc, hn⟩ := hc
      constructor
      · rintro ⟨s', h⟩
        obtain ⟨s1, h1, -⟩ := Option.bind_eq_some_iff.1 h
        cases s <;> simp only [M.IsCorr] at hc
        simp only [docM, Document.getClass, hd, Option.bind_some] at h1
        obtain ⟨t, ht, -⟩ := Option.bind_eq_some_iff.1 h1
        exact absurd ht (hn t)
      · intro h
        obtain ⟨t, ht⟩ := hcorr.2 (h hc q (by simp) y hd)
        exact absurd ht (hn t)

/-- After construction the buffers fit. -/
theorem fits_init : (M.fast .init : M K V C).Fits ∧ (M.semi .init : M K V C).Fits ∧
    (M.supervised .init : M K V C).Fits := by
  simp [M.Fits, FastState.init, SupState.init]

/-! ### Examples -/

/-- A model with one topic, one word and one class. -/
def oneModel : Model 1 1 1 := ⟨fun _ => 1, fun _ _ => 1, fun _ _ => 1⟩

theorem oneModel_valid : oneModel.Valid := ⟨fun _ => one_pos, fun _ _ => zero_le_one⟩

/-- The hypotheses of the theorems on documents without labels can hold: training and transforming with the
unsupervised steps. -/
example (P : Prims) (cfg : Cfg) : (∃ s', fitDocs P (.classic cfg)
      ((eigenCorpus [fun _ => 2, fun _ => 0]).map fun d => (d, 0, oneModel)) (.classic none) = some s') ∧
    ∃ l, transformDocs P (.classic cfg) oneModel ((eigenCorpus [fun _ => 2, fun _ => 0]).map fun d => (d, 0)) =
      some l := by
  refine ⟨(C72_fit_partial (by norm_num) [fun _ => 2, fun _ => 0] _ _ _ ?_).2 (Or.inr ⟨trivial, trivial⟩),
    (C72_transform_partial (by norm_num) [fun _ => 2, fun _ => 0] _ _ oneModel_valid _ ?_).2 (Or.inr trivial)⟩
  · intro q hq
    obtain ⟨d, hd, rfl⟩ := List.mem_map.1 hq
    exact ⟨hd, oneModel_valid⟩
  · intro q hq
    obtain ⟨d, hd, rfl⟩ := List.mem_map.1 hq
    exact hd

/-- The hypotheses of `C72_undefined` can hold: the semi-supervised step with its default children. -/
example (P : Prims) (cfg : Cfg) (w : Vec 1 ℕ) :
    transformDocs P (.semi (.fast cfg 1) (.classic cfg)) oneModel [(⟨w, none, none⟩, 0)] = none :=
  (C72_undefined (P := P) w 0 oneModel (.classic none) (.semi (.fast cfg 1) (.classic cfg)) (fun h => h) ⟨w, none, none⟩ (by simp [eigenCorpus])).2

/-- The hypotheses of `C85_undefined` can hold. -/
example : classCorpus [fun _ => 2, (fun _ => 1 : Vec 1 ℕ)] [0, -1] = none := C85_undefined _ _ ⟨-1, by simp, by simp⟩

/-- Without negative labels there is a corpus. -/
example : ∃ l, classCorpus [fun _ => 2, (fun _ => 1 : Vec 1 ℕ)] [0, 0] = some l := by
  obtain ⟨p, m, hp, -⟩ := Corpus.C18_priors [0, 0] (by simp) (by simp)
  exact ⟨_, by rw [classCorpus, hp]; rfl⟩

/-- The hypotheses of `C86_combinations_partial` and `C86_undefined` can hold: the unsupervised expectation step
with labelled documents. -/
example (P : Prims) (cfg : Cfg) (s : MultState 1 1 1) :
    (∃ s', fitDocs P (.classic cfg) [(⟨fun _ => 2, some 0, none⟩, 0, oneModel)] (.multinomial s) = some s') ∧
    fitDocs P (.classic cfg) [(⟨fun _ => 2, some 0, none⟩, 0, oneModel)] (.correspondence s) = none := by
  constructor
  · refine (C86_combinations_partial (.classic cfg) _ ?_ ?_ ?_ (.multinomial s) trivial id).2 (fun h => absurd h id)
    · simp
    · simp only [List.mem_singleton, forall_eq]
      exact docE_classic 0 _ oneModel oneModel_valid (by norm_num) _ trivial
    · simp [numWords]
  · exact C86_undefined 0 _ 0 rfl oneModel _ id s

end Verif.Entry
