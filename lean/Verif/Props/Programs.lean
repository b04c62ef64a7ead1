import Verif.Model.Programs
import Verif.Props.Crash
import Verif.Props.Continue

/-! Properties C124 and C125: the programs from the files they read to the files they write. -/
namespace Verif.Programs

open Numpy Disk Pool Train
open Apps hiding loadLda decimal

/-- The bytes of an array of `int`: they are read as `X`, whatever follows (C19 and C23 say for which bytes). -/
def Documents (m : Machine) (bytes : List Byte) (X : Numpy.Mat) : Prop :=
  ∀ (j : Junk) (tail : List Byte), load m j .i4 ⟨bytes ++ tail, false⟩ = .ok (X, ⟨tail, false⟩)

/-- A data file with documents and, if the program wants them, labels behind them. -/
def DataFile (m : Machine) (labels : Bool) (file : Option (List Byte)) (D : Numpy.Mat × Option Numpy.Mat) : Prop :=
  ∃ a tail, file = some (a ++ tail) ∧ Documents m a D.1 ∧ (labels = false → D.2 = none) ∧
    (labels = true → ∃ b rest y, tail = b ++ rest ∧ Documents m b y ∧ D.2 = some y)

theorem readDocs_ok {m : Machine} {labels : Bool} {file : Option (List Byte)} {D : Numpy.Mat × Option Numpy.Mat}
    (h : DataFile m labels file D) (j1 j2 : Junk) : readDocs m j1 j2 labels file = .ok D := by
  obtain ⟨X, y⟩ := D
  obtain ⟨a, tail, rfl, ha, h0, hl⟩ := h
  cases labels with
  | false =>
    have := h0 rfl
    dsimp only at this ha
    subst this
    simp [readDocs, openFile, ha j1 tail, Res.bind]
  | true =>
    obtain ⟨b, rest, y', rfl, hb, e⟩ := hl rfl
    dsimp only at e ha
    subst e
    simp [readDocs, parseInputData, openFile, ha j1 (b ++ rest), hb j2 rest, Res.bind]

/-! ### C124 -/

theorem transform_done {m : Machine} {j : ℕ → Junk} {a : TransformArgs}
    {estep : LdaModel → List (List Byte) → ℕ → List Byte} {files : Files} {D : Numpy.Mat × Option Numpy.Mat} {p : LdaModel}
    (hX : DataFile m a.labels (files a.data) D)
    (hp : loadLda m (fun i => j (i + 2)) (files a.model) = .ok p) (hf : Fits p D.1) (hK : 0 < p.beta.rows)
    (hD : 0 < D.1.cols) (hs : p.beta.rows * D.1.cols ≤ 2147483647) (hw : ∀ d k, (estep p d k).length = 8)
    {o : Outcome} (h : Transform m j a estep files o) :
    ∃ bytes, o = .done (saveActs a.output bytes) ∧
      save m .f8 false ⟨p.beta.rows, D.1.cols, fun k i => estep p (column D.1 i) k⟩ = .ok bytes := by
  have hy := readDocs_ok hX (j 0) (j 1)
  cases h with
  | dataThrows e h => rw [hy] at h; cases h
  | dataUb h => rw [hy] at h; cases h
  | modelThrows D' e h h' => rw [hp] at h'; cases h'
  | modelUb D' h h' => rw [hp] at h'; cases h'
  | shapes D' p' h h' hf' =>
    rw [hy, Res.ok.injEq] at h
    rw [hp, Res.ok.injEq] at h'
    subst h h'
    exact absurd hf hf'
  | returns D' p' raw s h h' hf' hs' hr =>
    rw [hy, Res.ok.injEq] at h
    rw [hp, Res.ok.injEq] at h'
    subst h h'
    have hcol := (C02_transform_columns hs' hr).2.1
    have hg : gammas raw p.beta.rows D.1.cols s.model.2 =
        ⟨p.beta.rows, D.1.cols, fun k i => estep p (column D.1 i) k⟩ := by
      simp only [gammas]
      congr 1
      funext k i
      rw [hcol, if_pos i.2]
      rfl
    have hord : Ordinary .f8 ⟨p.beta.rows, D.1.cols, fun k i => estep p (column D.1 i) k⟩ := ⟨fun _ _ => hw _ _, hK, hD, hs⟩
    rw [hg, save_eq m hord]
    exact ⟨_, rfl, rfl⟩

/-- **C124, partial** (the output).  The data file holds documents (and labels, for `slda` and `fslda`), the model file
a model for as many words: however `transform` ends, for every number of workers and every schedule, it has returned,
and on a disk that grants everything the output holds one column per document and one row per topic, column `i` being
what the expectation step gives for document `i` and the model; every other file is as before.  The output may be one of
the files that were read.

Missing: the shapes are not compared (`C124_shapes`), `slda` and `fslda` want labels that they do not use
(`C124_labels_wanted`), and without workers the program does not end (`C124_no_workers`). -/
theorem C124_output_partial {m : Machine} (hm : m.bigEndian = false) {j : ℕ → Junk} {a : TransformArgs}
    {estep : LdaModel → List (List Byte) → ℕ → List Byte} {files : Files} {D : Numpy.Mat × Option Numpy.Mat} {p : LdaModel}
    (hX : DataFile m a.labels (files a.data) D)
    (hp : loadLda m (fun i => j (i + 2)) (files a.model) = .ok p) (hf : Fits p D.1) (hK : 0 < p.beta.rows)
    (hD : 0 < D.1.cols) (hs : p.beta.rows * D.1.cols ≤ 2147483647) (hw : ∀ d k, (estep p d k).length = 8)
    {o : Outcome} (h : Transform m j a estep files o) :
    ∃ acts, o = .done acts ∧ ∀ w : World, w.files = files →
      (∀ j', ∃ G, load m j' .f8 (openFile ((w.run (acts.map (·, true))).files a.output)) = .ok (G, ⟨[], false⟩) ∧
        ∃ hr : G.rows = p.beta.rows, ∃ hc : G.cols = D.1.cols, ∀ (k : Fin p.beta.rows) (i : Fin D.1.cols),
          G.val (k.cast hr.symm) (i.cast hc.symm) = estep p (List.ofFn fun n => D.1.val n i) k) ∧
      ∀ name, name ≠ a.output → (w.run (acts.map (·, true))).files name = files name := by
  obtain ⟨bytes, rfl, hb⟩ := transform_done hX hp hf hK hD hs hw h
  have hord : Ordinary .f8 ⟨p.beta.rows, D.1.cols, fun k i => estep p (column D.1 i) k⟩ := ⟨fun _ _ => hw _ _, hK, hD, hs⟩
  refine ⟨_, rfl, fun w hfiles => ⟨fun j' => ?_, fun name hn => ?_⟩⟩
  · rw [run_saved]
    obtain ⟨b, h1, h2⟩ := C19_save_load m hm j' hord false []
    rw [hb, Res.ok.injEq] at h1
    subst h1
    rw [List.append_nil] at h2
    refine ⟨_, h2, rfl, rfl, fun k i => ?_⟩
    show estep p (column D.1 i) k = _
    rw [column, dif_pos i.2]
  · rw [run_other _ _ _ (fun b hb => ?_), hfiles]
    simp only [List.map_map, Function.comp_def, List.map_id', saveActs, List.mem_cons, List.mem_map] at hb
    rcases hb with rfl | ⟨c, -, rfl⟩ <;> exact fun e => hn e.symm

/-- **C124**.  The bytes asked of the disk do not depend on the number of workers, on the schedule, or on what the
memory held. -/
theorem C124_same {m : Machine} {j j' : ℕ → Junk} {a a' : TransformArgs}
    {estep : LdaModel → List (List Byte) → ℕ → List Byte} {files : Files} {D : Numpy.Mat × Option Numpy.Mat} {p : LdaModel}
    (ha : a' = { a with workers := a'.workers }) (hX : DataFile m a.labels (files a.data) D)
    (hp : ∀ j, loadLda m j (files a.model) = .ok p) (hf : Fits p D.1) (hK : 0 < p.beta.rows)
    (hD : 0 < D.1.cols) (hs : p.beta.rows * D.1.cols ≤ 2147483647) (hw : ∀ d k, (estep p d k).length = 8)
    {o o' : Outcome} (h : Transform m j a estep files o) (h' : Transform m j' a' estep files o') : o = o' := by
  obtain ⟨b, rfl, hb⟩ := transform_done hX (hp _) hf hK hD hs hw h
  have e : a'.labels = a.labels ∧ a'.data = a.data ∧ a'.model = a.model ∧ a'.output = a.output := by
    rw [ha]
    exact ⟨rfl, rfl, rfl, rfl⟩
  obtain ⟨b', rfl, hb'⟩ := transform_done (a := a') (by rw [e.1, e.2.1]; exact hX) (by rw [e.2.2.1]; exact hp _) hf hK hD
    hs hw h'
  rw [hb, Res.ok.injEq] at hb'
  rw [hb', e.2.2.2]

/-- **C124**.  With a worker the program can return. -/
theorem C124_returns (m : Machine) (j : ℕ → Junk) (a : TransformArgs) (hW : 0 < a.workers)
    (estep : LdaModel → List (List Byte) → ℕ → List Byte) (files : Files) : ∃ o, Transform m j a estep files o := by
  cases h : readDocs m (j 0) (j 1) a.labels (files a.data) with
  | throw e => exact ⟨_, .dataThrows e h⟩
  | ub => exact ⟨_, .dataUb h⟩
  | ok D =>
    cases h' : loadLda m (fun i => j (i + 2)) (files a.model) with
    | throw e => exact ⟨_, .modelThrows D e h h'⟩
    | ub => exact ⟨_, .modelUb D h h'⟩
    | ok p =>
      by_cases hf : Fits p D.1
      · obtain ⟨⟨as, s, h1, h2⟩, _⟩ := C05_returns_partial
          (c := transformCfg a.workers D.1.cols true fun p i => estep p (column D.1 i)) (m := (p, fun _ => none))
          (.inl hW) (Reachable.init _ _)
        exact ⟨_, .returns D p (fun _ _ => []) s h h' hf ⟨as, h1⟩ h2⟩
      · exact ⟨_, .shapes D p h h' hf⟩

/-- **C124**, full statement refuted.  Without workers the program does not end. -/
theorem C124_no_workers {m : Machine} {j : ℕ → Junk} {a : TransformArgs} (hW : a.workers = 0)
    {estep : LdaModel → List (List Byte) → ℕ → List Byte} {files : Files} {D : Numpy.Mat × Option Numpy.Mat} {p : LdaModel}
    (hX : DataFile m a.labels (files a.data) D)
    (hp : loadLda m (fun i => j (i + 2)) (files a.model) = .ok p) (hf : Fits p D.1) (hD : 0 < D.1.cols) (o : Outcome) :
    ¬ Transform m j a estep files o := by
  have hy := readDocs_ok hX (j 0) (j 1)
  intro h
  cases h with
  | dataThrows e h => rw [hy] at h; cases h
  | dataUb h => rw [hy] at h; cases h
  | modelThrows D' e h h' => rw [hp] at h'; cases h'
  | modelUb D' h h' => rw [hp] at h'; cases h'
  | shapes D' p' h h' hf' =>
    rw [hy, Res.ok.injEq] at h
    rw [hp, Res.ok.injEq] at h'
    subst h h'
    exact hf' hf
  | returns D' p' raw s h h' hf' hs' hr =>
    rw [hy, Res.ok.injEq] at h
    subst h
    exact C05_zero_workers_never_return
      (c := transformCfg a.workers D.1.cols true fun p i => estep p (column D.1 i)) hW hD hs' hr

theorem load_failed (m : Machine) (j : Junk) (t : Dtype) : load m j t (openFile none) = .throw .runtimeError :=
  load_nil m j t true

theorem readDocs_failed (m : Machine) (j1 j2 : Junk) (labels : Bool) :
    readDocs m j1 j2 labels none = .throw .runtimeError := by
  cases labels <;> simp [readDocs, parseInputData, load_failed, Res.bind]

/-- **C124**.  If the documents or the model cannot be opened, a `runtime_error` leaves `main` before anything is asked of
the disk. -/
theorem C124_unreadable {m : Machine} {j : ℕ → Junk} {a : TransformArgs}
    {estep : LdaModel → List (List Byte) → ℕ → List Byte} {files : Files}
    (hn : files a.data = none ∨ (files a.model = none ∧ ∃ D, DataFile m a.labels (files a.data) D))
    {o : Outcome} (h : Transform m j a estep files o) : o = .threw .runtimeError := by
  rcases hn with hn | ⟨hn, D, hD⟩
  · have hy := readDocs_failed m (j 0) (j 1) a.labels
    rw [← hn] at hy
    cases h with
    | dataThrows e h => rw [hy, Res.throw.injEq] at h; rw [h]
    | dataUb h => rw [hy] at h; cases h
    | modelThrows D' e h h' => rw [hy] at h; cases h
    | modelUb D' h h' => rw [hy] at h; cases h
    | shapes D' p' h h' hf' => rw [hy] at h; cases h
    | returns D' p' raw s h h' hf' hs' hr => rw [hy] at h; cases h
  · have hy := readDocs_ok hD (j 0) (j 1)
    have hp : loadLda m (fun i => j (i + 2)) (files a.model) = .throw .runtimeError := by
      rw [hn, loadLda, load_failed]
    cases h with
    | dataThrows e h => rw [hy] at h; cases h
    | dataUb h => rw [hy] at h; cases h
    | modelThrows D' e h h' => rw [hp, Res.throw.injEq] at h'; rw [h']
    | modelUb D' h h' => rw [hp] at h'; cases h'
    | shapes D' p' h h' hf' => rw [hp] at h'; cases h'
    | returns D' p' raw s h h' hf' hs' hr => rw [hp] at h'; cases h'

/-- **C124**, full statement refuted.  From a file with documents and nothing behind them `slda transform` and
`fslda transform` write nothing: a `runtime_error` leaves `main`, although the labels are not used. -/
theorem C124_labels_wanted {m : Machine} {j : ℕ → Junk} {a : TransformArgs} (hl : a.labels = true)
    {estep : LdaModel → List (List Byte) → ℕ → List Byte} {files : Files} {bytes : List Byte} {X : Numpy.Mat}
    (hd : files a.data = some bytes) (hX : Documents m bytes X) {o : Outcome} (h : Transform m j a estep files o) :
    o = .threw .runtimeError := by
  have hy : readDocs m (j 0) (j 1) a.labels (files a.data) = .throw .runtimeError := by
    have h1 := hX (j 0) []
    rw [List.append_nil] at h1
    rw [hd, hl]
    simp only [readDocs, if_true, parseInputData, openFile, h1, load_nil, Res.bind]
  cases h with
  | dataThrows e h => rw [hy, Res.throw.injEq] at h; rw [h]
  | dataUb h => rw [hy] at h; cases h
  | modelThrows D' e h h' => rw [hy] at h; cases h
  | modelUb D' h h' => rw [hy] at h; cases h
  | shapes D' p' h h' hf' => rw [hy] at h; cases h
  | returns D' p' raw s h h' hf' hs' hr => rw [hy] at h; cases h

/-- **C124**, full statement refuted.  Documents over another vocabulary than that of the model are not refused: the
behaviour is undefined. -/
theorem C124_shapes {m : Machine} {j : ℕ → Junk} {a : TransformArgs}
    {estep : LdaModel → List (List Byte) → ℕ → List Byte} {files : Files} {D : Numpy.Mat × Option Numpy.Mat} {p : LdaModel}
    (hX : DataFile m a.labels (files a.data) D)
    (hp : loadLda m (fun i => j (i + 2)) (files a.model) = .ok p) (hf : p.beta.cols ≠ D.1.rows)
    {o : Outcome} (h : Transform m j a estep files o) : o = .ub := by
  have hy := readDocs_ok hX (j 0) (j 1)
  cases h with
  | dataThrows e h => rw [hy] at h; cases h
  | dataUb h => rfl
  | modelThrows D' e h h' => rw [hp] at h'; cases h'
  | modelUb D' h h' => rfl
  | shapes D' p' h h' hf' => rfl
  | returns D' p' raw s h h' hf' hs' hr =>
    rw [hy, Res.ok.injEq] at h
    rw [hp, Res.ok.injEq] at h'
    subst h h'
    exact absurd hf'.2.2 hf

/-- The expectation step of the example: the first byte of the first word, for the topic. -/
def demoEstep (_ : LdaModel) (d : List (List Byte)) (k : ℕ) : List Byte :=
  (d.headD []).headD 0 :: UInt8.ofNat k :: List.replicate 6 0

theorem demo_documents : ∃ a, save le .i4 false demoX = .ok a ∧ Documents le a demoX := by
  obtain ⟨a, ha, -⟩ := C19_save_load le rfl junk0 demoX_ordinary false []
  refine ⟨a, ha, fun j tail => ?_⟩
  obtain ⟨b, hb, h⟩ := C19_save_load le rfl j demoX_ordinary false tail
  rw [ha, Res.ok.injEq] at hb
  subst hb
  exact h

/-- All hypotheses can be met: the documents are overwritten with their topics; `slda` on the same files fails. -/
example : ∃ (files : Files) (a : TransformArgs), a.output = a.data ∧ a.labels = false ∧ 0 < a.workers ∧
    DataFile le a.labels (files a.data) (demoX, none) ∧
    (∀ j, loadLda le j (files a.model) = .ok demoLda) ∧ Fits demoLda demoX ∧
    (∃ o, Transform le (fun _ => junk0) a demoEstep files o ∧ ∃ acts, o = .done acts) ∧
    ∀ o, Transform le (fun _ => junk0) { a with labels := true } demoEstep files o → o = .threw .runtimeError := by
  obtain ⟨x, -, hx⟩ := demo_documents
  obtain ⟨b, hb, -⟩ := C26_model_round_trip le rfl (fun _ => junk0) demoLda demoLda_usual.1 demoLda_usual.2.1
    demoLda_usual.2.2
  have hd : DataFile le false (some x) (demoX, none) :=
    ⟨x, [], by rw [List.append_nil], hx, fun _ => rfl, fun h => absurd h (by decide)⟩
  refine ⟨fun n => if n = ['m'] then some b else some x, ⟨false, ['m'], ['d'], ['d'], 3⟩, rfl, rfl, by decide, hd,
    fun j => load_usual le rfl j demoLda demoLda_usual b hb, ⟨rfl, rfl, rfl⟩, ?_,
    fun o h => C124_labels_wanted rfl rfl hx h⟩
  obtain ⟨o, ho⟩ := C124_returns le (fun _ => junk0) ⟨false, ['m'], ['d'], ['d'], 3⟩ (by decide) demoEstep
    (fun n => if n = ['m'] then some b else some x)
  obtain ⟨acts, h, -⟩ := C124_output_partial rfl hd (load_usual le rfl _ demoLda demoLda_usual b hb) ⟨rfl, rfl, rfl⟩
    (by decide) (by decide) (by decide) (fun _ _ => rfl) ho
  exact ⟨o, ho, acts, h⟩

/-! ### C125 -/

theorem epochs_prefix {M P R : Type} {cs : List (Cfg M P R)} {l : Left R} {m : M} {ms : List M} (h : Epochs cs l m ms) :
    ms.length = cs.length ∧ ∀ k x, (m :: ms)[k]? = some x → ∃ l' logs, Calls (cs.take k) l m l' x logs := by
  induction h with
  | nil l m =>
    refine ⟨rfl, fun k x hk => ?_⟩
    cases k with
    | zero =>
      simp only [List.getElem?_cons_zero, Option.some.injEq] at hk
      exact ⟨l, [], by rw [← hk]; exact .nil _ _⟩
    | succ k => simp at hk
  | @cons c cs l m ms as s h hr ht ih =>
    refine ⟨by simp [ih.1], fun k x hk => ?_⟩
    cases k with
    | zero =>
      simp only [List.getElem?_cons_zero, Option.some.injEq] at hk
      exact ⟨l, [], by rw [← hk]; exact .nil _ _⟩
    | succ k =>
      rw [List.getElem?_cons_succ] at hk
      obtain ⟨l', logs, h'⟩ := ih.2 k x hk
      exact ⟨l', s.log :: logs, .cons as s h hr h'⟩

variable {Q R S T : Type}

/-- The state after `k` epochs, written down without threads, files and shuffles. -/
def after (t : Trainer Q R S T) (D : Numpy.Mat × Option Numpy.Mat) (q : Q) (k : ℕ) : Q × T × Option S :=
  (epoch (t.step D) t.next (t.estep D) D.1.cols)^[k] (q, t.estate, some t.members)

theorem epochs_after {t : Trainer Q R S T} {D : Numpy.Mat × Option Numpy.Mat} {q : Q} {W : ℕ} {orders : List (ℕ → ℕ)}
    {ms : List (Q × T × Option S)} (hi : FitIndependent (t.step D) t.members)
    (ho : ∀ p ∈ orders, ((List.range D.1.cols).map p).Perm (List.range D.1.cols))
    (he : Epochs (fitCalls (t.step D) t.next (t.estep D) W D.1.cols orders) .empty (q, t.estate, some t.members) ms) :
    ms.length = orders.length ∧ ∀ k x, ms[k]? = some x →
      x.1 = (after t D q (k + 1)).1 ∧ (x.2.2 = none ↔ (after t D q (k + 1)).2.2 = none) := by
  obtain ⟨h1, h2⟩ := epochs_prefix he
  rw [fitCalls, List.length_map] at h1
  refine ⟨h1, fun k x hx => ?_⟩
  obtain ⟨l', logs, hc⟩ := h2 (k + 1) x hx
  have hk : k < orders.length := by
    rw [← h1]
    exact (List.getElem?_eq_some_iff.1 hx).1
  rw [fitCalls, ← List.map_take] at hc
  have := hi T t.next (t.estep D) q t.estate W D.1.cols (orders.take (k + 1)) x l' logs
    (fun p hp => ho p (List.mem_of_mem_take hp)) hc
  rw [List.length_take, min_eq_left (by omega)] at this
  exact this

/-- How a training ends, without threads and shuffles. -/
theorem training_outcome {m : Machine} {j : ℕ → Junk} {a : TrainArgs} {t : Trainer Q R S T} {files : Files}
    {D : Numpy.Mat × Option Numpy.Mat} {q : Q} (hD : DataFile m a.labels (files a.data) D)
    (hq : t.initial files D = .ok q) (hi : FitIndependent (t.step D) t.members) {o : Outcome}
    (h : Training m j a t files o) :
    ((∃ k, 1 ≤ k ∧ k ≤ a.iterations ∧ (after t D q k).2.2 = none) → o = .ub) ∧
    ((∀ k, 1 ≤ k → k ≤ a.iterations → (after t D q k).2.2 ≠ none) →
      o = match trainActs m a.model a.every ((List.range a.iterations).map fun k => t.encode (after t D q (k + 1)).1)
          (t.encode (after t D q a.iterations).1) with
        | some acts => .done acts
        | none => .ub) := by
  have hy := readDocs_ok hD (j 0) (j 1)
  cases h with
  | dataThrows e h => rw [hy] at h; cases h
  | dataUb h => rw [hy] at h; cases h
  | initialThrows D' e h h' =>
    rw [hy, Res.ok.injEq] at h
    subst h
    rw [hq] at h'
    cases h'
  | initialUb D' h h' =>
    rw [hy, Res.ok.injEq] at h
    subst h
    rw [hq] at h'
    cases h'
  | returns D' q' orders ms h h' hl ho he =>
    rw [hy, Res.ok.injEq] at h
    subst h
    rw [hq, Res.ok.injEq] at h'
    subst h'
    obtain ⟨h1, h2⟩ := epochs_after hi ho he
    rw [hl] at h1
    constructor
    · rintro ⟨k, k1, k2, k3⟩
      have hk : k - 1 < ms.length := by omega
      have := (h2 (k - 1) ms[k - 1] (List.getElem?_eq_getElem hk)).2
      rw [show k - 1 + 1 = k by omega] at this
      rw [if_pos ⟨_, List.getElem_mem hk, this.2 k3⟩]
    · intro hn
      rw [if_neg]
      · have e1 : (ms.map fun x => t.encode x.1) = (List.range a.iterations).map fun k => t.encode (after t D q (k + 1)).1 := by
          apply List.ext_getElem
          · simp [h1]
          · intro k k1 k2
            rw [List.length_map] at k1
            simp only [List.getElem_map, List.getElem_range]
            rw [(h2 k ms[k] (List.getElem?_eq_getElem k1)).1]
        have e2 : (ms.map Prod.fst).getLast?.getD q = (after t D q a.iterations).1 := by
          rw [List.getLast?_eq_getElem?, List.length_map, List.getElem?_map, h1]
          cases hk : a.iterations with
          | zero =>
            rw [hk, List.length_eq_zero_iff] at h1
            subst h1
            rfl
          | succ n =>
            have hn' : n < ms.length := by omega
            rw [show n + 1 - 1 = n by omega, List.getElem?_eq_getElem hn']
            exact (h2 n ms[n] (List.getElem?_eq_getElem hn')).1
        rw [e1, e2]
        generalize trainActs _ _ _ _ _ = r
        cases r <;> rfl
      · rintro ⟨x, hx, hx'⟩
        obtain ⟨k, hk, rfl⟩ := List.mem_iff_getElem.1 hx
        exact hn (k + 1) (by omega) (by omega) ((h2 k ms[k] (List.getElem?_eq_getElem hk)).2.1 hx')

/-- **C125, partial** (the files).  The data file holds documents (and labels, for `slda` and `fslda`), the parameters at
the start can be made, and the maximisation step does not depend on the order of the documents (C08).  Then, for every
number of workers, every schedule and every shuffle, `train` ends by returning, and on a disk that grants everything the
model file is loaded as the parameters after as many epochs as were asked for, each written down as a loop over the
documents; snapshot `i` is loaded as those after `i` epochs; and all other files are as before.

Missing: without workers the program does not end (`C125_no_workers`), and a disk that does not grant everything is not
noticed (C123). -/
theorem C125_files_partial {m : Machine} (hm : m.bigEndian = false) {j : ℕ → Junk} {a : TrainArgs}
    {t : Trainer Q R S T} {files : Files} {D : Numpy.Mat × Option Numpy.Mat} {q : Q}
    (hD : DataFile m a.labels (files a.data) D) (hq : t.initial files D = .ok q)
    (hi : FitIndependent (t.step D) t.members) (hI : a.iterations ≤ intMax)
    (hn : ∀ k, 1 ≤ k → k ≤ a.iterations → (after t D q k).2.2 ≠ none)
    (hu : ∀ k ≤ a.iterations, Usual (t.encode (after t D q k).1)) {o : Outcome} (h : Training m j a t files o) :
    ∃ acts, o = .done acts ∧ ∀ w : World, w.files = files →
      (∀ j', loadLda m j' ((w.run (acts.map (·, true))).files a.model) = .ok (t.encode (after t D q a.iterations).1)) ∧
      (∀ i name, 0 < a.every → 1 ≤ i → i ≤ a.iterations → a.every ∣ (i : ℤ) → IsName a.model i name → ∀ j',
        loadLda m j' ((w.run (acts.map (·, true))).files name) = .ok (t.encode (after t D q i).1)) ∧
      ∀ name, name ≠ a.model → (∀ i, 1 ≤ i → ¬ IsName a.model i name) →
        (w.run (acts.map (·, true))).files name = files name := by
  have ho := (training_outcome hD hq hi h).2 hn
  have hlen : (((List.range a.iterations).map fun k => t.encode (after t D q (k + 1)).1).length : ℤ) ≤ intMax := by
    simpa using hI
  obtain ⟨acts, hacts⟩ := trainActs_some m a.model a.every
    ((List.range a.iterations).map fun k => t.encode (after t D q (k + 1)).1) hlen
    (t.encode (after t D q a.iterations).1) (fun x hx => by
      obtain ⟨k, hk, rfl⟩ := List.mem_map.1 hx
      exact hu (k + 1) (List.mem_range.1 hk)) (hu _ le_rfl)
  rw [hacts] at ho
  have hp : (acts.map (·, true)).map Prod.fst <+: acts := by simp [List.map_map, Function.comp_def]
  refine ⟨acts, ho, fun w hw => ⟨fun j' => C123_complete_partial m hm j' _ _ _ hlen _ (hu _ le_rfl) acts hacts w,
    fun i name h0 i1 i2 hdvd hname j' => ?_,
    fun name h1 h2 => (C123_other_files m _ _ _ hlen _ acts hacts _ hp w name h1 h2).trans (by rw [hw])⟩⟩
  obtain ⟨fl, b, bytes, g1, g2, g3, g4, g5⟩ := train_acts _ _ _ _ _ _ hacts
  obtain ⟨fl', k1, k2, -, k4⟩ := train_files a.model a.every
    ((List.range a.iterations).map fun k => t.encode (after t D q (k + 1)).1) hlen
  rw [g1, Option.some.injEq] at k1
  subst k1
  have hget : ((List.range a.iterations).map fun k => t.encode (after t D q (k + 1)).1)[i - 1]? =
      some (t.encode (after t D q i).1) := by
    rw [List.getElem?_map, List.getElem?_range (by omega), Option.map_some, show i - 1 + 1 = i by omega]
  obtain ⟨f1, f2, e, e'⟩ := k4 h0 i _ name i1 hdvd hget hname
  subst e
  have hsnap : allActs m ((f1 ++ [(name, t.encode (after t D q i).1)]) ++ f2) = some b := by simpa using g2
  obtain ⟨b1, b2, hb1, -, rfl⟩ := allActs_append _ _ _ _ hsnap
  exact C123_snapshots_partial m hm j' a.model a.every h0 _ hlen _ acts hacts _ hp (by simp) w i i1 hdvd _ (hu i i2) hget b1
    (by rw [snapActs, e', Option.bind_some, hb1]) (by rw [g4]; simp) name hname

/-- **C125**.  Two trainings with the same arguments except for the number of workers, from the same parameters, end in the
same way and ask the same of the disk, whatever the schedules and shuffles. -/
theorem C125_same {m : Machine} {j j' : ℕ → Junk} {a a' : TrainArgs} {t : Trainer Q R S T} {files : Files}
    {D : Numpy.Mat × Option Numpy.Mat} {q : Q} (ha : a' = { a with workers := a'.workers })
    (hD : DataFile m a.labels (files a.data) D) (hq : t.initial files D = .ok q)
    (hi : FitIndependent (t.step D) t.members) {o o' : Outcome} (h : Training m j a t files o)
    (h' : Training m j' a' t files o') : o = o' := by
  have e : a'.labels = a.labels ∧ a'.data = a.data ∧ a'.model = a.model ∧ a'.iterations = a.iterations ∧
      a'.every = a.every := by
    rw [ha]
    exact ⟨rfl, rfl, rfl, rfl, rfl⟩
  have r := training_outcome hD hq hi h
  have r' := training_outcome (by rw [e.1, e.2.1]; exact hD) hq hi h'
  rw [e.2.2.1, e.2.2.2.1, e.2.2.2.2] at r'
  by_cases hn : ∃ k, 1 ≤ k ∧ k ≤ a.iterations ∧ (after t D q k).2.2 = none
  · rw [r.1 hn, r'.1 hn]
  · have hn' : ∀ k, 1 ≤ k → k ≤ a.iterations → (after t D q k).2.2 ≠ none := fun k k1 k2 k3 => hn ⟨k, k1, k2, k3⟩
    rw [r.2 hn', r'.2 hn']

theorem epochs_exist (b : BatchStep Q R S) (next : T → T) (eval : Q × T → ℕ → R) {W : ℕ} (hW : 0 < W) (n : ℕ)
    (orders : List (ℕ → ℕ)) : ∀ m : Q × T × Option S, ∃ ms, Epochs (fitCalls b next eval W n orders) .empty m ms := by
  induction orders with
  | nil => exact fun m => ⟨[], .nil _ _⟩
  | cons p orders ih =>
    intro m
    obtain ⟨⟨as, s, h1, h2⟩, _⟩ := C05_returns_partial (c := trainCfg b next eval true W n p) (m := m) (.inl hW)
      (Reachable.init _ m)
    have hclean := C06_nothing_left (c := trainCfg b next eval true W n p) ⟨as, h1⟩ h2
    have hleft : s.left = .empty := by
      simp [St.left, Left.empty, hclean.1, hclean.2.1, hclean.2.2.2 rfl]
    obtain ⟨ms, h⟩ := ih s.model
    have h : Epochs (fitCalls b next eval W n orders) s.left s.model ms := hleft.symm ▸ h
    exact ⟨s.model :: ms, .cons as s h1 h2 h⟩

/-- **C125**.  With a worker a training can end. -/
theorem C125_returns (m : Machine) (j : ℕ → Junk) (a : TrainArgs) (hW : 0 < a.workers) (t : Trainer Q R S T)
    (files : Files) : ∃ o, Training m j a t files o := by
  cases h : readDocs m (j 0) (j 1) a.labels (files a.data) with
  | throw e => exact ⟨_, .dataThrows e h⟩
  | ub => exact ⟨_, .dataUb h⟩
  | ok D =>
    cases h' : t.initial files D with
    | throw e => exact ⟨_, .initialThrows D e h h'⟩
    | ub => exact ⟨_, .initialUb D h h'⟩
    | ok q =>
      obtain ⟨ms, hms⟩ := epochs_exist (t.step D) t.next (t.estep D) hW D.1.cols (List.replicate a.iterations id)
        (q, t.estate, some t.members)
      exact ⟨_, .returns D q _ ms h h' (by simp) (fun p hp => by rw [List.eq_of_mem_replicate hp]; simp) hms⟩

/-- **C125**, full statement refuted.  Without workers a training of at least one epoch on at least one document does not
end. -/
theorem C125_no_workers {m : Machine} {j : ℕ → Junk} {a : TrainArgs} (hW : a.workers = 0) (hI : 0 < a.iterations)
    {t : Trainer Q R S T} {files : Files} {D : Numpy.Mat × Option Numpy.Mat} {q : Q}
    (hD : DataFile m a.labels (files a.data) D) (hc : 0 < D.1.cols) (hq : t.initial files D = .ok q) (o : Outcome) :
    ¬ Training m j a t files o := by
  have hy := readDocs_ok hD (j 0) (j 1)
  intro h
  cases h with
  | dataThrows e h => rw [hy] at h; cases h
  | dataUb h => rw [hy] at h; cases h
  | initialThrows D' e h h' =>
    rw [hy, Res.ok.injEq] at h
    subst h
    rw [hq] at h'
    cases h'
  | initialUb D' h h' =>
    rw [hy, Res.ok.injEq] at h
    subst h
    rw [hq] at h'
    cases h'
  | returns D' q' orders ms h h' hl ho he =>
    rw [hy, Res.ok.injEq] at h
    subst h
    cases orders with
    | nil => rw [List.length_nil] at hl; omega
    | cons p orders =>
      cases he with
      | cons as s hs hr ht =>
        exact C05_zero_workers_never_return (c := trainCfg (t.step D) t.next (t.estep D) true a.workers D.1.cols p) hW hc
          ⟨as, hs⟩ hr

/-- **C125**.  If the documents cannot be opened, a `runtime_error` leaves `main` before anything is asked of the disk; for
`slda` and `fslda` also if there are no labels behind the documents. -/
theorem C125_unreadable {m : Machine} {j : ℕ → Junk} {a : TrainArgs} {t : Trainer Q R S T} {files : Files}
    (hn : files a.data = none ∨ (a.labels = true ∧ ∃ bytes X, files a.data = some bytes ∧ Documents m bytes X))
    {o : Outcome} (h : Training m j a t files o) : o = .threw .runtimeError := by
  have hy : readDocs m (j 0) (j 1) a.labels (files a.data) = .throw .runtimeError := by
    rcases hn with hn | ⟨hl, bytes, X, hd, hX⟩
    · rw [hn, readDocs_failed]
    · have h1 := hX (j 0) []
      rw [List.append_nil] at h1
      rw [hd, hl]
      simp only [readDocs, if_true, parseInputData, openFile, h1, load_nil, Res.bind]
  cases h with
  | dataThrows e h => rw [hy, Res.throw.injEq] at h; rw [h]
  | dataUb h => rw [hy] at h; cases h
  | initialThrows D' e h h' => rw [hy] at h; cases h
  | initialUb D' h h' => rw [hy] at h; cases h
  | returns D' q' orders ms h h' hl ho he => rw [hy] at h; cases h

/-- **C125**.  The maximisation steps of the three programs, as they are constructed, do not depend on the order: that of
`lda train`, that of `slda train`, and that of `fslda train`. -/
theorem C125_programs {K V C : ℕ} (cfg : MStep.SupCfg) (corpus : ℕ → MStep.Doc V) :
    FitIndependent (unsupervised (K := K) (C := C) corpus) none ∧
    (∀ s, MStep.supHistory (K := K) (V := V) (C := C) cfg [] = some s → FitIndependent (supervised (C := C) cfg corpus) s) ∧
    (∀ s, MStep.fastHistory (K := K) (V := V) (C := C) cfg [] = some s →
      FitIndependent (fastSupervised (C := C) cfg corpus) s) :=
  ⟨(C08_unsupervised (K := K) corpus (h := []) rfl).2, fun _ h => (C08_supervised cfg corpus h).2,
    fun _ h => (C08_fast_supervised cfg corpus h).2⟩

theorem lda_defined {K V : ℕ} (initial : Files → Numpy.Mat × Option Numpy.Mat → Res (Params K V 1))
    (corpus : Numpy.Mat × Option Numpy.Mat → ℕ → MStep.Doc V)
    (estep : Numpy.Mat × Option Numpy.Mat → Params K V 1 × Unit → ℕ → EStep.VP K V)
    (encode : Params K V 1 → LdaModel) (D : Numpy.Mat × Option Numpy.Mat) (q : Params K V 1) (k : ℕ) :
    (after (ldaTrainer initial corpus estep encode) D q k).2.2 ≠ none := by
  have hd : ∀ (l : List (ℕ × EStep.VP K V)) (q : Params K V 1) (s : MStep.Buf K V),
      (OrderFree.docs (unsupervised (corpus D)) (q, (), some s) l).2.2 ≠ none := by
    intro l
    induction l with
    | nil => intro q s; simp [OrderFree.docs]
    | cons a l ih => intro q s; exact ih q _
  have he : ∀ (m : Params K V 1 × Unit × Option (MStep.Buf K V)), m.2.2 ≠ none →
      (epoch (unsupervised (corpus D)) id (estep D) D.1.cols m).2.2 ≠ none := by
    rintro ⟨q, t, x⟩ hx
    obtain ⟨s, rfl⟩ := Option.ne_none_iff_exists'.1 hx
    rw [OrderFree.epoch_eq]
    obtain ⟨s', hs'⟩ := Option.ne_none_iff_exists'.1
      (hd ((List.range D.1.cols).map fun i => (i, estep D (trainParams (q, t, some s)) i)) q s)
    rw [trainBatch, hs']
    simp [unsupervised]
  have hi : ∀ (k : ℕ) (m : Params K V 1 × Unit × Option (MStep.Buf K V)), m.2.2 ≠ none →
      ((epoch (unsupervised (corpus D)) id (estep D) D.1.cols)^[k] m).2.2 ≠ none := by
    intro k
    induction k with
    | zero => exact fun m hm => hm
    | succ k ih => exact fun m hm => by rw [Function.iterate_succ_apply]; exact ih _ (he m hm)
  exact hi k _ (by simp [ldaTrainer])

/-- **C125, partial** (`lda train`).  The same for the program `lda`, where the maximisation is never undefined. -/
theorem C125_lda_partial {K V : ℕ} {m : Machine} (hm : m.bigEndian = false) {j : ℕ → Junk} {a : TrainArgs}
    (ha : a.labels = false) {initial : Files → Numpy.Mat × Option Numpy.Mat → Res (Params K V 1)}
    {corpus : Numpy.Mat × Option Numpy.Mat → ℕ → MStep.Doc V}
    {estep : Numpy.Mat × Option Numpy.Mat → Params K V 1 × Unit → ℕ → EStep.VP K V}
    {encode : Params K V 1 → LdaModel} (hu : ∀ q, Usual (encode q)) {files : Files} {X : Numpy.Mat} {bytes rest : List Byte}
    {q : Params K V 1} (hd : files a.data = some (bytes ++ rest)) (hX : Documents m bytes X)
    (hq : initial files (X, none) = .ok q) (hI : a.iterations ≤ intMax) {o : Outcome}
    (h : Training m j a (ldaTrainer initial corpus estep encode) files o) :
    ∃ acts, o = .done acts ∧ ∀ w : World, w.files = files → ∀ j',
      loadLda m j' ((w.run (acts.map (·, true))).files a.model) = .ok (encode
        ((epoch (unsupervised (corpus (X, none))) id (estep (X, none)) X.cols)^[a.iterations] (q, (), some none)).1) := by
  have hD : DataFile m a.labels (files a.data) (X, none) :=
    ⟨bytes, rest, hd, hX, fun _ => rfl, fun h => absurd h (by rw [ha]; decide)⟩
  obtain ⟨acts, h1, h2⟩ := C125_files_partial hm hD hq (C125_programs ⟨0, 0, 0⟩ (corpus (X, none))).1 hI
    (fun k _ _ => lda_defined initial corpus estep encode _ q k) (fun k _ => hu _) h
  exact ⟨acts, h1, fun w hw => (h2 w hw).1⟩

/-- The hypotheses can be met: three epochs of `lda train` with two workers on two documents. -/
example : ∃ (files : Files) (o : Outcome) (acts : List Disk.Act),
    Training le (fun _ => junk0) ⟨false, ['d'], ['m'], 3, 2, -1⟩
      (ldaTrainer (K := 2) (V := 3) (fun _ _ => .ok ⟨fun _ => 1, .noRows, fun _ _ => 0⟩) (fun _ _ => ⟨fun _ => 1, 0⟩)
        (fun _ _ _ => ⟨fun _ _ => 1, fun _ => 1⟩) (fun _ => demoLda)) files o ∧ o = .done acts ∧
    ∀ w : World, w.files = files →
      loadLda le (fun _ => junk0) ((w.run (acts.map (·, true))).files ['m']) = .ok demoLda := by
  obtain ⟨x, -, hx⟩ := demo_documents
  obtain ⟨o, ho⟩ := C125_returns le (fun _ => junk0) ⟨false, ['d'], ['m'], 3, 2, -1⟩ (by decide)
    (ldaTrainer (K := 2) (V := 3) (fun _ _ => .ok ⟨fun _ => 1, .noRows, fun _ _ => 0⟩) (fun _ _ => ⟨fun _ => 1, 0⟩)
        (fun _ _ _ => ⟨fun _ _ => 1, fun _ => 1⟩) (fun _ => demoLda)) (fun _ => some (x ++ []))
  obtain ⟨acts, h1, h2⟩ := C125_lda_partial rfl rfl (fun _ => demoLda_usual) rfl hx rfl (by simp [intMax]) ho
  exact ⟨_, o, acts, ho, h1, fun w hw => h2 w hw _⟩

end Verif.Programs
