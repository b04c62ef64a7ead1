import Verif.Model.Exit
import Verif.Props.Programs
import Mathlib.Data.List.TakeWhile

/-! Property C146: what the exit status of the programs says about the files. -/
namespace Verif.Programs

open Numpy Disk Pool Train

variable {Q R S T : Type}

/-- What is in a file that held `old` after `bytes` were to be written to it, if the disk answered `answers` (to the opening of the
file, then to every byte). -/
def written (old : Option (List Byte)) (bytes : List Byte) : List Bool → Option (List Byte)
  | [] => old
  | false :: _ => old
  | true :: g => some (bytes.take (g.takeWhile id).length)

theorem run_append_answers (n : List Char) (bytes : List Byte) (l : List (Disk.Act × Bool)) (w : World) (pre : List Byte)
    (hw : w.files n = some pre) (hb : w.bad = false) (h : l.map Prod.fst = bytes.map (.append n)) :
    (w.run l).files n = some (pre ++ bytes.take ((l.map Prod.snd).takeWhile id).length) := by
  induction l generalizing bytes w pre with
  | nil => simpa [World.run] using hw
  | cons a l ih =>
    cases bytes with
    | nil => simp at h
    | cons b bytes =>
      obtain ⟨a, ok⟩ := a
      simp only [List.map_cons, List.cons.injEq] at h
      obtain ⟨rfl, h⟩ := h
      rw [run_cons]
      cases ok with
      | false =>
        have e : w.act (.append n b, false) = { w with bad := true } := by simp [World.act, hb]
        rw [e, run_bad n bytes l _ rfl (by rw [h])]
        simpa using hw
      | true =>
        have e : w.act (.append n b, true) =
            { w with files := fun x => if x = n then (w.files n).map (· ++ [b]) else w.files x } := by simp [World.act, hb]
        have e2 := ih bytes { w with files := fun x => if x = n then (w.files n).map (· ++ [b]) else w.files x } (pre ++ [b])
          (by simp [hw]) hb h
        rw [e, e2]
        simp

theorem run_save_answers (n : List Char) (bytes : List Byte) (l : List (Disk.Act × Bool)) (w : World)
    (h : l.map Prod.fst = saveActs n bytes) : (w.run l).files n = written (w.files n) bytes (l.map Prod.snd) := by
  cases l with
  | nil => simp [saveActs] at h
  | cons a l =>
    obtain ⟨a, ok⟩ := a
    simp only [saveActs, List.map_cons, List.cons.injEq] at h
    obtain ⟨rfl, h⟩ := h
    rw [run_cons]
    cases ok with
    | false =>
      rw [show w.act (.truncate n, false) = { w with bad := true } from rfl, run_bad n bytes l _ rfl (by rw [h])]
      rfl
    | true =>
      rw [show w.act (.truncate n, true) = ⟨fun x => if x = n then some [] else w.files x, false⟩ from rfl,
        run_append_answers n bytes l _ [] (by simp) rfl h, List.nil_append]
      rfl

/-- When the file is complete afterwards: everything was granted; or the opening was refused and it was complete before. -/
theorem written_iff {old : Option (List Byte)} {bytes : List Byte} {g : List Bool} (hg : g.length = bytes.length + 1) :
    written old bytes g = some bytes ↔ (∀ x ∈ g, x = true) ∨ (old = some bytes ∧ g.head? = some false) := by
  cases g with
  | nil => simp at hg
  | cons x g =>
    cases x with
    | false => simp [written]
    | true =>
      simp only [List.length_cons, Nat.add_right_cancel_iff] at hg
      simp only [written, Option.some.injEq, List.mem_cons, forall_eq_or_imp, true_and, List.head?_cons, Bool.true_eq_false,
        and_false, or_false]
      rw [List.take_eq_self_iff, ← hg]
      constructor
      · intro h x hx
        have h1 : g.takeWhile id = g :=
          (List.takeWhile_prefix id).eq_of_length (le_antisymm (List.takeWhile_prefix id).length_le h)
        exact List.takeWhile_eq_self_iff.1 h1 x hx
      · intro h
        rw [(List.takeWhile_eq_self_iff (p := id)).2 (by simpa using h)]

/-- The requests of a program, `model` being the file it is run for: some to other files, then those that write `bytes`. -/
structure Writes (prog : Outcome → Prop) (model : List Char) (bytes : List Byte) : Prop where
  split : ∀ acts, prog (.done acts) → ∃ pre, acts = pre ++ saveActs model bytes ∧ ∀ a ∈ pre, a.name ≠ model
  can : ∃ acts, prog (.done acts)

theorem Writes.ends {prog : Outcome → Prop} {model : List Char} {bytes : List Byte} (h : Writes prog model bytes) {w w' : World}
    (he : Ends prog w w' (some 0)) : ∃ g : List Bool, g.length = bytes.length + 1 ∧
      w'.files model = written (w.files model) bytes g := by
  cases he with
  | done l hp =>
    obtain ⟨pre, e, hpre⟩ := h.split _ hp
    refine ⟨(l.drop pre.length).map Prod.snd, ?_, ?_⟩
    · have := congrArg List.length e
      simp only [List.length_map, List.length_append, saveActs, List.length_cons] at this
      simp only [List.length_map, List.length_drop]
      omega
    · have e1 : (l.take pre.length).map Prod.fst = pre := by rw [List.map_take, e, List.take_left]
      have e2 : (l.drop pre.length).map Prod.fst = saveActs model bytes := by rw [List.map_drop, e, List.drop_left]
      conv_lhs => rw [← List.take_append_drop pre.length l, Disk.run_append]
      rw [run_save_answers _ _ _ _ e2, run_other _ _ _ (by rw [e1]; exact hpre)]

/-- The status is 0 whatever the disk answers. -/
theorem Writes.any {prog : Outcome → Prop} {model : List Char} {bytes : List Byte} (h : Writes prog model bytes) (w : World)
    {g : List Bool} (hg : g.length = bytes.length + 1) :
    ∃ w', Ends prog w w' (some 0) ∧ w'.files model = written (w.files model) bytes g := by
  obtain ⟨acts, ha⟩ := h.can
  obtain ⟨pre, rfl, hpre⟩ := h.split acts ha
  have hl : (saveActs model bytes).length = g.length := by simp [saveActs, hg]
  have e1 : (pre.map fun a => (a, true)).map Prod.fst = pre := by simp [List.map_map, Function.comp_def]
  have e2 : ((saveActs model bytes).zip g).map Prod.fst = saveActs model bytes := List.map_fst_zip hl.le
  refine ⟨_, .done ((pre.map fun a => (a, true)) ++ (saveActs model bytes).zip g) (by rw [List.map_append, e1, e2]; exact ha), ?_⟩
  rw [Disk.run_append, run_save_answers _ _ _ _ e2, run_other _ _ _ (by rw [e1]; exact hpre), List.map_snd_zip hl.ge]

/-- `lda train`, `slda train` and `fslda train` write the trained model. -/
theorem train_writes {m : Machine} {j : ℕ → Junk} {a : TrainArgs} (hW : 0 < a.workers) {t : Trainer Q R S T} {files : Files}
    {D : Numpy.Mat × Option Numpy.Mat} {q : Q} (hD : DataFile m a.labels (files a.data) D) (hq : t.initial files D = .ok q)
    (hi : FitIndependent (t.step D) t.members) (hI : a.iterations ≤ Apps.intMax)
    (hn : ∀ k, 1 ≤ k → k ≤ a.iterations → (after t D q k).2.2 ≠ none)
    (hu : ∀ k ≤ a.iterations, Usual (t.encode (after t D q k).1)) :
    ∃ bytes, saveLda m (t.encode (after t D q a.iterations).1) = .ok bytes ∧ Writes (Training m j a t files) a.model bytes := by
  have hlen : (((List.range a.iterations).map fun k => t.encode (after t D q (k + 1)).1).length : ℤ) ≤ Apps.intMax := by
    simpa using hI
  obtain ⟨acts, hacts⟩ := trainActs_some m a.model a.every
    ((List.range a.iterations).map fun k => t.encode (after t D q (k + 1)).1) hlen
    (t.encode (after t D q a.iterations).1) (fun x hx => by
      obtain ⟨k, hk, rfl⟩ := List.mem_map.1 hx
      exact hu (k + 1) (List.mem_range.1 hk)) (hu _ le_rfl)
  obtain ⟨fl, b, bytes, g1, g2, g3, g4, g5⟩ := train_acts _ _ _ _ _ _ hacts
  obtain ⟨fl', k1, -, k3, -⟩ := train_files a.model a.every
    ((List.range a.iterations).map fun k => t.encode (after t D q (k + 1)).1) hlen
  rw [g1, Option.some.injEq] at k1
  subst k1
  refine ⟨bytes, g3, fun acts' h => ?_, ?_⟩
  · have ho := (training_outcome hD hq hi h).2 hn
    rw [hacts] at ho
    obtain rfl := Outcome.done.inj ho
    refine ⟨b, g4, fun x hx e => ?_⟩
    obtain ⟨f, hf, e'⟩ := allActs_names m _ _ g2 x hx
    obtain ⟨k, hk, hname⟩ := k3 f hf
    exact (Apps.C65_names a.model k (k + 1) _ _ hname (Apps.padded_isName a.model (k + 1)) (by omega)).2 (by rw [← e, e'])
  · obtain ⟨o, ho⟩ := C125_returns m j a hW t files
    have h1 := (training_outcome hD hq hi ho).2 hn
    rw [hacts] at h1
    rw [h1] at ho
    exact ⟨acts, ho⟩

/-- **C146**: training.  The exit status is 0 whatever the disk answers to the requests; the file then holds what the disk has
granted, and this is the trained model exactly if it granted everything (or refused to open the file, which held the same model
already). -/
theorem C146_train_partial {m : Machine} (hm : m.bigEndian = false) {j : ℕ → Junk} {a : TrainArgs} (hW : 0 < a.workers)
    {t : Trainer Q R S T} {files : Files} {D : Numpy.Mat × Option Numpy.Mat} {q : Q} (hD : DataFile m a.labels (files a.data) D)
    (hq : t.initial files D = .ok q) (hi : FitIndependent (t.step D) t.members) (hI : a.iterations ≤ Apps.intMax)
    (hn : ∀ k, 1 ≤ k → k ≤ a.iterations → (after t D q k).2.2 ≠ none)
    (hu : ∀ k ≤ a.iterations, Usual (t.encode (after t D q k).1)) (w : World) :
    ∃ bytes, (∀ j', loadLda m j' (some bytes) = .ok (t.encode (after t D q a.iterations).1)) ∧
      (∀ w', Ends (Training m j a t files) w w' (some 0) →
        ∃ g : List Bool, g.length = bytes.length + 1 ∧ w'.files a.model = written (w.files a.model) bytes g ∧
          (w'.files a.model = some bytes ↔ (∀ x ∈ g, x = true) ∨ (w.files a.model = some bytes ∧ g.head? = some false))) ∧
      ∀ g : List Bool, g.length = bytes.length + 1 →
        ∃ w', Ends (Training m j a t files) w w' (some 0) ∧ w'.files a.model = written (w.files a.model) bytes g := by
  obtain ⟨bytes, h1, h2⟩ := train_writes (j := j) hW hD hq hi hI hn hu
  refine ⟨bytes, fun j' => load_usual m hm j' _ (hu _ le_rfl) bytes h1, fun w' he => ?_, fun g hg => h2.any w hg⟩
  obtain ⟨g, hg, e⟩ := h2.ends he
  exact ⟨g, hg, e, by rw [e]; exact written_iff hg⟩

/-- **C146**, what does not hold: every training that would end with status 0 also ends with it without having touched the file of
the model, and with an empty file; so it does not say that there is a model. -/
theorem C146_unnoticed {m : Machine} {j : ℕ → Junk} {a : TrainArgs} (hW : 0 < a.workers)
    {t : Trainer Q R S T} {files : Files} {D : Numpy.Mat × Option Numpy.Mat} {q : Q} (hD : DataFile m a.labels (files a.data) D)
    (hq : t.initial files D = .ok q) (hi : FitIndependent (t.step D) t.members) (hI : a.iterations ≤ Apps.intMax)
    (hn : ∀ k, 1 ≤ k → k ≤ a.iterations → (after t D q k).2.2 ≠ none)
    (hu : ∀ k ≤ a.iterations, Usual (t.encode (after t D q k).1)) (w : World) :
    (∃ w', Ends (Training m j a t files) w w' (some 0) ∧ w'.files a.model = w.files a.model) ∧
    ∃ w', Ends (Training m j a t files) w w' (some 0) ∧ w'.files a.model = some [] := by
  obtain ⟨bytes, -, h2⟩ := train_writes (j := j) hW hD hq hi hI hn hu
  obtain ⟨w1, a1, b1⟩ := h2.any w (g := false :: List.replicate bytes.length false) (by simp)
  obtain ⟨w2, a2, b2⟩ := h2.any w (g := true :: List.replicate bytes.length false) (by simp)
  refine ⟨⟨w1, a1, b1⟩, w2, a2, b2.trans ?_⟩
  cases bytes with
  | nil => rfl
  | cons x bytes => simp [written, List.replicate_succ]

/-- **C146**: `transform`, likewise. -/
theorem C146_transform_partial {m : Machine} {j : ℕ → Junk} {a : TransformArgs} (hW : 0 < a.workers)
    {estep : LdaModel → List (List Byte) → ℕ → List Byte} {files : Files} {D : Numpy.Mat × Option Numpy.Mat} {p : LdaModel}
    (hX : DataFile m a.labels (files a.data) D)
    (hp : loadLda m (fun i => j (i + 2)) (files a.model) = .ok p) (hf : Fits p D.1) (hK : 0 < p.beta.rows)
    (hD : 0 < D.1.cols) (hs : p.beta.rows * D.1.cols ≤ 2147483647) (hw : ∀ d k, (estep p d k).length = 8) (w : World) :
    ∃ bytes, save m .f8 false ⟨p.beta.rows, D.1.cols, fun k i => estep p (column D.1 i) k⟩ = .ok bytes ∧
      (∀ w', Ends (Transform m j a estep files) w w' (some 0) →
        ∃ g : List Bool, g.length = bytes.length + 1 ∧ w'.files a.output = written (w.files a.output) bytes g ∧
          (w'.files a.output = some bytes ↔ (∀ x ∈ g, x = true) ∨ (w.files a.output = some bytes ∧ g.head? = some false))) ∧
      ∀ g : List Bool, g.length = bytes.length + 1 →
        ∃ w', Ends (Transform m j a estep files) w w' (some 0) ∧ w'.files a.output = written (w.files a.output) bytes g := by
  obtain ⟨o, ho⟩ := C124_returns m j a hW estep files
  obtain ⟨bytes, rfl, hb⟩ := transform_done hX hp hf hK hD hs hw ho
  have h2 : Writes (Transform m j a estep files) a.output bytes := by
    refine ⟨fun acts h => ?_, _, ho⟩
    obtain ⟨bytes', e, hb'⟩ := transform_done hX hp hf hK hD hs hw h
    rw [hb, Res.ok.injEq] at hb'
    subst hb'
    exact ⟨[], by rw [Outcome.done.inj e]; rfl, by simp⟩
  refine ⟨bytes, hb, fun w' he => ?_, fun g hg => h2.any w hg⟩
  obtain ⟨g, hg, e⟩ := h2.ends he
  exact ⟨g, hg, e, by rw [e]; exact written_iff hg⟩

/-- The hypotheses can be met: three epochs of `lda train` with two workers on two documents. -/
example : ∃ (files : Files) (w w' : World),
    Ends (Training le (fun _ => junk0) ⟨false, ['d'], ['m'], 3, 2, -1⟩
      (ldaTrainer (K := 2) (V := 3) (fun _ _ => .ok ⟨fun _ => 1, .noRows, fun _ _ => 0⟩) (fun _ _ => ⟨fun _ => 1, 0⟩)
        (fun _ _ _ => ⟨fun _ _ => 1, fun _ => 1⟩) (fun _ => demoLda)) files) w w' (some 0) ∧ w'.files ['m'] = none := by
  obtain ⟨x, -, hx⟩ := demo_documents
  have hD : DataFile le false (some (x ++ [])) (_, none) := ⟨x, [], rfl, hx, fun _ => rfl, fun h => absurd h (by decide)⟩
  obtain ⟨⟨w', h1, h2⟩, -⟩ := C146_unnoticed (m := le) (j := fun _ => junk0) (a := ⟨false, ['d'], ['m'], 3, 2, -1⟩) (by decide)
    (t := ldaTrainer (K := 2) (V := 3) (fun _ _ => .ok ⟨fun _ => 1, .noRows, fun _ _ => 0⟩) (fun _ _ => ⟨fun _ => 1, 0⟩)
        (fun _ _ _ => ⟨fun _ _ => 1, fun _ => 1⟩) (fun _ => demoLda)) (files := fun _ => some (x ++ [])) hD rfl
    (C125_programs ⟨0, 0, 0⟩ _).1 (by simp [Apps.intMax]) (fun k _ _ => lda_defined _ _ _ _ _ _ k) (fun _ _ => demoLda_usual)
    ⟨fun _ => none, false⟩
  exact ⟨_, _, w', h1, h2⟩

end Verif.Programs
