import Verif.Model.Disk
import Verif.Props.NumpyCut
import Verif.Props.Snapshots

/-! Property C123: what is on the disk when a training is interrupted or the disk is full.

An execution is a list of requests, each with the answer of the disk.  A training that is interrupted has made the
first requests of `trainActs` only; the answers are arbitrary unless something is said about them. -/
namespace Verif.Disk

open Numpy
open Apps hiding loadLda

/-! ### Requests -/

theorem run_append (w : World) (l l' : List (Act × Bool)) : w.run (l ++ l') = (w.run l).run l' :=
  List.foldl_append

theorem run_cons (w : World) (a : Act × Bool) (l : List (Act × Bool)) : w.run (a :: l) = (w.act a).run l := rfl

theorem act_other (w : World) (a : Act × Bool) (n : List Char) (h : a.1.name ≠ n) : (w.act a).files n = w.files n := by
  obtain ⟨a | ⟨a, b⟩, _ | _⟩ := a
  · rfl
  · exact if_neg (Ne.symm h)
  · simp only [World.act]; split <;> rfl
  · simp only [World.act, if_true]
    split
    · rfl
    · exact if_neg (Ne.symm h)

theorem run_other (l : List (Act × Bool)) (w : World) (n : List Char) (h : ∀ a ∈ l.map Prod.fst, a.name ≠ n) :
    (w.run l).files n = w.files n := by
  induction l generalizing w with
  | nil => rfl
  | cons a l ih =>
    rw [run_cons, ih _ fun x hx => h x (List.mem_cons_of_mem _ hx),
      act_other w a n (h a.1 (by simp))]

/-- A stream that has failed writes nothing. -/
theorem run_bad (n : List Char) (bytes : List Byte) (l : List (Act × Bool)) (w : World) (hw : w.bad = true)
    (h : l.map Prod.fst <+: bytes.map (.append n)) : w.run l = w := by
  induction l generalizing bytes with
  | nil => rfl
  | cons a l ih =>
    cases bytes with
    | nil => simp at h
    | cons b bytes =>
      simp only [List.map_cons, List.cons_prefix_cons] at h
      obtain ⟨a, ok⟩ := a
      obtain ⟨rfl, h⟩ := h
      have : w.act (.append n b, ok) = w := if_pos hw
      rw [run_cons, this]
      exact ih bytes h

theorem run_appends (n : List Char) (bytes : List Byte) (l : List (Act × Bool)) (w : World) (pre : List Byte)
    (hw : w.files n = some pre) (h : l.map Prod.fst <+: bytes.map (.append n)) :
    ∃ k, (w.run l).files n = some (pre ++ bytes.take k) := by
  induction l generalizing bytes w pre with
  | nil => exact ⟨0, by simp [World.run, hw]⟩
  | cons a l ih =>
    cases bytes with
    | nil => simp at h
    | cons b bytes =>
      by_cases hb : w.bad = true
      · exact ⟨0, by rw [run_bad n _ _ w hb h]; simp [hw]⟩
      have h0 := h
      simp only [List.map_cons, List.cons_prefix_cons] at h
      obtain ⟨a, ok⟩ := a
      obtain ⟨rfl, h⟩ := h
      cases ok with
      | false =>
        have e : w.act (.append n b, false) = { w with bad := true } := by simp [World.act, hb]
        refine ⟨0, ?_⟩
        rw [run_cons, e, run_bad n bytes l _ rfl h]
        simp [hw]
      | true =>
        have e : (w.act (.append n b, true)).files n = some (pre ++ [b]) := by simp [World.act, hb, hw]
        obtain ⟨k, hk⟩ := ih bytes _ _ e h
        exact ⟨k + 1, by rw [run_cons, hk]; simp⟩

/-- The part of `bytes` that was granted is in the file. -/
theorem run_granted (n : List Char) (bytes : List Byte) (w : World) (hb : w.bad = false) (pre : List Byte)
    (hw : w.files n = some pre) :
    (w.run (bytes.map fun b => (.append n b, true))).files n = some (pre ++ bytes) ∧
      (w.run (bytes.map fun b => (.append n b, true))).bad = false := by
  induction bytes generalizing w pre with
  | nil => simp [World.run, hw, hb]
  | cons b bytes ih =>
    have e : (w.act (.append n b, true)).files n = some (pre ++ [b]) := by simp [World.act, hb, hw]
    have e' : (w.act (.append n b, true)).bad = false := by simp [World.act, hb]
    have := ih _ e' _ e
    simpa [run_cons] using this

/-- A file of which the first `k` bytes are granted. -/
theorem run_saved (n : List Char) (bytes : List Byte) (w : World) :
    (w.run ((saveActs n bytes).map (·, true))).files n = some bytes := by
  have := (run_granted n bytes ⟨fun x => if x = n then some [] else w.files x, false⟩ rfl [] (by simp)).1
  simpa [saveActs, run_cons, World.act, List.map_map, Function.comp_def] using this

/-- A file that is being written is as it was, or a beginning of what it is going to be. -/
theorem run_save (n : List Char) (bytes : List Byte) (l : List (Act × Bool)) (w : World)
    (h : l.map Prod.fst <+: saveActs n bytes) :
    (w.run l).files n = w.files n ∨ ∃ k, (w.run l).files n = some (bytes.take k) := by
  cases l with
  | nil => exact .inl rfl
  | cons a l =>
    simp only [List.map_cons, saveActs, List.cons_prefix_cons] at h
    obtain ⟨a, ok⟩ := a
    obtain ⟨rfl, h⟩ := h
    cases ok with
    | false =>
      left
      rw [run_cons, run_bad n bytes l _ rfl h]
      rfl
    | true =>
      right
      obtain ⟨k, hk⟩ := run_appends n bytes l (w.act (.truncate n, true)) [] (if_pos rfl) h
      exact ⟨k, by rw [run_cons, hk]; simp⟩

/-- Requests that are the first of two groups. -/
theorem prefix_split (l : List (Act × Bool)) (A B : List Act) (h : l.map Prod.fst <+: A ++ B) :
    l.map Prod.fst <+: A ∨ ∃ l1 l2, l = l1 ++ l2 ∧ l1.map Prod.fst = A ∧ l2.map Prod.fst <+: B := by
  by_cases hl : l.length ≤ A.length
  · exact .inl (List.prefix_of_prefix_length_le h (List.prefix_append A B) (by simpa using hl))
  · right
    refine ⟨l.take A.length, l.drop A.length, (List.take_append_drop _ _).symm, ?_, ?_⟩
    · have := (List.prefix_iff_eq_take.1 h)
      rw [List.map_take, this, List.take_take, List.length_map, min_eq_left (by omega), List.take_left]
    · obtain ⟨t, ht⟩ := h
      refine ⟨t, ?_⟩
      have := congrArg (List.drop A.length) ht
      rw [List.drop_left, List.drop_append_of_le_length (by simp; omega), ← List.map_drop] at this
      exact this

theorem allActs_names (m : Machine) (fl : List (List Char × LdaModel)) (acts : List Act) (h : allActs m fl = some acts) :
    ∀ a ∈ acts, ∃ f ∈ fl, a.name = f.1 := by
  induction fl generalizing acts with
  | nil => simp only [allActs, Option.some.injEq] at h; subst h; simp
  | cons f fl ih =>
    simp only [allActs] at h
    split at h
    · rename_i bytes hb
      obtain ⟨acts', h', rfl⟩ := Option.map_eq_some_iff.1 h
      intro a ha
      rcases List.mem_append.1 ha with ha | ha
      · refine ⟨f, by simp, ?_⟩
        simp only [saveActs, List.mem_cons, List.mem_map] at ha
        rcases ha with rfl | ⟨b, _, rfl⟩ <;> rfl
      · obtain ⟨g, hg, e⟩ := ih acts' h' a ha
        exact ⟨g, by simp [hg], e⟩
    · cases h

theorem allActs_append (m : Machine) (fl fl' : List (List Char × LdaModel)) (acts : List Act)
    (h : allActs m (fl ++ fl') = some acts) :
    ∃ a a', allActs m fl = some a ∧ allActs m fl' = some a' ∧ acts = a ++ a' := by
  induction fl generalizing acts with
  | nil => exact ⟨[], acts, rfl, h, rfl⟩
  | cons f fl ih =>
    simp only [List.cons_append, allActs] at h ⊢
    split at h
    · rename_i bytes hb
      obtain ⟨acts', h', rfl⟩ := Option.map_eq_some_iff.1 h
      obtain ⟨a, a', h1, h2, rfl⟩ := ih acts' h'
      exact ⟨_, a', by rw [h1]; rfl, h2, by simp⟩
    · cases h

theorem allActs_single (m : Machine) (f : List Char × LdaModel) (acts : List Act) (h : allActs m [f] = some acts) :
    ∃ bytes, saveLda m f.2 = .ok bytes ∧ acts = saveActs f.1 bytes := by
  simp only [allActs] at h
  split at h
  · rename_i bytes hb
    simp only [Option.map_some, List.append_nil, Option.some.injEq] at h
    exact ⟨bytes, hb, h.symm⟩
  · cases h

/-- Any interruption, any answers of the disk. -/
theorem run_files (m : Machine) (fl : List (List Char × LdaModel)) (hn : (fl.map Prod.fst).Nodup) (acts : List Act)
    (h : allActs m fl = some acts) (l : List (Act × Bool)) (hl : l.map Prod.fst <+: acts) (w : World)
    (f : List Char × LdaModel) (hf : f ∈ fl) :
    (w.run l).files f.1 = w.files f.1 ∨
      ∃ bytes k, saveLda m f.2 = .ok bytes ∧ (w.run l).files f.1 = some (bytes.take k) := by
  induction fl generalizing acts l w with
  | nil => simp at hf
  | cons g fl ih =>
    have h0 := h
    obtain ⟨a, a', h1, h2, rfl⟩ := allActs_append m [g] fl acts h
    obtain ⟨bytes, hb, rfl⟩ := allActs_single m g a h1
    rw [List.map_cons, List.nodup_cons] at hn
    have hne : ∀ x ∈ fl, x.1 ≠ g.1 := fun x hx e => hn.1 (e ▸ List.mem_map_of_mem hx)
    rcases List.mem_cons.1 hf with rfl | hf'
    · rcases prefix_split l _ _ hl with hl | ⟨l1, l2, rfl, hl1, hl2⟩
      · rcases run_save f.1 bytes l w hl with h | ⟨k, hk⟩
        · exact .inl h
        · exact .inr ⟨bytes, k, hb, hk⟩
      · rw [run_append, run_other l2]
        · rcases run_save f.1 bytes l1 w (by rw [hl1]) with h | ⟨k, hk⟩
          · exact .inl h
          · exact .inr ⟨bytes, k, hb, hk⟩
        · intro x hx e
          obtain ⟨y, hy, e'⟩ := allActs_names m fl a' h2 x (hl2.subset hx)
          exact hne y hy (by rw [← e', e])
    · have hg : ∀ x ∈ saveActs g.1 bytes, x.name ≠ f.1 := by
        intro x hx e
        obtain ⟨y, hy, e'⟩ := allActs_names m [g] _ h1 x hx
        rw [List.mem_singleton] at hy
        subst hy
        exact hne f hf' (by rw [← e', e])
      rcases prefix_split l _ _ hl with hl | ⟨l1, l2, rfl, hl1, hl2⟩
      · exact .inl (run_other l w f.1 fun x hx => hg x (hl.subset hx))
      · have e := run_other l1 w f.1 fun x hx => hg x (hl1 ▸ hx)
        rw [run_append]
        rcases ih hn.2 a' h2 l2 hl2 (w.run l1) hf' with h | h
        · exact .inl (h.trans e)
        · exact .inr h

theorem granted_eq (l : List (Act × Bool)) (h : ∀ a ∈ l, a.2 = true) : l = (l.map Prod.fst).map (·, true) := by
  induction l with
  | nil => rfl
  | cons a l ih =>
    obtain ⟨a, b⟩ := a
    have := h (a, b) (by simp)
    dsimp only at this
    subst this
    simp only [List.map_cons]
    rw [← ih fun x hx => h x (by simp [hx])]

/-- A file that is finished stays. -/
theorem run_finished (m : Machine) (fl fl' : List (List Char × LdaModel)) (f : List Char × LdaModel)
    (hn : ((fl ++ f :: fl').map Prod.fst).Nodup) (acts a : List Act) (h : allActs m (fl ++ f :: fl') = some acts)
    (ha : allActs m (fl ++ [f]) = some a) (l : List (Act × Bool)) (hl : l.map Prod.fst <+: acts)
    (hlen : a.length ≤ l.length) (hok : ∀ x ∈ l, x.2 = true) (w : World) :
    ∃ bytes, saveLda m f.2 = .ok bytes ∧ (w.run l).files f.1 = some bytes := by
  obtain ⟨a1, a2, h1, h2, rfl⟩ := allActs_append m fl [f] a ha
  obtain ⟨bytes, hb, rfl⟩ := allActs_single m f a2 h2
  have h' : allActs m ((fl ++ [f]) ++ fl') = some acts := by simpa using h
  obtain ⟨a3, a4, h3, h4, rfl⟩ := allActs_append m (fl ++ [f]) fl' acts h'
  rw [ha, Option.some.injEq] at h3
  subst h3
  have hs : ∃ l1 l2, l = l1 ++ l2 ∧ l1.map Prod.fst = a1 ++ saveActs f.1 bytes ∧ l2.map Prod.fst <+: a4 := by
    rcases prefix_split l _ _ hl with hl | h
    · exact ⟨l, [], by simp, hl.eq_of_length_le (by simpa using hlen), by simp⟩
    · exact h
  obtain ⟨l1, l2, rfl, hl1, hl2⟩ := hs
  refine ⟨bytes, hb, ?_⟩
  rw [run_append, run_other l2]
  · rw [granted_eq l1 fun x hx => hok x (by simp [hx]), hl1, List.map_append, run_append]
    exact run_saved f.1 bytes _
  · intro x hx e
    obtain ⟨y, hy, e'⟩ := allActs_names m fl' a4 h4 x (hl2.subset hx)
    rw [List.map_append, List.map_cons, List.nodup_append] at hn
    have := (List.nodup_cons.1 hn.2.1).1
    exact this (by rw [← e, e']; exact List.mem_map_of_mem hy)

/-! ### The files of a training -/

theorem snapshotFiles_eq (path : List Char) (every : ℤ) (epochs : List LdaModel) (hm : epochs.length ≤ intMax) :
    snapshotFiles path every epochs = some (if 0 < every then (epochs.zipIdx 1).filterMap fun q =>
      if every ∣ (q.2 : ℤ) then some (path ++ ['_'] ++ padded q.2, q.1) else none else []) := by
  unfold snapshotFiles
  split
  · rename_i h0
    have he : Apps.epochs (epochs.map Event.epoch) = epochs := by
      clear hm
      induction epochs with
      | nil => rfl
      | cons x xs ih => exact congrArg (x :: ·) ih
    obtain ⟨s, h1, -, -, -, h5⟩ := snapshot_feed (epochs.map Event.epoch) (Snapshot.new path every) 0 rfl
      (by simp only [Snapshot.new]; omega) (by rw [he]; simpa using hm)
    rw [h1, Option.map_some, h5, he]
    simp [Snapshot.new]
  · rfl

theorem snapshot_names (path : List Char) (every : ℤ) (ps : List LdaModel) (s : ℕ) :
    (((ps.zipIdx s).filterMap fun q =>
      if every ∣ (q.2 : ℤ) then some (path ++ ['_'] ++ padded q.2, q.1) else none).map Prod.fst).Nodup ∧
    ∀ f ∈ (ps.zipIdx s).filterMap fun q =>
      if every ∣ (q.2 : ℤ) then some (path ++ ['_'] ++ padded q.2, q.1) else none, ∃ j, s ≤ j ∧ IsName path j f.1 := by
  induction ps generalizing s with
  | nil => simp
  | cons p ps ih =>
    obtain ⟨h1, h2⟩ := ih (s + 1)
    rw [List.zipIdx_cons, List.filterMap_cons]
    by_cases hd : every ∣ (s : ℤ)
    · simp only [if_pos hd]
      refine ⟨?_, ?_⟩
      · rw [List.map_cons, List.nodup_cons]
        refine ⟨?_, h1⟩
        intro hm
        obtain ⟨f, hf, e⟩ := List.mem_map.1 hm
        obtain ⟨j, hj, hn⟩ := h2 f hf
        exact (C65_names path j s _ _ hn (padded_isName path s) (by omega)).1 e
      · intro f hf
        rcases List.mem_cons.1 hf with rfl | hf
        · exact ⟨s, le_rfl, padded_isName path s⟩
        · obtain ⟨j, hj, hn⟩ := h2 f hf
          exact ⟨j, by omega, hn⟩
    · simp only [if_neg hd]
      exact ⟨h1, fun f hf => by obtain ⟨j, hj, hn⟩ := h2 f hf; exact ⟨j, by omega, hn⟩⟩

/-- The files of a training: their names are different, and none of them is the name of the model. -/
theorem train_files (path : List Char) (every : ℤ) (epochs : List LdaModel)
    (hm : epochs.length ≤ intMax) : ∃ fl, snapshotFiles path every epochs = some fl ∧
      (fl.map Prod.fst ++ [path]).Nodup ∧ (∀ f ∈ fl, ∃ j, 1 ≤ j ∧ IsName path j f.1) ∧
      (0 < every → ∀ (i : ℕ) (x : LdaModel) (name : List Char), 1 ≤ i → every ∣ (i : ℤ) → epochs[i - 1]? = some x → IsName path i name →
        ∃ fl1 fl2, fl = fl1 ++ (name, x) :: fl2 ∧
          snapshotFiles path every (epochs.take i) = some (fl1 ++ [(name, x)])) := by
  refine ⟨_, snapshotFiles_eq path every epochs hm, ?_⟩
  by_cases h0 : 0 < every
  · simp only [if_pos h0]
    obtain ⟨h1, h2⟩ := snapshot_names path every epochs 1
    refine ⟨?_, h2, ?_⟩
    · rw [List.nodup_append]
      refine ⟨h1, by simp, ?_⟩
      intro a ha b hb
      obtain ⟨f, hf, rfl⟩ := List.mem_map.1 ha
      obtain ⟨j, hj, hn⟩ := h2 f hf
      rw [List.mem_singleton] at hb
      subst hb
      exact (C65_names b j (j + 1) _ _ hn (padded_isName b (j + 1)) (by omega)).2
    · intro _ i x name hi hd hx hname
      have hlt : i - 1 < epochs.length := (List.getElem?_eq_some_iff.1 hx).1
      have hsplit : epochs = epochs.take (i - 1) ++ x :: epochs.drop i := by
        have e := (List.take_append_drop (i - 1) epochs).symm
        rw [List.drop_eq_getElem_cons hlt, (List.getElem?_eq_some_iff.1 hx).2, show i - 1 + 1 = i by omega] at e
        exact e
      have htake : epochs.take i = epochs.take (i - 1) ++ [x] := by
        conv_lhs => rw [show i = i - 1 + 1 by omega, List.take_add_one, hx]
        rfl
      have hl : (epochs.take (i - 1)).length = i - 1 := by rw [List.length_take]; omega
      have hname' : path ++ ['_'] ++ padded i = name := isName_unique path i _ _ (padded_isName path i) hname
      refine ⟨((epochs.take (i - 1)).zipIdx 1).filterMap fun q =>
        if every ∣ (q.2 : ℤ) then some (path ++ ['_'] ++ padded q.2, q.1) else none,
        ((epochs.drop i).zipIdx (i + 1)).filterMap fun q =>
        if every ∣ (q.2 : ℤ) then some (path ++ ['_'] ++ padded q.2, q.1) else none, ?_, ?_⟩
      · conv_lhs => rw [hsplit]
        rw [List.zipIdx_append, List.filterMap_append, hl, show 1 + (i - 1) = i by omega, List.zipIdx_cons,
          List.filterMap_cons]
        simp only [if_pos hd, hname']
      · rw [snapshotFiles_eq _ _ _ (by rw [List.length_take]; push_cast; omega), if_pos h0, htake, List.zipIdx_append,
          List.filterMap_append, hl, show 1 + (i - 1) = i by omega]
        simp only [List.zipIdx_cons, List.zipIdx_nil, List.filterMap_cons, if_pos hd, List.filterMap_nil, hname']
  · simp only [if_neg h0]
    exact ⟨by simp, by simp, fun h => absurd h h0⟩

theorem train_acts (m : Machine) (path : List Char) (every : ℤ) (epochs : List LdaModel) (final : LdaModel)
    (acts : List Act) (h : trainActs m path every epochs final = some acts) :
    ∃ fl a bytes, snapshotFiles path every epochs = some fl ∧ allActs m fl = some a ∧ saveLda m final = .ok bytes ∧
      acts = a ++ saveActs path bytes ∧ allActs m (fl ++ [(path, final)]) = some acts := by
  unfold trainActs snapActs at h
  obtain ⟨a, h1, h⟩ := Option.bind_eq_some_iff.1 h
  obtain ⟨fl, hfl, ha⟩ := Option.bind_eq_some_iff.1 h1
  clear h1
  split at h
  · rename_i bytes hb
    rw [Option.some.injEq] at h
    refine ⟨fl, a, bytes, hfl, ha, hb, h.symm, ?_⟩
    subst h
    clear * - ha hb
    induction fl generalizing a with
    | nil =>
      simp only [allActs, Option.some.injEq] at ha
      subst ha
      simp [allActs, hb]
    | cons f fl ih =>
      obtain ⟨a1, a2, h1, h2, rfl⟩ := allActs_append m [f] fl a ha
      obtain ⟨bs, hbs, rfl⟩ := allActs_single m f a1 h1
      simp only [List.cons_append, allActs, hbs, ih a2 h2, Option.map_some, List.append_assoc]
  · cases h

/-! ### Files that are cut -/

/-- At the end of a file nothing can be loaded. -/
theorem load_nil (m : Machine) (j : Junk) (t : Dtype) (f : Bool) : load m j t ⟨[], f⟩ = .throw .runtimeError := by
  have h : ∃ v, j.magic[6]? = some v := ⟨_, List.getElem?_eq_getElem (by rw [j.hmagic]; decide)⟩
  obtain ⟨v, hv⟩ := h
  have hr : readInput m j t ⟨[], f⟩ = .throw .runtimeError := by
    unfold readInput
    have e : ∃ s, (IStream.read ⟨[], f⟩ 8) = ([], s) := by unfold IStream.read; cases f <;> simp
    obtain ⟨s, e⟩ := e
    simp only [e, overwrite, List.length_nil, List.drop_zero, List.nil_append, hv]
    split <;> simp
  unfold load
  rw [hr]

theorem npyFile_take (hdr data : List Byte) (k : ℕ) :
    (npyFile hdr data).take (10 + hdr.length + k) = npyFile hdr (data.take k) := by
  have : ([0x93, 0x4e, 0x55, 0x4d, 0x50, 0x59, 1, 0] ++ le16 hdr.length ++ hdr : List Byte).length =
      10 + hdr.length := by
    simp only [List.length_append, le16_length]; rfl
  unfold npyFile
  rw [← this, List.take_length_add_append]

theorem npyFile_length (hdr data : List Byte) : (npyFile hdr data).length = 10 + hdr.length + data.length := by
  unfold npyFile
  simp only [List.length_append, le16_length]; rfl

/-- The array of a file that ends too early: what was read is there, the rest is zero. -/
def Partly (w : ℕ) (M M' : Mat) : Prop :=
  ∃ cut, ∃ (hr : M'.rows = M.rows) (hc : M'.cols = M.cols), ∀ (a : Fin M.rows) (b : Fin M.cols),
    M'.val (a.cast hr.symm) (b.cast hc.symm) = (M.val a b).take (cut - (b * M.rows + a) * w) ++
      List.replicate (w - (cut - (b * M.rows + a) * w)) 0

theorem take_drop_cut (D : List Byte) (cut s w : ℕ) (hc : cut ≤ D.length) (hs : s + w ≤ D.length) :
    ((D.take cut ++ List.replicate (D.length - cut) 0).drop s).take w =
      ((D.drop s).take w).take (cut - s) ++ List.replicate (w - (cut - s)) 0 := by
  apply List.ext_getElem?
  intro i
  by_cases hi : i < w
  · rw [List.getElem?_take_of_lt hi, List.getElem?_drop]
    by_cases h1 : s + i < cut
    · rw [List.getElem?_append_left (by rw [List.length_take]; omega), List.getElem?_take_of_lt h1,
        List.getElem?_append_left (by simp only [List.length_take, List.length_drop]; omega),
        List.getElem?_take_of_lt (by omega), List.getElem?_take_of_lt hi, List.getElem?_drop]
    · rw [List.getElem?_append_right (by rw [List.length_take]; omega),
        List.getElem?_append_right (by simp only [List.length_take, List.length_drop]; omega),
        List.getElem?_replicate, List.getElem?_replicate]
      simp only [List.length_take, List.length_drop]
      rw [if_pos (by omega), if_pos (by omega)]
  · rw [List.getElem?_eq_none (by rw [List.length_take]; omega), List.getElem?_eq_none (by
      simp only [List.length_append, List.length_take, List.length_drop, List.length_replicate]; omega)]

/-- An array that is cut cannot be loaded, or it is loaded with zeros in place of what is missing and nothing is left to
be read. -/
theorem load_cut (m : Machine) (hm : m.bigEndian = false) (j : Junk) {t : Dtype} {M : Mat} (h : Ordinary t M)
    (bytes : List Byte) (hs : save m t false M = .ok bytes) (k : ℕ) (hk : k < bytes.length) :
    (∀ y, load m j t ⟨bytes.take k, false⟩ ≠ .ok y) ∨
      ∃ M' f, load m j t ⟨bytes.take k, false⟩ = .ok (M', ⟨[], f⟩) ∧ (M' = zeros M.rows 1 t.size ∨ Partly t.size M M') := by
  obtain ⟨hdr, data, h1, h2, h3⟩ := C25_header_cut m hm j h false
  rw [hs, Res.ok.injEq] at h1
  subst h1
  rw [npyFile_length] at hk
  have hdata : data = M.memory false ∧ hdr = header m t true [M.rows, M.cols] := by
    have e := save_eq m h false
    rw [hs, Res.ok.injEq] at e
    have hl : (header m t true [M.rows, M.cols]).length = hdr.length := by
      have := congrArg List.length e
      rw [npyFile_length, npyFile_length, h2, memory_length M false t.size h.width] at this
      simp only [Bool.not_false] at this
      omega
    unfold npyFile at e
    have e1 := List.append_inj_right e (by simp only [List.length_append, le16_length, Bool.not_false, hl])
    exact ⟨e1, (List.append_inj (List.append_inj_left e (by
      simp only [List.length_append, le16_length, Bool.not_false, hl])) (by simp only [List.length_append, le16_length])).2⟩
  by_cases h10 : k < 10
  · left
    intro y hy
    obtain ⟨e, he⟩ := C25_short_files_rejected_partial m j t ((npyFile hdr data).take k) (by rw [List.length_take]; omega)
    unfold load at hy
    rw [he] at hy
    cases hy
  · by_cases hh : k < 10 + hdr.length
    · obtain ⟨q1, q2, q3, q4, q5, q6⟩ := h3 (k - 10) (by omega) 50 _ _ rfl rfl rfl
      rw [show 10 + (k - 10) = k by omega] at q1 q2 q3 q4 q5 q6
      have hz : Partly t.size M (zeros M.rows M.cols t.size) := ⟨0, rfl, rfl, fun a b => by simp [zeros]⟩
      rcases lt_or_ge (k - 10) 14 with c | c
      · obtain ⟨e, he⟩ := q1 c
        exact .inl fun y hy => by rw [he] at hy; cases hy
      rcases le_or_gt (k - 10) 50 with c' | c'
      · exact .inl fun y hy => by rw [q2 c c'] at hy; cases hy
      rcases lt_trichotomy (k - 10) (50 + (Nat.digits 10 M.rows).length + 2) with d | d | d
      · exact .inl fun y hy => by rw [q3 c' d] at hy; cases hy
      · exact .inr ⟨_, _, q4 d, .inl rfl⟩
      rcases lt_or_ge (k - 10) (50 + (Nat.digits 10 M.rows).length + (Nat.digits 10 M.cols).length + 4) with d' | d'
      · exact .inl fun y hy => by rw [q5 d d'] at hy; cases hy
      · exact .inr ⟨_, _, q6 d', .inr hz⟩
    · right
      obtain ⟨hdr', data', g1, g2, M', g3, hr, hc, hv⟩ :=
        C25_truncated_accepted m hm j h false (k - 10 - hdr.length) (by omega)
      rw [hs, Res.ok.injEq] at g1
      have hl : hdr'.length = hdr.length := by
        have := congrArg List.length g1
        rw [npyFile_length, npyFile_length] at this
        omega
      have hd : data' = data := by
        unfold npyFile at g1
        exact (List.append_inj_right g1 (by simp only [List.length_append, le16_length, hl])).symm
      have ht : (npyFile hdr data).take k = npyFile hdr' (data'.take (k - 10 - hdr.length)) := by
        rw [g1, ← npyFile_take, hl]
        congr 1
        omega
      rw [ht]
      refine ⟨M', true, g3, .inr ⟨k - 10 - hdr.length, hr, hc, fun a b => ?_⟩⟩
      rw [hv a b]
      simp only [Bool.false_eq_true, if_false]
      have hsz : (b.val * M.rows + a.val) * t.size + t.size ≤ data'.length := by
        rw [g2, ← Nat.succ_mul]
        apply Nat.mul_le_mul_right
        have h1 : (b.val + 1) * M.rows ≤ M.cols * M.rows := Nat.mul_le_mul_right _ b.isLt
        have h2 := a.isLt
        rw [Nat.succ_mul] at h1
        rw [Nat.mul_comm M.rows M.cols]
        omega
      rw [take_drop_cut _ _ _ _ (by omega) hsz]
      congr 2
      have := chunk_memory M false t.size h.width a b
      rw [hd, hdata.1]
      simpa [chunk, srcIdx] using this

/-- A model that can be saved and loaded. -/
def Usual (x : LdaModel) : Prop := Ordinary .f8 x.alpha ∧ Ordinary .f8 x.beta ∧ Ordinary .f8 x.eta

theorem saveLda_parts (m : Machine) (x : LdaModel) (hx : Usual x) (bytes : List Byte) (hs : saveLda m x = .ok bytes) :
    ∃ a b c, save m .f8 false x.alpha = .ok a ∧ save m .f8 false x.beta = .ok b ∧ save m .f8 false x.eta = .ok c ∧
      bytes = a ++ (b ++ c) := by
  have h1 := save_eq m hx.1 false
  have h2 := save_eq m hx.2.1 false
  have h3 := save_eq m hx.2.2 false
  refine ⟨_, _, _, h1, h2, h3, ?_⟩
  simp only [saveLda, h1, h2, h3, Res.ok.injEq, List.append_assoc] at hs
  exact hs.symm

theorem load_rest (m : Machine) (hm : m.bigEndian = false) (j : Junk) {M : Mat} (h : Ordinary .f8 M) (a tail : List Byte)
    (hs : save m .f8 false M = .ok a) : load m j .f8 ⟨a ++ tail, false⟩ = .ok (M, ⟨tail, false⟩) := by
  obtain ⟨b, h1, h2⟩ := C19_save_load m hm j h false tail
  rw [hs, Res.ok.injEq] at h1
  subst h1
  exact h2

/-- A model file that is cut cannot be loaded, or `alpha` and `beta` are those of the model and `eta` ends in zeros. -/
theorem loadLda_cut (m : Machine) (hm : m.bigEndian = false) (j : ℕ → Junk) (x : LdaModel) (hx : Usual x)
    (bytes : List Byte) (hs : saveLda m x = .ok bytes) (k : ℕ) (y : LdaModel)
    (hy : loadLda m j (some (bytes.take k)) = .ok y) :
    y.alpha = x.alpha ∧ y.beta = x.beta ∧ (y.eta = zeros x.eta.rows 1 8 ∨ Partly 8 x.eta y.eta) := by
  obtain ⟨a, b, c, h1, h2, h3, rfl⟩ := saveLda_parts m x hx bytes hs
  unfold loadLda openFile at hy
  dsimp only at hy
  by_cases ka : k < a.length
  · exfalso
    rw [List.take_append_of_le_length ka.le] at hy
    rcases load_cut m hm (j 0) hx.1 a h1 k ka with h | ⟨M', f, h, _⟩
    · split at hy <;> first | cases hy | (rename_i hl; exact h _ hl)
    · rw [h] at hy
      dsimp only at hy
      rw [load_nil] at hy
      cases hy
  have e : (a ++ (b ++ c)).take k = a ++ (b ++ c).take (k - a.length) := by
    rw [List.take_append, List.take_of_length_le (by omega)]
  rw [e, load_rest m hm (j 0) hx.1 a _ h1] at hy
  dsimp only at hy
  generalize k - a.length = k1 at hy
  by_cases kb : k1 < b.length
  · exfalso
    rw [List.take_append_of_le_length kb.le] at hy
    rcases load_cut m hm (j 1) hx.2.1 b h2 k1 kb with h | ⟨M', f, h, _⟩
    · split at hy <;> first | cases hy | (rename_i hl; exact h _ hl)
    · rw [h] at hy
      dsimp only at hy
      rw [load_nil] at hy
      cases hy
  rw [List.take_append, List.take_of_length_le (by omega), load_rest m hm (j 1) hx.2.1 b _ h2] at hy
  dsimp only at hy
  generalize k1 - b.length = k2 at hy
  by_cases kc : k2 < c.length
  · rcases load_cut m hm (j 2) hx.2.2 c h3 k2 kc with h | ⟨M', f, h, hM⟩
    · exfalso
      split at hy
      · cases hy
      · cases hy
      · rename_i hl
        exact h _ hl
    · rw [h] at hy
      simp only [Res.ok.injEq] at hy
      subst hy
      exact ⟨rfl, rfl, hM⟩
  · rw [List.take_of_length_le (by omega)] at hy
    have := load_rest m hm (j 2) hx.2.2 c [] h3
    rw [List.append_nil] at this
    rw [this] at hy
    simp only [Res.ok.injEq] at hy
    subst hy
    refine ⟨rfl, rfl, .inr ⟨x.eta.rows * x.eta.cols * 8, rfl, rfl, fun a b => ?_⟩⟩
    have hsz : (b.val * x.eta.rows + a.val) * 8 + 8 ≤ x.eta.rows * x.eta.cols * 8 := by
      rw [← Nat.succ_mul]
      apply Nat.mul_le_mul_right
      have h1 : (b.val + 1) * x.eta.rows ≤ x.eta.cols * x.eta.rows := Nat.mul_le_mul_right _ b.isLt
      have h2 := a.isLt
      rw [Nat.succ_mul] at h1
      rw [Nat.mul_comm x.eta.rows x.eta.cols]
      omega
    have hw : (x.eta.val a b).length = 8 := hx.2.2.width a b
    rw [List.take_of_length_le (by omega), Nat.sub_eq_zero_of_le (by omega)]
    simp

/-! ### C123 -/

/-- **C123** (other files).  Whatever happens, a file whose name is neither the one given for the model nor the one of
a snapshot stays as it is. -/
theorem C123_other_files (m : Machine) (path : List Char) (every : ℤ) (epochs : List LdaModel)
    (he : epochs.length ≤ intMax) (final : LdaModel) (acts : List Act)
    (h : trainActs m path every epochs final = some acts) (l : List (Act × Bool)) (hl : l.map Prod.fst <+: acts)
    (w : World) (name : List Char) (h1 : name ≠ path) (h2 : ∀ k, 1 ≤ k → ¬ IsName path k name) :
    (w.run l).files name = w.files name := by
  obtain ⟨fl, a, bytes, g1, g2, g3, g4, g5⟩ := train_acts m path every epochs final acts h
  obtain ⟨fl', k1, -, k3, -⟩ := train_files path every epochs he
  rw [g1, Option.some.injEq] at k1
  subst k1
  apply run_other
  intro x hx e
  obtain ⟨f, hf, e'⟩ := allActs_names m _ _ g5 x (hl.subset hx)
  rcases List.mem_append.1 hf with hf | hf
  · obtain ⟨k, hk, hn⟩ := k3 f hf
    exact h2 k hk (by rw [← e, e']; exact hn)
  · rw [List.mem_singleton] at hf
    subst hf
    exact h1 (by rw [← e, e'])

/-- **C123** (no mixture).  Whatever happens and at whatever moment, the file of the model is the one from before or a
beginning of the file with the new model; likewise each snapshot.  No file holds parts of two models. -/
theorem C123_no_mixture (m : Machine) (path : List Char) (every : ℤ) (epochs : List LdaModel)
    (he : epochs.length ≤ intMax) (final : LdaModel) (acts : List Act)
    (h : trainActs m path every epochs final = some acts) (l : List (Act × Bool)) (hl : l.map Prod.fst <+: acts)
    (w : World) :
    ((w.run l).files path = w.files path ∨
      ∃ bytes k, saveLda m final = .ok bytes ∧ (w.run l).files path = some (bytes.take k)) ∧
    ∀ (i : ℕ) (x : LdaModel) (name : List Char), 0 < every → 1 ≤ i → every ∣ (i : ℤ) → epochs[i - 1]? = some x →
      IsName path i name → (w.run l).files name = w.files name ∨
        ∃ bytes k, saveLda m x = .ok bytes ∧ (w.run l).files name = some (bytes.take k) := by
  obtain ⟨fl, a, bytes, g1, g2, g3, g4, g5⟩ := train_acts m path every epochs final acts h
  obtain ⟨fl', k1, k2, -, k4⟩ := train_files path every epochs he
  rw [g1, Option.some.injEq] at k1
  subst k1
  have hn : ((fl ++ [(path, final)]).map Prod.fst).Nodup := by simpa using k2
  refine ⟨run_files m _ hn acts g5 l hl w (path, final) (by simp), ?_⟩
  intro i x name h0 hi hd hx hname
  obtain ⟨f1, f2, e, -⟩ := k4 h0 i x name hi hd hx hname
  exact run_files m _ hn acts g5 l hl w (name, x) (by simp [e])

/-- **C123** (the old model).  As long as `fit` has not returned, i.e. only snapshots have been made, a model that was
saved before under the same name is still there. -/
theorem C123_old_model_kept (m : Machine) (path : List Char) (every : ℤ) (epochs : List LdaModel)
    (he : epochs.length ≤ intMax) (acts : List Act) (h : snapActs m path every epochs = some acts)
    (l : List (Act × Bool)) (hl : l.map Prod.fst <+: acts) (w : World) : (w.run l).files path = w.files path := by
  obtain ⟨fl, k1, -, k3, -⟩ := train_files path every epochs he
  rw [snapActs, k1, Option.bind_some] at h
  apply run_other
  intro x hx e
  obtain ⟨f, hf, e'⟩ := allActs_names m _ _ h x (hl.subset hx)
  obtain ⟨k, hk, hn⟩ := k3 f hf
  exact (C65_names path k (k + 1) _ _ hn (padded_isName path (k + 1)) (by omega)).2 (by rw [← e, e'])

theorem load_usual (m : Machine) (hm : m.bigEndian = false) (j : ℕ → Junk) (x : LdaModel) (hx : Usual x)
    (bytes : List Byte) (hs : saveLda m x = .ok bytes) : loadLda m j (some bytes) = .ok x := by
  obtain ⟨b, h1, h2⟩ := C26_model_round_trip m hm j x hx.1 hx.2.1 hx.2.2
  rw [hs, Res.ok.injEq] at h1
  subst h1
  exact h2

/-- **C123, partial** (the snapshots).  The disk grants everything.  If the training is interrupted after `i` epochs have
been dealt with, the snapshot of epoch `i` is loaded exactly as it was, and the same holds for the earlier ones.

Missing: the file that is being written when the training is interrupted (`C123_cut_loads`), and that a disk that
is full is noticed (also there). -/
theorem C123_snapshots_partial (m : Machine) (hm : m.bigEndian = false) (j : ℕ → Junk) (path : List Char) (every : ℤ)
    (h0 : 0 < every) (epochs : List LdaModel) (he : epochs.length ≤ intMax) (final : LdaModel) (acts : List Act)
    (h : trainActs m path every epochs final = some acts) (l : List (Act × Bool)) (hl : l.map Prod.fst <+: acts)
    (hok : ∀ x ∈ l, x.2 = true) (w : World) (i : ℕ) (hi : 1 ≤ i) (hd : every ∣ (i : ℤ)) (x : LdaModel) (hx : Usual x)
    (hi' : epochs[i - 1]? = some x) (a : List Act) (ha : snapActs m path every (epochs.take i) = some a)
    (hlen : a.length ≤ l.length) (name : List Char) (hname : IsName path i name) :
    loadLda m j ((w.run l).files name) = .ok x := by
  obtain ⟨fl, b, bytes, g1, g2, g3, g4, g5⟩ := train_acts m path every epochs final acts h
  obtain ⟨fl', k1, k2, -, k4⟩ := train_files path every epochs he
  rw [g1, Option.some.injEq] at k1
  subst k1
  obtain ⟨f1, f2, e, e'⟩ := k4 h0 i x name hi hd hi' hname
  subst e
  rw [snapActs, e', Option.bind_some] at ha
  have g5' : allActs m (f1 ++ (name, x) :: (f2 ++ [(path, final)])) = some acts := by simpa using g5
  obtain ⟨bs, q1, q2⟩ := run_finished m f1 (f2 ++ [(path, final)]) (name, x) (by simpa using k2) acts a g5' ha l hl hlen
    hok w
  rw [q2]
  exact load_usual m hm j x hx bs q1

/-- **C123, partial** (the end).  If the disk grants everything and the training runs to its end, the file of the model
is loaded as the model that was trained. -/
theorem C123_complete_partial (m : Machine) (hm : m.bigEndian = false) (j : ℕ → Junk) (path : List Char) (every : ℤ)
    (epochs : List LdaModel) (he : epochs.length ≤ intMax) (final : LdaModel) (hf : Usual final) (acts : List Act)
    (h : trainActs m path every epochs final = some acts) (w : World) :
    loadLda m j ((w.run (acts.map (·, true))).files path) = .ok final := by
  obtain ⟨fl, b, bytes, g1, g2, g3, g4, g5⟩ := train_acts m path every epochs final acts h
  obtain ⟨fl', k1, k2, -, -⟩ := train_files path every epochs he
  rw [g1, Option.some.injEq] at k1
  subst k1
  obtain ⟨bs, q1, q2⟩ := run_finished m fl [] (path, final) (by simpa using k2) acts acts g5 g5 (acts.map (·, true))
    (by simp [List.map_map, Function.comp_def]) (by simp) (by simp) w
  rw [q2]
  exact load_usual m hm j final hf bs q1

/-- **C123, partial** (what can go wrong).  Whatever happens and at whatever moment: if afterwards a model can be loaded
from the file, and it is not the one from before, then its `alpha` and `beta` are those of the new model, and its `eta`
has the entries of the new one up to some place and zeros from there on, or is a single column of zeros.

Missing: that `eta` is the one of the new model (`C123_cut_loads`). -/
theorem C123_load_partial (m : Machine) (hm : m.bigEndian = false) (j : ℕ → Junk) (path : List Char) (every : ℤ)
    (epochs : List LdaModel) (he : epochs.length ≤ intMax) (final : LdaModel) (hf : Usual final) (acts : List Act)
    (h : trainActs m path every epochs final = some acts) (l : List (Act × Bool)) (hl : l.map Prod.fst <+: acts)
    (w : World) (y : LdaModel) (hy : loadLda m j ((w.run l).files path) = .ok y)
    (hne : (w.run l).files path ≠ w.files path) :
    y.alpha = final.alpha ∧ y.beta = final.beta ∧ (y.eta = zeros final.eta.rows 1 8 ∨ Partly 8 final.eta y.eta) := by
  rcases (C123_no_mixture m path every epochs he final acts h l hl w).1 with h | ⟨bytes, k, hs, hk⟩
  · exact absurd h hne
  · rw [hk] at hy
    exact loadLda_cut m hm j final hf bytes hs k y hy

/-- The first `n` requests are granted: an interruption and a full disk leave the same file. -/
theorem run_until (path : List Char) (a : List Act) (bytes : List Byte) (k : ℕ) (w : World) :
    (w.run (((a ++ saveActs path bytes).take (a.length + 1 + k)).map (·, true))).files path = some (bytes.take k) ∧
    (w.run ((a ++ saveActs path bytes).zipIdx.map fun q => (q.1, decide (q.2 < a.length + 1 + k)))).files path =
      some (bytes.take k) := by
  have e1 : (a ++ saveActs path bytes).take (a.length + 1 + k) = a ++ saveActs path (bytes.take k) := by
    rw [Nat.add_assoc, List.take_length_add_append, Nat.add_comm 1 k]
    simp only [saveActs, List.take_succ_cons, List.map_take]
  have h1 : (w.run (((a ++ saveActs path bytes).take (a.length + 1 + k)).map (·, true))).files path =
      some (bytes.take k) := by
    rw [e1, List.map_append, run_append]
    exact run_saved path (bytes.take k) _
  refine ⟨h1, ?_⟩
  generalize hA : a ++ saveActs path bytes = A at h1 e1 ⊢
  generalize hn : a.length + 1 + k = n at h1 e1 ⊢
  have e2 : (A.zipIdx.map fun q => (q.1, decide (q.2 < n))) = (A.take n).map (·, true) ++ (A.drop n).map (·, false) := by
    apply List.ext_getElem?
    intro i
    simp only [List.getElem?_map, List.getElem?_zipIdx, List.getElem?_append, List.length_map, List.length_take,
      List.getElem?_take, List.getElem?_drop]
    by_cases hi : i < n
    · by_cases hl : i < A.length
      · rw [if_pos (by omega)]
        simp [hi, Function.comp_def]
      · rw [if_neg (by omega), List.getElem?_eq_none (by omega), List.getElem?_eq_none (by omega)]
        rfl
    · rw [if_neg (by omega)]
      by_cases hl : i < A.length
      · rw [show n + (i - min n A.length) = i by omega]
        simp [hi, Function.comp_def]
      · rw [List.getElem?_eq_none (by omega), List.getElem?_eq_none (by omega)]
        rfl
  have hd : A.drop n = (bytes.drop k).map (.append path) := by
    rw [← hA, ← hn, Nat.add_assoc, List.drop_length_add_append, Nat.add_comm 1 k]
    simp only [saveActs, List.drop_succ_cons, List.map_drop]
  rw [e2, run_append, ← h1]
  generalize w.run ((A.take n).map (·, true)) = v
  cases hb : bytes.drop k with
  | nil => rw [hd, hb]; rfl
  | cons b bs =>
    rw [hd, hb, List.map_cons, List.map_cons, run_cons]
    have hv : v.act (.append path b, false) = { v with bad := true } := by
      obtain ⟨f, bad⟩ := v
      cases bad <;> simp [World.act]
    rw [hv, run_bad path bs _ _ rfl (by simp [List.map_map, Function.comp_def])]

/-- **C123**, negations.  Every training of a model whose `eta` is not zero can be interrupted so that the file of the
model is loaded without an exception as a different model; and if the disk is full at the same place the training
comes to its end (all requests are made) with the same file. -/
theorem C123_cut_loads (m : Machine) (hm : m.bigEndian = false) (j : ℕ → Junk) (path : List Char) (every : ℤ)
    (epochs : List LdaModel) (final : LdaModel) (hf : Usual final)
    (hz : ∃ a b, final.eta.val a b ≠ List.replicate 8 0) (acts : List Act)
    (h : trainActs m path every epochs final = some acts) (w : World) :
    ∃ n < acts.length, ∃ y, y.eta ≠ final.eta ∧
      loadLda m j ((w.run ((acts.take n).map (·, true))).files path) = .ok y ∧
      loadLda m j ((w.run (acts.zipIdx.map fun q => (q.1, decide (q.2 < n)))).files path) = .ok y := by
  obtain ⟨fl, a, bytes, -, -, hs, rfl, -⟩ := train_acts m path every epochs final acts h
  obtain ⟨A, B, C, h1, h2, h3, rfl⟩ := saveLda_parts m final hf bytes hs
  have hpos : 0 < final.eta.rows * final.eta.cols * 8 :=
    Nat.mul_pos (Nat.mul_pos hf.2.2.rows hf.2.2.cols) (by decide)
  obtain ⟨hdr, data, g1, g2, M', g3, hr, hc, hv⟩ := C25_truncated_accepted m hm (j 2) hf.2.2 false 0 hpos
  rw [h3, Res.ok.injEq] at g1
  subst g1
  have hcut : (A ++ (B ++ npyFile hdr data)).take (A.length + (B.length + (10 + hdr.length + 0))) =
      A ++ (B ++ npyFile hdr (data.take 0)) := by
    rw [List.take_length_add_append, List.take_length_add_append, npyFile_take]
  have hload : loadLda m j (some (A ++ (B ++ npyFile hdr (data.take 0)))) = .ok ⟨final.alpha, final.beta, M'⟩ := by
    unfold loadLda openFile
    dsimp only
    rw [load_rest m hm (j 0) hf.1 A _ h1]
    dsimp only
    rw [load_rest m hm (j 1) hf.2.1 B _ h2]
    dsimp only
    rw [g3]
  obtain ⟨r1, r2⟩ := run_until path a (A ++ (B ++ npyFile hdr data))
    (A.length + (B.length + (10 + hdr.length + 0))) w
  rw [hcut] at r1 r2
  refine ⟨a.length + 1 + (A.length + (B.length + (10 + hdr.length + 0))), ?_, ⟨final.alpha, final.beta, M'⟩, ?_, ?_, ?_⟩
  · simp only [saveActs, List.length_append, List.length_cons, List.length_map, npyFile_length]
    have : final.eta.rows * final.eta.cols * Dtype.f8.size = final.eta.rows * final.eta.cols * 8 := rfl
    omega
  · intro e
    dsimp only at e
    subst e
    obtain ⟨p, q, hpq⟩ := hz
    apply hpq
    have := hv p q
    simp only [List.take_zero, List.nil_append, Nat.sub_zero, Bool.false_eq_true, if_false, List.drop_replicate,
      List.take_replicate] at this
    have hw : (final.eta.val p q).length = 8 := hf.2.2.width p q
    have hval : final.eta.val (p.cast hr.symm) (q.cast hc.symm) = final.eta.val p q := rfl
    rw [hval] at this
    rw [this, List.length_replicate] at hw
    rw [this, hw]
  · rw [r1]; exact hload
  · rw [r2]; exact hload

/-- **C123**, negation: saving begins by emptying the file.  Every training can be interrupted so that nothing can be
loaded from the file of the model afterwards, whatever model it held before. -/
theorem C123_old_model_lost (m : Machine) (j : ℕ → Junk) (path : List Char) (every : ℤ)
    (epochs : List LdaModel) (final : LdaModel) (acts : List Act)
    (h : trainActs m path every epochs final = some acts) (w : World) :
    ∃ n ≤ acts.length, loadLda m j ((w.run ((acts.take n).map (·, true))).files path) = .throw .runtimeError := by
  obtain ⟨fl, a, bytes, -, -, hs, rfl, -⟩ := train_acts m path every epochs final acts h
  refine ⟨a.length + 1 + 0, by simp [saveActs], ?_⟩
  rw [(run_until path a bytes 0 w).1]
  unfold loadLda openFile
  dsimp only
  rw [List.take_zero, load_nil]

/-! ### The hypotheses can hold -/

theorem demoLda_usual : Usual demoLda := ⟨⟨fun _ _ => rfl, by decide, by decide, by decide⟩,
  ⟨fun _ _ => rfl, by decide, by decide, by decide⟩, ⟨fun _ _ => rfl, by decide, by decide, by decide⟩⟩

theorem trainActs_some (m : Machine) (path : List Char) (every : ℤ) (epochs : List LdaModel)
    (he : epochs.length ≤ intMax) (final : LdaModel) (hu : ∀ x ∈ epochs, Usual x) (hf : Usual final) :
    ∃ acts, trainActs m path every epochs final = some acts := by
  have hsave : ∀ x, Usual x → ∃ bytes, saveLda m x = .ok bytes := fun x hx => by
    simp only [saveLda, save_eq m hx.1 false, save_eq m hx.2.1 false, save_eq m hx.2.2 false]
    exact ⟨_, rfl⟩
  have hall : ∀ fl : List (List Char × LdaModel), (∀ f ∈ fl, Usual f.2) → ∃ a, allActs m fl = some a := by
    intro fl
    induction fl with
    | nil => exact fun _ => ⟨[], rfl⟩
    | cons f fl ih =>
      intro hu
      obtain ⟨a, ha⟩ := ih fun g hg => hu g (by simp [hg])
      obtain ⟨b, hb⟩ := hsave f.2 (hu f (by simp))
      exact ⟨saveActs f.1 b ++ a, by simp only [allActs, hb, ha, Option.map_some]⟩
  obtain ⟨a, ha⟩ := hall _ (fun f hf => by
    show Usual f.2
    have hmem : f ∈ (if 0 < every then (epochs.zipIdx 1).filterMap fun q =>
      if every ∣ (q.2 : ℤ) then some (path ++ ['_'] ++ padded q.2, q.1) else none else []) := hf
    split at hmem
    · obtain ⟨q, hq, e⟩ := List.mem_filterMap.1 hmem
      split at e
      · rw [Option.some.injEq] at e
        subst e
        exact hu q.1 (List.fst_mem_of_mem_zipIdx hq)
      · cases e
    · cases hmem)
  obtain ⟨b, hb⟩ := hsave final hf
  exact ⟨a ++ saveActs path b, by
    rw [trainActs, snapActs, snapshotFiles_eq path every epochs he, Option.bind_some, ha, Option.bind_some, hb]⟩

/-- Four epochs with a snapshot after every second: all hypotheses can hold, the second snapshot is named `m_004`, and
the training can be interrupted with a damaged file. -/
example (w : World) : ∃ acts, trainActs le "m".toList 2 (List.replicate 4 demoLda) demoLda = some acts ∧
    loadLda le (fun _ => junk0) ((w.run (acts.map (·, true))).files "m_004".toList) = .ok demoLda ∧
    loadLda le (fun _ => junk0) ((w.run (acts.map (·, true))).files "m".toList) = .ok demoLda ∧
    (w.run (acts.map (·, true))).files "other".toList = w.files "other".toList ∧
    ∃ n < acts.length, ∃ y, y.eta ≠ demoLda.eta ∧
      loadLda le (fun _ => junk0) ((w.run ((acts.take n).map (·, true))).files "m".toList) = .ok y := by
  have hu : ∀ x ∈ List.replicate 4 demoLda, Usual x := fun x hx => List.eq_of_mem_replicate hx ▸ demoLda_usual
  have he : ((List.replicate 4 demoLda).length : ℤ) ≤ intMax := by simp [intMax]
  obtain ⟨acts, h⟩ := trainActs_some le "m".toList 2 (List.replicate 4 demoLda) he demoLda hu demoLda_usual
  have hp : (acts.map (·, true)).map Prod.fst <+: acts := by simp [List.map_map, Function.comp_def]
  refine ⟨acts, h, ?_, C123_complete_partial le rfl _ _ 2 _ he demoLda demoLda_usual acts h w,
    C123_other_files le _ 2 _ he demoLda acts h _ hp w _ (by decide) (fun k _ => ?_), ?_⟩
  · obtain ⟨fl, a, bytes, g1, g2, g3, g4, g5⟩ := train_acts _ _ _ _ _ _ h
    exact C123_snapshots_partial le rfl _ "m".toList 2 (by decide) _ he demoLda acts h _ hp (by simp) w 4 (by decide)
      (by decide) demoLda demoLda_usual rfl a
      (by rw [snapActs, List.take_of_length_le (by simp), g1, Option.bind_some, g2]) (by rw [g4]; simp)
      _ (by have := padded_isName "m".toList 4
            rwa [show "m".toList ++ ['_'] ++ padded 4 = "m_004".toList by decide +kernel] at this)
  · rintro ⟨ds, e, -⟩
    have : ("other".toList).head? = some 'm' := by rw [e]; rfl
    revert this
    decide
  · obtain ⟨n, hn, y, h1, h2, -⟩ := C123_cut_loads le rfl (fun _ => junk0) "m".toList 2 _ demoLda demoLda_usual
      ⟨⟨0, by decide⟩, ⟨0, by decide⟩, by decide⟩ acts h w
    exact ⟨n, hn, y, h1, h2⟩

end Verif.Disk
