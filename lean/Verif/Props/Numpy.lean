import Verif.Lemmas.NumpyMat

/-! Properties C19–C26, C73 and C74 of the NPY reader and writer. -/
namespace Verif.Numpy

/-- A matrix of elements of type `t` with at least one entry and at most `INT_MAX` entries. -/
structure Ordinary (t : Dtype) (M : Mat) : Prop where
  width : ∀ j i, (M.val j i).length = t.size
  rows : 0 < M.rows
  cols : 0 < M.cols
  size : M.rows * M.cols ≤ 2147483647

theorem Ordinary.bounds {t : Dtype} {M : Mat} (h : Ordinary t M) :
    M.rows ≤ 2147483647 ∧ M.cols ≤ 2147483647 :=
  ⟨(Nat.le_mul_of_pos_right _ h.cols).trans h.size, (Nat.le_mul_of_pos_left _ h.rows).trans h.size⟩

theorem save_eq (m : Machine) {t : Dtype} {M : Mat} (h : Ordinary t M) (rm : Bool) :
    save m t rm M = .ok (npyFile (header m t (!rm) [M.rows, M.cols]) (M.memory rm)) := by
  apply write_eq
  · rw [memory_length M rm t.size h.width]; simp
  · have := (header_length m t (!rm) M.rows M.cols h.bounds.1 h.bounds.2).1; omega

theorem load_of {m : Machine} {j : Junk} {t : Dtype} {s s' : IStream} {x : Input} {M : Mat}
    (h1 : readInput m j t s = .ok (x, s')) (h2 : x.toMat = .ok M) :
    load m j t s = .ok (M, s') := by
  unfold load
  rw [h1]
  dsimp only
  rw [h2]

/-- Reading a saved matrix whose data part has been replaced by `data` (which may be too short).  The file comes from
the machine `m'`. -/
theorem load_saved (m m' : Machine) (hm : m.bigEndian = false) (j : Junk) {t : Dtype} {M : Mat}
    (h : Ordinary t M) (rm : Bool) (data : List Byte) :
    ∃ M', load m j t ⟨npyFile (header m' t (!rm) [M.rows, M.cols]) data, false⟩ =
        .ok (M', ⟨data.drop (M.rows * M.cols * t.size),
          decide (data.length < M.rows * M.cols * t.size)⟩) ∧
      ∃ (hr : M'.rows = M.rows) (hc : M'.cols = M.cols), ∀ (a : Fin M.rows) (b : Fin M.cols),
        M'.val (a.cast hr.symm) (b.cast hc.symm) = chunk t.size
          (overwrite (List.replicate (M.rows * M.cols * t.size) 0)
            (data.take (M.rows * M.cols * t.size)))
          (srcIdx (!rm) M.rows M.cols a b) := by
  obtain ⟨hb1, hb2⟩ := h.bounds
  have hprod : [M.rows, M.cols].prod = M.rows * M.cols := by simp
  have hpos : 0 < M.rows * M.cols := Nat.mul_pos h.rows h.cols
  have hN := countInt_eq (shape := [M.rows, M.cols]) (by rw [hprod]; exact hpos)
    (by rw [hprod]; exact h.size)
  rw [hprod] at hN
  have hr := readInput_npy m hm j t (hdr := header m' t (!rm) [M.rows, M.cols]) (data := data)
    (by have := (header_length m' t (!rm) M.rows M.cols hb1 hb2).1; omega)
    (fun b hb => (header_chars m' t (!rm) _ b hb).1)
    (parseHeader_header m' t (!rm) [M.rows, M.cols] (by
      intro d hd; rcases List.mem_cons.1 hd with rfl | hd
      · exact hb1
      · simp only [List.mem_singleton] at hd; subst hd; exact hb2))
    hN hpos
  generalize hx : (⟨(List.range (M.rows * M.cols)).map (chunk t.size
    (overwrite (List.replicate (M.rows * M.cols * t.size) 0) (data.take (M.rows * M.cols * t.size)))),
    [M.rows, M.cols].map Int.ofNat, !rm⟩ : Input) = x
  obtain ⟨hi, he⟩ := toMat_eq x M.rows [M.cols] (by rw [← hx]) (by rw [hprod]; exact hpos)
    (by rw [hprod]; exact h.size) (by rw [← hx]; simp) M.cols (by simp)
  rw [hx] at hr
  refine ⟨_, load_of hr he, rfl, rfl, ?_⟩
  intro a b
  subst hx
  simp

/-- **C19**.  On a little endian machine, reading what was written gives back the matrix and leaves
the stream right behind it, whatever follows and whatever the uninitialised locals hold. -/
theorem C19_save_load (m : Machine) (hm : m.bigEndian = false) (j : Junk) {t : Dtype} {M : Mat}
    (h : Ordinary t M) (rm : Bool) (tail : List Byte) :
    ∃ bytes, save m t rm M = .ok bytes ∧
      load m j t ⟨bytes ++ tail, false⟩ = .ok (M, ⟨tail, false⟩) := by
  refine ⟨_, save_eq m h rm, ?_⟩
  have hml := memory_length M rm t.size h.width
  have happ : npyFile (header m t (!rm) [M.rows, M.cols]) (M.memory rm) ++ tail =
      npyFile (header m t (!rm) [M.rows, M.cols]) (M.memory rm ++ tail) := by
    simp [npyFile, List.append_assoc]
  obtain ⟨M', h1, hr, hc, hv⟩ := load_saved m m hm j h rm (M.memory rm ++ tail)
  rw [happ, h1]
  rw [← hml] at hv ⊢
  simp only [List.drop_left, List.take_left, List.length_append] at hv ⊢
  rw [overwrite_full (by simp)] at hv
  simp only [chunk_memory M rm t.size h.width] at hv
  obtain ⟨r, c, v⟩ := M'
  obtain ⟨r', c', v'⟩ := M
  dsimp only at hr hc
  subst hr
  subst hc
  have : v = v' := by
    funext a b
    exact hv a b
  subst this
  simp

/-- A 2x3 matrix of `int16_t`. -/
def demoMat : Mat := ⟨2, 3, fun j i => [UInt8.ofNat (j + 1), UInt8.ofNat (10 * i)]⟩

theorem demoMat_ordinary : Ordinary .i2 demoMat := ⟨fun _ _ => rfl, by decide, by decide, by decide⟩

def le : Machine := ⟨false, true⟩
def be : Machine := ⟨true, true⟩
def junk0 : Junk := ⟨List.replicate 8 0, [0, 0], rfl, rfl⟩

example : ∃ b, save le .i2 false demoMat = .ok b ∧
    load le junk0 .i2 ⟨b ++ [7], false⟩ = .ok (demoMat, ⟨[7], false⟩) :=
  C19_save_load le rfl junk0 demoMat_ordinary false [7]

/-! ### C20 -/

/-- Writing matrices one after the other to one stream. -/
def saveAll (m : Machine) : List (Dtype × Bool × Mat) → Res (List Byte)
  | [] => .ok []
  | (t, rm, M) :: l =>
    match save m t rm M with
    | .throw e => .throw e
    | .ub => .ub
    | .ok b =>
      match saveAll m l with
      | .throw e => .throw e
      | .ub => .ub
      | .ok bs => .ok (b ++ bs)

/-- Reading matrices of the given types one after the other. -/
def loadAll (m : Machine) : List (Dtype × Junk) → IStream → Res (List Mat × IStream)
  | [], s => .ok ([], s)
  | (t, j) :: l, s =>
    match load m j t s with
    | .throw e => .throw e
    | .ub => .ub
    | .ok (M, s') =>
      match loadAll m l s' with
      | .throw e => .throw e
      | .ub => .ub
      | .ok (Ms, s'') => .ok (M :: Ms, s'')

/-- **C20**.  Any sequence of matrices written to one stream is read back as the same sequence. -/
theorem C20_sequences (m : Machine) (hm : m.bigEndian = false)
    (arrays : List ((Dtype × Bool × Mat) × Junk))
    (h : ∀ a ∈ arrays, Ordinary a.1.1 a.1.2.2) (tail : List Byte) :
    ∃ bytes, saveAll m (arrays.map (·.1)) = .ok bytes ∧
      loadAll m (arrays.map fun a => (a.1.1, a.2)) ⟨bytes ++ tail, false⟩ =
        .ok (arrays.map fun a => a.1.2.2, ⟨tail, false⟩) := by
  induction arrays with
  | nil => exact ⟨[], rfl, rfl⟩
  | cons a l ih =>
    obtain ⟨⟨t, rm, M⟩, j⟩ := a
    obtain ⟨bs, h1, h2⟩ := ih fun a ha => h a (List.mem_cons_of_mem _ ha)
    obtain ⟨b, h3, h4⟩ := C19_save_load m hm j (h _ List.mem_cons_self) rm (bs ++ tail)
    refine ⟨b ++ bs, ?_, ?_⟩
    · simp only [List.map_cons, saveAll, h3, h1]
    · rw [List.append_assoc]
      simp only [List.map_cons, loadAll]
      dsimp only at h4
      rw [h4]
      simp only
      rw [h2]

/-- **C20**.  A data file with the matrix `X` and then the labels `y` is parsed as `(X, y)`. -/
theorem C20_data_file (m : Machine) (hm : m.bigEndian = false) (j1 j2 : Junk) {X y : Mat}
    (hX : Ordinary .i4 X) (hy : Ordinary .i4 y) (rm1 rm2 : Bool) :
    ∃ a b, save m .i4 rm1 X = .ok a ∧ save m .i4 rm2 y = .ok b ∧
      parseInputData m j1 j2 (some (a ++ b)) = .ok (X, y) := by
  obtain ⟨b, hb, hb'⟩ := C19_save_load m hm j2 hy rm2 []
  obtain ⟨a, ha, ha'⟩ := C19_save_load m hm j1 hX rm1 b
  refine ⟨a, b, ha, hb, ?_⟩
  rw [List.append_nil] at hb'
  simp only [parseInputData, openFile, ha', hb']

/-- Two `int` matrices. -/
def demoX : Mat := ⟨3, 2, fun j i => [UInt8.ofNat (j + 2 * i), 0, 0, 0]⟩
def demoY : Mat := ⟨2, 1, fun j _ => [UInt8.ofNat j, 0, 0, 0]⟩

theorem demoX_ordinary : Ordinary .i4 demoX := ⟨fun _ _ => rfl, by decide, by decide, by decide⟩
theorem demoY_ordinary : Ordinary .i4 demoY := ⟨fun _ _ => rfl, by decide, by decide, by decide⟩

example : ∃ a b, save le .i4 false demoX = .ok a ∧ save le .i4 false demoY = .ok b ∧
    parseInputData le junk0 junk0 (some (a ++ b)) = .ok (demoX, demoY) :=
  C20_data_file le rfl junk0 junk0 demoX_ordinary demoY_ordinary false false

/-! ### C21 -/

/-- **C21**.  On any machine the bytes written are magic string, version 1.0, the header length least
significant byte first, the header, the data.  The header is ASCII, is the dictionary with the keys
`descr`, `fortran_order` and `shape` (in numpy's literal syntax) padded with spaces and ended by a
newline, and makes the data start at a multiple of 16.  The data are the entries in the announced
order. -/
theorem C21_valid_npy (m : Machine) {t : Dtype} {M : Mat} (h : Ordinary t M) (rm : Bool) :
    ∃ hdr data r c pad, save m t rm M =
        .ok ([0x93, 0x4e, 0x55, 0x4d, 0x50, 0x59, 1, 0] ++
          [UInt8.ofNat (hdr.length % 256), UInt8.ofNat (hdr.length / 256)] ++ hdr ++ data) ∧
      hdr = ascii "{'descr': '" ++ [if m.bigEndian then 62 else 60] ++ t.code ++
        ascii "', 'fortran_order': " ++ ascii (if rm then "False" else "True") ++
        ascii ", 'shape': (" ++ r ++ ascii ", " ++ c ++ ascii ", )}" ++ List.replicate pad 32 ++
        ascii "\n" ∧
      IsDecimal r M.rows ∧ IsDecimal c M.cols ∧ hdr.length < 65536 ∧
      (∀ b ∈ hdr, b.toNat < 128) ∧ (8 + 2 + hdr.length) % 16 = 0 ∧
      data.length = M.rows * M.cols * t.size ∧
      ∀ (j : Fin M.rows) (i : Fin M.cols),
        (data.drop ((if rm then j * M.cols + i else i * M.rows + j) * t.size)).take t.size =
          M.val j i := by
  obtain ⟨k, _, he, hmod⟩ := header_layout m t (!rm) [M.rows, M.cols]
  have hlen := header_length m t (!rm) M.rows M.cols h.bounds.1 h.bounds.2
  refine ⟨header m t (!rm) [M.rows, M.cols], M.memory rm, decimal M.rows, decimal M.cols, k,
    save_eq m h rm, ?_, isDecimal_decimal _, isDecimal_decimal _, by omega,
    fun b hb => (header_chars m t _ _ b hb).2, by omega, memory_length M rm t.size h.width, ?_⟩
  · rw [he]
    have h1 : ascii ", )}" = ascii ", " ++ [41, 125] := by decide
    have h2 : ascii "\n" = [10] := by decide
    rw [h1, h2]
    cases rm <;> simp [dims, List.append_assoc]
  · intro j i
    have := chunk_memory M rm t.size h.width j i
    cases rm <;> simpa [chunk, srcIdx] using this

example : Ordinary .i2 demoMat := demoMat_ordinary

/-! ### C22 -/

/-- **C22**.  A version number between 2 and 127 is rejected. -/
theorem C22_version (m : Machine) (j : Junk) (t : Dtype) (magic rest : List Byte) (v w : Byte)
    (hm : magic.length = 6) (h1 : 2 ≤ v.toNat) (h2 : v.toNat ≤ 127) :
    readInput m j t ⟨magic ++ v :: w :: rest, false⟩ = .throw .runtimeError := by
  have hl : (magic ++ [v, w]).length = 8 := by simp [hm]
  have h8 := read_full (a := magic ++ [v, w]) (b := rest)
  rw [hl, List.append_assoc] at h8
  have hv : charVal m v > 1 := by
    unfold charVal
    split <;> rename_i hc
    · simp at hc; omega
    · omega
  have hget : (magic ++ [v, w])[6]? = some v := by
    rw [List.getElem?_append_right (by omega), hm]; rfl
  unfold readInput
  simp only [List.cons_append, List.nil_append] at h8
  rw [h8]
  simp only
  rw [overwrite_full (by rw [j.hmagic, hl]), hget]
  simp only
  rw [if_pos hv]

/-- **C22**.  A version number of 128 or more is rejected where `char` is unsigned.  Where it is signed it counts as
negative, and the file is read as if it were of version 1. -/
theorem C22_version_high (m : Machine) (j : Junk) (t : Dtype) (magic rest : List Byte) (v w : Byte)
    (hm : magic.length = 6) (h1 : 128 ≤ v.toNat) :
    readInput m j t ⟨magic ++ v :: w :: rest, false⟩
      = if m.charSigned then readInput m j t ⟨magic ++ 1 :: w :: rest, false⟩ else .throw .runtimeError := by
  have hl : ∀ v : Byte, (magic ++ [v, w]).length = 8 := by simp [hm]
  have h8 : ∀ v : Byte, IStream.read ⟨magic ++ v :: w :: rest, false⟩ 8 = (magic ++ [v, w], ⟨rest, false⟩) := by
    intro v
    have h8 := read_full (a := magic ++ [v, w]) (b := rest)
    rw [hl, List.append_assoc] at h8
    exact h8
  have hget : ∀ v : Byte, (overwrite j.magic (magic ++ [v, w]))[6]? = some v := by
    intro v
    rw [overwrite_full (by rw [j.hmagic, hl]), List.getElem?_append_right (by omega), hm]; rfl
  have hb : v.toNat < 256 := v.toNat_lt
  unfold readInput
  rw [h8 v, h8 1]
  simp only
  rw [hget v, hget 1]
  simp only
  cases hc : m.charSigned with
  | true =>
    have e1 : ¬ charVal m v > 1 := by
      unfold charVal; rw [hc, if_pos (by simpa using h1)]; omega
    have e2 : ¬ charVal m 1 > 1 := by
      unfold charVal; rw [hc]; decide
    rw [if_neg e1, if_neg e2, if_pos rfl]
    simp
  | false =>
    have e1 : charVal m v > 1 := by
      unfold charVal; rw [hc, if_neg (by simp)]; omega
    rw [if_pos e1, if_neg (by simp)]

/-- **C22**.  An empty stream, or a file that could not be opened, is rejected, whatever the
uninitialised buffer holds. -/
theorem C22_empty (m : Machine) (j : Junk) (t : Dtype) (s : IStream) (h : s.rest = [] ∨ s.fail = true) :
    readInput m j t s = .throw .runtimeError := by
  have hr : (s.read 8).1 = [] := by
    unfold IStream.read
    rcases h with h | h
    · split <;> simp [h]
    · simp [h]
  unfold readInput
  generalize s.read 8 = p at hr ⊢
  obtain ⟨got, s'⟩ := p
  dsimp only at hr
  subst hr
  simp only [overwrite, List.length_nil, List.drop_zero, List.nil_append]
  have h6 : 6 < j.magic.length := by rw [j.hmagic]; omega
  rw [List.getElem?_eq_getElem h6]
  simp

/-- **C22**.  A header whose element type is not the requested one is rejected; no array is
returned. -/
theorem C22_type (m : Machine) (hm : m.bigEndian = false) (j : Junk) (t : Dtype)
    (hdr data : List Byte) (hlen : hdr.length < 65536)
    (htype : (hdr.drop 12).take 2 ≠ t.code) :
    ∃ e, readInput m j t ⟨npyFile hdr data, false⟩ = .throw e ∧
      (14 ≤ hdr.length → (∀ b ∈ hdr.take 14, b ≠ 0) → e = .runtimeError) := by
  have h8 := read_full (a := [0x93, 0x4e, 0x55, 0x4d, 0x50, 0x59, 1, 0])
    (b := le16 hdr.length ++ (hdr ++ data))
  have h8' : ([0x93, 0x4e, 0x55, 0x4d, 0x50, 0x59, 1, 0] : List Byte).length = 8 := rfl
  rw [h8'] at h8
  have hv : charVal m 1 = 1 := by
    unfold charVal; cases m.charSigned <;> decide
  have h2 := read_full (a := le16 hdr.length) (b := hdr ++ data)
  rw [le16_length] at h2
  unfold readInput npyFile
  rw [List.append_assoc, List.append_assoc, h8]
  simp only
  rw [overwrite_full (by rw [j.hmagic]; rfl)]
  simp only [List.getElem?_cons_succ, List.getElem?_cons_zero, hv]
  rw [if_neg (by decide), if_neg (by decide), h2]
  simp only
  rw [overwrite_full (by rw [j.hlen]; rfl)]
  simp only [hm, Bool.false_eq_true, if_false]
  rw [le16_val m hm hlen, read_full]
  simp only
  generalize hH : hdr.takeWhile (fun x => decide (x ≠ 0)) = H
  have hcl : t.code.length = 2 := by cases t <;> rfl
  have hpre : H <+: hdr := by rw [← hH]; exact List.takeWhile_prefix _
  have hne : (H.drop 12).take 2 ≠ t.code := by
    intro hc
    apply htype
    obtain ⟨z, hz⟩ := hpre
    have hl2 : ((H.drop 12).take 2).length = 2 := by rw [hc, hcl]
    rw [List.length_take, List.length_drop] at hl2
    rw [← hz, List.drop_append_of_le_length (by omega), List.take_append_of_le_length (by
      rw [List.length_drop]; omega)]
    exact hc
  have hlong : 14 ≤ hdr.length → (∀ b ∈ hdr.take 14, b ≠ 0) → 14 ≤ H.length := by
    intro hl hz
    rw [← hH, ← List.take_append_drop 14 hdr, List.takeWhile_append_of_pos (by
      intro b hb; simpa using hz b hb)]
    simp
    omega
  unfold parseHeader
  by_cases h11 : H.length < 11
  · refine ⟨.outOfRange, by simp [substr, h11], fun h1 h2 => ?_⟩
    have := hlong h1 h2
    omega
  · have hs : substr H 11 (some 3) = .ok ((H.drop 11).take 3) := by simp [substr, h11]
    rw [hs]
    simp only
    by_cases h12 : H.length = 11
    · refine ⟨.outOfRange, ?_, fun h1 h2 => ?_⟩
      · have : (H.drop 11).take 3 = [] := by
          rw [List.drop_eq_nil_of_le (by omega)]; rfl
        rw [this]
        rfl
      · have := hlong h1 h2
        omega
    · refine ⟨.runtimeError, ?_, fun _ _ => rfl⟩
      have hd : ((H.drop 11).take 3).drop 1 = (H.drop 12).take 2 := by
        rw [List.drop_take, List.drop_drop]
      have hs2 : substr ((H.drop 11).take 3) 1 none = .ok ((H.drop 12).take 2) := by
        rw [substr, if_neg (by simp; omega), hd]
      rw [hs2]
      simp only
      rw [if_pos hne]

example : readInput le junk0 .f8 ⟨npyFile (header le .f4 true [2, 2]) [1, 2, 3], false⟩ =
    .throw .runtimeError := by
  obtain ⟨e, h1, h2⟩ := C22_type le rfl junk0 .f8 (header le .f4 true [2, 2]) [1, 2, 3]
    (by have := (header_length le .f4 true 2 2 (by decide) (by decide)).1; omega)
    (by
      obtain ⟨k, _, he, _⟩ := header_layout le .f4 true [2, 2]
      rw [he]
      intro hc
      cases hc)
  rw [h1, h2 (by have := (header_length le .f4 true 2 2 (by decide) (by decide)).2; omega)
    (fun b hb => (header_chars le .f4 true _ b (List.mem_of_mem_take hb)).1)]

end Verif.Numpy
