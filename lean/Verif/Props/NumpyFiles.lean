import Verif.Props.Numpy

/-! Properties C23–C26, C73 and C74 of the NPY reader and writer. -/
namespace Verif.Numpy

/-! ### C23 -/

theorem intercalate_cons2 (sep d e : List Byte) (l : List (List Byte)) :
    sep.intercalate (d :: e :: l) = d ++ sep ++ sep.intercalate (e :: l) := by
  simp [List.intercalate, List.intersperse]

theorem decimal_chars {s : List Byte} {n : Nat} (h : IsDecimal s n) :
    ∀ b ∈ s, b ≠ 40 ∧ b ≠ 41 ∧ b ≠ 0 := by
  intro b hb
  have := isDigit_facts (h.isDigit b hb)
  exact ⟨this.2.2.2.1, this.2.2.2.2.1, this.2.2.2.2.2.1⟩

/-- What stands between the parentheses. -/
def tupleText : List (List Byte) → List Byte
  | [] => []
  | [d] => d ++ [44]
  | ds => (ascii ", ").intercalate ds

theorem pyTuple_eq (ds : List (List Byte)) : pyTuple ds = 40 :: (tupleText ds ++ [41]) := by
  have h1 : ascii "(" = [40] := by decide
  have h2 : ascii ")" = [41] := by decide
  have h3 : ascii ",)" = [44, 41] := by decide
  have h4 : ascii "()" = [40, 41] := by decide
  unfold pyTuple tupleText
  split <;> simp [h1, h2, h3, h4]

theorem intercalate_chars {strs : List (List Byte)} {shape : List Nat}
    (h : List.Forall₂ IsDecimal strs shape) :
    ∀ b ∈ (ascii ", ").intercalate strs, b ≠ 40 ∧ b ≠ 41 ∧ b ≠ 0 := by
  have hsep : ∀ b ∈ ascii ", ", b ≠ 40 ∧ b ≠ 41 ∧ b ≠ 0 := by decide
  induction h with
  | nil => intro b hb; simp [List.intercalate] at hb
  | @cons d n l ns hd hl ih =>
    cases l with
    | nil => intro b hb; simp [List.intercalate] at hb; exact decimal_chars hd b hb
    | cons e l =>
      intro b hb
      rw [intercalate_cons2] at hb
      simp only [List.mem_append] at hb
      rcases hb with (hb | hb) | hb
      · exact decimal_chars hd b hb
      · exact hsep b hb
      · exact ih b hb

theorem tupleText_chars {strs : List (List Byte)} {shape : List Nat}
    (h : List.Forall₂ IsDecimal strs shape) :
    ∀ b ∈ tupleText strs, b ≠ 40 ∧ b ≠ 41 ∧ b ≠ 0 := by
  intro b hb
  unfold tupleText at hb
  split at hb
  · cases hb
  · rcases List.mem_append.1 hb with hb | hb
    · cases h with
      | cons hd _ => exact decimal_chars hd b hb
    · simp only [List.mem_singleton] at hb; subst hb; decide
  · exact intercalate_chars h b hb

theorem parseShape_intercalate {strs : List (List Byte)} {shape : List Nat}
    (h : List.Forall₂ IsDecimal strs shape) (hne : strs ≠ []) (hd : ∀ d ∈ shape, d ≤ 2147483647)
    (rest : List Byte) :
    parseShape ((ascii ", ").intercalate strs ++ 41 :: 44 :: 32 :: 125 :: rest) =
      .ok (shape.map Int.ofNat) := by
  induction h with
  | nil => exact absurd rfl hne
  | @cons d n l ns hdn hl ih =>
    cases l with
    | nil =>
      cases hl
      have : (ascii ", ").intercalate [d] = d := by simp [List.intercalate]
      rw [this]
      refine parseShape_cons hdn (hd n (by simp)) 41 44 _ (by decide) (parseShape_invalid ?_)
      exact stoi_invalid_of (s := [32]) (by decide) (by decide) (by decide) (by decide) (by decide)
    | cons e l =>
      have h2 : ascii ", " = [44, 32] := by decide
      rw [intercalate_cons2]
      have := ih (by simp) (fun d' h' => hd d' (List.mem_cons_of_mem _ h'))
      have hc := parseShape_cons hdn (hd n (by simp)) 44 32 _ (by decide) this
      refine Eq.trans ?_ hc
      simp [h2]

theorem parseShape_tuple {strs : List (List Byte)} {shape : List Nat}
    (h : List.Forall₂ IsDecimal strs shape) (hd : ∀ d ∈ shape, d ≤ 2147483647)
    (rest : List Byte) :
    parseShape (tupleText strs ++ 41 :: 44 :: 32 :: 125 :: rest) = .ok (shape.map Int.ofNat) := by
  match strs, h with
  | [], .nil =>
    exact parseShape_invalid
      (stoi_invalid_of (s := []) (by simp) (by decide) (by decide) (by decide) (by decide))
  | [d], .cons hdn .nil =>
    rename_i n
    have : tupleText [d] ++ 41 :: 44 :: 32 :: 125 :: rest =
      d ++ 44 :: 41 :: (44 :: 32 :: 125 :: rest) := by simp [tupleText]
    rw [this]
    refine parseShape_cons hdn (hd n (by simp)) 44 41 _ (by decide) (parseShape_invalid ?_)
    exact stoi_invalid_of (s := []) (by decide) (by decide) (by decide) (by decide) (by decide)
  | d :: e :: l, h => exact parseShape_intercalate h (by simp) hd rest

theorem numpyHeader_layout (order : Byte) (code : List Byte) (f : Bool) (ds : List (List Byte))
    (pad : Nat) :
    numpyHeader order code f ds pad = ascii "{'descr': '" ++ [order] ++ code ++
      ascii "', 'fortran_order': " ++ ascii (if f then "True" else "False") ++
      ascii ", 'shape': (" ++ tupleText ds ++ 41 :: (44 :: 32 :: 125 :: (List.replicate pad 32 ++ [10])) := by
  have h1 : ascii ", 'shape': (" = ascii ", 'shape': " ++ [40] := by decide
  have h2 : ascii ", }" = [44, 32, 125] := by decide
  have h3 : ascii "\n" = [10] := by decide
  unfold numpyHeader
  rw [pyTuple_eq, h1, h2, h3]
  simp [List.append_assoc]

theorem parseHeader_numpy (t : Dtype) (order : Byte) (f : Bool) {strs : List (List Byte)}
    {shape : List Nat} (h : List.Forall₂ IsDecimal strs shape) (hd : ∀ d ∈ shape, d ≤ 2147483647)
    (pad : Nat) :
    parseHeader t (numpyHeader order t.code f strs pad) =
      .ok (order == 62, f, shape.map Int.ofNat) := by
  rw [numpyHeader_layout]
  refine parseHeader_layout t order f (tupleText strs) _
    (fun b hb => ⟨(tupleText_chars h b hb).1, (tupleText_chars h b hb).2.1⟩) ?_ ?_
  · intro b hb
    simp only [List.mem_cons, List.mem_append, List.mem_replicate, List.not_mem_nil, or_false] at hb
    rcases hb with rfl | rfl | rfl | ⟨_, rfl⟩ | rfl <;> decide
  · intro k hk
    obtain ⟨k', rfl⟩ : ∃ k', k = k' + 1 + 1 + 1 + 1 := ⟨k - 4, by omega⟩
    rw [List.take_succ_cons, List.take_succ_cons, List.take_succ_cons, List.take_succ_cons]
    exact parseShape_tuple h hd _

theorem numpyHeader_nul (t : Dtype) (order : Byte) (ho : order ≠ 0) (f : Bool)
    {strs : List (List Byte)} {shape : List Nat} (h : List.Forall₂ IsDecimal strs shape) (pad : Nat) :
    ∀ b ∈ numpyHeader order t.code f strs pad, b ≠ 0 := by
  intro b hb
  rw [numpyHeader_layout] at hb
  simp only [List.mem_append, List.mem_cons, List.mem_replicate] at hb
  have hs : ∀ l : List Byte, (∀ b ∈ l, b ≠ 0) → b ∈ l → b ≠ 0 := fun l h hb => h b hb
  rcases hb with ((((((h' | h') | h') | h') | h') | h') | h') | h'
  · exact hs _ (by decide) h'
  · rcases h' with h' | h'
    · subst h'; exact ho
    · cases h'
  · refine hs _ ?_ h'; cases t <;> decide
  · exact hs _ (by decide) h'
  · refine hs _ ?_ h'; cases f <;> decide
  · exact hs _ (by decide) h'
  · exact (tupleText_chars h b h').2.2
  · rcases h' with rfl | rfl | rfl | rfl | ⟨_, rfl⟩ | rfl | h'
    · decide
    · decide
    · decide
    · decide
    · decide
    · decide
    · cases h'

theorem cOffset_lt {ds is : List Nat} (h : IsIndex ds is) : cOffset ds is < ds.prod := by
  induction h with
  | nil => simp [cOffset]
  | @cons d ds i is hi hds ih =>
    rw [cOffset, List.prod_cons]
    calc i * ds.prod + cOffset ds is < i * ds.prod + ds.prod := by omega
      _ = (i + 1) * ds.prod := by ring
      _ ≤ d * ds.prod := Nat.mul_le_mul_right _ hi

theorem fOffset_lt {ds is : List Nat} (h : IsIndex ds is) : fOffset ds is < ds.prod := by
  induction h with
  | nil => simp [fOffset]
  | @cons d ds i is hi hds ih =>
    rw [fOffset, List.prod_cons]
    calc i + d * fOffset ds is < d + d * fOffset ds is := by omega
      _ = d * (fOffset ds is + 1) := by ring
      _ ≤ d * ds.prod := Nat.mul_le_mul_left _ ih

/-- **C23**.  A file as numpy writes it (any shape with one or more dimensions, C or Fortran order,
native byte order) is read with the right shape; element `(j, i₂, i₃, ...)` of the array arrives in
row `j` and in the column that is the position of `(i₂, i₃, ...)` in the same order; the stream is
left behind the array. -/
theorem C23_numpy_files (m : Machine) (hm : m.bigEndian = false) (junk : Junk) (t : Dtype)
    (order : Byte) (ho : order = 60 ∨ order = 61 ∨ order = 124) (f : Bool) (pad : Nat)
    {strs : List (List Byte)} (d : Nat) (ds : List Nat)
    (hstrs : List.Forall₂ IsDecimal strs (d :: ds))
    (h0 : 0 < (d :: ds).prod) (hmax : (d :: ds).prod ≤ 2147483647)
    (hlen : (numpyHeader order t.code f strs pad).length < 65536)
    (data tail : List Byte) (hdata : data.length = (d :: ds).prod * t.size) :
    ∃ M, load m junk t ⟨npyFile (numpyHeader order t.code f strs pad) (data ++ tail), false⟩ =
        .ok (M, ⟨tail, false⟩) ∧
      M.rows = d ∧ M.cols = ds.prod ∧
      ∀ j is, IsIndex (d :: ds) (j :: is) →
        ∃ (hj : j < M.rows) (hi : (if f then fOffset ds is else cOffset ds is) < M.cols),
          M.val ⟨j, hj⟩ ⟨_, hi⟩ =
            (data.drop ((if f then fOffset (d :: ds) (j :: is) else cOffset (d :: ds) (j :: is))
              * t.size)).take t.size := by
  have hle := le_prod_of_mem h0
  have ho0 : order ≠ 0 := by rcases ho with rfl | rfl | rfl <;> decide
  have hr := readInput_npy m hm junk t (data := data ++ tail) hlen
    (numpyHeader_nul t order ho0 f hstrs pad)
    (parseHeader_numpy t order f hstrs (fun x hx => (hle x hx).trans hmax) pad)
    (countInt_eq h0 hmax) h0
  rw [← hdata] at hr
  rw [List.take_left, List.drop_left, overwrite_full (by simp)] at hr
  have hnf : decide ((data ++ tail).length < data.length) = false := by simp
  rw [hnf] at hr
  generalize hx : (⟨(List.range (d :: ds).prod).map (chunk t.size data), (d :: ds).map Int.ofNat, f⟩
    : Input) = x at hr
  obtain ⟨hi, he⟩ := toMat_eq x d ds (by rw [← hx]) h0 hmax (by rw [← hx]; simp) ds.prod rfl
  refine ⟨_, load_of hr he, rfl, rfl, ?_⟩
  intro j is hidx
  cases hidx with
  | cons hj his =>
    have hoff : (if f then fOffset ds is else cOffset ds is) < ds.prod := by
      split
      · exact fOffset_lt his
      · exact cOffset_lt his
    refine ⟨hj, hoff, ?_⟩
    subst hx
    simp only [List.getElem_map, List.getElem_range]
    have : srcIdx f d ds.prod j (if f then fOffset ds is else cOffset ds is) =
        if f then fOffset (d :: ds) (j :: is) else cOffset (d :: ds) (j :: is) := by
      cases f
      · simp [srcIdx, cOffset]
      · simp [srcIdx, fOffset, Nat.mul_comm, Nat.add_comm]
    rw [this]
    rfl

/-- A 2x3x2 array of bytes as numpy writes it satisfies the hypotheses. -/
example : ∃ M, load le junk0 .u1 ⟨npyFile (numpyHeader 124 Dtype.u1.code false
      [[50], [51], [50]] 4) ((List.range 12).map UInt8.ofNat ++ []), false⟩ = .ok (M, ⟨[], false⟩) ∧
    M.rows = 2 ∧ M.cols = 6 := by
  have hd : ∀ n : Fin 10, IsDecimal [UInt8.ofNat (48 + n)] n := by
    intro n
    have := isDecimal_decimal n
    rw [decimal, if_pos n.2] at this
    exact this
  obtain ⟨M, h1, h2, h3, _⟩ := C23_numpy_files le rfl junk0 .u1 124 (by decide) false 4 2 [3, 2]
    (strs := [[50], [51], [50]]) (.cons (hd 2) (.cons (hd 3) (.cons (hd 2) .nil))) (by decide)
    (by decide) (by decide) ((List.range 12).map UInt8.ofNat) [] (by decide)
  exact ⟨M, h1, h2, h3⟩

/-! ### C24 -/

/-- The same values in the memory of a machine of the other byte order. -/
def Mat.swapped (M : Mat) : Mat := ⟨M.rows, M.cols, fun j i => (M.val j i).reverse⟩

theorem Ordinary.swapped {t : Dtype} {M : Mat} (h : Ordinary t M) : Ordinary t M.swapped :=
  ⟨fun j i => by simpa [Mat.swapped] using h.width j i, h.rows, h.cols, h.size⟩

/-- Reading on a little endian machine what a big endian machine wrote: the bytes of every entry
stay reversed. -/
theorem C24_foreign_bytes_reversed (m m' : Machine) (hm : m.bigEndian = false) (_hm' : m'.bigEndian = true)
    (j : Junk) {t : Dtype} {M : Mat} (h : Ordinary t M) (rm : Bool) :
    ∃ bytes, save m' t rm M.swapped = .ok bytes ∧
      load m j t ⟨bytes, false⟩ = .ok (M.swapped, ⟨[], false⟩) := by
  have hs := h.swapped
  refine ⟨_, save_eq m' hs rm, ?_⟩
  have hml := memory_length M.swapped rm t.size hs.width
  obtain ⟨M', h1, hr, hc, hv⟩ := load_saved m m' hm j hs rm (M.swapped.memory rm)
  rw [h1]
  rw [← hml] at hv ⊢
  rw [List.take_length, overwrite_full (by simp)] at hv
  simp only [chunk_memory M.swapped rm t.size hs.width] at hv
  generalize M.swapped = W at *
  obtain ⟨r, c, v⟩ := M'
  obtain ⟨r', c', v'⟩ := W
  dsimp only at hr hc
  subst hr
  subst hc
  have : v = v' := by
    funext a b
    exact hv a b
  subst this
  simp

/-- **C24**, the part that holds: the values survive exactly when the bytes of every entry read the
same in both directions (always so for one byte elements). -/
theorem C24_byte_order_partial (m m' : Machine) (hm : m.bigEndian = false) (hm' : m'.bigEndian = true)
    (j : Junk) {t : Dtype} {M : Mat} (h : Ordinary t M) (rm : Bool) :
    ∃ bytes, save m' t rm M.swapped = .ok bytes ∧
      (load m j t ⟨bytes, false⟩ = .ok (M, ⟨[], false⟩) ↔
        ∀ a b, (M.val a b).reverse = M.val a b) := by
  obtain ⟨bytes, h1, h2⟩ := C24_foreign_bytes_reversed m m' hm hm' j h rm
  refine ⟨bytes, h1, ?_⟩
  rw [h2]
  obtain ⟨r, c, v⟩ := M
  simp only [Mat.swapped, Res.ok.injEq, Prod.mk.injEq, and_true, Mat.mk.injEq, heq_eq_eq, true_and]
  constructor
  · intro hv a b
    exact congrFun (congrFun hv a) b
  · intro hv
    funext a b
    exact hv a b

/-- **C24** is false: a matrix of two byte integers from a big endian machine is read with other
values. -/
theorem C24_byte_order_ignored : ∃ (M : Mat) (bytes : List Byte), Ordinary .i2 M ∧
    save be .i2 false M.swapped = .ok bytes ∧
    ∃ M' s, load le junk0 .i2 ⟨bytes, false⟩ = .ok (M', s) ∧ M' ≠ M := by
  obtain ⟨bytes, h1, h2⟩ := C24_foreign_bytes_reversed le be rfl rfl junk0 demoMat_ordinary false
  refine ⟨demoMat, bytes, demoMat_ordinary, h1, _, _, h2, ?_⟩
  intro h
  have : ∀ M : Mat, M = demoMat → ∃ (h0 : 0 < M.rows) (h1 : 0 < M.cols), M.val ⟨0, h0⟩ ⟨0, h1⟩ = [1, 0] := by
    rintro M rfl
    exact ⟨by decide, by decide, by decide⟩
  obtain ⟨_, _, h3⟩ := this _ h
  exact absurd h3 (by simp [demoMat, Mat.swapped])

/-! ### C25 -/

/-- **C25** is false: a file cut anywhere inside the data is read without an exception.  The entries
behind the cut are filled with zero bytes. -/
theorem C25_truncated_accepted (m : Machine) (hm : m.bigEndian = false) (j : Junk) {t : Dtype}
    {M : Mat} (h : Ordinary t M) (rm : Bool) (cut : Nat) (hcut : cut < M.rows * M.cols * t.size) :
    ∃ hdr data, save m t rm M = .ok (npyFile hdr data) ∧ data.length = M.rows * M.cols * t.size ∧
      ∃ M', load m j t ⟨npyFile hdr (data.take cut), false⟩ = .ok (M', ⟨[], true⟩) ∧
        ∃ (hr : M'.rows = M.rows) (hc : M'.cols = M.cols), ∀ (a : Fin M.rows) (b : Fin M.cols),
          M'.val (a.cast hr.symm) (b.cast hc.symm) =
            ((data.take cut ++ List.replicate (data.length - cut) 0).drop
              ((if rm then a * M.cols + b else b * M.rows + a) * t.size)).take t.size := by
  have hml := memory_length M rm t.size h.width
  refine ⟨_, _, save_eq m h rm, hml, ?_⟩
  obtain ⟨M', h1, hr, hc, hv⟩ := load_saved m m hm j h rm ((M.memory rm).take cut)
  rw [← hml] at h1 hv
  have hl : ((M.memory rm).take cut).length = cut := by rw [List.length_take]; omega
  have hd : ((M.memory rm).take cut).drop (M.memory rm).length = [] :=
    List.drop_eq_nil_of_le (by omega)
  have hf : decide (((M.memory rm).take cut).length < (M.memory rm).length) = true := by
    rw [hl]; simp; omega
  rw [hd, hf] at h1
  refine ⟨M', h1, hr, hc, ?_⟩
  intro a b
  rw [hv a b, List.take_of_length_le (by omega)]
  unfold chunk overwrite
  rw [hl, List.drop_replicate]
  cases rm <;> rfl

/-- The loss is real: a nonzero matrix comes back different. -/
theorem C25_silent_corruption : ∃ (M : Mat) (bytes : List Byte), Ordinary .i2 M ∧
    save le .i2 false M = .ok bytes ∧
    ∃ n M' s, n < bytes.length ∧ load le junk0 .i2 ⟨bytes.take n, false⟩ = .ok (M', s) ∧ M' ≠ M := by
  obtain ⟨hdr, data, h1, h2, M', h3, hr, hc, hv⟩ :=
    C25_truncated_accepted le rfl junk0 demoMat_ordinary false 0 (by decide)
  have hn : npyFile hdr (data.take 0) = (npyFile hdr data).take (10 + hdr.length) := by
    have : ([0x93, 0x4e, 0x55, 0x4d, 0x50, 0x59, 1, 0] ++ le16 hdr.length ++ hdr : List Byte).length =
        10 + hdr.length := by
      simp only [List.length_append, le16_length]; rfl
    unfold npyFile
    rw [← this, List.take_left]
    simp
  refine ⟨demoMat, _, demoMat_ordinary, h1, 10 + hdr.length, M', _, ?_, by rw [← hn]; exact h3, ?_⟩
  · unfold npyFile
    simp only [List.length_append, le16_length, h2]
    simp [demoMat, Dtype.size]
  · rintro rfl
    have := hv ⟨0, by decide⟩ ⟨0, by decide⟩
    rw [h2] at this
    exact absurd this (by simp [demoMat, Dtype.size])

/-- **C25**, the part that holds: a stream with fewer than 24 bytes (nothing, or cut before the
element type is complete) is always answered with an exception, whatever the uninitialised locals
hold.  What is missing: cuts later in the header and inside the data. -/
theorem C25_short_files_rejected_partial (m : Machine) (j : Junk) (t : Dtype) (bytes : List Byte)
    (h : bytes.length < 24) : ∃ e, readInput m j t ⟨bytes, false⟩ = .throw e := by
  have hread : ∀ (s : IStream) (n : Nat), (s.read n).1.length + (s.read n).2.rest.length ≤ s.rest.length ∧
      (s.read n).1.length ≤ n ∧ ((s.read n).2.fail = false → (s.read n).1.length = n) := by
    intro s n
    unfold IStream.read
    split
    · rename_i hf; simp [hf]
    · simp; omega
  have hfail : ∀ (s : IStream) (n : Nat), s.fail = true → (s.read n).1 = [] ∧ (s.read n).2.fail = true := by
    intro s n hf; simp [IStream.read, hf]
  unfold readInput
  have r1 := hread ⟨bytes, false⟩ 8
  generalize (⟨bytes, false⟩ : IStream).read 8 = p1 at r1
  obtain ⟨got1, s1⟩ := p1
  dsimp only at r1 ⊢
  have hl : 6 < (overwrite j.magic got1).length := by
    unfold overwrite
    rw [List.length_append, List.length_drop, j.hmagic]
    omega
  rw [List.getElem?_eq_getElem hl]
  dsimp only
  split
  · exact ⟨_, rfl⟩
  split
  · exact ⟨_, rfl⟩
  have r2 := hread s1 2
  have f2 := hfail s1 2
  generalize s1.read 2 = p2 at r2 f2
  obtain ⟨got2, s2⟩ := p2
  dsimp only at r2 f2 ⊢
  generalize (val16 m _) = L
  have r3 := hread s2 L
  have f3 := hfail s2 L
  generalize s2.read L = p3 at r3 f3
  obtain ⟨got3, s3⟩ := p3
  dsimp only at r3 f3 ⊢
  have hg : got3.length ≤ 13 := by
    by_cases hs2 : s2.fail = true
    · rw [(f3 hs2).1]; simp
    · have hs2' : s2.fail = false := by simpa using hs2
      by_cases hs1 : s1.fail = true
      · exact absurd (f2 hs1).2 hs2
      · have hs1' : s1.fail = false := by simpa using hs1
        have a := r1.2.2 hs1'
        have b := r2.2.2 hs2'
        omega
  generalize hH : got3.takeWhile (fun x => decide (x ≠ 0)) = H
  have hHl : H.length ≤ 13 := by
    rw [← hH]; exact (List.takeWhile_prefix _).length_le.trans hg
  have hcl : t.code.length = 2 := by cases t <;> rfl
  suffices hp : ∃ e, parseHeader t H = .throw e by
    obtain ⟨e, he⟩ := hp
    exact ⟨e, by rw [he]⟩
  unfold parseHeader
  by_cases h11 : H.length < 11
  · exact ⟨.outOfRange, by simp [substr, h11]⟩
  · have hs : substr H 11 (some 3) = .ok ((H.drop 11).take 3) := by simp [substr, h11]
    rw [hs]
    dsimp only
    by_cases h12 : ((H.drop 11).take 3).length < 1
    · exact ⟨.outOfRange, by rw [substr, if_pos h12]⟩
    · refine ⟨.runtimeError, ?_⟩
      rw [substr, if_neg h12]
      dsimp only
      rw [if_pos]
      intro hc
      have := congrArg List.length hc
      rw [hcl] at this
      simp at this
      omega

/-! ### C26 -/

/-- **C26**.  Loading a model file gives back the model saved in it. -/
theorem C26_model_round_trip (m : Machine) (hm : m.bigEndian = false) (j : Nat → Junk) (x : LdaModel)
    (ha : Ordinary .f8 x.alpha) (hb : Ordinary .f8 x.beta) (he : Ordinary .f8 x.eta) :
    ∃ file, saveLda m x = .ok file ∧ loadLda m j (some file) = .ok x := by
  obtain ⟨c, h5, h6⟩ := C19_save_load m hm (j 2) he false []
  obtain ⟨b, h3, h4⟩ := C19_save_load m hm (j 1) hb false c
  obtain ⟨a, h1, h2⟩ := C19_save_load m hm (j 0) ha false (b ++ c)
  refine ⟨a ++ b ++ c, by simp [saveLda, h1, h3, h5], ?_⟩
  rw [List.append_nil] at h6
  rw [List.append_assoc]
  simp only [loadLda, openFile, h2, h4, h6]

/-- A model with two topics, three words and two classes. -/
def demoLda : LdaModel :=
  ⟨⟨2, 1, fun j _ => [0, 0, 0, 0, 0, 0, 240, UInt8.ofNat (63 + j)]⟩,
   ⟨2, 3, fun j i => [0, UInt8.ofNat i, 0, 0, 0, 0, 240, UInt8.ofNat (63 + j)]⟩,
   ⟨2, 2, fun j i => [UInt8.ofNat i, 0, 0, 0, 0, 0, 240, UInt8.ofNat (63 + j)]⟩⟩

example : ∃ file, saveLda le demoLda = .ok file ∧ loadLda le (fun _ => junk0) (some file) = .ok demoLda :=
  C26_model_round_trip le rfl _ demoLda ⟨fun _ _ => rfl, by decide, by decide, by decide⟩
    ⟨fun _ _ => rfl, by decide, by decide, by decide⟩ ⟨fun _ _ => rfl, by decide, by decide, by decide⟩

/-! ### C73 -/

/-- Reading a version 1.0 file on a big endian machine: the header length is taken with its bytes exchanged. -/
theorem readInput_big (m : Machine) (hm : m.bigEndian = true) (j : Junk) (t : Dtype) {hdr data : List Byte}
    (hlen : hdr.length < 256) :
    readInput m j t ⟨npyFile hdr data, false⟩ =
      match parseHeader t (((hdr ++ data).take (hdr.length * 256)).takeWhile (· ≠ 0)) with
      | .throw e => .throw e
      | .ub => .ub
      | .ok (e, f, vs) => readData m t ⟨(hdr ++ data).drop (hdr.length * 256),
          decide ((hdr ++ data).length < hdr.length * 256)⟩ e f vs := by
  have h8 := read_full (a := [0x93, 0x4e, 0x55, 0x4d, 0x50, 0x59, 1, 0])
    (b := le16 hdr.length ++ (hdr ++ data))
  have h8' : ([0x93, 0x4e, 0x55, 0x4d, 0x50, 0x59, 1, 0] : List Byte).length = 8 := rfl
  rw [h8'] at h8
  have hv : charVal m 1 = 1 := by
    unfold charVal; cases m.charSigned <;> decide
  have h2 := read_full (a := le16 hdr.length) (b := hdr ++ data)
  rw [le16_length] at h2
  have hv16 : val16 m (le16 hdr.length) = hdr.length * 256 := by
    have h3 : hdr.length / 256 = 0 := by omega
    have h4 : hdr.length % 256 = hdr.length := by omega
    unfold le16
    rw [h3, h4]
    simp only [val16, hm, if_true]
    rw [UInt8.toNat_ofNat', UInt8.toNat_ofNat']
    simp
    omega
  unfold readInput npyFile
  rw [List.append_assoc, List.append_assoc, h8]
  dsimp only
  rw [overwrite_full (by rw [j.hmagic]; rfl)]
  simp only [List.getElem?_cons_succ, List.getElem?_cons_zero, hv]
  rw [if_neg (by decide), if_neg (by decide), h2]
  dsimp only
  rw [overwrite_full (by rw [j.hlen]; rfl)]
  simp only [hm, if_true, swapEndianess, List.flatten_cons, List.flatten_nil, List.append_nil]
  rw [hv16]
  simp only [IStream.read, Bool.false_eq_true, if_false]
  rfl

theorem parseHeader_order {t : Dtype} {H : List Byte} {e f : Bool} {vs : List Int}
    (h : parseHeader t H = .ok (e, f, vs)) : f = (H[34]? == some 84) := by
  unfold parseHeader at h
  split at h
  · cases h
  · cases h
  · dsimp only at h
    split at h
    · cases h
    · cases h
    · split at h
      · cases h
      · split at h
        · cases h
        · split at h
          · cases h
          · cases h
          · split at h
            · cases h
            · cases h
            · simp only [Res.ok.injEq, Prod.mk.injEq] at h
              exact h.2.1.symm

theorem toMat_ok {x : Input} {M : Mat} (h : x.toMat = .ok M) (a : Fin M.rows) (b : Fin M.cols) :
    ∃ hi : srcIdx x.fortran M.rows M.cols a b < x.data.length, M.val a b = x.data[srcIdx x.fortran M.rows M.cols a b] := by
  unfold Input.toMat at h
  split at h
  · cases h
  · dsimp only at h
    split at h
    · cases h
    · unfold Input.copy at h
      split at h
      · rename_i hh
        simp only [Res.ok.injEq] at h
        subst h
        exact ⟨hh a b, rfl⟩
      · cases h

theorem srcIdx_surj (f : Bool) {rows cols q : Nat} (hq : q < rows * cols) :
    ∃ (a : Fin rows) (b : Fin cols), srcIdx f rows cols a b = q := by
  have hr : 0 < rows := Nat.pos_of_ne_zero (by rintro rfl; simp at hq)
  have hc : 0 < cols := Nat.pos_of_ne_zero (by rintro rfl; simp at hq)
  unfold srcIdx
  cases f
  · refine ⟨⟨q / cols, (Nat.div_lt_iff_lt_mul hc).2 hq⟩, ⟨q % cols, Nat.mod_lt _ hc⟩, ?_⟩
    simpa [Nat.mul_comm] using Nat.div_add_mod q cols
  · refine ⟨⟨q % rows, Nat.mod_lt _ hr⟩, ⟨q / rows, (Nat.div_lt_iff_lt_mul hr).2 (by rwa [Nat.mul_comm])⟩, ?_⟩
    simpa [Nat.mul_comm] using Nat.div_add_mod q rows

theorem chunk_getElem? (w : Nat) (bytes : List Byte) (q r : Nat) (hr : r < w) :
    (chunk w bytes q)[r]? = bytes[q * w + r]? := by
  rw [chunk, List.getElem?_take, if_pos hr, List.getElem?_drop]

/-- A list that equals its own tail from `k > 0` on, filled up with zeros, is zero. -/
theorem zero_of_shift {data mem : List Byte} {k : Nat} (hk : 0 < k)
    (h1 : ∀ p < data.length, mem[p]? = data[p]?)
    (h2 : ∀ p b, mem[p]? = some b → b = 0 ∨ data[p + k]? = some b) : ∀ b ∈ data, b = 0 := by
  have key : ∀ d p, data.length - p ≤ d → ∀ b, data[p]? = some b → b = 0 := by
    intro d
    induction d with
    | zero =>
      intro p hp b hb
      have := (List.getElem?_eq_some_iff.1 hb).1
      omega
    | succ d ih =>
      intro p hp b hb
      have hlt := (List.getElem?_eq_some_iff.1 hb).1
      rcases h2 p b (by rw [h1 p hlt, hb]) with h | h
      · exact h
      · exact ih (p + k) (by omega) b h
  intro b hb
  obtain ⟨p, hp⟩ := List.getElem?_of_mem hb
  exact key _ p le_rfl b hp

theorem readData_order {m : Machine} {t : Dtype} {s : IStream} {e f : Bool} {vs : List Int} {x : Input} {s' : IStream}
    (h : readData m t s e f vs = .ok (x, s')) : x.fortran = f ∧
      ∃ (N : Nat) (mem : List Byte), x.data = (List.range N).map (chunk t.size mem) ∧ mem.length = N * t.size ∧
        ∀ (p : Nat) (b : Byte), mem[p]? = some b → b = 0 ∨ s.rest[p]? = some b := by
  unfold readData at h
  dsimp only at h
  split at h
  · cases h
  split at h
  · cases h
  simp only [swapEndianess, ite_self, Res.ok.injEq, Prod.mk.injEq] at h
  rw [← h.1]
  have hgl : (s.read ((countInt vs).toNat * t.size)).1.length ≤ (countInt vs).toNat * t.size := by
    unfold IStream.read
    split
    · simp
    · simp only [List.length_take]; omega
  refine ⟨rfl, _, _, rfl, ?_, ?_⟩
  · simp only [overwrite, List.length_append, List.length_drop, List.length_replicate]
    omega
  · intro p b hb
    rw [overwrite, List.getElem?_append] at hb
    split at hb
    · right
      unfold IStream.read at hb
      split at hb
      · simp at hb
      · rw [List.getElem?_take] at hb
        split at hb
        · exact hb
        · cases hb
    · left
      rw [List.getElem?_drop, List.getElem?_replicate] at hb
      split at hb
      · exact (Option.some.inj hb).symm
      · cases hb

/-- **C73** is false: on a big endian machine the header length is read with its bytes exchanged, and so a part of
the data, or all of them, is taken for the header.  Reading back a saved matrix with a nonzero entry never gives the
matrix. -/
theorem C73_big_endian_host_loses (m : Machine) (hm : m.bigEndian = true) (j : Junk) {t : Dtype}
    {M : Mat} (h : Ordinary t M) (rm : Bool) (hnz : ∃ a b, ∃ x ∈ M.val a b, x ≠ 0) :
    ∃ bytes, save m t rm M = .ok bytes ∧ ∀ s, load m j t ⟨bytes, false⟩ ≠ .ok (M, s) := by
  refine ⟨_, save_eq m h rm, ?_⟩
  intro s hload
  have hlen := header_length m t (!rm) M.rows M.cols h.bounds.1 h.bounds.2
  have hml := memory_length M rm t.size h.width
  have hnul : ∀ b ∈ header m t (!rm) [M.rows, M.cols], b ≠ 0 := fun b hb => (header_chars m t (!rm) _ b hb).1
  have hord := parseHeader_order (parseHeader_header m t (!rm) [M.rows, M.cols] (by
      intro d hd; rcases List.mem_cons.1 hd with rfl | hd
      · exact h.bounds.1
      · simp only [List.mem_singleton] at hd; subst hd; exact h.bounds.2))
  generalize header m t (!rm) [M.rows, M.cols] = hdr at *
  unfold load at hload
  rw [readInput_big m hm j t hlen.1] at hload
  -- the header that is read begins with the one written
  have hH : ∃ z, ((hdr ++ M.memory rm).take (hdr.length * 256)).takeWhile (· ≠ 0) = hdr ++ z := by
    rw [List.take_append, List.take_of_length_le (by omega), List.takeWhile_append_of_pos (by
      intro b hb; simpa using hnul b hb)]
    exact ⟨_, rfl⟩
  obtain ⟨z, hz⟩ := hH
  rw [hz] at hload
  cases hp : parseHeader t (hdr ++ z) with
  | throw e => rw [hp] at hload; cases hload
  | ub => rw [hp] at hload; cases hload
  | ok r =>
    obtain ⟨e, f, vs⟩ := r
    rw [hp] at hload
    dsimp only at hload
    have hf := parseHeader_order hp
    rw [List.getElem?_append_left (by omega), ← hord] at hf
    subst hf
    split at hload
    · cases hload
    · cases hload
    · rename_i x s' hx
      obtain ⟨hfx, N, mem, hdata, hmem, hbytes⟩ := readData_order hx
      split at hload
      · cases hload
      · cases hload
      · rename_i M2 hM2
        simp only [Res.ok.injEq, Prod.mk.injEq] at hload
        have hMM := hload.1
        subst hMM
        have hrest : ∀ p : Nat, ((hdr ++ M2.memory rm).drop (hdr.length * 256))[p]? =
            (M2.memory rm)[p + hdr.length * 255]? := by
          intro p
          rw [List.getElem?_drop, List.getElem?_append_right (by omega)]
          congr 1
          omega
        have hsize : 0 < t.size := by cases t <;> decide
        have hzero := zero_of_shift (data := M2.memory rm) (mem := mem) (k := hdr.length * 255) (by omega) (by
          intro p hp
          rw [hml] at hp
          have hq : p / t.size < M2.rows * M2.cols := (Nat.div_lt_iff_lt_mul hsize).2 hp
          obtain ⟨a, b, hab⟩ := srcIdx_surj (!rm) hq
          obtain ⟨hi, hv⟩ := toMat_ok hM2 a b
          have hr : p % t.size < t.size := Nat.mod_lt _ hsize
          have h1 := chunk_getElem? t.size mem (p / t.size) (p % t.size) hr
          have h2 := chunk_getElem? t.size (M2.memory rm) (p / t.size) (p % t.size) hr
          have hpp : p / t.size * t.size + p % t.size = p := by rw [Nat.mul_comm]; exact Nat.div_add_mod p t.size
          rw [hpp] at h1 h2
          rw [← h1, ← h2, ← hab, chunk_memory M2 rm t.size h.width, hv]
          simp only [hdata, hfx, List.getElem_map, List.getElem_range]) (by
          intro p b hb
          have := hbytes p b hb
          simpa only [hrest] using this)
        obtain ⟨a, b, y, hy, hyne⟩ := hnz
        rw [← chunk_memory M2 rm t.size h.width a b] at hy
        exact hyne (hzero y (List.mem_of_mem_drop (List.mem_of_mem_take hy)))

/-- **C73**, the only case in which it holds: exactly the matrices whose bytes are all zero survive being saved and
loaded on a big endian machine.  It is missing for all others. -/
theorem C73_zero_partial (m : Machine) (hm : m.bigEndian = true) (j : Junk) {t : Dtype} {M : Mat}
    (h : Ordinary t M) (rm : Bool) :
    ∃ bytes, save m t rm M = .ok bytes ∧
      ((∃ s, load m j t ⟨bytes, false⟩ = .ok (M, s)) ↔ ∀ a b, ∀ x ∈ M.val a b, x = 0) := by
  obtain ⟨bytes, hs, hlose⟩ : ∃ bytes, save m t rm M = .ok bytes ∧
      ((∃ a b, ∃ x ∈ M.val a b, x ≠ 0) → ∀ s, load m j t ⟨bytes, false⟩ ≠ .ok (M, s)) := by
    refine ⟨_, save_eq m h rm, fun hnz => ?_⟩
    obtain ⟨bytes, h1, h2⟩ := C73_big_endian_host_loses m hm j h rm hnz
    rw [save_eq m h rm, Res.ok.injEq] at h1
    rw [h1]
    exact h2
  refine ⟨bytes, hs, fun ⟨s, hload⟩ => ?_, fun hz => ?_⟩
  · by_contra hcon
    push Not at hcon
    exact hlose hcon s hload
  · rw [save_eq m h rm, Res.ok.injEq] at hs
    subst hs
    obtain ⟨hb1, hb2⟩ := h.bounds
    have hlen := header_length m t (!rm) M.rows M.cols hb1 hb2
    have hnul : ∀ b ∈ header m t (!rm) [M.rows, M.cols], b ≠ 0 := fun b hb => (header_chars m t (!rm) _ b hb).1
    have hzero : ∀ b ∈ M.memory rm, b = 0 := by
      intro b hb
      rw [memory_eq_flatten, List.mem_flatten] at hb
      obtain ⟨l, hl, hbl⟩ := hb
      obtain ⟨a, c, rfl⟩ := entries_mem M rm l hl
      exact hz a c b hbl
    have hparse := parseHeader_header m t (!rm) [M.rows, M.cols] (by
      intro d hd; rcases List.mem_cons.1 hd with rfl | hd
      · exact hb1
      · simp only [List.mem_singleton] at hd; subst hd; exact hb2)
    have hprod : [M.rows, M.cols].prod = M.rows * M.cols := by simp
    have hpos : 0 < M.rows * M.cols := Nat.mul_pos h.rows h.cols
    have hN := countInt_eq (shape := [M.rows, M.cols]) (by rw [hprod]; exact hpos) (by rw [hprod]; exact h.size)
    rw [hprod] at hN
    generalize header m t (!rm) [M.rows, M.cols] = hdr at *
    have hH : ((hdr ++ M.memory rm).take (hdr.length * 256)).takeWhile (· ≠ 0) = hdr := by
      rw [List.take_append, List.take_of_length_le (by omega), List.takeWhile_append_of_pos (by
        intro b hb; simpa using hnul b hb)]
      have : ((M.memory rm).take (hdr.length * 256 - hdr.length)).takeWhile (fun x => decide (x ≠ 0)) = [] := by
        cases hc : (M.memory rm).take (hdr.length * 256 - hdr.length) with
        | nil => rfl
        | cons b l =>
          have : b = 0 := hzero b (List.mem_of_mem_take (by rw [hc]; exact List.mem_cons_self))
          rw [List.takeWhile_cons_of_neg (by simp [this])]
      rw [this, List.append_nil]
    have hx : ∃ x s', readInput m j t ⟨npyFile hdr (M.memory rm), false⟩ = .ok (x, s') ∧
        x.shape = [M.rows, M.cols].map Int.ofNat ∧ x.data.length = M.rows * M.cols ∧
        (∀ l ∈ x.data, l = List.replicate t.size 0) := by
      rw [readInput_big m hm j t hlen.1, hH, hparse]
      dsimp only
      cases hrd : readData m t ⟨(hdr ++ M.memory rm).drop (hdr.length * 256),
          decide ((hdr ++ M.memory rm).length < hdr.length * 256)⟩ m.bigEndian (!rm) ([M.rows, M.cols].map Int.ofNat) with
      | throw e => unfold readData at hrd; rw [hN] at hrd; dsimp only at hrd; rw [if_neg (by omega), if_neg (by omega)] at hrd; cases hrd
      | ub => unfold readData at hrd; rw [hN] at hrd; dsimp only at hrd; rw [if_neg (by omega), if_neg (by omega)] at hrd; cases hrd
      | ok r =>
        obtain ⟨x, s'⟩ := r
        obtain ⟨_, N, mem, hdata, hmem, hbytes⟩ := readData_order hrd
        have hlenx : x.data.length = M.rows * M.cols ∧ x.shape = [M.rows, M.cols].map Int.ofNat := by
          unfold readData at hrd
          rw [hN] at hrd
          dsimp only at hrd
          rw [if_neg (by omega), if_neg (by omega)] at hrd
          simp only [swapEndianess, ite_self, Int.toNat_natCast, Res.ok.injEq, Prod.mk.injEq] at hrd
          rw [← hrd.1]
          exact ⟨by simp, rfl⟩
        have hNN : N = M.rows * M.cols := by rw [← hlenx.1, hdata]; simp
        refine ⟨x, s', rfl, hlenx.2, hlenx.1, ?_⟩
        intro l hl
        rw [hdata] at hl
        obtain ⟨k, hk, rfl⟩ := List.mem_map.1 hl
        rw [List.mem_range] at hk
        have hm0 : ∀ b ∈ mem, b = 0 := by
          intro b hb
          obtain ⟨p, hp⟩ := List.getElem?_of_mem hb
          rcases hbytes p b hp with h | h
          · exact h
          · rw [List.getElem?_drop, List.getElem?_append_right (by omega)] at h
            exact hzero b (List.mem_of_getElem? h)
        refine List.eq_replicate_iff.2 ⟨?_, fun b hb => hm0 b (List.mem_of_mem_drop (List.mem_of_mem_take hb))⟩
        rw [chunk, List.length_take, List.length_drop, hmem]
        have : (k + 1) * t.size ≤ N * t.size := Nat.mul_le_mul_right _ hk
        rw [Nat.add_mul] at this
        omega
    obtain ⟨x, s', hr, hsh, hl, hz0⟩ := hx
    obtain ⟨hi, he⟩ := toMat_eq x M.rows [M.cols] hsh (by rw [hprod]; exact hpos) (by rw [hprod]; exact h.size)
      (by rw [hl, hprod]) M.cols (by simp)
    refine ⟨s', ?_⟩
    rw [load_of hr he]
    have hv : (fun (a : Fin M.rows) (b : Fin M.cols) => x.data[srcIdx x.fortran M.rows M.cols a b]'(hi a b)) = M.val := by
      funext a b
      rw [hz0 _ (List.getElem_mem _)]
      exact (List.eq_replicate_iff.2 ⟨h.width a b, hz a b⟩).symm
    rw [hv]

example : ∃ bytes, save be .i2 false ⟨2, 3, fun _ _ => [0, 0]⟩ = .ok bytes ∧
    ∃ s, load be junk0 .i2 ⟨bytes, false⟩ = .ok (⟨2, 3, fun _ _ => [0, 0]⟩, s) := by
  obtain ⟨bytes, h1, h2⟩ := C73_zero_partial be rfl junk0 (t := .i2) (M := ⟨2, 3, fun _ _ => [0, 0]⟩)
    ⟨fun _ _ => rfl, by decide, by decide, by decide⟩ false
  exact ⟨bytes, h1, h2.2 (by simp)⟩

/-- On such a machine every saved matrix that is not all zero is a counterexample. -/
example : ∃ bytes, save be .i2 false demoMat = .ok bytes ∧
    ∀ s, load be junk0 .i2 ⟨bytes, false⟩ ≠ .ok (demoMat, s) :=
  C73_big_endian_host_loses be rfl junk0 demoMat_ordinary false
    ⟨⟨0, by decide⟩, ⟨0, by decide⟩, 1, by decide, by decide⟩

/-! ### C74 -/

/-- **C74** is false: the magic string is never compared, so any eight bytes with an acceptable
version byte are as good as a real NPY file. -/
theorem C74_magic_ignored (m : Machine) (j : Junk) (t : Dtype) (magic rest : List Byte) (minor : Byte)
    (hmagic : magic.length = 6) :
    readInput m j t ⟨magic ++ 1 :: minor :: rest, false⟩ =
      readInput m j t ⟨[0x93, 0x4e, 0x55, 0x4d, 0x50, 0x59] ++ 1 :: 0 :: rest, false⟩ := by
  have h8 : ∀ (g : List Byte) (b : Byte), g.length = 6 →
      (⟨g ++ 1 :: b :: rest, false⟩ : IStream).read 8 = (g ++ [1, b], ⟨rest, false⟩) := by
    intro g b hg
    have hl : (g ++ [1, b]).length = 8 := by simp [hg]
    have := read_full (a := g ++ [1, b]) (b := rest)
    rw [hl, List.append_assoc] at this
    exact this
  have hget : ∀ (g : List Byte) (b : Byte), g.length = 6 →
      (overwrite j.magic (g ++ [1, b]))[6]? = some 1 := by
    intro g b hg
    rw [overwrite_full (by rw [j.hmagic]; simp [hg]), List.getElem?_append_right (by omega), hg]
    rfl
  unfold readInput
  rw [h8 magic minor hmagic, h8 [0x93, 0x4e, 0x55, 0x4d, 0x50, 0x59] 0 rfl]
  dsimp only
  rw [hget magic minor hmagic, hget [0x93, 0x4e, 0x55, 0x4d, 0x50, 0x59] 0 rfl]
  simp [hmagic]

/-- **C74**, the part that holds: whatever its first six bytes are, a stream is rejected when its seventh byte, as a
`char`, is greater than 1, and so is an empty stream, whatever the uninitialised buffers contain.  Missing: every stream
whose seventh byte is at most 1. -/
theorem C74_version_partial (m : Machine) (j : Junk) (t : Dtype) (bytes : List Byte)
    (h : bytes = [] ∨ ∃ v, bytes[6]? = some v ∧ 1 < charVal m v) :
    load m j t ⟨bytes, false⟩ = .throw .runtimeError := by
  have hin : readInput m j t ⟨bytes, false⟩ = .throw .runtimeError := by
    unfold readInput
    rcases h with rfl | ⟨v, hv, hgt⟩
    · simp only [IStream.read, Bool.false_eq_true, if_false, List.take_nil, List.length_nil, if_true]
      cases hj : (overwrite j.magic [])[6]? with
      | none =>
        rw [overwrite, List.nil_append, List.length_nil, List.drop_zero, List.getElem?_eq_none_iff, j.hmagic] at hj
        omega
      | some v =>
        dsimp only
        split <;> rfl
    · have h6 : (overwrite j.magic (bytes.take 8))[6]? = some v := by
        have hl := (List.getElem?_eq_some_iff.1 hv).1
        rw [overwrite, List.getElem?_append_left (by rw [List.length_take]; omega), List.getElem?_take, if_pos (by omega), hv]
      simp only [IStream.read, Bool.false_eq_true, if_false, h6]
      rw [if_pos hgt]
  unfold load
  rw [hin]

example : load le junk0 .f8 ⟨[71, 73, 70, 56, 57, 97, 16, 0, 16, 0], false⟩ = .throw .runtimeError :=
  C74_version_partial le junk0 .f8 _ (Or.inr ⟨16, rfl, by decide⟩)

/-- A file that is not an NPY file and is read as a matrix. -/
theorem C74_wrong_magic_accepted : ∃ rest M s,
    load le junk0 .i2 ⟨[71, 73, 70, 56, 57, 97] ++ 1 :: 0 :: rest, false⟩ = .ok (M, s) := by
  obtain ⟨bytes, h1, h2⟩ := C19_save_load le rfl junk0 demoMat_ordinary false []
  rw [save_eq le demoMat_ordinary false] at h1
  refine ⟨le16 (header le .i2 (!false) [demoMat.rows, demoMat.cols]).length ++
    header le .i2 (!false) [demoMat.rows, demoMat.cols] ++ demoMat.memory false, demoMat, ⟨[], false⟩, ?_⟩
  simp only [Res.ok.injEq] at h1
  subst h1
  rw [List.append_nil] at h2
  unfold load at h2 ⊢
  rw [C74_magic_ignored le junk0 .i2 [71, 73, 70, 56, 57, 97] _ 0 rfl]
  simp only [npyFile, List.append_assoc, List.cons_append, List.nil_append] at h2 ⊢
  exact h2

end Verif.Numpy
