import Verif.Props.NumpyFiles

/-! Property C109: arrays without elements, without dimensions, and with more elements than an `int` counts. -/
namespace Verif.Numpy

/-- Reading a version 1.0 file with a header that parses: what is left is the data. -/
theorem readInput_header (m : Machine) (hm : m.bigEndian = false) (j : Junk) (t : Dtype) {hdr data : List Byte}
    {e f : Bool} {vs : List Int} (hlen : hdr.length < 65536) (hnul : ∀ b ∈ hdr, b ≠ 0)
    (hp : parseHeader t hdr = .ok (e, f, vs)) :
    readInput m j t ⟨npyFile hdr data, false⟩ = readData m t ⟨data, false⟩ e f vs := by
  unfold readInput npyFile
  rw [List.append_assoc, List.append_assoc]
  have h8 := read_full (a := [0x93, 0x4e, 0x55, 0x4d, 0x50, 0x59, 1, 0])
    (b := le16 hdr.length ++ (hdr ++ data))
  have h8' : ([0x93, 0x4e, 0x55, 0x4d, 0x50, 0x59, 1, 0] : List Byte).length = 8 := rfl
  rw [h8'] at h8
  rw [h8]
  simp only
  rw [overwrite_full (by rw [j.hmagic]; rfl)]
  have hv : charVal m 1 = 1 := by
    unfold charVal; cases m.charSigned <;> decide
  simp only [List.getElem?_cons_succ, List.getElem?_cons_zero, hv]
  rw [if_neg (by decide), if_neg (by decide)]
  have h2 := read_full (a := le16 hdr.length) (b := hdr ++ data)
  rw [le16_length] at h2
  rw [h2]
  simp only
  rw [overwrite_full (by rw [j.hlen]; rfl)]
  simp only [hm, Bool.false_eq_true, if_false]
  rw [le16_val m hm hlen, read_full]
  simp only
  have htw : hdr.takeWhile (fun x => decide (x ≠ 0)) = hdr := by
    have := List.takeWhile_append_of_pos (p := fun x : Byte => decide (x ≠ 0)) (l₁ := hdr) (l₂ := [])
      (by intro b hb; simpa using hnul b hb)
    simpa using this
  rw [htw, hp]

/-- What `readData` returns. -/
theorem readData_eq (m : Machine) (t : Dtype) (s : IStream) (e f : Bool) (vs : List Int) :
    (countInt vs < 0 ∧ readData m t s e f vs = .throw .lengthError) ∨
    (countInt vs = 0 ∧ readData m t s e f vs = .ub) ∨
    (0 < countInt vs ∧ ∃ x s', readData m t s e f vs = .ok (x, s') ∧ x.shape = vs ∧ x.fortran = f ∧
      (x.data.length : Int) = countInt vs) := by
  unfold readData
  rcases lt_trichotomy (countInt vs) 0 with h | h | h
  · exact .inl ⟨h, if_pos h⟩
  · exact .inr (.inl ⟨h, by rw [h]; rfl⟩)
  · refine .inr (.inr ⟨h, ?_⟩)
    rw [if_neg (by omega), if_neg (by omega)]
    refine ⟨_, _, rfl, rfl, rfl, ?_⟩
    have : ∀ l : List (List Byte), (if e ≠ m.bigEndian then swapEndianess l else l).length = l.length := by
      intro l
      simp [swapEndianess]
    rw [this]
    simp only [List.length_map, List.length_range]
    omega

theorem foldl_wrap_zero (ds : List Int) (a : Int) (h : a = 0 ∨ 0 ∈ ds) :
    ds.foldl (fun n c => wrap32 (n * c)) a = 0 := by
  induction ds generalizing a with
  | nil =>
    rcases h with rfl | h
    · rfl
    · cases h
  | cons d ds ih =>
    rw [List.foldl_cons]
    refine ih _ ?_
    rcases h with rfl | h
    · left; simp [wrap32]
    · rcases List.mem_cons.1 h with h | h
      · left; subst h; simp [wrap32]
      · exact .inr h

theorem load_cases {m : Machine} {j : Junk} {t : Dtype} {s s0 : IStream} {e f : Bool} {vs : List Int}
    (h : readInput m j t s = readData m t s0 e f vs) :
    (countInt vs < 0 → load m j t s = .throw .lengthError) ∧ (countInt vs = 0 → load m j t s = .ub) := by
  rcases readData_eq m t s0 e f vs with ⟨h1, h2⟩ | ⟨h1, h2⟩ | ⟨h1, _⟩
  · refine ⟨fun _ => ?_, fun h0 => absurd h0 h1.ne⟩
    unfold load
    rw [h, h2]
  · refine ⟨fun h0 => absurd h1 h0.ne, fun _ => ?_⟩
    unfold load
    rw [h, h2]
  · exact ⟨fun h0 => absurd h0 (by omega), fun h0 => absurd h0 (by omega)⟩

/-- **C109**, negation for arrays without dimensions (`numpy.array(5)`): loading them is undefined. -/
theorem C109_scalar (m : Machine) (hm : m.bigEndian = false) (junk : Junk) (t : Dtype) (order : Byte) (ho : order ≠ 0)
    (f : Bool) (pad : Nat) (hlen : (numpyHeader order t.code f [] pad).length < 65536) (data : List Byte) :
    load m junk t ⟨npyFile (numpyHeader order t.code f [] pad) data, false⟩ = .ub := by
  have hr := readInput_header m hm junk t (data := data) hlen (numpyHeader_nul t order ho f .nil pad)
    (parseHeader_numpy t order f .nil (fun x hx => absurd hx (by simp)) pad)
  rcases readData_eq m t ⟨data, false⟩ (order == 62) f ([].map Int.ofNat) with ⟨h1, _⟩ | ⟨h1, _⟩ | ⟨_, x, s', h2, h3, _⟩
  · exact absurd h1 (by decide)
  · exact absurd h1 (by decide)
  · unfold load
    rw [hr, h2]
    dsimp only
    unfold Input.toMat
    rw [h3]
    rfl

/-- **C109**, negation for arrays without elements: loading them is undefined. -/
theorem C109_empty (m : Machine) (hm : m.bigEndian = false) (junk : Junk) (t : Dtype) (order : Byte) (ho : order ≠ 0)
    (f : Bool) (pad : Nat) {strs : List (List Byte)} {shape : List Nat} (hstrs : List.Forall₂ IsDecimal strs shape)
    (h0 : 0 ∈ shape) (hmax : ∀ d ∈ shape, d ≤ 2147483647)
    (hlen : (numpyHeader order t.code f strs pad).length < 65536) (data : List Byte) :
    load m junk t ⟨npyFile (numpyHeader order t.code f strs pad) data, false⟩ = .ub := by
  have hr := readInput_header m hm junk t (data := data) hlen (numpyHeader_nul t order ho f hstrs pad)
    (parseHeader_numpy t order f hstrs hmax pad)
  exact (load_cases hr).2 (foldl_wrap_zero _ _ (.inr (List.mem_map.2 ⟨0, h0, rfl⟩)))

/-- **C109**, negation for matrices without elements: they can be saved, but not loaded again. -/
theorem C109_empty_matrix (m : Machine) (hm : m.bigEndian = false) (junk : Junk) (t : Dtype) (rm : Bool) (M : Mat)
    (hr : M.rows ≤ 2147483647) (hc : M.cols ≤ 2147483647) (h0 : M.rows = 0 ∨ M.cols = 0) :
    ∃ bytes, save m t rm M = .ok bytes ∧ load m junk t ⟨bytes, false⟩ = .ub := by
  have hw : ∀ j i, (M.val j i).length = t.size := by
    intro j i
    rcases h0 with h0 | h0
    · exact absurd j.2 (by omega)
    · exact absurd i.2 (by omega)
  have hl : (header m t (!rm) [M.rows, M.cols]).length < 65536 := by
    have := (header_length m t (!rm) M.rows M.cols hr hc).1
    omega
  have hs : save m t rm M = .ok (npyFile (header m t (!rm) [M.rows, M.cols]) (M.memory rm)) := by
    apply write_eq
    · rw [memory_length M rm t.size hw]; simp
    · exact hl
  refine ⟨_, hs, ?_⟩
  obtain ⟨pad, _, hlay, _⟩ := header_layout m t (!rm) [M.rows, M.cols]
  have hp : parseHeader t (header m t (!rm) [M.rows, M.cols]) =
      .ok ((if m.bigEndian then (62 : Byte) else 60) == 62, !rm, [M.rows, M.cols].map Int.ofNat) := by
    rw [hlay]
    refine parseHeader_layout t _ (!rm) (dims [M.rows, M.cols]) _
      (fun x hx => ⟨(dims_chars _ x hx).1, (dims_chars _ x hx).2.1⟩) (by
        intro x hx
        simp only [List.mem_cons, List.mem_append, List.mem_replicate, List.not_mem_nil, or_false] at hx
        rcases hx with rfl | ⟨_, rfl⟩ | rfl <;> decide) (by
        intro k hk
        obtain ⟨k', rfl⟩ : ∃ k', k = k' + 1 := ⟨k - 1, by omega⟩
        rw [List.take_succ_cons]
        exact parseShape_dims _ (by
          intro d hd
          rcases List.mem_cons.1 hd with rfl | hd
          · exact hr
          · rw [List.mem_singleton.1 hd]
            exact hc) _)
  have hread := readInput_header m hm junk t (data := M.memory rm) hl
    (fun x hx => (header_chars m t (!rm) _ x hx).1) hp
  refine (load_cases hread).2 (foldl_wrap_zero _ _ (.inr ?_))
  rcases h0 with h0 | h0 <;> simp [h0]

theorem wrap32_lt (x : Int) : wrap32 x ≤ 2147483647 := by
  unfold wrap32
  have := Int.bmod_lt (x := x) (m := 4294967296) (by decide)
  omega

theorem countInt_two {r c : Nat} (hr : r ≤ 2147483647) :
    countInt ([r, c].map Int.ofNat) = wrap32 ((r : Int) * c) := by
  have key : ∀ w : Int → Int, ([r, c].map Int.ofNat).foldl (fun n c => w (n * c)) 1 = w (w (1 * (r : Int)) * (c : Int)) :=
    fun w => rfl
  unfold countInt
  rw [key wrap32, one_mul, wrap32_id hr]

theorem wrap32_nat (p : Nat) : wrap32 (p : Int) = if 2147483648 ≤ p % 4294967296 then
    ((p % 4294967296 : Nat) : Int) - 4294967296 else ((p % 4294967296 : Nat) : Int) := by
  unfold wrap32
  rw [Int.bmod]
  split_ifs <;> omega

/-- **C109**, arrays of two dimensions with more elements than an `int` counts: depending on the remainder of their
number an exception or undefined behaviour. -/
theorem C109_large (m : Machine) (hm : m.bigEndian = false) (junk : Junk) (t : Dtype) (order : Byte) (ho : order ≠ 0)
    (f : Bool) (pad : Nat) {sr sc : List Byte} {r c : Nat} (hr : IsDecimal sr r) (hc : IsDecimal sc c)
    (hr' : r ≤ 2147483647) (hc' : c ≤ 2147483647) (hbig : 2147483647 < r * c)
    (hlen : (numpyHeader order t.code f [sr, sc] pad).length < 65536) (data : List Byte) :
    load m junk t ⟨npyFile (numpyHeader order t.code f [sr, sc] pad) data, false⟩ =
      if 2147483648 ≤ r * c % 4294967296 then .throw .lengthError else .ub := by
  have hst : List.Forall₂ IsDecimal [sr, sc] [r, c] := .cons hr (.cons hc .nil)
  have hread := readInput_header m hm junk t (data := data) hlen (numpyHeader_nul t order ho f hst pad)
    (parseHeader_numpy t order f hst (by
      intro d hd
      rcases List.mem_cons.1 hd with rfl | hd
      · exact hr'
      · rw [List.mem_singleton.1 hd]
        exact hc') pad)
  have hN := countInt_two (c := c) hr'
  have hb : wrap32 ((r : Int) * c) = if 2147483648 ≤ r * c % 4294967296 then
      ((r * c % 4294967296 : Nat) : Int) - 4294967296 else ((r * c % 4294967296 : Nat) : Int) := by
    rw [← Nat.cast_mul, wrap32_nat]
  rcases readData_eq m t ⟨data, false⟩ (order == 62) f ([r, c].map Int.ofNat) with h | h | ⟨h1, x, s', h2, h3, h4, h5⟩
  · rw [(load_cases hread).1 h.1]
    have h' := h.1
    rw [hN, hb] at h'
    by_cases hq : 2147483648 ≤ r * c % 4294967296
    · rw [if_pos hq]
    · rw [if_neg hq] at h'
      exact absurd h' (by omega)
  · rw [(load_cases hread).2 h.1]
    have h' := h.1
    rw [hN, hb] at h'
    by_cases hq : 2147483648 ≤ r * c % 4294967296
    · rw [if_pos hq] at h'
      exact absurd h' (by omega)
    · rw [if_neg hq]
  · have hq : ¬ 2147483648 ≤ r * c % 4294967296 := by
      intro hq
      rw [hN, hb, if_pos hq] at h1
      omega
    rw [if_neg hq]
    unfold load
    rw [hread, h2]
    dsimp only
    have hmat : x.toMat = .ub := by
      unfold Input.toMat
      rw [h3]
      simp only [List.map_cons, List.map_nil, Int.ofNat_eq_natCast]
      have e2 : colsInt [(r : Int), (c : Int)] = c := by
        have key : ∀ w : Int → Int, ([(r : Int), (c : Int)].drop 1).foldl (fun n c => w (n * c)) 1 = w (1 * (c : Int)) :=
          fun w => rfl
        unfold colsInt
        rw [key wrap32, one_mul, wrap32_id hc']
      rw [wrap32_id hr', e2, if_neg (by omega)]
      simp only [Int.toNat_natCast]
      unfold Input.copy
      rw [dif_neg]
      intro hall
      have hr0 : 0 < r := Nat.pos_of_ne_zero fun h0 => by simp [h0] at hbig
      have hc0 : 0 < c := Nat.pos_of_ne_zero fun h0 => by simp [h0] at hbig
      have hl := hall ⟨r - 1, by omega⟩ ⟨c - 1, by omega⟩
      have hlast : srcIdx x.fortran r c (r - 1) (c - 1) = r * c - 1 := by
        obtain ⟨r', rfl⟩ : ∃ r', r = r' + 1 := ⟨r - 1, by omega⟩
        obtain ⟨c', rfl⟩ : ∃ c', c = c' + 1 := ⟨c - 1, by omega⟩
        unfold srcIdx
        simp only [Nat.add_sub_cancel]
        split_ifs
        · have : (r' + 1) * (c' + 1) = c' * (r' + 1) + r' + 1 := by ring
          omega
        · have : (r' + 1) * (c' + 1) = r' * (c' + 1) + c' + 1 := by ring
          omega
      rw [hlast] at hl
      have hlt := wrap32_lt ((r : Int) * c)
      rw [hN] at h5
      omega
    rw [hmat]

/-- **C109**, what is true: an array of two dimensions that is loaded has the rows and columns of the file (how the data
are treated see C23, C24 and C25). -/
theorem C109_two_dimensions_partial (m : Machine) (hm : m.bigEndian = false) (junk : Junk) (t : Dtype) (order : Byte)
    (ho : order ≠ 0) (f : Bool) (pad : Nat) {sr sc : List Byte} {r c : Nat} (hr : IsDecimal sr r) (hc : IsDecimal sc c)
    (hr' : r ≤ 2147483647) (hc' : c ≤ 2147483647)
    (hlen : (numpyHeader order t.code f [sr, sc] pad).length < 65536) (data : List Byte) {M : Mat} {s : IStream}
    (h : load m junk t ⟨npyFile (numpyHeader order t.code f [sr, sc] pad) data, false⟩ = .ok (M, s)) :
    M.rows = r ∧ M.cols = c := by
  have hst : List.Forall₂ IsDecimal [sr, sc] [r, c] := .cons hr (.cons hc .nil)
  have hmax : ∀ d ∈ [r, c], d ≤ 2147483647 := by
    intro d hd
    rcases List.mem_cons.1 hd with rfl | hd
    · exact hr'
    · rw [List.mem_singleton.1 hd]
      exact hc'
  rcases Nat.lt_or_ge 2147483647 (r * c) with hbig | hsmall
  · rw [C109_large m hm junk t order ho f pad hr hc hr' hc' hbig hlen data] at h
    split_ifs at h
  · rcases Nat.eq_zero_or_pos (r * c) with h0 | h0
    · rw [C109_empty m hm junk t order ho f pad hst (by
        rcases Nat.mul_eq_zero.1 h0 with h0 | h0 <;> simp [h0]) hmax hlen data] at h
      cases h
    · have hread := readInput_header m hm junk t (data := data) hlen (numpyHeader_nul t order ho f hst pad)
        (parseHeader_numpy t order f hst hmax pad)
      have hp : [r, c].prod = r * c := by simp
      rcases readData_eq m t ⟨data, false⟩ (order == 62) f ([r, c].map Int.ofNat) with h1 | h1 | ⟨h1, x, s', h2, h3, h4, h5⟩
      · rw [(load_cases hread).1 h1.1] at h
        cases h
      · rw [(load_cases hread).2 h1.1] at h
        cases h
      · rw [countInt_eq (by rw [hp]; exact h0) (by rw [hp]; exact hsmall)] at h5
        obtain ⟨_, he⟩ := toMat_eq x r [c] h3 (by rw [hp]; exact h0) (by rw [hp]; exact hsmall)
          (by exact_mod_cast h5) c (by simp)
        rw [load_of (hread.trans h2) he] at h
        cases h
        exact ⟨rfl, rfl⟩

theorem foldl_wrap_mod (ds : List Nat) (a : Int) :
    (ds.map Int.ofNat).foldl (fun n c => wrap32 (n * c)) a % 4294967296 = a * (ds.prod : Nat) % 4294967296 := by
  induction ds generalizing a with
  | nil => simp
  | cons d ds ih =>
    rw [List.map_cons, List.foldl_cons, ih, List.prod_cons]
    have h : wrap32 (a * Int.ofNat d) % 4294967296 = a * (d : Int) % 4294967296 := by
      unfold wrap32
      exact Int.bmod_emod
    rw [Int.mul_emod, h, ← Int.mul_emod]
    push_cast
    rw [mul_assoc]

theorem foldl_wrap_le (vs : List Int) (a : Int) (ha : a ≤ 2147483647) :
    vs.foldl (fun n c => wrap32 (n * c)) a ≤ 2147483647 := by
  induction vs generalizing a with
  | nil => exact ha
  | cons v vs ih => exact ih _ (wrap32_lt _)

theorem copy_ok {x : Input} {r c : Nat} {M : Mat} (h : x.copy r c = .ok M) : M.rows = r ∧ M.cols = c := by
  unfold Input.copy at h
  split at h
  · cases h
    exact ⟨rfl, rfl⟩
  · cases h

theorem colsInt_mod (d : Int) (ds : List Nat) :
    colsInt (d :: ds.map Int.ofNat) % 4294967296 = (ds.prod : Nat) % 4294967296 := by
  have h := foldl_wrap_mod ds 1
  rw [one_mul] at h
  exact h

theorem colsInt_le (d : Int) (ds : List Nat) : colsInt (d :: ds.map Int.ofNat) ≤ 2147483647 :=
  foldl_wrap_le _ _ (by decide)

theorem toMat_shape {x : Input} {M : Mat} {d : Nat} {ds : List Nat} (hd : d ≤ 2147483647)
    (hs : x.shape = (d :: ds).map Int.ofNat) (h : x.toMat = .ok M) :
    M.rows = d ∧ M.cols % 4294967296 = ds.prod % 4294967296 ∧ M.cols ≤ 2147483647 := by
  have hcols := colsInt_mod (d : Int) ds
  have hle := colsInt_le (d : Int) ds
  unfold Input.toMat at h
  rw [hs, List.map_cons] at h
  dsimp only at h
  rw [Int.ofNat_eq_natCast, wrap32_id hd] at h
  generalize colsInt ((d : Int) :: ds.map Int.ofNat) = k at h hcols hle
  split at h
  · cases h
  · obtain ⟨e1, e2⟩ := copy_ok h
    rw [e1, e2]
    refine ⟨Int.toNat_natCast d, ?_, ?_⟩ <;> omega

/-- **C109**, any number of dimensions: what is loaded has as many rows as the first dimension, and as many columns as the
product of the others up to a multiple of 2^32. -/
theorem C109_any_dimensions_partial (m : Machine) (hm : m.bigEndian = false) (junk : Junk) (t : Dtype) (order : Byte)
    (ho : order ≠ 0) (f : Bool) (pad : Nat) {strs : List (List Byte)} {d : Nat} {ds : List Nat}
    (hstrs : List.Forall₂ IsDecimal strs (d :: ds)) (hmax : ∀ x ∈ d :: ds, x ≤ 2147483647)
    (hlen : (numpyHeader order t.code f strs pad).length < 65536) (data : List Byte) {M : Mat} {s : IStream}
    (h : load m junk t ⟨npyFile (numpyHeader order t.code f strs pad) data, false⟩ = .ok (M, s)) :
    M.rows = d ∧ M.cols % 4294967296 = ds.prod % 4294967296 ∧ M.cols ≤ 2147483647 := by
  have hread := readInput_header m hm junk t (data := data) hlen (numpyHeader_nul t order ho f hstrs pad)
    (parseHeader_numpy t order f hstrs hmax pad)
  rcases readData_eq m t ⟨data, false⟩ (order == 62) f ((d :: ds).map Int.ofNat) with h1 | h1 | ⟨_, x, s', h2, h3, _, _⟩
  · rw [(load_cases hread).1 h1.1] at h
    cases h
  · rw [(load_cases hread).2 h1.1] at h
    cases h
  · unfold load at h
    rw [hread, h2] at h
    dsimp only at h
    split at h
    · cases h
    · cases h
    · rename_i M' hM
      cases h
      exact toMat_shape (hmax d List.mem_cons_self) h3 hM

/-- **C109**, negation for more dimensions: an array with 2^32 + 65536 elements is loaded as if it had 65536. -/
theorem C109_silent (m : Machine) (hm : m.bigEndian = false) (junk : Junk) (t : Dtype) (pad : Nat)
    (hlen : (numpyHeader 60 t.code false [decimal 1, decimal 65536, decimal 65537] pad).length < 65536)
    (data : List Byte) : ∃ M s,
      load m junk t ⟨npyFile (numpyHeader 60 t.code false [decimal 1, decimal 65536, decimal 65537] pad) data, false⟩ =
        .ok (M, s) ∧ M.rows = 1 ∧ M.cols = 65536 := by
  have hst : List.Forall₂ IsDecimal [decimal 1, decimal 65536, decimal 65537] [1, 65536, 65537] :=
    .cons (isDecimal_decimal _) (.cons (isDecimal_decimal _) (.cons (isDecimal_decimal _) .nil))
  have hread := readInput_header m hm junk t (data := data) hlen (numpyHeader_nul t 60 (by decide) false hst pad)
    (parseHeader_numpy t 60 false hst (by decide) pad)
  have hN : countInt ([1, 65536, 65537].map Int.ofNat) = 65536 := by decide
  rcases readData_eq m t ⟨data, false⟩ ((60 : Byte) == 62) false ([1, 65536, 65537].map Int.ofNat) with
    h1 | h1 | ⟨h1, x, s', h2, h3, h4, h5⟩
  · exact absurd h1.1 (by rw [hN]; decide)
  · exact absurd h1.1 (by rw [hN]; decide)
  · rw [hN] at h5
    have hl : x.data.length = 65536 := by omega
    have hmat : ∃ M, x.toMat = .ok M ∧ M.rows = 1 ∧ M.cols = 65536 := by
      unfold Input.toMat
      rw [h3]
      have e1 : wrap32 (Int.ofNat 1) = 1 := by decide
      have e2 : colsInt ([1, 65536, 65537].map Int.ofNat) = 65536 := by decide
      simp only [List.map_cons, List.map_nil] at e2 ⊢
      rw [e1, e2, if_neg (by decide)]
      unfold Input.copy
      rw [dif_pos]
      · exact ⟨_, rfl, rfl, rfl⟩
      · intro j i
        have hj : (j : Nat) < 1 := j.2
        have hi : (i : Nat) < 65536 := i.2
        have e3 : (1 : Int).toNat = 1 := rfl
        have e4 : (65536 : Int).toNat = 65536 := rfl
        have h0 : (j : Nat) = 0 := by omega
        rw [hl, h4]
        unfold srcIdx
        rw [if_neg (by decide), h0, Nat.zero_mul, Nat.zero_add]
        exact hi
    obtain ⟨M, hM, hMr, hMc⟩ := hmat
    exact ⟨M, s', load_of (hread.trans h2) hM, hMr, hMc⟩

/-! ### The hypotheses are met -/

example (data : List Byte) : load le junk0 .f8 ⟨npyFile (numpyHeader 60 Dtype.f8.code false [] 8) data, false⟩ = .ub :=
  C109_scalar le rfl junk0 .f8 60 (by decide) false 8 (by decide) data

example : load le junk0 .f8 ⟨npyFile (numpyHeader 60 Dtype.f8.code false [[48], [51]] 8) [], false⟩ = .ub :=
  C109_empty le rfl junk0 .f8 60 (by decide) false 8 (shape := [0, 3])
    (.cons ⟨by decide, by decide, by decide, by decide⟩ (.cons ⟨by decide, by decide, by decide, by decide⟩ .nil))
    (by decide) (by decide) (by decide) []

example (data : List Byte) : load le junk0 .u1 ⟨npyFile (numpyHeader 124 Dtype.u1.code false
    [[54, 53, 53, 51, 54], [51, 50, 55, 54, 56]] 8) data, false⟩ = .throw .lengthError := by
  have := C109_large le rfl junk0 .u1 124 (by decide) false 8 (sr := [54, 53, 53, 51, 54])
    (sc := [51, 50, 55, 54, 56]) (r := 65536) (c := 32768) ⟨by decide, by decide, by decide, by decide⟩
    ⟨by decide, by decide, by decide, by decide⟩ (by decide) (by decide) (by decide) (by decide) data
  rwa [if_pos (by decide)] at this

example (data : List Byte) : load le junk0 .u1 ⟨npyFile (numpyHeader 124 Dtype.u1.code false
    [[54, 53, 53, 51, 55], [54, 53, 53, 51, 54]] 8) data, false⟩ = .ub := by
  have := C109_large le rfl junk0 .u1 124 (by decide) false 8 (sr := [54, 53, 53, 51, 55])
    (sc := [54, 53, 53, 51, 54]) (r := 65537) (c := 65536) ⟨by decide, by decide, by decide, by decide⟩
    ⟨by decide, by decide, by decide, by decide⟩ (by decide) (by decide) (by decide) (by decide) data
  rwa [if_neg (by decide)] at this

end Verif.Numpy
