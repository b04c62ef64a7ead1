import Mathlib.Data.Nat.Digits.Lemmas
import Verif.Props.NumpyFiles

/-! Property C25: what becomes of a file that is cut inside the header. -/
namespace Verif.Numpy

/-! ### Shapes that end early -/

theorem stoi_digits {s : List Byte} (h : ∀ b ∈ s, isDigit b = true) (hne : s ≠ []) (rest : List Byte)
    (hr : rest = [] ∨ ∃ a r, rest = a :: r ∧ isDigit a = false) :
    stoi (s ++ rest) = .range ∨ ∃ v, stoi (s ++ rest) = .ok v s.length := by
  obtain ⟨x, l, hx⟩ := List.exists_cons_of_ne_nil hne
  have hxd := isDigit_facts (h x (by simp [hx]))
  have h1 : (s ++ rest).takeWhile isSpace = [] := by simp [hx, hxd.1]
  have h2 : (s ++ rest).head? = some x := by simp [hx]
  have h3 : (s ++ rest).takeWhile isDigit = s := by
    rw [List.takeWhile_append_of_pos h]
    rcases hr with rfl | ⟨a, r, rfl, ha⟩ <;> simp_all
  unfold stoi
  simp only [h1, List.length_nil, List.drop_zero, h2, Option.some.injEq, hxd.2.1, hxd.2.2.1, or_self, if_false, h3]
  unfold stoiDigits
  rw [if_neg hne]
  dsimp only
  generalize (if (some x == some (45 : Byte)) = true then -(digitsVal s : Int) else digitsVal s) = v
  by_cases hv : v < -2147483648 ∨ 2147483647 < v
  · exact .inl (if_pos hv)
  · exact .inr ⟨v, by rw [if_neg hv]; simp⟩

/-- A shape that ends in the middle of a dimension or right behind its comma. -/
theorem parseShape_cut {s : List Byte} (h : ∀ b ∈ s, isDigit b = true) (hne : s ≠ []) (comma : Bool) :
    parseShape (s ++ if comma then [44] else []) = .throw .outOfRange := by
  have hs := stoi_digits h hne (if comma then [44] else []) (by
    cases comma
    · exact .inl rfl
    · exact .inr ⟨44, [], rfl, by decide⟩)
  have hlen : (s ++ if comma then [44] else []).length < s.length + 2 := by
    cases comma <;> simp
  rw [parseShape]
  split
  · rename_i h'
    rcases hs with hs | ⟨v, hs⟩ <;> rw [hs] at h' <;> cases h'
  · rfl
  · rename_i v p h'
    rcases hs with hs | ⟨v', hs⟩
    · rw [hs] at h'
      cases h'
    · rw [hs] at h'
      simp only [Stoi.ok.injEq] at h'
      obtain ⟨rfl, rfl⟩ := h'
      rw [if_pos hlen]

theorem parseShape_nil : parseShape [] = .ok [] := parseShape_invalid (by decide)

/-- One more dimension in front. -/
def pushDim (d : Int) : Res (List Int) → Res (List Int)
  | .ok vs => .ok (d :: vs)
  | .throw e => .throw e
  | .ub => .ub

theorem parseShape_step {s : List Byte} {d : Nat} (h : IsDecimal s d) (hd : d ≤ 2147483647) (rest : List Byte) :
    parseShape (s ++ 44 :: 32 :: rest) = pushDim d (parseShape rest) := by
  rw [parseShape]
  have hs := stoi_decimal h hd 44 (32 :: rest) (by decide)
  have hdrop : (s ++ 44 :: 32 :: rest).drop (s.length + 2) = rest := by
    rw [← List.drop_drop]
    simp
  split
  · rename_i h'; rw [hs] at h'; cases h'
  · rename_i h'; rw [hs] at h'; cases h'
  · rename_i v p h'
    rw [hs] at h'
    simp only [Stoi.ok.injEq] at h'
    obtain ⟨rfl, rfl⟩ := h'
    rw [if_neg (by simp), hdrop]
    cases parseShape rest <;> rfl

/-- The number of decimal digits. -/
theorem decimal_digits (n : Nat) (hn : 0 < n) : (decimal n).length = (Nat.digits 10 n).length := by
  induction n using Nat.strong_induction_on with
  | _ n ih =>
    rw [decimal, Nat.digits_def' (by norm_num) hn]
    split
    · rename_i h
      rw [Nat.div_eq_of_lt h]
      simp
    · rename_i h
      rw [List.length_append, ih (n / 10) (by omega) (by omega)]
      simp

/-- What the shape is taken to be when `q` characters of `rows, cols, ` are there. -/
theorem parseShape_take {r c : Nat} (hr : r ≤ 2147483647) (hc : c ≤ 2147483647) (q : Nat) :
    parseShape ((dims [r, c]).take q) =
      if q = 0 then .ok []
      else if q < (decimal r).length + 2 then .throw .outOfRange
      else if q = (decimal r).length + 2 then .ok [(r : Int)]
      else if q < (decimal r).length + (decimal c).length + 4 then .throw .outOfRange
      else .ok [(r : Int), (c : Int)] := by
  have h2 : ascii ", " = [44, 32] := by decide
  have hdims : dims [r, c] = decimal r ++ 44 :: 32 :: (decimal c ++ [44, 32]) := by
    simp [dims, h2]
  rw [hdims]
  have one : ∀ (n q : Nat) (rest : List Byte), 0 < q → q < (decimal n).length + 2 →
      parseShape ((decimal n ++ 44 :: 32 :: rest).take q) = .throw .outOfRange := by
    intro n q rest h0 hq
    by_cases h1 : q ≤ (decimal n).length
    · have e : (decimal n ++ 44 :: 32 :: rest).take q = (decimal n).take q ++ if false then [44] else [] := by
        rw [List.take_append_of_le_length h1]
        simp
      rw [e]
      refine parseShape_cut (fun b hb => decimal_isDigit n b (List.mem_of_mem_take hb)) ?_ false
      intro h
      have h2 := congrArg List.length h
      rw [List.length_take, List.length_nil] at h2
      omega
    · have e : (decimal n ++ 44 :: 32 :: rest).take q = decimal n ++ if true then [44] else [] := by
        have : q = (decimal n).length + 1 := by omega
        rw [this, List.take_length_add_append]
        rfl
      rw [e]
      exact parseShape_cut (decimal_isDigit n) (decimal_ne_nil n) true
  split
  · rename_i h
    rw [h]
    exact parseShape_nil
  rename_i h0
  split
  · rename_i h1
    exact one r q _ (by omega) h1
  rename_i h1
  have e : (decimal r ++ 44 :: 32 :: (decimal c ++ [44, 32])).take q =
      decimal r ++ 44 :: 32 :: ((decimal c ++ [44, 32]).take (q - (decimal r).length - 2)) := by
    obtain ⟨q', rfl⟩ : ∃ q', q = (decimal r).length + (q' + 2) := ⟨q - (decimal r).length - 2, by omega⟩
    rw [List.take_length_add_append]
    simp only [List.take_succ_cons]
    congr 4
    omega
  rw [e, parseShape_step (isDecimal_decimal r) hr]
  split
  · rename_i h2
    rw [show q - (decimal r).length - 2 = 0 by omega, List.take_zero, parseShape_nil]
    rfl
  rename_i h2
  split
  · rename_i h3
    rw [one c _ [] (by omega) (by omega)]
    rfl
  · rename_i h3
    rw [List.take_of_length_le (by simp; omega), parseShape_step (isDecimal_decimal c) hc, parseShape_nil]
    rfl

/-! ### Headers that end early -/

theorem parseHeader_short (t : Dtype) {H : List Byte} (h1 : 14 ≤ H.length) (h2 : H.length < 34)
    (hc : (H.drop 12).take 2 = t.code) : parseHeader t H = .ub := by
  unfold parseHeader
  rw [substr, if_neg (by omega)]
  dsimp only
  rw [substr, if_neg (by simp; omega)]
  dsimp only
  have : ((H.drop 11).take 3).drop 1 = t.code := by
    rw [← hc, List.drop_take, List.drop_drop]
  rw [if_neg (by simp [this]), if_pos h2]

/-- Everything in front of the first dimension. -/
def prelude (t : Dtype) (e : Byte) (f : Bool) : List Byte :=
  ascii "{'descr': '" ++ [e] ++ t.code ++ ascii "', 'fortran_order': " ++ ascii (if f then "True" else "False") ++
    ascii ", 'shape': "

theorem prelude_length (t : Dtype) (e : Byte) (f : Bool) : (prelude t e f).length = if f then 49 else 50 := by
  cases t <;> cases f <;> rfl

theorem prelude_get (t : Dtype) (e : Byte) (f : Bool) (l : List Byte) :
    (prelude t e f ++ l)[34]? = some (if f then 84 else 70) := by
  cases t <;> cases f <;> rfl

theorem prelude_drop (t : Dtype) (e : Byte) (f : Bool) (l : List Byte) :
    ((prelude t e f ++ l).drop 11).take 3 = e :: t.code := by
  cases t <;> cases f <;> rfl

theorem prelude_chars (t : Dtype) {e : Byte} (he : e = 60 ∨ e = 62) (f : Bool) :
    ∀ b ∈ prelude t e f, b ≠ 40 ∧ b ≠ 41 := by
  rcases he with rfl | rfl <;> cases t <;> cases f <;> decide

/-- The shape is looked for in everything behind the last opening parenthesis. -/
theorem parseHeader_long (t : Dtype) {H : List Byte} (h34 : 34 ≤ H.length) {e : Byte}
    (hd : (H.drop 11).take 3 = e :: t.code) (h41 : 41 ∉ H) {text : List Byte}
    {o : Option Nat} (ho : findLast 40 H = o) (ht : text = H.drop (o.elim 0 (· + 1)))
    (hp : o.elim 0 (· + 1) ≤ H.length) :
    parseHeader t H = match parseShape text with
      | .ok vs => .ok (e == 62, H[34]? == some 84, vs)
      | .throw x => .throw x
      | .ub => .ub := by
  unfold parseHeader
  rw [substr, if_neg (by omega)]
  dsimp only
  rw [hd, substr, if_neg (by simp)]
  simp only [List.drop_succ_cons, List.drop_zero, ne_eq, not_true_eq_false, if_false, List.head?_cons]
  rw [if_neg (by omega), findLast_none h41, ho]
  cases o with
  | none =>
    dsimp only
    rw [substr, if_neg (by simpa using hp)]
    simp only [Option.elim] at ht
    rw [← ht]
    dsimp only
    cases parseShape text <;> simp
  | some p =>
    dsimp only
    rw [substr, if_neg (by simpa using hp)]
    simp only [Option.elim] at ht
    rw [← ht]
    dsimp only
    cases parseShape text <;> simp

theorem parseHeader_open (t : Dtype) {e : Byte} (he : e = 60 ∨ e = 62) (f : Bool) {text : List Byte}
    (h : ∀ b ∈ text, b ≠ 40 ∧ b ≠ 41) :
    parseHeader t (prelude t e f ++ 40 :: text) = match parseShape text with
      | .ok vs => .ok (e == 62, f, vs)
      | .throw x => .throw x
      | .ub => .ub := by
  have hf : findLast 40 (prelude t e f ++ 40 :: text) = some (prelude t e f).length :=
    findLast_append _ fun hm => (h _ hm).1 rfl
  have hl := prelude_length t e f
  rw [parseHeader_long t (text := text) (by rw [List.length_append, hl]; split <;> simp <;> omega) (prelude_drop t e f _) ?_ hf ?_ ?_,
    prelude_get]
  · cases f <;> rfl
  · intro hm
    rcases List.mem_append.1 hm with hm | hm
    · exact (prelude_chars t he f _ hm).2 rfl
    · rcases List.mem_cons.1 hm with hm | hm
      · exact absurd hm (by decide)
      · exact (h _ hm).2 rfl
  · simp
  · simp

theorem parseHeader_noShape (t : Dtype) {e : Byte} (he : e = 60 ∨ e = 62) (f : Bool) {k : Nat} (hk : 34 ≤ k)
    (hk' : k ≤ (prelude t e f).length) : ∃ b, parseHeader t ((prelude t e f).take k) = .ok (e == 62, b, []) := by
  have hc : ∀ b ∈ (prelude t e f).take k, b ≠ 40 ∧ b ≠ 41 := fun b hb => prelude_chars t he f b (List.mem_of_mem_take hb)
  have hf : findLast 40 ((prelude t e f).take k) = none := findLast_none fun hm => (hc _ hm).1 rfl
  have hlen : ((prelude t e f).take k).length = k := by
    rw [List.length_take]
    omega
  refine ⟨((prelude t e f).take k)[34]? == some 84, (parseHeader_long t (text := (prelude t e f).take k) (e := e) (by rw [hlen]; exact hk) ?_
    (fun hm => (hc _ hm).2 rfl) hf rfl (Nat.zero_le _)).trans ?_⟩
  · have := prelude_drop t e f []
    rw [List.append_nil] at this
    rw [← this, List.drop_take, List.take_take, min_eq_left (by omega)]
  · have : parseShape ((prelude t e f).take k) = .ok [] := by
      apply parseShape_invalid
      obtain ⟨k', rfl⟩ : ∃ k', k = k' + 1 := ⟨k - 1, by omega⟩
      obtain ⟨l, hl⟩ : ∃ l, prelude t e f = 123 :: l := ⟨_, rfl⟩
      rw [hl, List.take_succ_cons]
      exact stoi_invalid_of (s := []) (by simp) (by decide) (by decide) (by decide) (by decide)
    rw [this]

/-! ### Streams that end inside the header -/

theorem readInput_cut (m : Machine) (hm : m.bigEndian = false) (j : Junk) (t : Dtype) {hdr data : List Byte} {k : Nat}
    (hlen : hdr.length < 65536) (hnul : ∀ b ∈ hdr, b ≠ 0) (hk : k < hdr.length) :
    readInput m j t ⟨(npyFile hdr data).take (10 + k), false⟩ =
      match parseHeader t (hdr.take k) with
      | .throw e => .throw e
      | .ub => .ub
      | .ok (e, f, vs) => readData m t ⟨[], true⟩ e f vs := by
  have hcut : (npyFile hdr data).take (10 + k) =
      [0x93, 0x4e, 0x55, 0x4d, 0x50, 0x59, 1, 0] ++ (le16 hdr.length ++ hdr.take k) := by
    have h10 : ([0x93, 0x4e, 0x55, 0x4d, 0x50, 0x59, 1, 0] ++ le16 hdr.length : List Byte).length = 10 := rfl
    unfold npyFile
    rw [List.append_assoc, ← h10, List.take_length_add_append, List.take_append_of_le_length (by omega), List.append_assoc]
  rw [hcut]
  unfold readInput
  have h8 := read_full (a := [0x93, 0x4e, 0x55, 0x4d, 0x50, 0x59, 1, 0])
    (b := le16 hdr.length ++ hdr.take k)
  have h8' : ([0x93, 0x4e, 0x55, 0x4d, 0x50, 0x59, 1, 0] : List Byte).length = 8 := rfl
  rw [h8'] at h8
  rw [h8]
  simp only
  rw [overwrite_full (by rw [j.hmagic]; rfl)]
  have hv : charVal m 1 = 1 := by
    unfold charVal; cases m.charSigned <;> decide
  simp only [List.getElem?_cons_succ, List.getElem?_cons_zero, hv]
  rw [if_neg (by decide), if_neg (by decide)]
  have h2 := read_full (a := le16 hdr.length) (b := hdr.take k)
  rw [le16_length] at h2
  rw [h2]
  simp only
  rw [overwrite_full (by rw [j.hlen]; rfl)]
  simp only [hm, Bool.false_eq_true, if_false]
  rw [le16_val m hm hlen]
  have h3 : (⟨hdr.take k, false⟩ : IStream).read hdr.length = (hdr.take k, ⟨[], true⟩) := by
    have hl : (hdr.take k).length < hdr.length := by
      rw [List.length_take]
      omega
    simp only [IStream.read, Bool.false_eq_true, if_false]
    rw [List.take_of_length_le hl.le, List.drop_eq_nil_of_le hl.le, decide_eq_true hl]
  rw [h3]
  simp only
  have htw : (hdr.take k).takeWhile (fun x => decide (x ≠ 0)) = hdr.take k := by
    have := List.takeWhile_append_of_pos (p := fun x : Byte => decide (x ≠ 0)) (l₁ := hdr.take k) (l₂ := [])
      (by intro b hb; simpa using hnul b (List.mem_of_mem_take hb))
    simpa using this
  rw [htw]
  cases parseHeader t (hdr.take k) <;> rfl

/-- A matrix of zeros. -/
def zeros (r c w : Nat) : Mat := ⟨r, c, fun _ _ => List.replicate w 0⟩

/-- Nothing left to read: the data are taken to be zeros. -/
theorem load_zeros (m : Machine) (t : Dtype) (e f : Bool) (d : Nat) (ds : List Nat) (h0 : 0 < (d :: ds).prod)
    (h : (d :: ds).prod ≤ 2147483647) {P : Nat} (hP : ds.prod = P) : ∃ x,
    readData m t ⟨[], true⟩ e f ((d :: ds).map Int.ofNat) = .ok (x, ⟨[], true⟩) ∧ x.toMat = .ok (zeros d P t.size) := by
  have hN := countInt_eq h0 h
  have hr : readData m t ⟨[], true⟩ e f ((d :: ds).map Int.ofNat) =
      .ok (⟨(List.range (d :: ds).prod).map (chunk t.size (List.replicate ((d :: ds).prod * t.size) 0)),
        (d :: ds).map Int.ofNat, f⟩, ⟨[], true⟩) := by
    unfold readData
    rw [hN]
    simp only
    rw [if_neg (by omega), if_neg (by omega), Int.toNat_natCast]
    generalize (d :: ds).prod = Q
    simp [IStream.read, swapEndianess, overwrite]
  refine ⟨_, hr, ?_⟩
  obtain ⟨hi, he⟩ := toMat_eq ⟨(List.range (d :: ds).prod).map (chunk t.size (List.replicate ((d :: ds).prod * t.size) 0)),
    (d :: ds).map Int.ofNat, f⟩ d ds rfl h0 h (by simp) P hP
  rw [he, zeros]
  refine congrArg (fun g => Res.ok (Mat.mk d P g)) ?_
  funext a b
  have hlt := hi a b
  simp only [List.length_map, List.length_range] at hlt
  simp only [List.getElem_map, List.getElem_range, chunk, List.drop_replicate, List.take_replicate]
  refine congrArg (fun n => List.replicate n 0) ?_
  have h1 : srcIdx f d P a b * t.size + t.size ≤ (d :: ds).prod * t.size := by
    calc _ = (srcIdx f d P a b + 1) * t.size := by ring
      _ ≤ _ := Nat.mul_le_mul_right _ hlt
  omega

theorem load_of_readInput {m : Machine} {j : Junk} {t : Dtype} {s : IStream} :
    (∀ e, readInput m j t s = .throw e → load m j t s = .throw e) ∧
    (readInput m j t s = .ub → load m j t s = .ub) := by
  constructor
  · intro e h
    unfold load
    rw [h]
  · intro h
    unfold load
    rw [h]

/-- **C25**, cuts inside the header: what becomes of a saved matrix when only `k` bytes of its header are left.  Before
the type is complete, in the middle of a dimension and right behind the comma of one the cut is answered with an
exception.  Before the first dimension the program is undefined.  Behind the first dimension the file is taken for a
column of zeros, behind the second for a matrix of zeros. -/
theorem C25_header_cut (m : Machine) (hm : m.bigEndian = false) (j : Junk) {t : Dtype} {M : Mat} (h : Ordinary t M)
    (rm : Bool) : ∃ hdr data, save m t rm M = .ok (npyFile hdr data) ∧ data.length = M.rows * M.cols * t.size ∧
      ∀ k < hdr.length, ∀ o a b : Nat, o = (if rm then 51 else 50) → a = (Nat.digits 10 M.rows).length →
        b = (Nat.digits 10 M.cols).length →
        (k < 14 → ∃ e, load m j t ⟨(npyFile hdr data).take (10 + k), false⟩ = .throw e) ∧
        (14 ≤ k → k ≤ o → load m j t ⟨(npyFile hdr data).take (10 + k), false⟩ = .ub) ∧
        (o < k → k < o + a + 2 → load m j t ⟨(npyFile hdr data).take (10 + k), false⟩ = .throw .outOfRange) ∧
        (k = o + a + 2 →
          load m j t ⟨(npyFile hdr data).take (10 + k), false⟩ = .ok (zeros M.rows 1 t.size, ⟨[], true⟩)) ∧
        (o + a + 2 < k → k < o + a + b + 4 →
          load m j t ⟨(npyFile hdr data).take (10 + k), false⟩ = .throw .outOfRange) ∧
        (o + a + b + 4 ≤ k →
          load m j t ⟨(npyFile hdr data).take (10 + k), false⟩ = .ok (zeros M.rows M.cols t.size, ⟨[], true⟩)) := by
  obtain ⟨hb1, hb2⟩ := h.bounds
  refine ⟨_, _, save_eq m h rm, memory_length M rm t.size h.width, ?_⟩
  intro k hk o a b ho ha hb
  have hlen : (header m t (!rm) [M.rows, M.cols]).length < 65536 := by
    have := (header_length m t (!rm) M.rows M.cols hb1 hb2).1
    omega
  have hread := readInput_cut m hm j t (data := M.memory rm) hlen (fun x hx => (header_chars m t (!rm) _ x hx).1) hk
  obtain ⟨pad, _, hlay, _⟩ := header_layout m t (!rm) [M.rows, M.cols]
  rw [hm] at hlay
  have hhdr : header m t (!rm) [M.rows, M.cols] = prelude t 60 (!rm) ++
      40 :: (dims [M.rows, M.cols] ++ 41 :: (125 :: (List.replicate pad 32 ++ [10]))) := by
    rw [hlay, prelude]
    have : ascii ", 'shape': (" = ascii ", 'shape': " ++ [40] := by decide
    rw [this]
    simp [List.append_assoc]
  have hpl : (prelude t 60 (!rm)).length + 1 = o := by
    rw [prelude_length, ho]
    cases rm <;> rfl
  rw [← decimal_digits _ h.rows] at ha
  rw [← decimal_digits _ h.cols] at hb
  have hdl : (dims [M.rows, M.cols]).length = a + b + 4 := by
    have : (ascii ", ").length = 2 := by decide
    simp only [dims, List.length_append, this, ha, hb, List.length_nil]
    omega
  have hdc : ∀ q, ∀ x ∈ (dims [M.rows, M.cols]).take q, x ≠ 40 ∧ x ≠ 41 := fun q x hx =>
    ⟨(dims_chars _ x (List.mem_of_mem_take hx)).1, (dims_chars _ x (List.mem_of_mem_take hx)).2.1⟩
  -- headers that end inside the shape
  have hopen : o ≤ k → k ≤ o + (a + b + 4) → parseHeader t ((header m t (!rm) [M.rows, M.cols]).take k) =
      match parseShape ((dims [M.rows, M.cols]).take (k - o)) with
      | .ok vs => .ok (false, !rm, vs)
      | .throw x => .throw x
      | .ub => .ub := by
    intro h1 h2
    have e : (header m t (!rm) [M.rows, M.cols]).take k =
        prelude t 60 (!rm) ++ 40 :: (dims [M.rows, M.cols]).take (k - o) := by
      rw [hhdr, show k = (prelude t 60 (!rm)).length + ((k - o) + 1) by omega, List.take_length_add_append,
        List.take_succ_cons, List.take_append_of_le_length (by omega)]
      congr 3
      omega
    rw [e]
    exact parseHeader_open t (.inl rfl) (!rm) (hdc _)
  have hshape := parseShape_take hb1 hb2 (k - o)
  rw [← ha, ← hb] at hshape
  have hprod : [M.rows, M.cols].prod = M.rows * M.cols := by simp
  have hpos : 0 < M.rows * M.cols := Nat.mul_pos h.rows h.cols
  refine ⟨fun h1 => ?_, fun h1 h2 => ?_, fun h1 h2 => ?_, fun h1 => ?_, fun h1 h2 => ?_, fun h1 => ?_⟩
  · obtain ⟨e, he⟩ := C25_short_files_rejected_partial m j t
      ((npyFile (header m t (!rm) [M.rows, M.cols]) (M.memory rm)).take (10 + k)) (by
        rw [List.length_take]
        omega)
    exact ⟨e, load_of_readInput.1 e he⟩
  · by_cases h34 : k < 34
    · refine load_of_readInput.2 ?_
      rw [hread, parseHeader_short t (by rw [List.length_take]; omega) (by rw [List.length_take]; omega) ?_]
      have h3 := prelude_drop t 60 (!rm)
        (40 :: (dims [M.rows, M.cols] ++ 41 :: (125 :: (List.replicate pad 32 ++ [10]))))
      rw [← hhdr] at h3
      have h4 := congrArg (List.drop 1) h3
      rw [List.drop_take, List.drop_drop] at h4
      rw [List.drop_take, List.take_take, min_eq_left (by omega)]
      simpa using h4
    · have hp : ∃ f, parseHeader t ((header m t (!rm) [M.rows, M.cols]).take k) = .ok (false, f, []) := by
        by_cases h5 : k = o
        · refine ⟨!rm, ?_⟩
          rw [hopen (by omega) (by omega), hshape, if_pos (by omega)]
        · obtain ⟨f, hf⟩ := parseHeader_noShape t (e := 60) (.inl rfl) (!rm) (k := k) (by omega) (by omega)
          refine ⟨f, ?_⟩
          rw [hhdr, List.take_append_of_le_length (by omega), hf]
          rfl
      obtain ⟨f, hf⟩ := hp
      have hr : readInput m j t ⟨(npyFile (header m t (!rm) [M.rows, M.cols]) (M.memory rm)).take (10 + k), false⟩ =
          readData m t ⟨[], true⟩ false f [] := by
        rw [hread, hf]
      have hd : ∃ x s, readData m t ⟨[], true⟩ false f [] = .ok (x, s) ∧ x.shape = [] := by
        have h1 : countInt [] = 1 := rfl
        unfold readData
        rw [h1]
        exact ⟨_, _, rfl, rfl⟩
      obtain ⟨x, s, hx, hs⟩ := hd
      unfold load
      rw [hr, hx]
      dsimp only
      unfold Input.toMat
      rw [hs]
  · refine load_of_readInput.1 _ ?_
    rw [hread, hopen (by omega) (by omega), hshape, if_neg (by omega), if_pos (by omega)]
  · obtain ⟨x, hx1, hx2⟩ := load_zeros m t false (!rm) M.rows [] (by simpa using h.rows) (by simpa using hb1) (P := 1) rfl
    refine load_of (x := x) ?_ hx2
    rw [hread, hopen (by omega) (by omega), hshape, if_neg (by omega), if_neg (by omega), if_pos (by omega)]
    exact hx1
  · refine load_of_readInput.1 _ ?_
    rw [hread, hopen (by omega) (by omega), hshape, if_neg (by omega), if_neg (by omega), if_neg (by omega),
      if_pos (by omega)]
  · obtain ⟨x, hx1, hx2⟩ := load_zeros m t false (!rm) M.rows [M.cols] (by rw [hprod]; exact hpos)
      (by rw [hprod]; exact h.size) (P := M.cols) (by simp)
    refine load_of (x := x) ?_ hx2
    rw [hread]
    by_cases h5 : k = o + (a + b + 4)
    · rw [hopen (by omega) (by omega), hshape, if_neg (by omega), if_neg (by omega), if_neg (by omega),
        if_neg (by omega)]
      exact hx1
    · obtain ⟨q, hq⟩ : ∃ q, k = (prelude t 60 (!rm)).length + (((dims [M.rows, M.cols]).length + (q + 1)) + 1) :=
        ⟨k - o - (a + b + 4) - 1, by omega⟩
      have e : (header m t (!rm) [M.rows, M.cols]).take k = prelude t 60 (!rm) ++
          40 :: (dims [M.rows, M.cols] ++ 41 :: ((125 :: (List.replicate pad 32 ++ [10])).take q)) := by
        rw [hhdr, hq, List.take_length_add_append,
          List.take_succ_cons, List.take_length_add_append, List.take_succ_cons]
      have hp := parseHeader_layout t 60 (!rm) (dims [M.rows, M.cols])
        ((125 :: (List.replicate pad 32 ++ [10])).take q)
        (fun x hx => ⟨(dims_chars _ x hx).1, (dims_chars _ x hx).2.1⟩) (by
          intro x hx
          have := List.mem_of_mem_take hx
          simp only [List.mem_cons, List.mem_append, List.mem_replicate, List.not_mem_nil, or_false] at this
          rcases this with rfl | ⟨_, rfl⟩ | rfl <;> decide) (vs := [M.rows, M.cols].map Int.ofNat) (by
          intro k hk
          obtain ⟨k', rfl⟩ : ∃ k', k = k' + 1 := ⟨k - 1, by omega⟩
          rw [List.take_succ_cons]
          exact parseShape_dims _ (by
            intro d hd
            rcases List.mem_cons.1 hd with rfl | hd
            · exact hb1
            · rw [List.mem_singleton.1 hd]
              exact hb2) _)
      have e2 : ascii "{'descr': '" ++ [60] ++ t.code ++ ascii "', 'fortran_order': " ++
          ascii (if (!rm) then "True" else "False") ++ ascii ", 'shape': (" ++ dims [M.rows, M.cols] ++
          41 :: ((125 :: (List.replicate pad 32 ++ [10])).take q) =
          (header m t (!rm) [M.rows, M.cols]).take k := by
        rw [e, prelude]
        have : ascii ", 'shape': (" = ascii ", 'shape': " ++ [40] := by decide
        rw [this]
        simp [List.append_assoc]
      rw [e2] at hp
      rw [hp]
      exact hx1

example : ∃ hdr data, save le .i2 false demoMat = .ok (npyFile hdr data) ∧ 53 < hdr.length ∧
    load le junk0 .i2 ⟨(npyFile hdr data).take (10 + 53), false⟩ = .ok (zeros 2 1 2, ⟨[], true⟩) ∧
    load le junk0 .i2 ⟨(npyFile hdr data).take (10 + 51), false⟩ = .throw .outOfRange := by
  obtain ⟨hdr, data, h1, h2, h3⟩ := C25_header_cut le rfl junk0 demoMat_ordinary false
  have hl : 53 < hdr.length := by
    have e := save_eq le demoMat_ordinary false
    rw [h1] at e
    have : (npyFile hdr data).length = (npyFile (header le .i2 (!false) [demoMat.rows, demoMat.cols])
        (demoMat.memory false)).length := by
      rw [Res.ok.inj e]
    have hm := memory_length demoMat false 2 (fun _ _ => rfl)
    obtain ⟨k, _, hk, _⟩ := header_layout le .i2 (!false) [demoMat.rows, demoMat.cols]
    have hh : 53 < (header le .i2 (!false) [demoMat.rows, demoMat.cols]).length := by
      rw [hk]
      simp only [List.length_append, List.length_cons]
      have : (ascii "{'descr': '").length = 11 := by decide
      have : (ascii "', 'fortran_order': ").length = 20 := by decide
      have : (ascii ", 'shape': (").length = 12 := by decide
      have : (ascii (if (!false) then "True" else "False")).length = 4 := by decide
      have : Dtype.i2.code.length = 2 := by decide
      have : (dims [demoMat.rows, demoMat.cols]).length = 6 := by
        have : (decimal 2).length = 1 ∧ (decimal 3).length = 1 := by
          constructor <;> rw [decimal] <;> rfl
        have h2 : (ascii ", ").length = 2 := by decide
        simp only [dims, demoMat, List.length_append, this, h2, List.length_nil]
      simp only [List.length_nil]
      omega
    simp only [npyFile, List.length_append, le16_length, h2, hm] at this
    have e3 : demoMat.rows * demoMat.cols * Dtype.i2.size = demoMat.rows * demoMat.cols * 2 := rfl
    omega
  have d2 : (Nat.digits 10 demoMat.rows).length = 1 := by norm_num [demoMat]
  have d3 : (Nat.digits 10 demoMat.cols).length = 1 := by norm_num [demoMat]
  have a := h3 53 hl 50 1 1 rfl d2.symm d3.symm
  have b := h3 51 (by omega) 50 1 1 rfl d2.symm d3.symm
  exact ⟨hdr, data, h1, hl, a.2.2.2.1 rfl, b.2.2.1 (by norm_num) (by norm_num)⟩

end Verif.Numpy
