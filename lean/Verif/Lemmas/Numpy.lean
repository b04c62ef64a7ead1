import Verif.Spec.Numpy
import Mathlib.Data.List.Basic
import Mathlib.Tactic.Ring
import Mathlib.Algebra.BigOperators.Group.List.Basic

/-! Lemmas on the NPY reader and writer. -/
namespace Verif.Numpy

/-! ### Numbers -/

theorem digit_facts : ∀ n : Fin 10, isDigit (UInt8.ofNat (48 + n)) = true ∧
    (UInt8.ofNat (48 + n)).toNat = 48 + n ∧ (n ≠ 0 → UInt8.ofNat (48 + n) ≠ 48) := by decide

theorem isDigit_facts {b : Byte} (h : isDigit b = true) :
    isSpace b = false ∧ b ≠ 45 ∧ b ≠ 43 ∧ b ≠ 40 ∧ b ≠ 41 ∧ b ≠ 0 ∧ b.toNat < 128 := by
  have : ∀ n : Fin 256, isDigit (UInt8.ofNat n) = true →
      isSpace (UInt8.ofNat n) = false ∧ UInt8.ofNat n ≠ 45 ∧ UInt8.ofNat n ≠ 43 ∧
      UInt8.ofNat n ≠ 40 ∧ UInt8.ofNat n ≠ 41 ∧ UInt8.ofNat n ≠ 0 ∧ (UInt8.ofNat n).toNat < 128 := by
    decide +kernel
  have h2 := this ⟨b.toNat, b.toNat_lt⟩
  simpa using h2 (by simpa using h)

theorem isDigit_iff {b : Byte} : isDigit b = true ↔ 48 ≤ b.toNat ∧ b.toNat ≤ 57 := by
  have : ∀ n : Fin 256, isDigit (UInt8.ofNat n) = true ↔ 48 ≤ n.val ∧ n.val ≤ 57 := by decide +kernel
  simpa using this ⟨b.toNat, b.toNat_lt⟩

theorem decimal_isDigit (n : Nat) : ∀ b ∈ decimal n, isDigit b = true := by
  induction n using Nat.strongRecOn with
  | ind n ih =>
    intro b hb
    rw [decimal] at hb
    split at hb
    · rename_i h
      simp only [List.mem_singleton] at hb
      subst hb
      exact (digit_facts ⟨n, h⟩).1
    · simp only [List.mem_append, List.mem_singleton] at hb
      rcases hb with hb | rfl
      · exact ih (n / 10) (by omega) b hb
      · exact (digit_facts ⟨n % 10, by omega⟩).1

theorem decimal_ne_nil (n : Nat) : decimal n ≠ [] := by
  rw [decimal]; split <;> simp

theorem digitsVal_snoc (a : List Byte) (b : Byte) :
    digitsVal (a ++ [b]) = digitsVal a * 10 + (b.toNat - 48) := by
  simp [digitsVal, List.foldl_append]

theorem digitsVal_decimal (n : Nat) : digitsVal (decimal n) = n := by
  induction n using Nat.strongRecOn with
  | ind n ih =>
    rw [decimal]
    split
    · rename_i h
      simp only [digitsVal, List.foldl_cons, List.foldl_nil]
      rw [(digit_facts ⟨n, h⟩).2.1]
      simp
    · rw [digitsVal_snoc, ih (n / 10) (by omega), (digit_facts ⟨n % 10, by omega⟩).2.1]
      simp only
      omega

theorem decimal_head (n : Nat) (hn : n ≠ 0) : (decimal n).head? ≠ some 48 := by
  induction n using Nat.strongRecOn with
  | ind n ih =>
    rw [decimal]
    split
    · rename_i h
      have := (digit_facts ⟨n, h⟩).2.2 (by
        intro h0; apply hn; simpa [Fin.ext_iff] using h0)
      simpa using this
    · have hne := decimal_ne_nil (n / 10)
      rw [List.head?_append_of_ne_nil _ hne]
      exact ih (n / 10) (by omega) (by omega)

theorem isDecimal_decimal (n : Nat) : IsDecimal (decimal n) n where
  nonempty := decimal_ne_nil n
  digits := fun b hb => isDigit_iff.1 (decimal_isDigit n b hb)
  noLeadingZero := decimal_head n
  value := by
    have h : ∀ (l : List Byte) (v : Nat), l.foldl (fun v b => 10 * v + (b.toNat - 48)) v =
        l.foldl (fun v b => v * 10 + (b.toNat - 48)) v := by
      intro l
      induction l with
      | nil => intro v; rfl
      | cons a l ih => intro v; simp only [List.foldl_cons, ih, Nat.mul_comm 10 v]
    rw [h]
    exact digitsVal_decimal n

theorem IsDecimal.isDigit {s : List Byte} {n : Nat} (h : IsDecimal s n) : ∀ b ∈ s, isDigit b = true :=
  fun b hb => isDigit_iff.2 (h.digits b hb)

theorem IsDecimal.digitsVal {s : List Byte} {n : Nat} (h : IsDecimal s n) : digitsVal s = n := by
  have h' : ∀ (l : List Byte) (v : Nat), l.foldl (fun v b => 10 * v + (b.toNat - 48)) v =
      l.foldl (fun v b => v * 10 + (b.toNat - 48)) v := by
    intro l
    induction l with
    | nil => intro v; rfl
    | cons a l ih => intro v; simp only [List.foldl_cons, ih, Nat.mul_comm 10 v]
  rw [← h.value, h', Numpy.digitsVal]

theorem stoi_decimal {s : List Byte} {d : Nat} (h : IsDecimal s d) (hd : d ≤ 2147483647)
    (a : Byte) (rest : List Byte) (ha : isDigit a = false) :
    stoi (s ++ a :: rest) = .ok d s.length := by
  obtain ⟨x, l, hx⟩ := List.exists_cons_of_ne_nil h.nonempty
  have hdig := h.isDigit
  have hxd := isDigit_facts (hdig x (by simp [hx]))
  have h1 : (s ++ a :: rest).takeWhile isSpace = [] := by
    simp [hx, hxd.1]
  have h2 : (s ++ a :: rest).head? = some x := by simp [hx]
  have h3 : (s ++ a :: rest).takeWhile isDigit = s := by
    rw [List.takeWhile_append_of_pos hdig]; simp [ha]
  unfold stoi
  simp only [h1, List.length_nil, List.drop_zero, h2, Option.some.injEq, hxd.2.1, hxd.2.2.1,
    or_self, if_false, h3]
  have hneg : (some x == some (45 : Byte)) = false := by simpa using hxd.2.1
  rw [hneg]
  simp [stoiDigits, h.nonempty, h.digitsVal]
  omega

theorem stoi_invalid_of {s : List Byte} {a : Byte} {rest : List Byte}
    (hs : ∀ b ∈ s, isSpace b = true) (ha : isSpace a = false) (hd : isDigit a = false)
    (h1 : a ≠ 45) (h2 : a ≠ 43) : stoi (s ++ a :: rest) = .invalid := by
  have h : (s ++ a :: rest).takeWhile isSpace = s := by
    rw [List.takeWhile_append_of_pos hs]; simp [ha]
  unfold stoi
  simp [h, h1, h2, hd, stoiDigits]

theorem parseShape_cons {s : List Byte} {d : Nat} (h : IsDecimal s d) (hd : d ≤ 2147483647)
    (a b : Byte) (rest : List Byte) (ha : isDigit a = false) {vs : List Int}
    (hvs : parseShape rest = .ok vs) :
    parseShape (s ++ a :: b :: rest) = .ok ((d : Int) :: vs) := by
  rw [parseShape]
  have hs := stoi_decimal h hd a (b :: rest) ha
  have hdrop : (s ++ a :: b :: rest).drop (s.length + 2) = rest := by
    rw [← List.drop_drop]
    simp
  split
  · rename_i h'; rw [hs] at h'; cases h'
  · rename_i h'; rw [hs] at h'; cases h'
  · rename_i v p h'
    rw [hs] at h'
    simp only [Stoi.ok.injEq] at h'
    obtain ⟨rfl, rfl⟩ := h'
    rw [if_neg (by simp), hdrop, hvs]

theorem parseShape_invalid {s : List Byte} (h : stoi s = .invalid) : parseShape s = .ok [] := by
  rw [parseShape]
  split
  · rfl
  · rename_i h'; rw [h] at h'; cases h'
  · rename_i h'; rw [h] at h'; cases h'

/-! ### Strings -/

theorem findLast_none {c : Byte} {s : List Byte} (h : c ∉ s) : findLast c s = none := by
  induction s with
  | nil => rfl
  | cons a s ih =>
    simp only [List.mem_cons, not_or] at h
    simp [findLast, ih h.2, Ne.symm h.1]

theorem findLast_append {c : Byte} (a : List Byte) {b : List Byte} (h : c ∉ b) :
    findLast c (a ++ c :: b) = some a.length := by
  induction a with
  | nil => simp [findLast, findLast_none h]
  | cons x a ih => simp [findLast, ih]

/-- Parsing a header with the layout shared by numpy and the writer: `text` is what stands between
the parentheses and `tail` what follows them. -/
theorem parseHeader_layout (t : Dtype) (e : Byte) (f : Bool) (text tail : List Byte)
    (h1 : ∀ b ∈ text, b ≠ 40 ∧ b ≠ 41) (h2 : ∀ b ∈ tail, b ≠ 40 ∧ b ≠ 41) {vs : List Int}
    (hvs : ∀ k, 20 ≤ k → parseShape (text ++ (41 :: tail).take k) = .ok vs) :
    parseHeader t (ascii "{'descr': '" ++ [e] ++ t.code ++ ascii "', 'fortran_order': " ++
      ascii (if f then "True" else "False") ++ ascii ", 'shape': (" ++ text ++ 41 :: tail) =
      .ok (e == 62, f, vs) := by
  have ha : ∀ l : List Byte, (ascii "{'descr': '" ++ [e] ++ t.code ++ l).drop 11 =
      e :: (t.code ++ l) := by intro l; cases t <;> rfl
  have hcl : t.code.length = 2 := by cases t <;> rfl
  obtain ⟨p, q, hpq⟩ : ∃ p q, t.code = [p, q] := by cases t <;> exact ⟨_, _, rfl⟩
  have hc : ∀ b ∈ t.code, b ≠ 40 ∧ b ≠ 41 := by cases t <;> decide
  generalize hH : (ascii "{'descr': '" ++ [e] ++ t.code ++ ascii "', 'fortran_order': " ++
      ascii (if f then "True" else "False") ++ ascii ", 'shape': (" ++ text ++ 41 :: tail) = H
  have hH1 : H = (ascii "{'descr': '" ++ [e] ++ t.code ++ (ascii "', 'fortran_order': " ++
      ascii (if f then "True" else "False") ++ ascii ", 'shape': (" ++ text ++ 41 :: tail)) := by
    rw [← hH]; simp [List.append_assoc]
  set A := ascii "{'descr': '" ++ [e] ++ t.code ++ ascii "', 'fortran_order': " ++
      ascii (if f then "True" else "False") ++ ascii ", 'shape': " with hA
  have hAl : 40 ≤ A.length := by
    rw [hA]
    simp only [List.length_append, hcl, List.length_singleton]
    cases f <;> decide
  have hH2 : H = A ++ 40 :: (text ++ 41 :: tail) := by
    rw [← hH, hA]
    have : ascii ", 'shape': (" = ascii ", 'shape': " ++ [40] := by decide
    rw [this]
    simp [List.append_assoc]
  have hH3 : H = (A ++ 40 :: text) ++ 41 :: tail := by rw [hH2]; simp
  have hlen : 34 ≤ H.length := by rw [hH2]; simp; omega
  have hf1 : findLast 40 H = some A.length := by
    rw [hH2]
    refine findLast_append A ?_
    intro hmem
    rcases List.mem_append.1 hmem with h | h
    · exact (h1 _ h).1 rfl
    · rcases List.mem_cons.1 h with h | h
      · exact absurd h (by decide)
      · exact (h2 _ h).1 rfl
  have hf2 : findLast 41 H = some (A.length + 1 + text.length) := by
    rw [hH3, findLast_append _ (fun h => (h2 _ h).2 rfl)]
    simp
    omega
  have h34 : (H[34]? == some 84) = f := by
    rw [hH1, hpq]
    cases f <;> rfl
  have hd : substr H 11 (some 3) = .ok (e :: t.code) := by
    rw [substr, if_neg (by omega)]
    rw [hH1, ha, hpq]
    rfl
  have hs : substr H (A.length + 1) (some (A.length + 1 + text.length)) =
      .ok (text ++ (41 :: tail).take (A.length + 1)) := by
    rw [substr, if_neg (by rw [hH2]; simp)]
    congr 1
    have : H.drop (A.length + 1) = text ++ 41 :: tail := by
      rw [hH2, ← List.drop_drop]; simp
    rw [this, Nat.add_comm, List.take_length_add_append]
  unfold parseHeader
  rw [hd]
  simp only [List.head?_cons]
  have hsub : substr (e :: t.code) 1 none = .ok t.code := by simp [substr]
  rw [hsub]
  simp only [ne_eq, not_true_eq_false, if_false]
  rw [if_neg (by omega), hf1, hf2, h34]
  simp only
  rw [hs]
  simp only
  rw [hvs _ (by omega)]
  simp

/-! ### Streams -/

theorem read_full {a b : List Byte} : (⟨a ++ b, false⟩ : IStream).read a.length = (a, ⟨b, false⟩) := by
  simp [IStream.read]

theorem overwrite_full {old new : List Byte} (h : old.length = new.length) :
    overwrite old new = new := by
  simp [overwrite, ← h]

theorem le16_val (m : Machine) (hm : m.bigEndian = false) {n : Nat} (h : n < 65536) :
    val16 m (le16 n) = n := by
  simp only [le16, val16, hm]
  rw [UInt8.toNat_ofNat', UInt8.toNat_ofNat']
  simp
  omega

theorem le16_length (n : Nat) : (le16 n).length = 2 := rfl

/-- Reading a version 1.0 file with a header that parses, on a little endian machine.  The data may
be cut short. -/
theorem readInput_npy (m : Machine) (hm : m.bigEndian = false) (j : Junk) (t : Dtype)
    {hdr data : List Byte} {e f : Bool} {vs : List Int} {N : Nat}
    (hlen : hdr.length < 65536) (hnul : ∀ b ∈ hdr, b ≠ 0)
    (hp : parseHeader t hdr = .ok (e, f, vs)) (hN : countInt vs = (N : Int)) (hpos : 0 < N) :
    readInput m j t ⟨npyFile hdr data, false⟩ =
      .ok (⟨(List.range N).map (chunk t.size
        (overwrite (List.replicate (N * t.size) 0) (data.take (N * t.size)))), vs, f⟩,
        ⟨data.drop (N * t.size), decide (data.length < N * t.size)⟩) := by
  unfold readInput npyFile
  rw [List.append_assoc, List.append_assoc]
  have h8 := read_full (a := [0x93, 0x4e, 0x55, 0x4d, 0x50, 0x59, 1, 0])
    (b := le16 hdr.length ++ (hdr ++ data))
  have h8' : ([0x93, 0x4e, 0x55, 0x4d, 0x50, 0x59, 1, 0] : List Byte).length = 8 := rfl
  rw [h8'] at h8
  rw [h8]
  simp only
  rw [overwrite_full (by rw [j.hmagic]; rfl)]
  have hv : charVal m 1 = 1 := by
    unfold charVal; cases m.charSigned <;> decide
  simp only [List.getElem?_cons_succ, List.getElem?_cons_zero, hv]
  rw [if_neg (by decide), if_neg (by decide)]
  have h2 := read_full (a := le16 hdr.length) (b := hdr ++ data)
  rw [le16_length] at h2
  rw [h2]
  simp only
  rw [overwrite_full (by rw [j.hlen]; rfl)]
  simp only [hm, Bool.false_eq_true, if_false]
  rw [le16_val m hm hlen, read_full]
  simp only
  have htw : hdr.takeWhile (fun x => decide (x ≠ 0)) = hdr := by
    have := List.takeWhile_append_of_pos (p := fun x : Byte => decide (x ≠ 0)) (l₁ := hdr) (l₂ := [])
      (by intro b hb; simpa using hnul b hb)
    simpa using this
  rw [htw, hp]
  simp only
  unfold readData
  rw [hN]
  simp only
  rw [if_neg (by omega), if_neg (by omega)]
  simp only [Int.toNat_natCast, IStream.read, Bool.false_eq_true, if_false, swapEndianess, ite_self]

end Verif.Numpy
