import Verif.Lemmas.Numpy
import Mathlib.Data.List.FinRange

/-! Lemmas on headers, shapes and the memory of matrices. -/
namespace Verif.Numpy

/-! ### The header written -/

theorem padLoop_spec (h : List Byte) : ∃ k, k < 16 ∧ padLoop h = h ++ List.replicate k 32 ∧
    ((padLoop h).length + 11) % 16 = 0 := by
  fun_induction padLoop h with
  | case1 h hc => exact ⟨0, by omega, by simp, hc⟩
  | case2 h hc ih =>
    obtain ⟨k, hk, he, hm⟩ := ih
    have h1 : (ascii " ") = [32] := by decide
    have hl : (padLoop (h ++ ascii " ")).length = h.length + 1 + k := by
      rw [he, h1]; simp; omega
    refine ⟨k + 1, ?_, ?_, hm⟩
    · rw [hl] at hm
      by_contra hcon
      have : k = 15 := by omega
      subst this
      omega
    · rw [he, h1, List.append_assoc]
      rfl

theorem dims_chars (shape : List Nat) : ∀ b ∈ dims shape, b ≠ 40 ∧ b ≠ 41 ∧ b ≠ 0 ∧ b.toNat < 128 := by
  induction shape with
  | nil => intro b h; cases h
  | cons d ds ih =>
    intro b h
    simp only [dims, List.mem_append] at h
    rcases h with (h | h) | h
    · have := isDigit_facts (decimal_isDigit d b h)
      exact ⟨this.2.2.2.1, this.2.2.2.2.1, this.2.2.2.2.2.1, this.2.2.2.2.2.2⟩
    · have : ∀ b ∈ ascii ", ", b ≠ 40 ∧ b ≠ 41 ∧ b ≠ 0 ∧ b.toNat < 128 := by decide
      exact this b h
    · exact ih b h

theorem parseShape_dims (shape : List Nat) (hd : ∀ d ∈ shape, d ≤ 2147483647) (rest : List Byte) :
    parseShape (dims shape ++ 41 :: rest) = .ok (shape.map Int.ofNat) := by
  induction shape with
  | nil =>
    apply parseShape_invalid
    exact stoi_invalid_of (s := []) (by simp) (by decide) (by decide) (by decide) (by decide)
  | cons d ds ih =>
    have h2 : dims (d :: ds) ++ 41 :: rest =
        decimal d ++ 44 :: 32 :: (dims ds ++ 41 :: rest) := by
      have : ascii ", " = [44, 32] := by decide
      simp [dims, this]
    rw [h2, parseShape_cons (isDecimal_decimal d) (hd d (by simp)) 44 32 _ (by decide)
      (ih fun d' h => hd d' (List.mem_cons_of_mem _ h))]
    rfl

/-- The header written has the common layout. -/
theorem header_layout (m : Machine) (t : Dtype) (f : Bool) (shape : List Nat) :
    ∃ k, k < 16 ∧ header m t f shape =
      ascii "{'descr': '" ++ [if m.bigEndian then 62 else 60] ++ t.code ++
        ascii "', 'fortran_order': " ++ ascii (if f then "True" else "False") ++
        ascii ", 'shape': (" ++ dims shape ++ 41 :: (125 :: (List.replicate k 32 ++ [10])) ∧
      ((header m t f shape).length + 10) % 16 = 0 := by
  obtain ⟨k, hk, he, hm⟩ := padLoop_spec (headerText m t f shape)
  refine ⟨k, hk, ?_, ?_⟩
  · rw [header, he, headerText, dtypeStr]
    have h1 : ascii (if m.bigEndian then ">" else "<") = [if m.bigEndian then 62 else 60] := by
      cases m.bigEndian <;> decide
    have h2 : ascii ")}" = [41, 125] := by decide
    have h3 : ascii "\n" = [10] := by decide
    have h4 : ascii "', 'fortran_order': " = ascii "'," ++ ascii " 'fortran_order': " := by decide
    have h5 : ascii ", 'shape': (" = ascii "," ++ ascii " 'shape': (" := by decide
    rw [h1, h2, h3, h4, h5]
    simp [List.append_assoc]
  · rw [header, List.length_append]
    have : (ascii "\n").length = 1 := by decide
    omega

theorem header_chars (m : Machine) (t : Dtype) (f : Bool) (shape : List Nat) :
    ∀ b ∈ header m t f shape, b ≠ 0 ∧ b.toNat < 128 := by
  obtain ⟨k, _, he, _⟩ := header_layout m t f shape
  rw [he]
  intro b hb
  simp only [List.mem_append, List.mem_cons, List.mem_replicate] at hb
  have hs : ∀ l : List Byte, (∀ b ∈ l, b ≠ 0 ∧ b.toNat < 128) → b ∈ l → b ≠ 0 ∧ b.toNat < 128 :=
    fun l h hb => h b hb
  rcases hb with ((((((h | h) | h) | h) | h) | h) | h) | h
  · exact hs _ (by decide) h
  · rcases h with h | h
    · subst h; cases m.bigEndian <;> decide
    · cases h
  · refine hs _ ?_ h; cases t <;> decide
  · exact hs _ (by decide) h
  · refine hs _ ?_ h; cases f <;> decide
  · exact hs _ (by decide) h
  · exact ⟨(dims_chars shape b h).2.2.1, (dims_chars shape b h).2.2.2⟩
  · rcases h with rfl | rfl | ⟨_, rfl⟩ | rfl | h
    · decide
    · decide
    · decide
    · decide
    · cases h

theorem parseHeader_header (m : Machine) (t : Dtype) (f : Bool) (shape : List Nat)
    (hd : ∀ d ∈ shape, d ≤ 2147483647) :
    parseHeader t (header m t f shape) = .ok (m.bigEndian, f, shape.map Int.ofNat) := by
  obtain ⟨k, _, he, _⟩ := header_layout m t f shape
  rw [he, parseHeader_layout t _ f (dims shape) (125 :: (List.replicate k 32 ++ [10]))
    (fun b hb => ⟨(dims_chars shape b hb).1, (dims_chars shape b hb).2.1⟩) (vs := shape.map Int.ofNat)]
  · cases m.bigEndian <;> rfl
  · intro b hb
    simp only [List.mem_cons, List.mem_append, List.mem_replicate, List.not_mem_nil, or_false] at hb
    rcases hb with rfl | ⟨_, rfl⟩ | rfl <;> decide
  · intro k hk
    obtain ⟨k', rfl⟩ : ∃ k', k = k' + 1 := ⟨k - 1, by omega⟩
    rw [List.take_succ_cons]
    exact parseShape_dims shape hd _

theorem decimal_length (n k : Nat) (h : n < 10 ^ (k + 1)) : (decimal n).length ≤ k + 1 := by
  induction k generalizing n with
  | zero => rw [decimal, if_pos (by simpa using h)]; simp
  | succ k ih =>
    rw [decimal]
    split
    · simp
    · have := ih (n / 10) (by
        rw [Nat.div_lt_iff_lt_mul (by norm_num)]
        rw [pow_succ] at h
        exact h)
      simp
      omega

theorem header_length (m : Machine) (t : Dtype) (f : Bool) (r c : Nat) (hr : r ≤ 2147483647)
    (hc : c ≤ 2147483647) : (header m t f [r, c]).length < 256 ∧ 40 ≤ (header m t f [r, c]).length := by
  obtain ⟨k, hk, he, _⟩ := header_layout m t f [r, c]
  rw [he]
  have h1 := decimal_length r 9 (by norm_num; omega)
  have h2 := decimal_length c 9 (by norm_num; omega)
  have h3 : t.code.length = 2 := by cases t <;> rfl
  have h4 : (ascii (if f then "True" else "False")).length ≤ 5 := by cases f <;> decide
  have e1 : (ascii "{'descr': '").length = 11 := by decide
  have e2 : (ascii "', 'fortran_order': ").length = 20 := by decide
  have e3 : (ascii ", 'shape': (").length = 12 := by decide
  have e4 : (ascii ", ").length = 2 := by decide
  simp only [List.length_append, List.length_cons, List.length_nil, List.length_replicate, dims, h3,
    e1, e2, e3, e4]
  omega

theorem count_eq (shape : List Nat) : count shape = shape.prod := by
  unfold count
  rw [List.prod_eq_foldl]

theorem lenBytes_eq (m : Machine) (n : Nat) (hn : n < 65536) : lenBytes m n = le16 n := by
  have : n / 256 % 256 = n / 256 := by omega
  unfold lenBytes mem16 le16
  cases m.bigEndian <;> simp [this]

/-- What the writer writes is an NPY file with that header. -/
theorem write_eq (m : Machine) (t : Dtype) (data : List Byte) (shape : List Nat) (f : Bool)
    (hdata : data.length = shape.prod * t.size) (hl : (header m t f shape).length < 65536) :
    write m t data shape f = .ok (npyFile (header m t f shape) data) := by
  unfold write
  rw [count_eq, if_neg (by omega)]
  simp only
  rw [Nat.mod_eq_of_lt hl, lenBytes_eq m _ hl, ← hdata,
    List.take_length]
  rfl

/-! ### Sizes -/

theorem prod_pos' {ds : List Nat} (h : ∀ d ∈ ds, 0 < d) : 0 < ds.prod := by
  induction ds with
  | nil => simp
  | cons a ds ih =>
    rw [List.prod_cons]
    exact Nat.mul_pos (h a (by simp)) (ih fun d hd => h d (List.mem_cons_of_mem _ hd))


theorem wrap32_id {x : Nat} (h : x ≤ 2147483647) : wrap32 (x : Int) = x := by
  unfold wrap32
  rw [Int.bmod_eq_of_le] <;> omega

theorem foldl_wrap (ds : List Nat) : ∀ a : Nat, (∀ d ∈ ds, 0 < d) → a * ds.prod ≤ 2147483647 →
    (ds.map Int.ofNat).foldl (fun n c => wrap32 (n * c)) (a : Int) = ((a * ds.prod : Nat) : Int) := by
  induction ds with
  | nil => intro a _ _; simp
  | cons d ds ih =>
    intro a hpos h
    have h1 : 0 < ds.prod := prod_pos' (fun x hx => hpos x (List.mem_cons_of_mem _ hx))
    rw [List.prod_cons, ← Nat.mul_assoc] at h
    have h2 : a * d ≤ 2147483647 := (Nat.le_mul_of_pos_right _ h1).trans h
    have h3 : wrap32 ((a : Int) * Int.ofNat d) = ((a * d : Nat) : Int) := by
      rw [← wrap32_id h2]
      simp
    rw [List.map_cons, List.foldl_cons, h3, ih (a * d) (fun x hx => hpos x (List.mem_cons_of_mem _ hx)) h,
      List.prod_cons, Nat.mul_assoc]

theorem pos_of_prod_pos {ds : List Nat} (h : 0 < ds.prod) : ∀ d ∈ ds, 0 < d := by
  induction ds with
  | nil => intro d h; cases h
  | cons a ds ih =>
    rw [List.prod_cons] at h
    have := Nat.pos_of_mul_pos_left h
    have h2 := Nat.pos_of_mul_pos_right h
    intro d hd
    rcases List.mem_cons.1 hd with rfl | hd
    · assumption
    · exact ih (by assumption) d hd

theorem le_prod_of_mem {ds : List Nat} (h : 0 < ds.prod) : ∀ d ∈ ds, d ≤ ds.prod := by
  induction ds with
  | nil => intro d h; cases h
  | cons a ds ih =>
    intro d hd
    have hp := pos_of_prod_pos h
    have h2 : 0 < ds.prod := prod_pos' (fun x hx => hp x (List.mem_cons_of_mem _ hx))
    rw [List.prod_cons]
    rcases List.mem_cons.1 hd with rfl | hd
    · exact Nat.le_mul_of_pos_right _ h2
    · exact (ih h2 d hd).trans (Nat.le_mul_of_pos_left _ (hp a (by simp)))

theorem countInt_eq {shape : List Nat} (h0 : 0 < shape.prod) (h : shape.prod ≤ 2147483647) :
    countInt (shape.map Int.ofNat) = ((shape.prod : Nat) : Int) := by
  have := foldl_wrap shape 1 (pos_of_prod_pos h0) (by omega)
  simpa [countInt] using this

/-! ### Conversion -/

/-- The conversion of an input with positive dimensions and enough data. -/
theorem toMat_eq (x : Input) (d : Nat) (ds : List Nat) (hs : x.shape = (d :: ds).map Int.ofNat)
    (h0 : 0 < (d :: ds).prod) (h : (d :: ds).prod ≤ 2147483647)
    (hl : x.data.length = (d :: ds).prod) (P : Nat) (hP : ds.prod = P) :
    ∃ hi : ∀ (j : Fin d) (i : Fin P), srcIdx x.fortran d P j i < x.data.length,
      x.toMat = .ok ⟨d, P, fun j i => x.data[srcIdx x.fortran d P j i]'(hi j i)⟩ := by
  subst hP
  have hpos := pos_of_prod_pos h0
  have hds : 0 < ds.prod := prod_pos' (fun y hy => hpos y (List.mem_cons_of_mem _ hy))
  have hd : 0 < d := hpos d (by simp)
  have hle := le_prod_of_mem h0 d (by simp)
  have hi : ∀ (j : Fin d) (i : Fin ds.prod), srcIdx x.fortran d ds.prod j i < x.data.length := by
    intro j i
    rw [hl, List.prod_cons]
    have hj := j.2
    have hi' := i.2
    unfold srcIdx
    split
    · calc (i : Nat) * d + j < i * d + d := by omega
        _ = (i + 1) * d := by ring
        _ ≤ ds.prod * d := Nat.mul_le_mul_right _ hi'
        _ = d * ds.prod := Nat.mul_comm _ _
    · calc (j : Nat) * ds.prod + i < j * ds.prod + ds.prod := by omega
        _ = (j + 1) * ds.prod := by ring
        _ ≤ d * ds.prod := Nat.mul_le_mul_right _ hj
  refine ⟨hi, ?_⟩
  have hw : wrap32 (Int.ofNat d) = (d : Int) := wrap32_id (by omega)
  have hc : colsInt ((d :: ds).map Int.ofNat) = ((ds.prod : Nat) : Int) := by
    have := foldl_wrap ds 1 (fun y hy => hpos y (List.mem_cons_of_mem _ hy)) (by
      rw [Nat.one_mul]
      rw [List.prod_cons] at h
      exact (Nat.le_mul_of_pos_left _ hd).trans h)
    simpa [colsInt] using this
  unfold Input.toMat
  rw [hs]
  rw [List.map_cons] at hc ⊢
  simp only
  rw [hw, hc, if_neg (by omega), Int.toNat_natCast, Int.toNat_natCast, Input.copy, dif_pos hi]

/-! ### Memory -/

theorem flatten_getElem? {α : Type} (w : Nat) : ∀ (L : List (List α)) (k i : Nat),
    (∀ l ∈ L, l.length = w) → i < w → L.flatten[k * w + i]? = (L[k]?).bind (·[i]?) := by
  intro L
  induction L with
  | nil => intro k i _ _; simp
  | cons a L ih =>
    intro k i hL hi
    have ha : a.length = w := hL a (by simp)
    rw [List.flatten_cons]
    cases k with
    | zero => rw [List.getElem?_append_left (by omega)]; simp
    | succ k =>
      rw [List.getElem?_append_right (by rw [ha, Nat.succ_mul]; omega)]
      have : (k + 1) * w + i - a.length = k * w + i := by rw [ha, Nat.succ_mul]; omega
      rw [this, ih k i (fun l h => hL l (List.mem_cons_of_mem _ h)) hi]
      simp

theorem flatten_length {α : Type} (w : Nat) : ∀ (L : List (List α)),
    (∀ l ∈ L, l.length = w) → L.flatten.length = L.length * w := by
  intro L
  induction L with
  | nil => intro _; simp
  | cons a L ih =>
    intro hL
    rw [List.flatten_cons, List.length_append, ih (fun l h => hL l (List.mem_cons_of_mem _ h)),
      hL a (by simp), List.length_cons, Nat.succ_mul]
    omega

theorem chunk_flatten (w : Nat) (L : List (List Byte)) (hL : ∀ l ∈ L, l.length = w) (k : Nat)
    (hk : k < L.length) : chunk w L.flatten k = L[k] := by
  apply List.ext_getElem?
  intro i
  unfold chunk
  rw [List.getElem?_take]
  split
  · rename_i hi
    rw [List.getElem?_drop, flatten_getElem? w L k i hL hi, List.getElem?_eq_getElem hk]
    rfl
  · rename_i hi
    rw [List.getElem?_eq_none]
    rw [hL _ (List.getElem_mem hk)]
    omega

/-- The entries in memory order. -/
def Mat.entries (M : Mat) (rowMajor : Bool) : List (List Byte) :=
  if rowMajor then
    ((List.finRange M.rows).map fun j => (List.finRange M.cols).map fun i => M.val j i).flatten
  else
    ((List.finRange M.cols).map fun i => (List.finRange M.rows).map fun j => M.val j i).flatten

theorem memory_eq_flatten (M : Mat) (rm : Bool) : M.memory rm = (M.entries rm).flatten := by
  have h : ∀ {n k : Nat} (g : Fin n → Fin k → List Byte),
      ((List.finRange n).flatMap fun j => (List.finRange k).flatMap fun i => g j i) =
      (((List.finRange n).map fun j => (List.finRange k).map fun i => g j i).flatten).flatten := by
    intro n k g
    generalize List.finRange n = l
    induction l with
    | nil => rfl
    | cons a l ih =>
      rw [List.flatMap_cons, ih, List.map_cons, List.flatten_cons, List.flatten_append]
      rfl
  unfold Mat.memory Mat.entries
  cases rm
  · exact h fun i j => M.val j i
  · exact h M.val

theorem entries_length (M : Mat) (rm : Bool) : (M.entries rm).length = M.rows * M.cols := by
  unfold Mat.entries
  cases rm
  · simp only [Bool.false_eq_true, if_false]
    rw [flatten_length M.rows]
    · simp [Nat.mul_comm]
    · intro l hl
      obtain ⟨i, _, rfl⟩ := List.mem_map.1 hl
      simp
  · simp only [if_true]
    rw [flatten_length M.cols]
    · simp
    · intro l hl
      obtain ⟨i, _, rfl⟩ := List.mem_map.1 hl
      simp

theorem entries_mem (M : Mat) (rm : Bool) (e : List Byte) (h : e ∈ M.entries rm) :
    ∃ j i, e = M.val j i := by
  unfold Mat.entries at h
  cases rm
  · simp only [Bool.false_eq_true, if_false, List.mem_flatten, List.mem_map] at h
    obtain ⟨l, ⟨i, _, rfl⟩, h⟩ := h
    obtain ⟨j, _, rfl⟩ := List.mem_map.1 h
    exact ⟨j, i, rfl⟩
  · simp only [if_true, List.mem_flatten, List.mem_map] at h
    obtain ⟨l, ⟨i, _, rfl⟩, h⟩ := h
    obtain ⟨j, _, rfl⟩ := List.mem_map.1 h
    exact ⟨i, j, rfl⟩

theorem entries_get (M : Mat) (rm : Bool) (j : Fin M.rows) (i : Fin M.cols) :
    (M.entries rm)[srcIdx (!rm) M.rows M.cols j i]? = some (M.val j i) := by
  unfold Mat.entries srcIdx
  cases rm
  · simp only [Bool.false_eq_true, if_false, Bool.not_false, if_true]
    rw [flatten_getElem? M.rows _ _ _ _ j.2]
    · simp
    · intro l hl
      obtain ⟨i, _, rfl⟩ := List.mem_map.1 hl
      simp
  · simp only [if_true, Bool.not_true, Bool.false_eq_true, if_false]
    rw [flatten_getElem? M.cols _ _ _ _ i.2]
    · simp
    · intro l hl
      obtain ⟨i, _, rfl⟩ := List.mem_map.1 hl
      simp

/-- Entry `(j, i)` lies in memory where the reader looks for it. -/
theorem chunk_memory (M : Mat) (rm : Bool) (w : Nat) (hw : ∀ j i, (M.val j i).length = w)
    (j : Fin M.rows) (i : Fin M.cols) :
    chunk w (M.memory rm) (srcIdx (!rm) M.rows M.cols j i) = M.val j i := by
  obtain ⟨h1, h2⟩ := List.getElem?_eq_some_iff.1 (entries_get M rm j i)
  rw [memory_eq_flatten, chunk_flatten w _ _ _ h1, h2]
  intro l hl
  obtain ⟨j, i, rfl⟩ := entries_mem M rm l hl
  exact hw j i

theorem memory_length (M : Mat) (rm : Bool) (w : Nat) (hw : ∀ j i, (M.val j i).length = w) :
    (M.memory rm).length = M.rows * M.cols * w := by
  rw [memory_eq_flatten, flatten_length w, entries_length]
  intro l hl
  obtain ⟨j, i, rfl⟩ := entries_mem M rm l hl
  exact hw j i

end Verif.Numpy
