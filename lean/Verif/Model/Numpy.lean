/-
Model of include/ldaplusplus/NumpyFormat.hpp and src/applications/lda_io.cpp.

Values of a scalar type are modelled by the bytes they occupy in memory, in memory order, so equality
of entries is equality bit for bit.  Streams are modelled by the bytes not read yet and the fail bit.
-/
namespace Verif.Numpy

/-- A `char` of the stream (NumpyFormat.hpp:278). -/
abbrev Byte := UInt8

/-- The bytes of an ASCII string literal (NumpyFormat.hpp:24-42 and 160-166). -/
def ascii (s : String) : List Byte := s.toList.map fun c => UInt8.ofNat c.toNat

/-- The machine: its byte order (`is_big_endian`, NumpyFormat.hpp:45-54) and whether `char` is a
signed type. -/
structure Machine where
  bigEndian : Bool
  charSigned : Bool

/-- The exceptions that can leave `operator>>` (NumpyFormat.hpp:272-359). -/
inductive Exc
  | runtimeError | outOfRange | lengthError
  deriving DecidableEq, Repr

/-- Outcome of a call: a value, an exception or undefined behaviour (NumpyFormat.hpp:272-359). -/
inductive Res (α : Type) where
  | ok (a : α)
  | throw (e : Exc)
  | ub
  deriving DecidableEq, Repr

/-- Go on unless an exception was thrown or the behaviour is undefined (NumpyFormat.hpp:272-359). -/
def Res.bind {α β : Type} : Res α → (α → Res β) → Res β
  | .ok a, f => f a
  | .throw e, _ => .throw e
  | .ub, _ => .ub

instance : Monad Res where
  pure := Res.ok
  bind := Res.bind

/-- The scalar types with a specialisation of `dtype_for_scalar` (NumpyFormat.hpp:15-42). -/
inductive Dtype
  | i1 | i2 | i4 | i8 | u1 | u2 | u4 | u8 | f4 | f8
  deriving DecidableEq, Repr

/-- `dtype_for_scalar` (NumpyFormat.hpp:23-42). -/
def Dtype.code : Dtype → List Byte
  | .i1 => ascii "i1" | .i2 => ascii "i2" | .i4 => ascii "i4" | .i8 => ascii "i8"
  | .u1 => ascii "u1" | .u2 => ascii "u2" | .u4 => ascii "u4" | .u8 => ascii "u8"
  | .f4 => ascii "f4" | .f8 => ascii "f8"

/-- `sizeof(Scalar)` (NumpyFormat.hpp:195). -/
def Dtype.size : Dtype → Nat
  | .i1 => 1 | .i2 => 2 | .i4 => 4 | .i8 => 8
  | .u1 => 1 | .u2 => 2 | .u4 => 4 | .u8 => 8
  | .f4 => 4 | .f8 => 8

/-- `swap_endianess` (NumpyFormat.hpp:57-73).  The loop swaps the bytes of the local union `d` and
never stores it back, so the array is left as it was. -/
def swapEndianess (data : List (List Byte)) : List (List Byte) := data

/-! ### Writing -/

/-- `ostream << size_t`: decimal digits, most significant first (NumpyFormat.hpp:164). -/
def decimal (n : Nat) : List Byte :=
  if n < 10 then [UInt8.ofNat (48 + n)]
  else decimal (n / 10) ++ [UInt8.ofNat (48 + n % 10)]
termination_by n
decreasing_by omega

/-- `NumpyOutput::dtype` (NumpyFormat.hpp:125-128). -/
def dtypeStr (m : Machine) (t : Dtype) : List Byte :=
  ascii (if m.bigEndian then ">" else "<") ++ t.code

/-- The loop over the dimensions (NumpyFormat.hpp:163-165). -/
def dims : List Nat → List Byte
  | [] => []
  | d :: ds => decimal d ++ ascii ", " ++ dims ds

/-- The header before padding (NumpyFormat.hpp:160-166). -/
def headerText (m : Machine) (t : Dtype) (fortran : Bool) (shape : List Nat) : List Byte :=
  ascii "{'descr': '" ++ dtypeStr m t ++ ascii "'," ++ ascii " 'fortran_order': " ++
    ascii (if fortran then "True" else "False") ++ ascii "," ++ ascii " 'shape': (" ++
    dims shape ++ ascii ")}"

/-- The padding loop (NumpyFormat.hpp:170-172): the condition is tested, then a space appended. -/
def padLoop (h : List Byte) : List Byte :=
  if (h.length + 11) % 16 = 0 then h else padLoop (h ++ ascii " ")
termination_by (16 - (h.length + 11) % 16) % 16
decreasing_by
  have : (ascii " ").length = 1 := by decide
  simp only [List.length_append, this]
  omega

/-- The header with padding and newline (NumpyFormat.hpp:160-173). -/
def header (m : Machine) (t : Dtype) (fortran : Bool) (shape : List Nat) : List Byte :=
  padLoop (headerText m t fortran shape) ++ ascii "\n"

/-- `MAGIC_AND_VERSION` (NumpyFormat.hpp:153-155). -/
def magicAndVersion : List Byte := [0x93, 0x4e, 0x55, 0x4d, 0x50, 0x59, 0x01, 0x00]

/-- A `uint16_t` in memory (NumpyFormat.hpp:179-185). -/
def mem16 (m : Machine) (n : Nat) : List Byte :=
  if m.bigEndian then [UInt8.ofNat (n / 256 % 256), UInt8.ofNat (n % 256)]
  else [UInt8.ofNat (n % 256), UInt8.ofNat (n / 256 % 256)]

/-- Writing the header length (NumpyFormat.hpp:179-185): the two bytes in memory order on a little
endian machine, in the opposite order on a big endian one. -/
def lenBytes (m : Machine) (n : Nat) : List Byte :=
  if !m.bigEndian then (mem16 m n).take 2
  else ((mem16 m n).drop 1).take 1 ++ (mem16 m n).take 1

/-- The number of entries (NumpyFormat.hpp:191-194). -/
def count (shape : List Nat) : Nat := shape.foldl (· * ·) 1

/-- `operator<<` (NumpyFormat.hpp:152-198).  `data` is the memory at `data_`, which must hold at
least `N * sizeof(Scalar)` bytes. -/
def write (m : Machine) (t : Dtype) (data : List Byte) (shape : List Nat) (fortran : Bool) :
    Res (List Byte) :=
  if data.length < count shape * t.size then .ub
  else
    let h := header m t fortran shape
    .ok (magicAndVersion ++ lenBytes m (h.length % 65536) ++ h ++ data.take (count shape * t.size))

/-! ### Reading -/

/-- An input stream: the bytes not read yet and the fail bit (NumpyFormat.hpp:272). -/
structure IStream where
  rest : List Byte
  fail : Bool
  deriving DecidableEq, Repr

/-- `istream::read`: nothing if the stream has failed, otherwise as many of the `n` bytes as there
are; too few of them set the fail bit.  The first component is what was stored (NumpyFormat.hpp:279, 296,
303, 351). -/
def IStream.read (s : IStream) (n : Nat) : List Byte × IStream :=
  if s.fail then ([], s)
  else (s.rest.take n, ⟨s.rest.drop n, decide (s.rest.length < n)⟩)

/-- What was stored, followed by what the buffer held before (NumpyFormat.hpp:303 and 351). -/
def overwrite (old new : List Byte) : List Byte := new ++ old.drop new.length

/-- The value of a `char` (NumpyFormat.hpp:280). -/
def charVal (m : Machine) (b : Byte) : Int :=
  if m.charSigned && decide (128 ≤ b.toNat) then (b.toNat : Int) - 256 else b.toNat

/-- The value of the `uint16_t` in two bytes of memory (NumpyFormat.hpp:295-296). -/
def val16 (m : Machine) : List Byte → Nat
  | [a, b] => if m.bigEndian then a.toNat * 256 + b.toNat else b.toNat * 256 + a.toNat
  | _ => 0

/-- `isspace` in the C locale (part of `std::stoi`, NumpyFormat.hpp:334). -/
def isSpace (b : Byte) : Bool := b == 32 || (9 ≤ b && b ≤ 13)

/-- `isdigit` in the C locale, part of `std::stoi` (NumpyFormat.hpp:334). -/
def isDigit (b : Byte) : Bool := 48 ≤ b && b ≤ 57

/-- The value of a string of digits (part of `std::stoi`, NumpyFormat.hpp:334). -/
def digitsVal (ds : List Byte) : Nat := ds.foldl (fun v b => v * 10 + (b.toNat - 48)) 0

/-- Result of `std::stoi`: value and number of characters processed, `invalid_argument` or
`out_of_range` (NumpyFormat.hpp:334). -/
inductive Stoi
  | ok (v : Int) (processed : Nat)
  | invalid
  | range
  deriving DecidableEq, Repr

/-- The end of `std::stoi`: `ds` are the digits, found after `skipped` characters (NumpyFormat.hpp:334).
-/
def stoiDigits (neg : Bool) (skipped : Nat) (ds : List Byte) : Stoi :=
  if ds = [] then .invalid
  else
    let v : Int := if neg then -(digitsVal ds : Int) else digitsVal ds
    if v < -2147483648 ∨ 2147483647 < v then .range else .ok v (skipped + ds.length)

/-- `std::stoi(s, &processed)`: skips white space, an optional sign, then as many digits as there
are (NumpyFormat.hpp:334). -/
def stoi (s : List Byte) : Stoi :=
  let sp := (s.takeWhile isSpace).length
  let s1 := s.drop sp
  let sg := if s1.head? = some 45 ∨ s1.head? = some 43 then 1 else 0
  stoiDigits (s1.head? == some 45) (sp + sg) ((s1.drop sg).takeWhile isDigit)

theorem stoiDigits_pos {n : Bool} {k : Nat} {ds : List Byte} {v : Int} {p : Nat}
    (h : stoiDigits n k ds = .ok v p) : 0 < p := by
  unfold stoiDigits at h
  by_cases hne : ds = []
  · simp [hne] at h
  · rw [if_neg hne] at h
    have hp := List.length_pos_iff.2 hne
    dsimp only at h
    generalize (if n = true then -(digitsVal ds : Int) else digitsVal ds) = w at h
    by_cases hr : w < -2147483648 ∨ 2147483647 < w
    · rw [if_pos hr] at h; cases h
    · rw [if_neg hr] at h
      simp only [Stoi.ok.injEq] at h
      omega

theorem stoi_pos {s : List Byte} {v : Int} {p : Nat} (h : stoi s = .ok v p) : 0 < p :=
  stoiDigits_pos h

/-- The loop over the shape tuple (NumpyFormat.hpp:325-335).  `invalid_argument` ends the loop, the
`out_of_range` of `stoi` and of `substr` leave the function.  The elements are pushed as `size_t`;
the model keeps the `int` (they are only used modulo 2^32 afterwards). -/
def parseShape (s : List Byte) : Res (List Int) :=
  match h : stoi s with
  | .invalid => .ok []
  | .range => .throw .outOfRange
  | .ok v p =>
    if s.length < p + 2 then .throw .outOfRange
    else
      match parseShape (s.drop (p + 2)) with
      | .ok vs => .ok (v :: vs)
      | .throw e => .throw e
      | .ub => .ub
termination_by s.length
decreasing_by
  have := stoi_pos h
  simp only [List.length_drop]
  omega

/-- `string::find_last_of(c)`; `none` is `npos` (NumpyFormat.hpp:328-329). -/
def findLast (c : Byte) : List Byte → Option Nat
  | [] => none
  | a :: s =>
    match findLast c s with
    | some i => some (i + 1)
    | none => if a = c then some 0 else none

/-- `string::substr(pos, count)`; a count of `npos` takes everything (NumpyFormat.hpp:312, 327 and 337).
-/
def substr (s : List Byte) (pos : Nat) (cnt : Option Nat) : Res (List Byte) :=
  if s.length < pos then .throw .outOfRange
  else
    match cnt with
    | none => .ok (s.drop pos)
    | some n => .ok ((s.drop pos).take n)

/-- A 32 bit `int` from a mathematical integer (conversion from `size_t`) (NumpyFormat.hpp:237 and 346).
-/
def wrap32 (x : Int) : Int := Int.bmod x 4294967296

/-- `NumpyInput` after `operator>>`: the entries, the shape and the order (NumpyFormat.hpp:361-363). -/
structure Input where
  data : List (List Byte)
  shape : List Int
  fortran : Bool
  deriving DecidableEq, Repr

/-- What the header says (NumpyFormat.hpp:304-341): foreign byte order flag, order and shape.
The string operations are done in the order of the code. -/
def parseHeader (t : Dtype) (header : List Byte) : Res (Bool × Bool × List Int) :=
  match substr header 11 (some 3) with
  | .throw e => .throw e
  | .ub => .ub
  | .ok dtype =>
    let endianness := dtype.head? == some 62
    match substr dtype 1 none with
    | .throw e => .throw e
    | .ub => .ub
    | .ok code =>
      if code ≠ t.code then .throw .runtimeError
      else if header.length < 34 then .ub
      else
        let fortran := header[34]? == some 84
        let pos := match findLast 40 header with | none => 0 | some p => p + 1
        match substr header pos (findLast 41 header) with
        | .throw e => .throw e
        | .ub => .ub
        | .ok shape =>
          match parseShape shape with
          | .throw e => .throw e
          | .ub => .ub
          | .ok vs => .ok (endianness, fortran, vs)

/-- The size of the data (NumpyFormat.hpp:338-341), computed in `int`. -/
def countInt (shape : List Int) : Int := shape.foldl (fun n c => wrap32 (n * c)) 1

/-- Entry `k` of an array of `w`-byte entries (NumpyFormat.hpp:253). -/
def chunk (w : Nat) (bytes : List Byte) (k : Nat) : List Byte := (bytes.drop (k * w)).take w

/-- Reading the data (NumpyFormat.hpp:344-350).  A negative size makes `resize` throw; for size zero
`&data_[0]` is undefined behaviour. -/
def readData (m : Machine) (t : Dtype) (s : IStream) (endianness fortran : Bool) (vs : List Int) :
    Res (Input × IStream) :=
  let N := countInt vs
  if N < 0 then .throw .lengthError
  else if N = 0 then .ub
  else
    let (got, s') := s.read (N.toNat * t.size)
    let mem := overwrite (List.replicate (N.toNat * t.size) 0) got
    let data := (List.range N.toNat).map (chunk t.size mem)
    let data := if endianness ≠ m.bigEndian then swapEndianess data else data
    .ok (⟨data, vs, fortran⟩, s')

/-- The indeterminate contents of the two uninitialised locals `MAGIC_AND_VERSION` and `header_len`
(NumpyFormat.hpp:278, 294), which are read when the stream ends early. -/
structure Junk where
  magic : List Byte
  len : List Byte
  hmagic : magic.length = 8
  hlen : len.length = 2

/-- `operator>>` (NumpyFormat.hpp:272-353). -/
def readInput (m : Machine) (j : Junk) (t : Dtype) (s : IStream) : Res (Input × IStream) :=
  let (got, s) := s.read 8
  match (overwrite j.magic got)[6]? with
  | none => .ub
  | some v =>
    if charVal m v > 1 then .throw .runtimeError
    else if got.length = 0 then .throw .runtimeError
    else
      let (got, s) := s.read 2
      let len := overwrite j.len got
      let len := if m.bigEndian then (swapEndianess [len]).flatten else len
      let (got, s) := s.read (val16 m len)
      let header := got.takeWhile (· ≠ 0)
      match parseHeader t header with
      | .throw e => .throw e
      | .ub => .ub
      | .ok (e, f, vs) => readData m t s e f vs

/-! ### Matrices -/

/-- An Eigen matrix: the entries (as bytes) and its storage order (NumpyFormat.hpp:110-120). -/
structure Mat where
  rows : Nat
  cols : Nat
  val : Fin rows → Fin cols → List Byte

/-- The entries in the order they lie in memory: row by row or column by column (NumpyFormat.hpp:113). -/
def Mat.memory (M : Mat) (rowMajor : Bool) : List Byte :=
  if rowMajor then
    (List.finRange M.rows).flatMap fun j => (List.finRange M.cols).flatMap fun i => M.val j i
  else
    (List.finRange M.cols).flatMap fun i => (List.finRange M.rows).flatMap fun j => M.val j i

/-- `NumpyOutput(matrix)` and `save` (NumpyFormat.hpp:110-120, 370-387). -/
def save (m : Machine) (t : Dtype) (rowMajor : Bool) (M : Mat) : Res (List Byte) :=
  write m t (M.memory rowMajor) [M.rows, M.cols] (!rowMajor)

/-- The number of columns of the conversion (NumpyFormat.hpp:237-240). -/
def colsInt (shape : List Int) : Int := (shape.drop 1).foldl (fun n c => wrap32 (n * c)) 1

/-- The index computed in the copy loop (NumpyFormat.hpp:250). -/
def srcIdx (fortran : Bool) (rows cols j i : Nat) : Nat :=
  if fortran then i * rows + j else j * cols + i

/-- The allocation and the copy loop (NumpyFormat.hpp:242-254).  An index outside `data_` is
undefined behaviour. -/
def Input.copy (x : Input) (rows cols : Nat) : Res Mat :=
  if h : ∀ (j : Fin rows) (i : Fin cols), srcIdx x.fortran rows cols j i < x.data.length then
    .ok ⟨rows, cols, fun j i => x.data[srcIdx x.fortran rows cols j i]'(h j i)⟩
  else .ub

/-- The conversion to a matrix (NumpyFormat.hpp:234-260).  `shape_[0]` of an empty shape and negative
dimensions are undefined behaviour. -/
def Input.toMat (x : Input) : Res Mat :=
  match x.shape with
  | [] => .ub
  | d :: ds =>
    let rows := wrap32 d
    let cols := colsInt (d :: ds)
    if rows < 0 ∨ cols < 0 then .ub else x.copy rows.toNat cols.toNat

/-- `load` (NumpyFormat.hpp:393-423), also returning the state of the stream. -/
def load (m : Machine) (j : Junk) (t : Dtype) (s : IStream) : Res (Mat × IStream) :=
  match readInput m j t s with
  | .throw e => .throw e
  | .ub => .ub
  | .ok (x, s') =>
    match x.toMat with
    | .throw e => .throw e
    | .ub => .ub
    | .ok M => .ok (M, s')

/-- Opening a file for reading: `none` is a file that cannot be opened, which leaves the stream
failed (NumpyFormat.hpp:417-420). -/
def openFile : Option (List Byte) → IStream
  | none => ⟨[], true⟩
  | some b => ⟨b, false⟩

/-! ### lda_io.cpp -/

/-- `parse_input_data` (lda_io.cpp:13-32): the data and the labels, both arrays of `int`.  One
`NumpyInput` is used twice; `operator>>` clears it first. -/
def parseInputData (m : Machine) (j1 j2 : Junk) (file : Option (List Byte)) : Res (Mat × Mat) :=
  match load m j1 .i4 (openFile file) with
  | .throw e => .throw e
  | .ub => .ub
  | .ok (X, s) =>
    match load m j2 .i4 s with
    | .throw e => .throw e
    | .ub => .ub
    | .ok (y, _) => .ok (X, y)

/-- `SupervisedModelParameters<double>` (Parameters.hpp:47-60). -/
structure LdaModel where
  alpha : Mat
  beta : Mat
  eta : Mat

/-- `save_lda` (lda_io.cpp:50-71).  Eigen's default storage is column major; `alpha` is a vector, a
matrix with one column. -/
def saveLda (m : Machine) (x : LdaModel) : Res (List Byte) :=
  match save m .f8 false x.alpha with
  | .throw e => .throw e
  | .ub => .ub
  | .ok a =>
    match save m .f8 false x.beta with
    | .throw e => .throw e
    | .ub => .ub
    | .ok b =>
      match save m .f8 false x.eta with
      | .throw e => .throw e
      | .ub => .ub
      | .ok c => .ok (a ++ b ++ c)

/-- `load_lda` (lda_io.cpp:73-91). -/
def loadLda (m : Machine) (j : Nat → Junk) (file : Option (List Byte)) : Res LdaModel :=
  match load m (j 0) .f8 (openFile file) with
  | .throw e => .throw e
  | .ub => .ub
  | .ok (a, s) =>
    match load m (j 1) .f8 s with
    | .throw e => .throw e
    | .ub => .ub
    | .ok (b, s) =>
      match load m (j 2) .f8 s with
      | .throw e => .throw e
      | .ub => .ub
      | .ok (c, _) => .ok ⟨a, b, c⟩

end Verif.Numpy
