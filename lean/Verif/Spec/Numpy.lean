import Verif.Model.Numpy

/-! What an NPY version 1.0 file is, independently of the writer and the reader in the model. -/
namespace Verif.Numpy

/-- The two bytes of a number below 65536, least significant first. -/
def le16 (n : Nat) : List Byte := [UInt8.ofNat (n % 256), UInt8.ofNat (n / 256)]

/-- `s` is the decimal notation of `n`: digits only, no leading zero, with value `n`. -/
structure IsDecimal (s : List Byte) (n : Nat) : Prop where
  nonempty : s ≠ []
  digits : ∀ b ∈ s, 48 ≤ b.toNat ∧ b.toNat ≤ 57
  noLeadingZero : n ≠ 0 → s.head? ≠ some 48
  value : s.foldl (fun v b => 10 * v + (b.toNat - 48)) 0 = n

/-- A Python tuple of numbers, as numpy prints it: `()`, `(3,)`, `(3, 4)`, ... -/
def pyTuple : List (List Byte) → List Byte
  | [] => ascii "()"
  | [d] => ascii "(" ++ d ++ ascii ",)"
  | ds => ascii "(" ++ (ascii ", ").intercalate ds ++ ascii ")"

/-- The header numpy itself writes: byte order character, element type, order, shape. -/
def numpyHeader (order : Byte) (code : List Byte) (fortran : Bool) (dims : List (List Byte))
    (pad : Nat) : List Byte :=
  ascii "{'descr': '" ++ [order] ++ code ++ ascii "', 'fortran_order': " ++
    ascii (if fortran then "True" else "False") ++ ascii ", 'shape': " ++ pyTuple dims ++
    ascii ", }" ++ List.replicate pad 32 ++ ascii "\n"

/-- A version 1.0 file. -/
def npyFile (header data : List Byte) : List Byte :=
  [0x93, 0x4e, 0x55, 0x4d, 0x50, 0x59, 1, 0] ++ le16 header.length ++ header ++ data

/-- Position of an element in C order (the last index varies fastest). -/
def cOffset : List Nat → List Nat → Nat
  | _ :: ds, i :: is => i * ds.prod + cOffset ds is
  | _, _ => 0

/-- Position of an element in Fortran order (the first index varies fastest). -/
def fOffset : List Nat → List Nat → Nat
  | d :: ds, i :: is => i + d * fOffset ds is
  | _, _ => 0

/-- A valid index of an array of this shape. -/
inductive IsIndex : List Nat → List Nat → Prop
  | nil : IsIndex [] []
  | cons {d ds i is} : i < d → IsIndex ds is → IsIndex (d :: ds) (i :: is)

end Verif.Numpy
