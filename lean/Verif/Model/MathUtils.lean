import Mathlib.Algebra.Field.Basic
import Mathlib.Algebra.BigOperators.Group.Finset.Basic
import Mathlib.Data.Fintype.BigOperators
import Mathlib.Data.List.FinRange

/-
Model of the matrix helpers of include/ldaplusplus/utils.hpp.

Matrices are functions of the row and the column.  Arithmetic is exact (a field); a sum computed by
Eigen (whose order is unspecified) is a `Finset` sum.  `none` is undefined behaviour.
-/
namespace Verif.MathUtils

open Finset

/-- An `r x c` matrix (`Eigen::Matrix` as used in utils.hpp:467-584). -/
abbrev Mat (r c : Nat) (K : Type) := Fin r → Fin c → K

/-- A vector of length `n` (`Eigen::Matrix` with one column, as used in utils.hpp:467-584). -/
abbrev Vec (n : Nat) (K : Type) := Fin n → K

variable {K : Type} {r c n : Nat}

/-! ### normalize_rows, normalize_cols -/

/-- One iteration of the loop of `normalize_rows` (utils.hpp:505-511). -/
def normalizeRow [Field K] [DecidableEq K] (x : Mat r c K) (i : Fin r) : Mat r c K :=
  let s := ∑ j, x i j
  if s ≠ 0 then Function.update x i (fun j => x i j / s) else x

/-- `normalize_rows` (utils.hpp:503-512). -/
def normalizeRows [Field K] [DecidableEq K] (x : Mat r c K) : Mat r c K :=
  (List.finRange r).foldl normalizeRow x

/-- One iteration of the loop of `normalize_cols` (utils.hpp:521-527). -/
def normalizeCol [Field K] [DecidableEq K] (x : Mat r c K) (i : Fin c) : Mat r c K :=
  let s := ∑ k, x k i
  if s ≠ 0 then fun k => Function.update (x k) i (x k i / s) else x

/-- `normalize_cols` (utils.hpp:519-528). -/
def normalizeCols [Field K] [DecidableEq K] (x : Mat r c K) : Mat r c K :=
  (List.finRange c).foldl normalizeCol x

/-! ### sums -/

/-- `sum_rows_scaled` (utils.hpp:553-566).  Also used for non-finite numbers, hence the weak
assumptions. -/
def sumRowsScaled [Add K] [Mul K] [Zero K] [DecidableEq K] (x : Mat r c K) (y : Vec r K)
    (result : Vec c K) : Vec c K :=
  (List.finRange r).foldl
    (fun res i => if y i = 0 then res else fun j => res j + y i * x i j) result

/-- `sum_cols_scaled` (utils.hpp:571-584). -/
def sumColsScaled [Add K] [Mul K] [Zero K] [DecidableEq K] (x : Mat r c K) (y : Vec c K)
    (result : Vec r K) : Vec r K :=
  (List.finRange c).foldl
    (fun res i => if y i = 0 then res else fun j => res j + y i * x j i) result

/-! ### product_of_nonzeros -/

/-- `product_of_nonzeros` (utils.hpp:534-548). -/
def productOfNonzeros [Field K] [DecidableEq K] (x : Mat r c K) : K :=
  (List.finRange c).foldl
    (fun p j => (List.finRange r).foldl (fun p i => if x i j ≠ 0 then p * x i j else p) p) 1

/-- `CwiseScalarDivideByMatrix` (utils.hpp:448-460). -/
def scalarDivide [Field K] [DecidableEq K] (y x : K) : K := if x ≠ 0 then y / x else 0

/-! ### reshape_into -/

/-- `dst.segment(start, r) = v`: `none` if the segment is not inside the vector (utils.hpp:476). -/
def setSegment (dst : Vec n K) (start : Nat) (v : Vec r K) : Option (Vec n K) :=
  if start + r ≤ n then
    some fun k => if h : start ≤ k ∧ k < start + r then v ⟨k - start, by omega⟩ else dst k
  else none

/-- `src.segment(start, r)`: `none` if the segment is not inside the vector (utils.hpp:494). -/
def getSegment (src : Vec n K) (start r : Nat) : Option (Vec r K) :=
  if h : start + r ≤ n then some fun i => src ⟨start + i, by omega⟩ else none

/-- The loop of the first `reshape_into` over the given columns (utils.hpp:475-477). -/
def reshapeToVecLoop (src : Mat r c K) (dst : Vec n K) : List (Fin c) → Option (Vec n K)
  | [] => some dst
  | j :: js =>
    match setSegment dst (j * r) (fun i => src i j) with
    | none => none
    | some dst' => reshapeToVecLoop src dst' js

/-- `reshape_into` from a matrix to a vector (utils.hpp:467-479). -/
def reshapeToVec (src : Mat r c K) (dst : Vec n K) : Option (Vec n K) :=
  reshapeToVecLoop src dst (List.finRange c)

/-- The loop of the second `reshape_into` over the given columns (utils.hpp:493-495). -/
def reshapeToMatLoop (src : Vec n K) (dst : Mat r c K) : List (Fin c) → Option (Mat r c K)
  | [] => some dst
  | j :: js =>
    match getSegment src (j * r) r with
    | none => none
    | some v => reshapeToMatLoop src (fun i => Function.update (dst i) j (v i)) js

/-- `reshape_into` from a vector to a matrix (utils.hpp:485-497). -/
def reshapeToMat (src : Vec n K) (dst : Mat r c K) : Option (Mat r c K) :=
  reshapeToMatLoop src dst (List.finRange c)

/-! ### Numbers with the special values of IEEE 754 -/

/-- A number that may be infinite or NaN.  Signed zeros and rounding are left out (the type `Scalar` in
utils.hpp:553-584). -/
inductive Ieee (K : Type) where
  | fin (a : K)
  | pinf
  | ninf
  | nan
  deriving DecidableEq

namespace Ieee

variable [Field K] [LinearOrder K]

instance : Zero (Ieee K) := ⟨fin 0⟩

/-- IEEE addition (as in utils.hpp:564 and 582). -/
def add : Ieee K → Ieee K → Ieee K
  | fin a, fin b => fin (a + b)
  | nan, _ => nan
  | _, nan => nan
  | pinf, ninf => nan
  | ninf, pinf => nan
  | pinf, _ => pinf
  | _, pinf => pinf
  | ninf, _ => ninf
  | _, ninf => ninf

/-- Infinity times a finite number (as in utils.hpp:564 and 582). -/
def infMul (pos : Bool) (a : K) : Ieee K :=
  if a = 0 then nan else if (0 < a) = pos then pinf else ninf

/-- IEEE multiplication (as in utils.hpp:564 and 582). -/
def mul : Ieee K → Ieee K → Ieee K
  | fin a, fin b => fin (a * b)
  | nan, _ => nan
  | _, nan => nan
  | pinf, fin a => infMul true a
  | fin a, pinf => infMul true a
  | ninf, fin a => infMul false a
  | fin a, ninf => infMul false a
  | pinf, pinf => pinf
  | ninf, ninf => pinf
  | pinf, ninf => ninf
  | ninf, pinf => ninf

instance : Add (Ieee K) := ⟨add⟩
instance : Mul (Ieee K) := ⟨mul⟩

/-- Neither infinite nor NaN (no counterpart in the code). -/
def Finite : Ieee K → Prop
  | fin _ => True
  | _ => False

end Ieee

end Verif.MathUtils
