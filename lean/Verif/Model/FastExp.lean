import Verif.Model.ExpLut
import Mathlib.Analysis.SpecialFunctions.Log.Basic

/-
Model of `fast_exp` and `digamma` (include/ldaplusplus/utils.hpp:360-404) over the real numbers.
`none` stands for an index outside the table or a division by zero.  NaN is not an argument.
-/
namespace Verif.FastExp

/-- The halving loop (utils.hpp:368-372): the reduced argument and the number of halvings. -/
noncomputable def halve (x : ℝ) : ℝ × ℕ :=
  if 1 ≤ x then ((halve (x / 2)).1, (halve (x / 2)).2 + 1) else (x, 0)
termination_by ⌊x⌋₊
decreasing_by
  all_goals
    rename_i h
    have h1 : 1 ≤ ⌊x⌋₊ := (Nat.one_le_floor_iff x).2 h
    rcases lt_or_ge x 2 with h2 | h2
    · have : ⌊x / 2⌋₊ = 0 := by
        rw [Nat.floor_eq_zero]; linarith
      omega
    · have : ⌊x / 2⌋₊ ≤ ⌊x - 1⌋₊ := Nat.floor_mono (by linarith)
      rw [Nat.floor_sub_one] at this
      omega

/-- The squaring loop (utils.hpp:376-378). -/
def squareLoop : ℕ → ℝ → ℝ
  | 0, x => x
  | n + 1, x => squareLoop n (x * x)

/-- Reading the table (utils.hpp:15-358). -/
noncomputable def lut (i : ℕ) : Option ℝ := (lutNat[i]?).map fun v => (v : ℝ) / 10 ^ 18

/-- `fast_exp` for nonnegative arguments (utils.hpp:365-380). -/
noncomputable def fastExpPos (x : ℝ) : Option ℝ :=
  if 100 < x then some (Real.exp x)
  else (lut ⌊(halve x).1 * 1024⌋₊).map (squareLoop (halve x).2)

/-- `fast_exp` (utils.hpp:360-381).  The recursive call is made with a positive argument. -/
noncomputable def fastExp (x : ℝ) : Option ℝ :=
  if x < 0 then
    match fastExpPos (-x) with
    | none => none
    | some v => if v = 0 then none else some (1 / v)
  else fastExpPos x

/-- The loop of `digamma` (utils.hpp:394-396): the sum of the reciprocals subtracted so far and the
increased argument. -/
noncomputable def digammaLoop (x result : ℝ) : Option (ℝ × ℝ) :=
  if x < 7 then (if x = 0 then none else digammaLoop (x + 1) (result - 1 / x)) else some (x, result)
termination_by ⌈7 - x⌉₊
decreasing_by
  rename_i h _
  have h1 : 0 < 7 - x := by linarith
  have h2 : 7 - (x + 1) = 7 - x - 1 := by ring
  rw [h2, Nat.ceil_sub_one]
  have := Nat.ceil_pos.2 h1
  omega

/-- The asymptotic series (utils.hpp:397-401). -/
noncomputable def digammaSeries (x : ℝ) : ℝ :=
  let x := x - 1 / 2
  let xx := 1 / x
  let xx2 := xx * xx
  let xx4 := xx2 * xx2
  Real.log x + (1 / 24) * xx2 - (7 / 960) * xx4 + (31 / 8064) * xx4 * xx2 - (127 / 30720) * xx4 * xx4

/-- `digamma` (utils.hpp:390-404). -/
noncomputable def digamma (x : ℝ) : Option ℝ :=
  match digammaLoop x 0 with
  | none => none
  | some (y, r) => some (r + digammaSeries y)

end Verif.FastExp
