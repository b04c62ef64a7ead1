import Verif.Model.Overflow

/-
How often the loop of `digamma` is run through, with the numbers of the machine (include/ldaplusplus/utils.hpp:390-396).
-/
namespace Verif.Overflow

open Limits

variable {F : Format}

/-- `x < 7` (utils.hpp:394): false for NaN. -/
def Below : Num → Prop
  | .fin x => x < 7
  | .ninf => True
  | _ => False

/-- The argument after `i` rounds of the loop: `++x` (utils.hpp:394). -/
noncomputable def counted (F : Format) (x : Num) : ℕ → Num
  | 0 => x
  | i + 1 => nAdd F (counted F x i) (.fin 1)

/-- The loop is left after exactly `n` rounds (utils.hpp:394-396).  (The sum of the reciprocals does not matter to this.) -/
def Rounds (F : Format) (x : Num) (n : ℕ) : Prop := (∀ i < n, Below (counted F x i)) ∧ ¬ Below (counted F x n)

end Verif.Overflow
