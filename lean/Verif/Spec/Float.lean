import Mathlib.Algebra.Order.Field.Rat
import Mathlib.Algebra.Order.Field.Power
import Mathlib.Tactic.Ring
import Mathlib.Tactic.Positivity
import Mathlib.Tactic.NormNum
import Mathlib.Tactic.Linarith
/-!
# Python floats

The finite IEEE doubles as rational numbers, and correct rounding, which is what `int / int` does in Python.  A tie may be broken either way.
-/

namespace Verif.Spec

/-- A finite double: a significand below `2^53` times a power of two. -/
def IsDouble (y : ℚ) : Prop := ∃ s e : Int, |s| < 2 ^ 53 ∧ -1074 ≤ e ∧ e ≤ 971 ∧ y = s * 2 ^ e

/-- `y` is the quotient `x`, rounded: a double such that no double is nearer to `x`. -/
def Rounded (x y : ℚ) : Prop := IsDouble y ∧ ∀ z, IsDouble z → |y - x| ≤ |z - x|

end Verif.Spec
