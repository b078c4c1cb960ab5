import Verif.Model.MvString
import Verif.Model.Rationals
/-!
# Model of the texts of elements

`starks/modp.py:81-91`, `starks/rationals_modp.py:107-111`, and the constructors called on a text. The texts of polynomials and of
elements of extension fields are in `Model/MvString.lean`.
-/

namespace Verif.Text

open Verif.MvString (Str strNat)

/-- `str(n)` and `'%d' % n` of an int -/
def strInt (n : Int) : Str := if n < 0 then '-' :: strNat n.natAbs else strNat n.natAbs

/-- modp.py:81-82 `__abs__` -/
def modAbs (n : Int) : Int := n.natAbs

/-- modp.py:84-85 `__str__` -/
def modStr (n : Int) : Str := strInt n

/-- modp.py:87-88 `__repr__` -/
def modRepr (p : Nat) (n : Int) : Str := strInt n ++ " (mod ".toList ++ strNat p ++ [')']

/-- rationals_modp.py:107-108 `__str__` -/
def ratStr (x : Rat.Q) : Str := strInt x.m ++ '/' :: strInt x.n

/-- rationals_modp.py:110-111 `__repr__` -/
def ratRepr (p : Nat) (x : Rat.Q) : Str := strInt x.m ++ '/' :: strInt x.n ++ " (mod ".toList ++ strNat p ++ [')']

/-- modp.py:36-39 `IntegerModP(s)` on a string; every exception becomes `TypeError`. -/
def modOfStr (p : Nat) (s : Str) : Py Int :=
  match MvString.pyInt s with
  | .ok k => if p = 0 then .error .typeError else .ok (Modp.mk p k)
  | .error _ => .error .typeError

/-- rationals_modp.py:36-47 `RationalModP(s)` on a string -/
def ratOfStr (p : Nat) (s : Str) : Py Rat.Q :=
  match MvString.pyInt s with
  | .ok k => if p = 0 then .error .typeError else Rat.mk1 p k
  | .error _ => .error .typeError

end Verif.Text
