import Verif.Model.Fri
import Verif.Model.ElementText
/-!
# Model of the texts starks/fri.py derives its challenges from

`R` and `k_0` are floats; `str` of a float is an arbitrary text here.
-/

namespace Verif.Fri
open MvString (Str strNat)
open Text (strInt)

/-- `hex(n)` without the prefix -/
def hexStr (n : Nat) : Str := if n = 0 then ['0'] else (Nat.digits 16 n).reverse.map Nat.digitChar

/-- `str(space)`: `AffineSpace` (reedsolomon.py:19-46) defines neither `__str__` nor `__repr__`, so this is `object.__repr__`, with
the address of the object. -/
def spaceStr (address : Nat) : Str := "<starks.reedsolomon.AffineSpace object at 0x".toList ++ hexStr address ++ ['>']

/-- fri.py:77 `x = str(R + eta + r + k_0 + i)`; `sum` is the float, `str` what Python prints for it. -/
def commitText {Fl : Type _} (str : Fl → Str) (sum : Fl) : Str := str sum

/-- fri.py:134 `x_str = str(R)+str(eta)+str(r)+str(k_0)+str(L[i])+str(L_0[i])`, in the first round: `L[0]` is the space handed to the
constructor, `L_0[0]` the subspace allocated on line 115.  (In later rounds `L[i]` is a list, and line 119 has already raised.) -/
def queryText {Fl : Type _} (str : Fl → Str) (R : Fl) (r : Int) (k0 : Fl) (space subspace : Nat) : Str :=
  str R ++ strNat 2 ++ strInt r ++ str k0 ++ spaceStr space ++ spaceStr subspace

end Verif.Fri
