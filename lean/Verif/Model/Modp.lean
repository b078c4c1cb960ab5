import Verif.Model.Euclidean
/-!
# Model of `starks/modp.py`

`IntegersModP(p)` instances carry one integer `n`. The functions below take and return that integer; the modulus is
`p : Nat` (the code assumes a positive prime).
-/

namespace Verif.Modp

/-- modp.py:36 `self.n = int(n) % IntegerModP.p` (floor modulus). -/
def mk (p : Nat) (n : Int) : Int := n.fmod p

/-- modp.py:33-34 construction from bytes: **no reduction** modulo `p`. -/
def mkBytes (b : Bytes) : Int := fromBytes b

/-- modp.py:44-45 -/
def add (p : Nat) (a b : Int) : Int := mk p (a + b)
/-- modp.py:48-49 -/
def sub (p : Nat) (a b : Int) : Int := mk p (a - b)
/-- modp.py:52-53 -/
def mul (p : Nat) (a b : Int) : Int := mk p (a * b)
/-- modp.py:55-56 -/
def neg (p : Nat) (a : Int) : Int := mk p (-a)
/-- modp.py:58-60 (both operands of the same class) -/
def eq (a b : Int) : Bool := a == b
/-- modp.py:62-64 -/
def ne (a b : Int) : Bool := a != b

/-- modp.py:66-69 `__divmod__` on the representatives. -/
def divmod (p : Nat) (a b : Int) : Py (Int × Int) := do
  let qr ← pyDivmod a b
  .ok (mk p qr.1, mk p qr.2)

/-- modp.py:71-79 `inverse`. When `d != 1` an exception is raised (building its message reads `self.__name__`,
which instances do not have, so the class seen is `AttributeError` rather than the intended `Exception`). -/
def inverse (p : Nat) (a : Int) : Py Int := do
  let r ← xgcd intOps a p
  if r.2.2 ≠ 1 then .error .attributeError else .ok (mk p r.1)

/-- numbertype.py:112-113 `__truediv__`: `self * other.inverse()`. -/
def truediv (p : Nat) (a b : Int) : Py Int := do
  let bi ← inverse p b
  .ok (mul p a bi)

/-- modp.py:94-95 `to_bytes` -/
def toBytes (a : Int) : Py Bytes := intToBytes a 32

end Verif.Modp
