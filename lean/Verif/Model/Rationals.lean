import Verif.Model.Modp
import Verif.Model.Numbertype
/-!
# Model of `starks/rationals_modp.py`

An instance of `RationalsModP(p)` carries two integers, `self.m` and `self.n`. The modulus is `p : Nat` (the docstring
says "Assume p is a prime"). `typecheck` (numbertype.py:25-48) is modelled as both operands being of the class.
-/

namespace Verif.Rat

/-- rationals_modp.py:41-44 the two fields of an instance. -/
structure Q where
  m : Int
  n : Int
deriving DecidableEq

/-- rationals_modp.py:38-44: the common part of both constructors. `//` is floor division; the gcd of two ints never
raises and the divisor is not zero, so the bare `except` (line 45) is not reached from here. -/
def reduce (num den : Int) : Py Q := do
  let common ← gcd intOps num den
  if common = 0 then .ok ⟨num, den⟩ else .ok ⟨num.fdiv common, den.fdiv common⟩

/-- rationals_modp.py:36-44: construction from two ints, `RationalModP(m, n)`. Not modelled: `p = 0` (`% 0` raises and
becomes `TypeError`), arguments that `int()` rejects. -/
def mk (p : Nat) (m n : Int) : Py Q := reduce (m.fmod p) (n.fmod p)

/-- rationals_modp.py:25 the default denominator. -/
def mk1 (p : Nat) (m : Int) : Py Q := mk p m 1

/-- rationals_modp.py:32-34, 38-44: construction from bytes. There is **no reduction** modulo `p`. -/
def mkBytes (b : Bytes) : Py Q := reduce (fromBytes (b.take 32)) (fromBytes (b.drop 32))

/-- rationals_modp.py:55-56 and 62-63: `common = gcd(num, den)`, `RationalModP(num // common, den // common)`, outside
any `try`: dividing by a zero `common` raises. -/
def finish (p : Nat) (num den : Int) : Py Q := do
  let common ← gcd intOps num den
  if common = 0 then .error .zeroDivision else mk p (num.fdiv common) (den.fdiv common)

/-- rationals_modp.py:52-56 -/
def add (p : Nat) (x y : Q) : Py Q := finish p ((x.m * y.n + y.m * x.n).fmod p) ((x.n * y.n).fmod p)

/-- rationals_modp.py:59-63 -/
def sub (p : Nat) (x y : Q) : Py Q := finish p ((x.m * y.n - y.m * x.n).fmod p) ((x.n * y.n).fmod p)

/-- rationals_modp.py:66-69 -/
def mul (p : Nat) (x y : Q) : Py Q := mk p ((x.m * y.m).fmod p) ((x.n * y.n).fmod p)

/-- rationals_modp.py:71-72 -/
def neg (p : Nat) (x : Q) : Py Q := mk p (-x.m) x.n

/-- rationals_modp.py:75-77 -/
def eq (p : Nat) (x y : Q) : Bool := (x.m * y.n).fmod p == (y.m * x.n).fmod p

/-- rationals_modp.py:80-82 `__ne__`: the first thing evaluated is the name `IntegerModP`, which this module neither
defines nor imports. -/
def ne (_p : Nat) (_x _y : Q) : Py Bool := .error .nameError

/-- rationals_modp.py:91-94 -/
def inverse (p : Nat) (x : Q) : Py Q :=
  if x.m = 0 then .error .exception else mk p x.n x.m

/-- numbertype.py:112-113 `__truediv__`: `self * other.inverse()`. -/
def truediv (p : Nat) (x y : Q) : Py Q := do
  let yi ← inverse p y
  mul p x yi

/-- numbertype.py:68-84 `__pow__`; `self.__class__(1)` is built when the exponent is even. -/
def pow (p : Nat) (x : Q) (n : Int) : Py Q := do
  let one ← mk1 p 1
  powGen one (mul p) x n

/-- rationals_modp.py:114-115 -/
def toBytes (x : Q) : Py Bytes := do
  let a ← intToBytes x.m 32
  let b ← intToBytes x.n 32
  .ok (a ++ b)

end Verif.Rat
