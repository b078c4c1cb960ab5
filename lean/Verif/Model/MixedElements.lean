import Verif.Model.Rationals
/-!
# Model of operators between `IntegersModP(p)`, `RationalsModP(p)`, ints and byte strings

`starks/numbertype.py:25-48` (`typecheck`) with `starks/modp.py` and `starks/rationals_modp.py`, for operands of any two of
these classes. All of them have `operatorPrecedence = 1` (numbertype.py:55), so `typecheck` never returns `NotImplemented`
(line 29) here and Python never tries the reflected operator after the direct one: it calls the method of the left operand if
that is an element, and the reflected method of the right operand if the left one is an int, a byte string or another object
that does not know the class.
-/

namespace Verif.Mixed

open Verif.Rat (Q)

/-- An instance of `IntegersModP(p)` (modp.py:31-41) or of `RationalsModP(p)` (rationals_modp.py:25-49). The classes are memoised
(numbertype.py:7-22), so two elements are of the same class exactly when the modulus is the same. -/
inductive Elem
  | mod (p : Nat) (n : Int)
  | rat (p : Nat) (x : Q)
deriving DecidableEq

/-- An object that is not an element. `none` stands for any object that `int()` rejects with `TypeError` and that has neither
`inverse` nor operators for the elements, such as `None`. -/
inductive Plain
  | int (k : Int)
  | bytes (b : Bytes)
  | none

/-- Either of the two. -/
inductive Val
  | elem (e : Elem)
  | plain (v : Plain)

/-- modp.py:31-39 `IntegerModP(n)`. `int()` of an element of `Z/q` is its representative (modp.py:90-91); `RationalModP` has no
`__int__` (rationals_modp.py:117-118 is commented out). The bare `except` turns every exception, also the one of `% 0`, into
`TypeError`. -/
def castMod (p : Nat) : Val → Py Int
  | .plain (.bytes b) => .ok (Modp.mkBytes b)
  | .plain (.int k) => if p = 0 then .error .typeError else .ok (Modp.mk p k)
  | .elem (.mod _ n) => if p = 0 then .error .typeError else .ok (Modp.mk p n)
  | .elem (.rat _ _) => .error .typeError
  | .plain .none => .error .typeError

/-- rationals_modp.py:25-47 `RationalModP(m)`, with denominator 1. -/
def castRat (p : Nat) : Val → Py Q
  | .plain (.bytes b) => Rat.mkBytes b
  | .plain (.int k) => if p = 0 then .error .typeError else Rat.mk1 p k
  | .elem (.mod _ n) => if p = 0 then .error .typeError else Rat.mk1 p n
  | .elem (.rat _ _) => .error .typeError
  | .plain .none => .error .typeError

/-- numbertype.py:33-46 for an instance of `IntegersModP(p)`: an operand of another class is cast, and a failing cast raises
`TypeError`. -/
def asMod (p : Nat) : Val → Py Int
  | .elem (.mod q n) => if q = p then .ok n else castMod p (.elem (.mod q n))
  | v => castMod p v

/-- numbertype.py:33-46 for an instance of `RationalsModP(p)`. -/
def asRat (p : Nat) : Val → Py Q
  | .elem (.rat q x) => if q = p then .ok x else castRat p (.elem (.rat q x))
  | v => castRat p v

/-- modp.py:43-45, rationals_modp.py:51-56 `__add__` under `typecheck`. -/
def add (e : Elem) (v : Val) : Py Elem := match e with
  | .mod p a => do let b ← asMod p v; .ok (.mod p (Modp.add p a b))
  | .rat p x => do let y ← asRat p v; let z ← Rat.add p x y; .ok (.rat p z)

/-- modp.py:47-49, rationals_modp.py:58-63 `__sub__` -/
def sub (e : Elem) (v : Val) : Py Elem := match e with
  | .mod p a => do let b ← asMod p v; .ok (.mod p (Modp.sub p a b))
  | .rat p x => do let y ← asRat p v; let z ← Rat.sub p x y; .ok (.rat p z)

/-- modp.py:51-53, rationals_modp.py:65-69 `__mul__` -/
def mul (e : Elem) (v : Val) : Py Elem := match e with
  | .mod p a => do let b ← asMod p v; .ok (.mod p (Modp.mul p a b))
  | .rat p x => do let y ← asRat p v; let z ← Rat.mul p x y; .ok (.rat p z)

/-- modp.py:55-56, rationals_modp.py:71-72 `__neg__` -/
def neg : Elem → Py Elem
  | .mod p a => .ok (.mod p (Modp.neg p a))
  | .rat p x => do let z ← Rat.neg p x; .ok (.rat p z)

/-- modp.py:58-60, rationals_modp.py:74-77 `__eq__` -/
def eq (e : Elem) (v : Val) : Py Bool := match e with
  | .mod p a => do let b ← asMod p v; .ok (Modp.eq a b)
  | .rat p x => do let y ← asRat p v; .ok (Rat.eq p x y)

/-- modp.py:62-64, rationals_modp.py:79-82 `__ne__` -/
def ne (e : Elem) (v : Val) : Py Bool := match e with
  | .mod p a => do let b ← asMod p v; .ok (Modp.ne a b)
  | .rat p x => do let y ← asRat p v; Rat.ne p x y

/-- modp.py:71-79, rationals_modp.py:91-94 `inverse` -/
def inverse : Elem → Py Elem
  | .mod p a => do let b ← Modp.inverse p a; .ok (.mod p b)
  | .rat p x => do let y ← Rat.inverse p x; .ok (.rat p y)

/-- numbertype.py:112-113 `__truediv__`: `self * other.inverse()`; ints, byte strings and other objects have no `inverse`. -/
def truediv (e : Elem) : Val → Py Elem
  | .elem e' => do let i ← inverse e'; mul e (.elem i)
  | .plain _ => .error .attributeError

/-- numbertype.py:58-59 `__radd__`: `v + e` for a `v` that is not an element. -/
def radd (v : Plain) (e : Elem) : Py Elem := add e (.plain v)

/-- numbertype.py:61-62 `__rsub__`: `-self + other`. -/
def rsub (v : Plain) (e : Elem) : Py Elem := do
  let m ← neg e
  add m (.plain v)

/-- numbertype.py:64-65 `__rmul__` -/
def rmul (v : Plain) (e : Elem) : Py Elem := mul e (.plain v)

/-- numbertype.py:115-116 `__rtruediv__`: `self.inverse() * other`. -/
def rtruediv (v : Plain) (e : Elem) : Py Elem := do
  let i ← inverse e
  mul i (.plain v)

/-- `v == e` for a `v` that is not an element: its own comparison returns `NotImplemented`, and Python calls `e.__eq__(v)`. -/
def reqv (v : Plain) (e : Elem) : Py Bool := eq e (.plain v)

end Verif.Mixed
