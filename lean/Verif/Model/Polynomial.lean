import Verif.Model.Euclidean
import Mathlib.Algebra.Field.Defs
import Mathlib.Algebra.Algebra.Defs
/-!
# Model of `starks/polynomial.py`

A polynomial is its `coefficients` list, lowest degree first. Elements of the coefficient ring are elements of a
Mathlib commutative ring `R` (a field `K` for the operations that divide).
-/

namespace Verif.Poly

variable {R : Type _}

/-- polynomial.py:18-21: `i` (here the argument is `i + 1`) is decreased while `L[i] == elt`; the value is the final
`i + 1`. -/
def stripLen [DecidableEq R] (L : List R) (elt : R) : Nat → Nat
  | 0 => 0
  | i + 1 => if L[i]? = some elt then stripLen L elt i else i + 1

/-- polynomial.py:13-21 `strip`. -/
def strip [DecidableEq R] (L : List R) (elt : R) : List R := L.take (stripLen L elt L.length)

section ring
variable [CommRing R] [DecidableEq R]

/-- polynomial.py:38-58 `Polynomial(c)` for a list of ring elements: line 56 copies, line 58 strips. -/
def ctor (L : List R) : List R := strip L 0

/-- polynomial.py:60-61 -/
def isZero (f : List R) : Bool := f == []

/-- polynomial.py:72-75 `__abs__`, polynomial.py:77-78 `__len__`. -/
def pabs (f : List R) : Nat := f.length

/-- polynomial.py:95-96 `degree` (−1 for the zero polynomial). -/
def degree (f : List R) : Int := (pabs f : Int) - 1

/-- polynomial.py:92-93 `leading_coefficient`: `IndexError` on the zero polynomial. -/
def leadingCoefficient (f : List R) : Py R :=
  match f.getLast? with
  | some a => .ok a
  | none => .error .indexError

/-- polynomial.py:86-87 -/
def neg (f : List R) : List R := ctor (f.map (fun a => -a))

/-- `itertools.zip_longest(f, g, fillvalue=0)` followed by `sum` of each pair (`0 + x + y`), polynomial.py:110-112. -/
def zipSum : List R → List R → List R
  | [], g => g.map (fun b => 0 + 0 + b)
  | a :: f, g => (0 + a + g.headD 0) :: zipSum f g.tail

/-- polynomial.py:109-113 -/
def add (f g : List R) : List R := ctor (zipSum f g)

/-- polynomial.py:80-81 -/
def sub (f g : List R) : List R := add f (neg g)

/-- polynomial.py:123-124, inner loop: `newCoeffs[i + j] += a * b` for `j, b` in `enumerate(other)`
from position `j` on. -/
def mulInner (i : Nat) (a : R) : Nat → List R → List R → List R
  | _, [], acc => acc
  | j, b :: g, acc => mulInner i a (j + 1) g (acc.modify (i + j) (fun c => c + a * b))

/-- polynomial.py:122-124, outer loop. -/
def mulOuter (g : List R) : Nat → List R → List R → List R
  | _, [], acc => acc
  | i, a :: f, acc => mulOuter g (i + 1) f (mulInner i a 0 g acc)

/-- polynomial.py:116-126 -/
def mul (f g : List R) : List R :=
  if isZero f || isZero g then []
  else ctor (mulOuter g 0 f (List.replicate (pabs f + pabs g - 1) 0))

/-- polynomial.py:99-101 `__eq__` -/
def eq (f g : List R) : Bool :=
  degree f == degree g && (f.zip g).all (fun xy => xy.1 == xy.2)

/-- polynomial.py:104-106 `__ne__` -/
def ne (f g : List R) : Bool :=
  degree f != degree g || (f.zip g).any (fun xy => xy.1 != xy.2)

/-- polynomial.py:161-163, the loop of `__call__`, state `y, power_of_x`. The argument may live in any commutative
`R`-algebra (the code evaluates polynomials at field elements, at polynomials and at multivariate polynomials;
ring elements are cast by `typecheck`). -/
def callLoop {A : Type _} [CommRing A] [Algebra R A] (x : A) : List R → A → A → A
  | [], y, _ => y
  | a :: f, y, pw => callLoop x f (y + pw * algebraMap R A a) (pw * x)

/-- polynomial.py:158-164 `__call__` -/
def call {A : Type _} [CommRing A] [Algebra R A] (f : List R) (x : A) : A := callLoop x f 0 1

/-- numbertype.py:68-84 `__pow__` inherited by `Polynomial`; `self.__class__(1)` is `Polynomial(1) = [1]`. -/
def one : List R := ctor [1]

end ring

section field
variable {K : Type _} [Field K] [DecidableEq K]

/-- Division in the coefficient field: the code's `a / b` is `a * b.inverse()` (numbertype.py:112-113), and
`inverse` of zero raises.  Simplified: the exception is written `.zeroDivision` for every field, as in finitefield.py:139; over `IntegersModP(p)` it
is the `AttributeError` of modp.py:77 (`Modp.inverse`). -/
def pyDiv (a b : K) : Py K := if b = 0 then .error .zeroDivision else .ok (a * b⁻¹)

/-- polynomial.py:134-141, the `while remainder.degree() >= divisorDeg` loop, state `quotient, remainder`. -/
def divmodLoop (g : List K) (gDeg : Int) (gLC : K) : Nat → List K → List K → Py (List K × List K)
  | 0, _, _ => .error .diverge
  | fuel + 1, q, r =>
    if degree r ≥ gDeg then do
      let e := (degree r - gDeg).toNat
      let lc ← leadingCoefficient r
      let c ← pyDiv lc gLC
      let mono := ctor (List.replicate e 0 ++ [c])
      divmodLoop g gDeg gLC fuel (add q mono) (sub r (mul mono g))
    else .ok (q, r)

/-- polynomial.py:129-143 `__divmod__`. -/
def divmod (f g : List K) : Py (List K × List K) := do
  let gLC ← leadingCoefficient g
  divmodLoop g (degree g) gLC (f.length + 1) [] f

/-- polynomial.py:146-149 `__truediv__` -/
def truediv (f g : List K) : Py (List K) :=
  if isZero g then .error .zeroDivision else do
    let qr ← divmod f g
    .ok qr.1

/-- polynomial.py:152-155 `__mod__` -/
def mod (f g : List K) : Py (List K) :=
  if isZero g then .error .zeroDivision else do
    let qr ← divmod f g
    .ok qr.2

/-- Polynomials as arguments of `euclidean.py`; the ints 0 and 1 are cast to polynomials by `typecheck`. -/
def ops : EuclidOps (List K) where
  abs := pabs
  divmod := divmod
  sub := sub
  mul := mul
  zero := []
  one := one

end field

end Verif.Poly
