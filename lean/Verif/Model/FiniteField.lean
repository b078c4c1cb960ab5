import Verif.Model.Polynomial
import Verif.Model.Numbertype
/-!
# Model of starks/finitefield.py and of the irreducibility and primitivity tests of starks/poly_utils.py

An element of `FiniteField(p, m, f)` carries one polynomial over Z/p, here its coefficient list; `K` stands for Z/p and
`f` for the polynomial modulus.
-/

namespace Verif.FF
open Poly

variable {K : Type _} [Field K] [DecidableEq K]

/-- finitefield.py:85-86 `Fq(poly)` for a polynomial. -/
def ofPoly (f g : List K) : Py (List K) := mod g f
/-- finitefield.py:83-84 `Fq(c)` for an int or an element of Z/p: no reduction. -/
def ofElt (c : K) : List K := ctor [c]
/-- finitefield.py:87-88 `Fq(L)` for a list of coefficients. -/
def ofList (f L : List K) : Py (List K) := mod (ctor L) f

/-- finitefield.py:92-94 -/
def fqAdd (f a b : List K) : Py (List K) := ofPoly f (add a b)
/-- finitefield.py:96-98 -/
def fqSub (f a b : List K) : Py (List K) := ofPoly f (sub a b)
/-- finitefield.py:100-102 -/
def fqMul (f a b : List K) : Py (List K) := ofPoly f (mul a b)
/-- finitefield.py:121-122 -/
def fqNeg (f a : List K) : Py (List K) := ofPoly f (neg a)
/-- finitefield.py:104-106 -/
def fqEq (a b : List K) : Bool := eq a b
/-- finitefield.py:108-110 -/
def fqNe (a b : List K) : Bool := !fqEq a b

/-- finitefield.py:112-118 `__pow__`; `n % 2` is Python's modulus, `n // 2` floor division. -/
def fqPow (f : List K) (a : List K) : Nat → Int → Py (List K)
  | 0, _ => .error .diverge
  | fuel + 1, n =>
    if n = 0 then ofList f [1]
    else if n = 1 then .ok a
    else if n.fmod 2 = 0 then do
      let s ← fqPow f a fuel (n.fdiv 2)
      fqMul f s s
    else do
      let s ← fqPow f a fuel (n - 1)
      fqMul f s a

/-- finitefield.py:131-134 `__divmod__` -/
def fqDivmod (f a b : List K) : Py (List K × List K) := do
  let qr ← divmod a b
  let q ← ofPoly f qr.1
  let r ← ofPoly f qr.2
  .ok (q, r)

/-- finitefield.py:136-146 `inverse`; `d.coefficients[0].inverse()` is `1 / d.coefficients[0]`. -/
def fqInverse (f a : List K) : Py (List K) :=
  if fqEq a (ofElt 0) then .error .zeroDivision
  else do
    let r ← xgcd ops a f
    if degree r.2.2 ≠ 0 then .error .exception
    else do
      let c ← pyIdx r.2.2 0
      let ci ← pyDiv 1 c
      let x ← ofPoly f r.1
      fqMul f x (ofElt ci)

/-- numbertype.py:112-113 `a / b` -/
def fqTruediv (f a b : List K) : Py (List K) := do
  let bi ← fqInverse f b
  fqMul f a bi

/-! ### poly_utils.py -/

/-- poly_utils.py:173-177: the loop of `is_irreducible`; the state is `power_term`. -/
def irrLoop (p : Nat) (f : List K) : Nat → List K → Py Bool
  | 0, _ => .ok true
  | k + 1, t => do
    let t' ← pyPowmod one mul mod t p f
    let g ← gcd ops f (sub t' (ctor [0, 1]))
    if ¬ degree g = 0 then .ok false else irrLoop p f k t'

/-- poly_utils.py:156-179 `is_irreducible`, for a polynomial over Z/p (otherwise line 165 raises `TypeError`).
`int(degree / 2)` is 0 for the zero polynomial (degree −1); its floating-point rounding above 2^53 is ignored. -/
def isIrreducible (p : Nat) (f : List K) : Py Bool := irrLoop p f ((degree f).toNat / 2) (ctor [0, 1])

/-- poly_utils.py:213-215 `is_monic` (`IndexError` on the zero polynomial). -/
def isMonic (f : List K) : Py Bool := do
  let c ← leadingCoefficient f
  .ok (decide (c = 1))

/-- poly_utils.py:234-239: the loop over the prime factors, `N` being `modulus**degree - 1`. -/
def primLoop (f : List K) (N : Nat) : List Nat → Py Bool
  | [] => .ok true
  | q :: qs => do
    let xp ← pyPow one mul (ctor [0, 1]) ((N / q : Nat) : Int)
    let l ← mod xp f
    if eq l (ctor [1]) then .ok false else primLoop f N qs

/-- poly_utils.py:217-240 `is_primitive`; `factorint` returns the distinct prime factors (sympy, not modelled). -/
def isPrimitive (factorint : Nat → List Nat) (p m : Nat) (f : List K) : Py Bool := do
  let b ← isIrreducible p f
  if b then primLoop f (p ^ m - 1) (factorint (p ^ m - 1)) else .ok false

/-- poly_utils.py:191-196: the loop of `generate_irreducible_polynomial`.  `draws i` are the `degree` values of the random
source in the `i`-th round, as elements of Z/p.  The result carries the number of rounds consumed. -/
def genIrr (p : Nat) (draws : Nat → List K) : Nat → Nat → Py (List K × Nat)
  | 0, _ => .error .diverge
  | fuel + 1, i => do
    let g := ctor (draws i ++ [1])
    let b ← isIrreducible p g
    if b then .ok (g, i + 1) else genIrr p draws fuel (i + 1)

/-- poly_utils.py:181-196 `generate_irreducible_polynomial`, allowed `fuel` rounds. -/
def generateIrreducible (p : Nat) (draws : Nat → List K) (fuel : Nat) : Py (List K) := do
  let r ← genIrr p draws fuel 0
  .ok r.1

/-- poly_utils.py:208-211: the loop of `generate_primitive_polynomial`, starting at random round `i`. -/
def genPrim (factorint : Nat → List Nat) (p m : Nat) (draws : Nat → List K) (inner : Nat) : Nat → Nat → Py (List K)
  | 0, _ => .error .diverge
  | fuel + 1, i => do
    let r ← genIrr p draws inner i
    let b ← isPrimitive factorint p m r.1
    if b then .ok r.1 else genPrim factorint p m draws inner fuel r.2

/-- poly_utils.py:198-211 `generate_primitive_polynomial` -/
def generatePrimitive (factorint : Nat → List Nat) (p m : Nat) (draws : Nat → List K) (inner fuel : Nat) : Py (List K) :=
  genPrim factorint p m draws inner fuel 0

/-- What `FiniteField(p, m, polynomialModulus)` returns: the class Z/p, or the class of polynomials modulo one. -/
inductive FieldClass (K : Type _)
  | prime
  | ext (modulus : List K)
deriving DecidableEq

/-- finitefield.py:57-69 `FiniteField` without the memoisation of line 57: validation of a given modulus, Z/p for `m = 1`,
a generated primitive modulus when none is given. -/
def finiteField (factorint : Nat → List Nat) (p m : Nat) (modulus : Option (List K)) (draws : Nat → List K)
    (inner fuel : Nat) : Py (FieldClass K) := do
  let ok ← match modulus with
    | some f => isIrreducible p f
    | none => .ok true
  if ok then
    if m = 1 then .ok .prime
    else match modulus with
      | some f => .ok (.ext f)
      | none => do
        let f ← generatePrimitive factorint p m draws inner fuel
        .ok (.ext f)
  else .error .valueError

end Verif.FF
