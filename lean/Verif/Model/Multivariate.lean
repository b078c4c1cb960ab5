import Verif.Py
import Verif.Model.Numbertype
import Mathlib.Data.List.Lex
import Mathlib.Data.List.Sort
import Mathlib.Algebra.Algebra.Defs
/-!
# Model of starks/multivariate_polynomial.py

A polynomial is its `coefficients` dictionary: a list of pairs (power tuple, coefficient), sorted by power tuple.  The code's
dictionary keeps insertion order, but only `__repr__` shows it (`__iter__` sorts the keys, line 124), so the model stores the
dictionary sorted.  Coefficients are ring elements; `RawCoeff` below models the constructor on dictionaries that hold ints.

`__repr__` and division (`__truediv__`, `division`, `StrToMulti`, `PolytoMulti`, `CheckforDiv`, `size_p`, lines 99-109, 170-326),
which prints to a string, calls sympy and parses the answer back, are in `Verif.Model.MvString`.
-/

namespace Verif.Mv

abbrev Tup := List Nat

variable {R : Type _} [CommRing R] [DecidableEq R]

/-- A coefficient dictionary. -/
abbrev Dict (R : Type _) := List (Tup × R)

/-- Sort by key (line 124). -/
def sortKeys (d : Dict R) : Dict R := d.insertionSort fun a b => a.1 ≤ b.1

/-- multivariate_polynomial.py:24-31 `remove_zero_coefficients` -/
def removeZero (d : Dict R) : Dict R := d.filter fun e => decide (¬ e.2 = 0)

/-- multivariate_polynomial.py:84-86, 91: the constructor, on a dictionary of ring elements. -/
def ofDict (d : Dict R) : Dict R := sortKeys (removeZero d)

/-- multivariate_polynomial.py:82-83, 87-88, 91: the constructor, on a ring element or an int. -/
def ofElt (n : Nat) (c : R) : Dict R := ofDict [(List.replicate n 0, c)]

/-- multivariate_polynomial.py:33-45 `add_power_tuples` -/
def addPowerTuples (a b : Tup) : Tup :=
  let m := min a.length b.length
  let front := (List.range m).map fun i => a.getD i 0 + b.getD i 0
  if a.length = m then front ++ (List.range (b.length - m)).map fun i => b.getD i 0
  else front ++ (List.range (a.length - m)).map fun i => a.getD i 0

/-- multivariate_polynomial.py:47-51 `sum_power_tuple` -/
def sumPowerTuple (a : Tup) : Nat := a.foldl (· + ·) 0

/-- multivariate_polynomial.py:111-117 `degree` -/
def degree (d : Dict R) : Nat := d.foldl (fun m e => if sumPowerTuple e.1 > m then sumPowerTuple e.1 else m) 0

/-- multivariate_polynomial.py:139-144 `__getitem__` -/
def get (d : Dict R) (t : Tup) : R := (d.lookup t).getD 0

/-- The keys of a dictionary. -/
def keys (d : Dict R) : List Tup := d.map Prod.fst

/-- multivariate_polynomial.py:96-97 `is_zero` -/
def isZero (d : Dict R) : Bool := d.isEmpty

/-- multivariate_polynomial.py:128-129 `__neg__` -/
def neg (d : Dict R) : Dict R := ofDict (d.map fun e => (e.1, -e.2))

/-- multivariate_polynomial.py:146-153 `__add__` -/
def add (a b : Dict R) : Dict R :=
  let joint := keys a ++ (keys b).filter fun t => !(keys a).contains t
  ofDict (joint.map fun t => (t, get a t + get b t))

/-- multivariate_polynomial.py:119-120 `__sub__` -/
def sub (a b : Dict R) : Dict R := add a (neg b)

/-- multivariate_polynomial.py:165-167: `if t not in d: d[t] = ring(0)`, `d[t] += c` -/
def upsert (t : Tup) (c : R) : Dict R → Dict R
  | [] => [(t, 0 + c)]
  | (t', c') :: d => if t' = t then (t', c' + c) :: d else (t', c') :: upsert t c d

/-- multivariate_polynomial.py:162-167: the inner loop. -/
def mulRow (a : Tup) (ac : R) (b : Dict R) (acc : Dict R) : Dict R :=
  b.foldl (fun acc e => upsert (addPowerTuples a e.1) (ac * e.2) acc) acc

/-- multivariate_polynomial.py:155-168 `__mul__` -/
def mul (a b : Dict R) : Dict R :=
  if isZero a || isZero b then []
  else ofDict (a.foldl (fun acc e => mulRow e.1 e.2 b acc) [])

/-- multivariate_polynomial.py:131-137 `__eq__`: the key sets are compared both ways. -/
def eq (a b : Dict R) : Bool :=
  decide (degree a = degree b) &&
  ((keys a).all (fun t => (keys b).contains t) && (keys b).all (fun t => (keys a).contains t)) &&
  (keys a).all fun t => decide (get a t = get b t)

section call
variable {A : Type _} [CommRing A] [Algebra R A]

/-- multivariate_polynomial.py:335-336: `for i, power in enumerate(a): prod *= vals[i]**power`, from index `i`. -/
def monoLoop (vals : List A) : Tup → Nat → A → Py A
  | [], _, prod => .ok prod
  | e :: es, i, prod => do
    let v ← pyIdx vals i
    monoLoop vals es (i + 1) (prod * v ^ e)

/-- multivariate_polynomial.py:333-337: the loop over the monomials. -/
def callLoop (vals : List A) : Dict R → A → Py A
  | [], y => .ok y
  | (t, c) :: d, y => do
    let prod ← monoLoop vals t 0 1
    callLoop vals d (y + algebraMap R A c * prod)

/-- multivariate_polynomial.py:329-338 `__call__`, at a point of a commutative `R`-algebra (the code evaluates at field elements
and at polynomials). -/
def call (n : Nat) (d : Dict R) (vals : List A) : Py A := do
  pyAssert (vals.length == n)
  callLoop vals d 0

end call

/-- numbertype.py:68-84 `__pow__` on multivariate polynomials; `self.__class__(1)` is the constant 1. -/
def pow (n : Nat) (d : Dict R) (e : Int) : Py (Dict R) := pyPow (ofElt n (1 : R)) mul d e

/-- utils.py:51-54, poly_utils.py:34-37: the polynomial `{(0,..,1,..,0): field(1)}`; `i ≤ n`. -/
def xi (n i : Nat) : Dict R := ofDict [(List.replicate i 0 ++ [1] ++ List.replicate (n - (i + 1)) 0, 1)]

/-- utils.py:40-56 `generate_Xi_s` -/
def generateXis (n : Nat) : List (Dict R) := (List.range n).map fun i => xi n i

/-! ### Dictionaries that hold ints -/

/-- A coefficient as passed by the caller: an int or a ring element. -/
abbrev RawCoeff (R : Type _) := Int ⊕ R

/-- multivariate_polynomial.py:27 `coefficients[monomial] == 0` -/
def rawIsZero : RawCoeff R → Bool
  | .inl k => decide (k = 0)
  | .inr c => decide (c = 0)

/-- multivariate_polynomial.py:84-86, 91: the constructor on a dictionary whose values may be ints: they are stored as they
are, not cast into the ring. -/
def ofRawDict (d : List (Tup × RawCoeff R)) : List (Tup × RawCoeff R) := d.filter fun e => !rawIsZero e.2

/-- multivariate_polynomial.py:139-144 `__getitem__`, on stored coefficients of either kind. -/
def rawGet (d : List (Tup × RawCoeff R)) (t : Tup) : RawCoeff R := (d.lookup t).getD (.inr 0)

/-- `==` of two stored coefficients: two ints are compared as ints, and an int is cast when the other is a ring element
(modp.py:58-60 through `typecheck`). -/
def rawCoeffEq : RawCoeff R → RawCoeff R → Bool
  | .inl a, .inl b => decide (a = b)
  | .inl a, .inr b => decide ((a : R) = b)
  | .inr a, .inl b => decide (a = (b : R))
  | .inr a, .inr b => decide (a = b)

/-- multivariate_polynomial.py:131-137 `__eq__`, on dictionaries that may hold ints. -/
def rawEq (a b : List (Tup × RawCoeff R)) : Bool :=
  let ka := a.map Prod.fst
  let kb := b.map Prod.fst
  let deg := fun k : List Tup => k.foldl (fun m t => if sumPowerTuple t > m then sumPowerTuple t else m) 0
  decide (deg ka = deg kb) && (ka.all (fun t => kb.contains t) && kb.all (fun t => ka.contains t)) &&
    ka.all fun t => rawCoeffEq (rawGet a t) (rawGet b t)

end Verif.Mv
