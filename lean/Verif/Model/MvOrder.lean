import Verif.Model.Multivariate
/-!
# Multivariate polynomials with the order of their dictionaries

`Verif.Model.Multivariate` stores the dictionary of a polynomial sorted.  Here it is kept in insertion order, as Python keeps it, and
`__add__` walks through a `set` of tuples (lines 148-152), whose order the language leaves open: it is an argument of the model.
-/

namespace Verif.MvO
open Mv (Tup Dict)

variable {R : Type _} [CommRing R] [DecidableEq R]

/-- multivariate_polynomial.py:70-76 `factory(coefficients)`, 84-86, 91: the constructor, on a dictionary of ring elements: the order
is kept. -/
def ofDict (d : Dict R) : Dict R := Mv.removeZero d

/-- multivariate_polynomial.py:93-94 `__len__` -/
def len (d : Dict R) : Nat := d.length

/-- multivariate_polynomial.py:122-126 `__iter__`: the pairs, in the order of the keys. -/
def iter (d : Dict R) : List (Tup × R) := Mv.sortKeys d

/-- multivariate_polynomial.py:139-144 `__getitem__` -/
def getItem (d : Dict R) (t : Tup) : R := if (d.map Prod.fst).contains t then (d.lookup t).getD 0 else 0

/-- multivariate_polynomial.py:128-129 `__neg__` -/
def neg (d : Dict R) : Dict R := ofDict ((iter d).map fun e => (e.1, -e.2))

/-- multivariate_polynomial.py:148-150: `order` lists the set `joint_monomials` in the order the interpreter walks through it. -/
def Enumerates (order : List Tup) (a b : Dict R) : Prop := order.Nodup ∧ ∀ t, t ∈ order ↔ t ∈ a.map Prod.fst ∨ t ∈ b.map Prod.fst

/-- multivariate_polynomial.py:146-153 `__add__`, walking through the monomials in the order `order`. -/
def add (order : List Tup) (a b : Dict R) : Dict R := ofDict (order.map fun t => (t, getItem a t + getItem b t))

/-- multivariate_polynomial.py:119-120 `__sub__` -/
def sub (order : List Tup) (a b : Dict R) : Dict R := add order a (neg b)

/-- multivariate_polynomial.py:155-168 `__mul__`: both loops go through `__iter__`. -/
def mul (a b : Dict R) : Dict R :=
  if Mv.isZero a || Mv.isZero b then []
  else ofDict ((iter a).foldl (fun acc e => Mv.mulRow e.1 e.2 (iter b) acc) [])

/-- multivariate_polynomial.py:131-137 `__eq__` -/
def eq (a b : Dict R) : Bool :=
  decide (Mv.degree a = Mv.degree b) &&
  ((a.map Prod.fst).all (fun t => (b.map Prod.fst).contains t) && (b.map Prod.fst).all (fun t => (a.map Prod.fst).contains t)) &&
  (a.map Prod.fst).all fun t => decide (getItem a t = getItem b t)

/-- multivariate_polynomial.py:329-338 `__call__`: the loop goes through `__iter__`. -/
def call {A : Type _} [CommRing A] [Algebra R A] (n : Nat) (d : Dict R) (vals : List A) : Py A := do
  pyAssert (vals.length == n)
  Mv.callLoop vals (iter d) 0

/-- numbertype.py:68-84 `__pow__`; `self.__class__(1)` is `{(0, …, 0): ring(1)}` (lines 87-88, 91). -/
def pow (n : Nat) (d : Dict R) (k : Int) : Py (Dict R) := pyPow (ofDict [(List.replicate n 0, (1 : R))]) mul d k

/-- What a user writes: dictionaries, `+`, `-`, unary `-`, `*` and `**` with an exponent that is not negative. -/
inductive Expr (R : Type _)
  | poly (d : Dict R)
  | add (a b : Expr R)
  | sub (a b : Expr R)
  | neg (a : Expr R)
  | mul (a b : Expr R)
  | pow (a : Expr R) (k : Nat)

/-- `Computes n e d`: a run of `e`, with polynomials in `n` variables, may end with a polynomial that stores the
dictionary `d`.  Every addition walks through its set in some order; the dictionaries the user passes are written in some order. -/
inductive Computes (n : Nat) : Expr R → Dict R → Prop
  | poly {d d' : Dict R} (h : d'.Perm d) : Computes n (.poly d) (ofDict d')
  | add {a b : Expr R} {x y : Dict R} {order : List Tup} (ha : Computes n a x) (hb : Computes n b y) (h : Enumerates order x y) :
      Computes n (.add a b) (add order x y)
  | sub {a b : Expr R} {x y : Dict R} {order : List Tup} (ha : Computes n a x) (hb : Computes n b y) (h : Enumerates order x (neg y)) :
      Computes n (.sub a b) (sub order x y)
  | neg {a : Expr R} {x : Dict R} (ha : Computes n a x) : Computes n (.neg a) (neg x)
  | mul {a b : Expr R} {x y : Dict R} (ha : Computes n a x) (hb : Computes n b y) : Computes n (.mul a b) (mul x y)
  | pow {a : Expr R} {x r : Dict R} {k : Nat} (ha : Computes n a x) (h : pow n x k = .ok r) : Computes n (.pow a k) r

end Verif.MvO
