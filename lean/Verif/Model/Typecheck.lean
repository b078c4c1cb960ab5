import Verif.Proofs.FiniteField
import Verif.Proofs.Multivariate
import Verif.Proofs.Apr
/-!
# Model of mixed-type arithmetic: `typecheck` (starks/numbertype.py:25-48) and the reflected operators (58-65)

The values are Python ints and the instances of the classes the library builds over one prime `p` and one modulus `f`:
`IntegersModP(p)`, the polynomials over it, `FiniteField(p, m)` with modulus `f`, the polynomials over that, and the polynomials in
`n` variables over either.  (Classes are memoised, so there is one of each: C17.)  Operations of two instances of one class are
the class's own, modelled elsewhere; here they are the ring operations of `Zp p`, `CPoly`, `Fq f` and `MP n`, which are defined
from those models (C01, C09, C12, C39).  Values of other types, bytes in particular, are left out.
-/

namespace Verif.Typecheck
open Poly FF Mv

variable {p : Nat} [hp : Fact p.Prime] {f : List (Zp p)} [hf : IsModulus f] {n : Nat}

/-- A value and its class. -/
inductive Val (p : Nat) [Fact p.Prime] (f : List (Zp p)) [IsModulus f] (n : Nat)
  | int (k : Int)
  | zp (a : Zp p)
  | zpoly (c : CPoly (Zp p))
  | fq (a : Fq f)
  | fqpoly (c : CPoly (Fq f))
  | mvp (d : MP n (Zp p))
  | mv (d : MP n (Fq f))

/-- The classes. -/
inductive Kind
  | int | zp | zpoly | fq | fqpoly | mvp | mv
deriving DecidableEq

namespace Val

/-- The class of a value. -/
def kind : Val p f n → Kind
  | int _ => .int
  | zp _ => .zp
  | zpoly _ => .zpoly
  | fq _ => .fq
  | fqpoly _ => .fqpoly
  | mvp _ => .mvp
  | mv _ => .mv

/-- `operatorPrecedence`: numbertype.py:55, polynomial.py:32, finitefield.py:76 (`IntegerModP` inherits the first), multivariate_polynomial.py:66; ints have none, which
`typecheck` treats as lower than any (numbertype.py:29). -/
def prec : Val p f n → Nat
  | int _ => 0
  | zp _ => 1
  | zpoly _ => 2
  | fq _ => 3
  | fqpoly _ => 2
  | mvp _ => 4
  | mv _ => 4

/-- `-x` -/
def neg : Val p f n → Val p f n
  | int k => int (-k)
  | zp a => zp (-a)
  | zpoly c => zpoly (-c)
  | fq a => fq (-a)
  | fqpoly c => fqpoly (-c)
  | mvp d => mvp (-d)
  | mv d => mv (-d)

/-- modp.py:31-40 `IntegerModP(x)`: `int(x)` raises on everything but ints and elements. -/
def castZp : Val p f n → Py (Zp p)
  | int k => .ok (Zp.ofInt k)
  | zp a => .ok a
  | _ => .error .typeError

/-- polynomial.py:38-58 `Polynomial(x)` over `IntegersModP(p)`.  Elements of the ring and ints become constants; polynomials (of
either kind) are iterated over, so are elements of the extension field, which are not iterable. -/
def castZpoly : Val p f n → Py (CPoly (Zp p))
  | int k => .ok (CPoly.mk [Zp.ofInt k])
  | zp a => .ok (CPoly.mk [a])
  | zpoly c => .ok c
  | fq _ => .error .typeError
  | fqpoly c => if c.1 = [] then .ok 0 else .error .typeError
  | mvp d => if d.1 = [] then .ok 0 else .error .typeError
  | mv d => if d.1 = [] then .ok 0 else .error .typeError

/-- finitefield.py:78-91 `Fq(x)`: anything that is not an element, an int or a polynomial over Z/p is iterated over, and its items
are converted to Z/p. -/
def castFq : Val p f n → Py (Fq f)
  | int k => .ok (Fq.ofK (Zp.ofInt k))
  | zp a => .ok (Fq.ofK a)
  | zpoly c => .ok (Fq.mk c.1 c.2)
  | fq a => .ok a
  | fqpoly c => if c.1 = [] then .ok 0 else .error .typeError
  | mvp d => if d.1 = [] then .ok 0 else .error .typeError
  | mv d => if d.1 = [] then .ok 0 else .error .typeError

/-- polynomial.py:38-58 `Polynomial(x)` over `FiniteField(p, m)`.  The class `IntegersModP(p)` has an attribute `__iter__` (modp.py:104),
a function without parameters, so its elements are iterated over, which raises `TypeError`. -/
def castFqpoly : Val p f n → Py (CPoly (Fq f))
  | int k => .ok (CPoly.mk [Fq.ofK (Zp.ofInt k)])
  | zp _ => .error .typeError
  | zpoly c => .ok (CPoly.mk (c.1.map Fq.ofK))
  | fq a => .ok (CPoly.mk [a])
  | fqpoly c => .ok c
  | mvp d => if d.1 = [] then .ok 0 else .error .typeError
  | mv d => if d.1 = [] then .ok 0 else .error .typeError

/-- multivariate_polynomial.py:79-91 over `IntegersModP(p)`. -/
def castMvp : Val p f n → Py (MP n (Zp p))
  | int k => .ok (MP.const n (Zp.ofInt k))
  | zp a => .ok (MP.const n a)
  | mvp d => .ok d
  | _ => .error .valueError

/-- multivariate_polynomial.py:79-91 over `FiniteField(p, m)`. -/
def castMv : Val p f n → Py (MP n (Fq f))
  | int k => .ok (MP.const n (Fq.ofK (Zp.ofInt k)))
  | fq a => .ok (MP.const n a)
  | mv d => .ok d
  | _ => .error .valueError

end Val

open Val

/-- The three typechecked ring operators. -/
inductive Op
  | add | sub | mul
deriving DecidableEq

/-- The operator of a class on two of its instances. -/
def Op.run {R : Type _} [Add R] [Sub R] [Mul R] : Op → R → R → R
  | .add, a, b => a + b
  | .sub, a, b => a - b
  | .mul, a, b => a * b

/-- numbertype.py:25-48: the decorated operator `op` of the class of `self`.  `none` is `NotImplemented`; whatever the cast of `other`
raises becomes `TypeError` (lines 36-44).  (An int is never `self`.) -/
def typecheck (op : Op) (self other : Val p f n) : Py (Option (Val p f n)) :=
  if self.prec < other.prec then .ok none
  else
    let conv {α : Type} (r : Py α) (k : α → Val p f n) : Py (Option (Val p f n)) :=
      match r with
      | .ok b => .ok (some (k b))
      | .error _ => .error .typeError
    match self with
    | .int _ => .ok none
    | .zp a => conv (castZp other) fun b => .zp (op.run a b)
    | .zpoly a => conv (castZpoly other) fun b => .zpoly (op.run a b)
    | .fq a => conv (castFq other) fun b => .fq (op.run a b)
    | .fqpoly a => conv (castFqpoly other) fun b => .fqpoly (op.run a b)
    | .mvp a => conv (castMvp other) fun b => .mvp (op.run a b)
    | .mv a => conv (castMv other) fun b => .mv (op.run a b)

/-- Python's `a + b` and `a * b`: the method of `a`'s class; if that answers `NotImplemented` (ints answer so to everything but ints)
the reflected one of `b`'s class, which is `b + a`, `b * a` (numbertype.py:58-59, 64-65). -/
def addMul (op : Op) (a b : Val p f n) : Py (Val p f n) :=
  match a, b with
  | .int x, .int y => .ok (.int (op.run x y))
  | a, b => do
    match ← typecheck op a b with
    | some v => .ok v
    | none =>
      match ← typecheck op b a with
      | some v => .ok v
      | none => .error .typeError

/-- Python's `a - b`.  Polynomials of all kinds subtract by adding `-other` (polynomial.py:80-81, multivariate_polynomial.py:119-120); the
reflected operator is `-b + a` (numbertype.py:61-62). -/
def vsub (a b : Val p f n) : Py (Val p f n) :=
  match a, b with
  | .int x, .int y => .ok (.int (x - y))
  | .int x, b => addMul .add b.neg (.int x)
  | .zp a, b => do
    match ← typecheck .sub (.zp a) b with
    | some v => .ok v
    | none => addMul .add b.neg (.zp a)
  | .fq a, b => do
    match ← typecheck .sub (.fq a) b with
    | some v => .ok v
    | none => addMul .add b.neg (.fq a)
  | a, b => addMul .add a b.neg

/-- The operator on two values. -/
def binop : Op → Val p f n → Val p f n → Py (Val p f n)
  | .add, a, b => addMul .add a b
  | .sub, a, b => vsub a b
  | .mul, a, b => addMul .mul a b

/-- numbertype.py:25-48 around `__eq__`. -/
def eqMethod (self other : Val p f n) : Py (Option Bool) :=
  if self.prec < other.prec then .ok none
  else
    let conv {α : Type} (r : Py α) (k : α → Bool) : Py (Option Bool) :=
      match r with
      | .ok b => .ok (some (k b))
      | .error _ => .error .typeError
    match self with
    | .int _ => .ok none
    | .zp a => conv (castZp other) fun b => a = b
    | .zpoly a => conv (castZpoly other) fun b => a = b
    | .fq a => conv (castFq other) fun b => a = b
    | .fqpoly a => conv (castFqpoly other) fun b => a = b
    | .mvp a => conv (castMvp other) fun b => a = b
    | .mv a => conv (castMv other) fun b => a = b

/-- Python's `a == b`: the reflected method is `b == a`. -/
def veq (a b : Val p f n) : Py Bool :=
  match a, b with
  | .int x, .int y => .ok (x = y)
  | a, b => do
    match ← eqMethod a b with
    | some v => .ok v
    | none =>
      match ← eqMethod b a with
      | some v => .ok v
      | none => .ok false

/-! ### Division -/

/-- `x.inverse()`: modp.py:71-79, finitefield.py:136-146; the other classes have no such method. -/
def inverse : Val p f n → Py (Val p f n)
  | .zp a => do
    let x ← Modp.inverse p a.1
    .ok (.zp (Zp.ofInt x))
  | .fq a => if a = 0 then .error .zeroDivision else .ok (.fq a⁻¹)
  | _ => .error .attributeError

/-- Polynomial division of two instances of one class (polynomial.py:146-149), or the `TypeError` of a failed cast. -/
def divConv {K : Type} [Field K] [DecidableEq K] (a : CPoly K) (r : Py (CPoly K)) (k : CPoly K → Val p f n) : Py (Val p f n) :=
  match r with
  | .ok b => do
    let q ← Poly.truediv a.1 b.1
    .ok (k (CPoly.mk q))
  | .error _ => .error .typeError

/-- Python's `a / b`.  Field elements: numbertype.py:112-113, and 115-116 for the reflected operator, which the other classes do not
have; polynomials in one variable: polynomial.py:145-149.  Not modelled: two ints, and the division of multivariate polynomials
(which goes through sympy: Model/MvString); `.error .exception` stands in for them. -/
def vdiv (a b : Val p f n) : Py (Val p f n) :=
  match a with
  | .int k =>
    match b with
    | .int _ => .error .exception
    | .zp _ | .fq _ => do
      let i ← inverse b
      binop .mul i (.int k)
    | _ => .error .typeError
  | .zp x => do
    let i ← inverse b
    binop .mul (.zp x) i
  | .fq x => do
    let i ← inverse b
    binop .mul (.fq x) i
  | .zpoly c =>
    match b with
    | .fq _ => do
      let i ← inverse b
      binop .mul i (.zpoly c)
    | .mvp _ | .mv _ => .error .typeError
    | _ => divConv c (castZpoly b) .zpoly
  | .fqpoly c =>
    match b with
    | .fq _ => do
      let i ← inverse b
      binop .mul i (.fqpoly c)
    | .mvp _ | .mv _ => .error .typeError
    | _ => divConv c (castFqpoly b) .fqpoly
  | _ => .error .exception

/-! ### Evaluation -/

/-- polynomial.py:160-164, the loop of `__call__`. -/
def evalLoop (x : Val p f n) : List (Val p f n) → Val p f n → Val p f n → Py (Val p f n)
  | [], y, _ => .ok y
  | a :: l, y, pw => do
    let t ← binop .mul pw a
    let y' ← binop .add y t
    let pw' ← binop .mul pw x
    evalLoop x l y' pw'

/-- polynomial.py:158-164 `g(x)` for a polynomial over `IntegersModP(p)`. -/
def callZp (g : CPoly (Zp p)) (x : Val p f n) : Py (Val p f n) := evalLoop x (g.1.map .zp) (.zp 0) (.int 1)

/-- polynomial.py:158-164 `g(x)` for a polynomial over `FiniteField(p, m)`. -/
def callFq (g : CPoly (Fq f)) (x : Val p f n) : Py (Val p f n) := evalLoop x (g.1.map .fq) (.fq 0) (.int 1)

/-- `x**k` stays in the class of `x` (C06). -/
def vpow : Val p f n → Nat → Val p f n
  | .int x, k => .int (x ^ k)
  | .zp a, k => .zp (a ^ k)
  | .zpoly c, k => .zpoly (c ^ k)
  | .fq a, k => .fq (a ^ k)
  | .fqpoly c, k => .fqpoly (c ^ k)
  | .mvp d, k => .mvp (d ^ k)
  | .mv d, k => .mv (d ^ k)

/-- multivariate_polynomial.py:335-336, the product over the variables (the tuples of an instance have one power per value). -/
def monoLoop : List (Val p f n) → List Nat → Val p f n → Py (Val p f n)
  | v :: vals, e :: es, acc => do
    let acc' ← binop .mul acc (vpow v e)
    monoLoop vals es acc'
  | _, _, acc => .ok acc

/-- multivariate_polynomial.py:333-337, the sum over the monomials; `one` is `ring(1)`. -/
def sumLoop (one : Val p f n) (vals : List (Val p f n)) : List (List Nat × Val p f n) → Val p f n → Py (Val p f n)
  | [], y => .ok y
  | (t, c) :: l, y => do
    let m ← monoLoop vals t one
    let s ← binop .mul c m
    let y' ← binop .add y s
    sumLoop one vals l y'

/-- multivariate_polynomial.py:329-338 `g(vals)` for `g` in `w` variables over `IntegersModP(p)`. -/
def mvCallZp {w : Nat} (g : MP w (Zp p)) (vals : List (Val p f n)) : Py (Val p f n) :=
  if vals.length = w then sumLoop (.zp 1) vals (g.1.map fun e => (e.1, .zp e.2)) (.zp 0) else .error .assertion

/-- multivariate_polynomial.py:329-338 `g(vals)` for `g` in `w` variables over `FiniteField(p, m)`. -/
def mvCallFq {w : Nat} (g : MP w (Fq f)) (vals : List (Val p f n)) : Py (Val p f n) :=
  if vals.length = w then sumLoop (.fq 1) vals (g.1.map fun e => (e.1, .fq e.2)) (.fq 0) else .error .assertion

/-! ### The uses in the STARK prover -/

/-- stark.py:48-49 over `FiniteField(p, m)`: `[trace_poly(root_of_unity*X) for trace_poly in trace_polys]`. -/
def nextTraces (g : Fq f) (trace : List (CPoly (Fq f))) : Py (List (Val p f n)) :=
  PolyUtils.pyMap (fun t => do
    let rx ← binop .mul (.fq g) (.fqpoly (CPoly.mk [0, 1]))
    callFq t rx) trace

/-- stark.py:68-69 over `FiniteField(p, m)`: `X**steps - field(1)` and `X - last_step_position`. -/
def zNumDen (steps : Nat) (last : Fq f) : Py (Val p f n × Val p f n) := do
  let num ← binop .sub (vpow (.fqpoly (CPoly.mk [0, 1])) steps) (.fq 1)
  let den ← binop .sub (.fqpoly (CPoly.mk [0, 1])) (.fq last)
  .ok (num, den)

/-- stark.py:160, the first two products over `FiniteField(p, m)`: `remainder_poly + trace_poly * k1 + trace_poly * k2 * power`. -/
def combine (D P : CPoly (Fq f)) (k1 k2 : Int) (power : Fq f) : Py (Val p f n) := do
  let a ← binop .mul (.fqpoly P) (.int k1)
  let s ← binop .add (.fqpoly D) a
  let b ← binop .mul (.fqpoly P) (.int k2)
  let c ← binop .mul b (.fq power)
  binop .add s c

end Verif.Typecheck
