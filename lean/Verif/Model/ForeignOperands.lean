import Verif.Model.Typecheck
/-!
# Model of operators between classes over different fields

`starks/numbertype.py:25-65` for a left operand from the classes over one prime `p`, one modulus `f` and `n` variables, and a right
operand from those over `q`, `g` and `m`.  The two classes must be different, as they are in all cases when `p ≠ q` (`memoize` keeps one
class for each field: C17); when `p = q`, the classes of elements of extension fields and of the polynomials over them are different as
soon as the moduli are.  Operands of the same class are in `Model/Typecheck.lean`.
-/

namespace Verif.Foreign
open Poly FF Mv Typecheck
open Typecheck.Val (zp zpoly fq fqpoly mvp mv)

section
variable {q : Nat} [Fact q.Prime] {g : List (Zp q)} [IsModulus g] {m : Nat}
variable (p : Nat) [hp : Fact p.Prime] (f : List (Zp p)) [hf : IsModulus f] (n : Nat)

/-- modp.py:31-41 `IntegerModP(x)`: `int(x)` of an element is its representative, of anything else it raises. -/
def castZp : Val q g m → Py (Zp p)
  | .int k => .ok (Zp.ofInt k)
  | zp a => .ok (Zp.ofInt a.1)
  | _ => .error .typeError

/-- polynomial.py:38-58 `Polynomial(x)` over `IntegersModP(p)`.  Elements of `IntegersModP(q)` have an attribute `__iter__`
(modp.py:104) but cannot be iterated over; polynomials are iterated over, and each coefficient is cast; polynomials in several
variables yield pairs. -/
def castZpoly : Val q g m → Py (CPoly (Zp p))
  | .int k => .ok (CPoly.mk [Zp.ofInt k])
  | zp _ => .error .typeError
  | zpoly c => .ok (CPoly.mk (c.1.map fun a => Zp.ofInt a.1))
  | fq _ => .error .typeError
  | fqpoly c => if c.1 = [] then .ok 0 else .error .typeError
  | mvp d => if d.1 = [] then .ok 0 else .error .typeError
  | mv d => if d.1 = [] then .ok 0 else .error .typeError

/-- finitefield.py:78-91 `Fq(x)`: everything but an int is iterated over, and the items are cast to `IntegersModP(p)`; elements of
either kind cannot be iterated over. -/
def castFq : Val q g m → Py (Fq f)
  | .int k => .ok (Fq.ofK (Zp.ofInt k))
  | zp _ => .error .typeError
  | zpoly c => .ok (Apr.castHom f (CPoly.mk (c.1.map fun a => Zp.ofInt a.1)))
  | fq _ => .error .typeError
  | fqpoly c => if c.1 = [] then .ok 0 else .error .typeError
  | mvp d => if d.1 = [] then .ok 0 else .error .typeError
  | mv d => if d.1 = [] then .ok 0 else .error .typeError

/-- polynomial.py:38-58 `Polynomial(x)` over `FiniteField(p, m)`: the coefficients of a polynomial are elements that `Fq` cannot cast
(see `castFq`). -/
def castFqpoly : Val q g m → Py (CPoly (Fq f))
  | .int k => .ok (CPoly.mk [Fq.ofK (Zp.ofInt k)])
  | zp _ => .error .typeError
  | zpoly c => if c.1 = [] then .ok 0 else .error .typeError
  | fq _ => .error .typeError
  | fqpoly c => if c.1 = [] then .ok 0 else .error .typeError
  | mvp d => if d.1 = [] then .ok 0 else .error .typeError
  | mv d => if d.1 = [] then .ok 0 else .error .typeError

/-- multivariate_polynomial.py:79-91 -/
def castMvp : Val q g m → Py (MP n (Zp p))
  | .int k => .ok (MP.const n (Zp.ofInt k))
  | _ => .error .valueError

/-- multivariate_polynomial.py:79-91 -/
def castMv : Val q g m → Py (MP n (Fq f))
  | .int k => .ok (MP.const n (Fq.ofK (Zp.ofInt k)))
  | _ => .error .valueError

end

section
variable {p : Nat} [hp : Fact p.Prime] {f : List (Zp p)} [hf : IsModulus f] {n : Nat}
variable {q : Nat} [hq : Fact q.Prime] {g : List (Zp q)} [hg : IsModulus g] {m : Nat}

/-- numbertype.py:33-46: a cast that raises anything raises `TypeError`. -/
def conv {α β : Type} (r : Py α) (k : α → β) : Py (Option β) :=
  match r with
  | .ok b => .ok (some (k b))
  | .error _ => .error .typeError

/-- numbertype.py:25-48, the decorated operator of the class of `self`; `none` is `NotImplemented`. -/
def typecheck (op : Op) (self : Val p f n) (other : Val q g m) : Py (Option (Val p f n)) :=
  if self.prec < other.prec then .ok none
  else match self with
    | .int _ => .ok none
    | zp a => conv (castZp p other) fun b => zp (op.run a b)
    | zpoly a => conv (castZpoly p other) fun b => zpoly (op.run a b)
    | fq a => conv (castFq p f other) fun b => fq (op.run a b)
    | fqpoly a => conv (castFqpoly p f other) fun b => fqpoly (op.run a b)
    | mvp a => conv (castMvp p n other) fun b => mvp (op.run a b)
    | mv a => conv (castMv p f n other) fun b => mv (op.run a b)

/-- The result belongs to the classes of the left or of the right operand. -/
abbrev Res (p : Nat) [Fact p.Prime] (f : List (Zp p)) [IsModulus f] (n : Nat) (q : Nat) [Fact q.Prime] (g : List (Zp q)) [IsModulus g]
    (m : Nat) := Val p f n ⊕ Val q g m

/-- `a + b`, `a * b`: numbertype.py:58-59, 64-65 for the reflected operators. -/
def addMul (op : Op) (a : Val p f n) (b : Val q g m) : Py (Res p f n q g m) := do
  match ← typecheck op a b with
  | some v => .ok (.inl v)
  | none =>
    match ← typecheck op b a with
    | some v => .ok (.inr v)
    | none => .error .typeError

/-- `a - b`: polynomial.py:80-81, multivariate_polynomial.py:119-120 add `-b`; the reflected operator is `-b + a` (numbertype.py:61-62). -/
def vsub (a : Val p f n) (b : Val q g m) : Py (Res p f n q g m) :=
  match a with
  | zp _ | fq _ => do
    match ← typecheck .sub a b with
    | some v => .ok (.inl v)
    | none => do
      let r ← addMul .add b.neg a
      .ok r.swap
  | _ => addMul .add a b.neg

/-- The operator on two values. -/
def binop (op : Op) (a : Val p f n) (b : Val q g m) : Py (Res p f n q g m) := match op with
  | .add => addMul .add a b
  | .sub => vsub a b
  | .mul => addMul .mul a b

/-- numbertype.py:25-48 around `__eq__` -/
def eqMethod (self : Val p f n) (other : Val q g m) : Py (Option Bool) :=
  if self.prec < other.prec then .ok none
  else match self with
    | .int _ => .ok none
    | zp a => conv (castZp p other) fun b => a = b
    | zpoly a => conv (castZpoly p other) fun b => a = b
    | fq a => conv (castFq p f other) fun b => a = b
    | fqpoly a => conv (castFqpoly p f other) fun b => a = b
    | mvp a => conv (castMvp p n other) fun b => a = b
    | mv a => conv (castMv p f n other) fun b => a = b

/-- `a == b`; the reflected method is `b == a`. -/
def veq (a : Val p f n) (b : Val q g m) : Py Bool := do
  match ← eqMethod a b with
  | some v => .ok v
  | none =>
    match ← eqMethod b a with
    | some v => .ok v
    | none => .ok false

end

end Verif.Foreign
