import Verif.Py
/-!
# Model of `starks/euclidean.py`

The two functions are generic in Python ("any number type with a divmod and a valuation abs()"), so the model is
generic over the operations the code calls.
-/

namespace Verif

/-- The operations `euclidean.py` uses on its arguments: `abs`, `divmod`, `-`, `*`, and the ints `0`, `1`
(which the operand types cast). -/
structure EuclidOps (α : Type _) where
  abs : α → Nat
  divmod : α → α → Py (α × α)
  sub : α → α → α
  mul : α → α → α
  zero : α
  one : α

/-- euclidean.py:17-21, the `while abs(b) > 0` loop of `gcd`. -/
def gcdLoop {α : Type _} (E : EuclidOps α) : Nat → α → α → Py α
  | 0, _, _ => .error .diverge
  | fuel + 1, a, b =>
    if E.abs b > 0 then do
      let qr ← E.divmod a b
      gcdLoop E fuel b qr.2
    else .ok a

/-- euclidean.py:7-21 `gcd`.  The recursive call `gcd(b, a)` (line 15) happens at most once, with
`abs(b) > abs(a)`, so its own first test fails: it is inlined here. -/
def gcd {α : Type _} (E : EuclidOps α) (a b : α) : Py α :=
  if E.abs a < E.abs b then gcdLoop E (E.abs a + 1) b a
  else gcdLoop E (E.abs b + 1) a b

/-- euclidean.py:39-43, the loop of `extended_euclidean_algorithm`, state `a, b, x2, x1, y2, y1`. -/
def xgcdLoop {α : Type _} (E : EuclidOps α) : Nat → α → α → α → α → α → α → Py (α × α × α)
  | 0, _, _, _, _, _, _ => .error .diverge
  | fuel + 1, a, b, x2, x1, y2, y1 =>
    if E.abs b > 0 then do
      let qr ← E.divmod a b
      let x := E.sub x2 (E.mul qr.1 x1)
      let y := E.sub y2 (E.mul qr.1 y1)
      xgcdLoop E fuel b qr.2 x1 x y1 y
    else .ok (x2, y2, a)

/-- euclidean.py:35-45, the part of `extended_euclidean_algorithm` after the argument swap. -/
def xgcdOrdered {α : Type _} (E : EuclidOps α) (a b : α) : Py (α × α × α) :=
  if E.abs b = 0 then .ok (E.one, E.zero, a)
  else xgcdLoop E (E.abs b + 1) a b E.one E.zero E.zero E.one

/-- euclidean.py:24-45 `extended_euclidean_algorithm`; lines 31-33 swap the arguments (once) and swap the
coefficients back. -/
def xgcd {α : Type _} (E : EuclidOps α) (a b : α) : Py (α × α × α) :=
  if E.abs b > E.abs a then do
    let r ← xgcdOrdered E b a
    .ok (r.2.1, r.1, r.2.2)
  else xgcdOrdered E a b

/-- Python ints as arguments of `euclidean.py`. -/
def intOps : EuclidOps Int where
  abs := Int.natAbs
  divmod := pyDivmod
  sub := (· - ·)
  mul := (· * ·)
  zero := 0
  one := 1

end Verif
