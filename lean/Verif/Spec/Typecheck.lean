import Verif.Model.Typecheck
/-!
# What mixed-type arithmetic should mean

`Lift v w`: the value `w`, of a class at least as large, is what `v` stands for there.  All is said of Mathlib's rings: a
polynomial object denotes an element of `R[X]` or `MvPolynomial (Fin n) R`, a field element one of `R[X]/(f)`.
-/

namespace Verif.Typecheck
open Poly FF Mv Val

variable {p : Nat} [hp : Fact p.Prime] {f : List (Zp p)} [hf : IsModulus f] {n : Nat}

/-- `w` is the image of `v`. -/
def Lift : Val p f n → Val p f n → Prop
  | int k, int l => k = l
  | int k, zp b => b = (k : Zp p)
  | int k, zpoly c => c.val = (k : Polynomial (Zp p))
  | int k, fq b => b.val = (k : AdjoinRoot (toPoly f))
  | int k, fqpoly c => c.val = (k : Polynomial (Fq f))
  | int k, mvp d => d.val = (k : MvPolynomial (Fin n) (Zp p))
  | int k, mv d => d.val = (k : MvPolynomial (Fin n) (Fq f))
  | zp a, zp b => a = b
  | zp a, zpoly c => c.val = Polynomial.C a
  | zp a, fq b => b.val = AdjoinRoot.of (toPoly f) a
  | zp a, fqpoly c => ∃ b : Fq f, b.val = AdjoinRoot.of (toPoly f) a ∧ c.val = Polynomial.C b
  | zp a, mvp d => d.val = MvPolynomial.C a
  | zp a, mv d => ∃ b : Fq f, b.val = AdjoinRoot.of (toPoly f) a ∧ d.val = MvPolynomial.C b
  | zpoly c, zpoly c' => c = c'
  | zpoly c, fq b => b.val = AdjoinRoot.mk (toPoly f) c.val
  | zpoly c, fqpoly c' => ∀ i, (c'.val.coeff i).val = AdjoinRoot.of (toPoly f) (c.val.coeff i)
  | fq a, fq b => a = b
  | fq a, fqpoly c => c.val = Polynomial.C a
  | fq a, mv d => d.val = MvPolynomial.C a
  | fqpoly c, fqpoly c' => c = c'
  | mvp d, mvp d' => d = d'
  | mvp d, mv d' => ∀ m, (d'.val.coeff m).val = AdjoinRoot.of (toPoly f) (d.val.coeff m)
  | mv d, mv d' => d = d'
  | _, _ => False

/-- The operation on two values of one class: that of the ring. -/
def result (op : Op) : Val p f n → Val p f n → Option (Val p f n)
  | int a, int b => some (int (op.run a b))
  | zp a, zp b => some (zp (op.run a b))
  | zpoly a, zpoly b => some (zpoly (op.run a b))
  | fq a, fq b => some (fq (op.run a b))
  | fqpoly a, fqpoly b => some (fqpoly (op.run a b))
  | mvp a, mvp b => some (mvp (op.run a b))
  | mv a, mv b => some (mv (op.run a b))
  | _, _ => none

/-- The classes whose values mix freely with those of a class `k`. -/
def Tower : Kind → Kind → Prop
  | .int, j => j = .int
  | .zp, j => j = .int ∨ j = .zp
  | .zpoly, j => j = .int ∨ j = .zp ∨ j = .zpoly
  | .fq, j => j = .int ∨ j = .zp ∨ j = .zpoly ∨ j = .fq
  | .fqpoly, j => j = .int ∨ j = .fqpoly
  | .mvp, j => j = .int ∨ j = .zp ∨ j = .mvp
  | .mv, j => j = .int ∨ j = .fq ∨ j = .mv

/-- Expressions in `+`, `-`, `*` and powers. -/
inductive Expr (α : Type)
  | leaf (a : α)
  | bin (op : Op) (l r : Expr α)
  | pow (e : Expr α) (k : Nat)

/-- Evaluation of an expression, by Python. -/
def Expr.eval : Expr (Val p f n) → Py (Val p f n)
  | .leaf v => .ok v
  | .bin op l r => do
    let a ← l.eval
    let b ← r.eval
    binop op a b
  | .pow e k => do
    let a ← e.eval
    .ok (vpow a k)

/-- The value of an expression whose leaves all lie in one ring. -/
def Expr.value : Expr (Val p f n) → Option (Val p f n)
  | .leaf v => some v
  | .bin op l r => do
    let a ← l.value
    let b ← r.value
    result op a b
  | .pow e k => do
    let a ← e.value
    some (vpow a k)

/-- The same expression with other leaves. -/
def Expr.map {α β : Type} (g : α → β) : Expr α → Expr β
  | .leaf a => .leaf (g a)
  | .bin op l r => .bin op (l.map g) (r.map g)
  | .pow e k => .pow (e.map g) k

/-- All leaves satisfy `P`. -/
def Expr.All {α : Type} (P : α → Prop) : Expr α → Prop
  | .leaf a => P a
  | .bin _ l r => l.All P ∧ r.All P
  | .pow e _ => e.All P

end Verif.Typecheck
