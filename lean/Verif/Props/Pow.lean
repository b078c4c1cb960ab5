import Verif.Proofs.Pow
import Verif.Proofs.Polynomial
import Verif.Proofs.Modp
/-!
# C06: exponentiation by square-and-multiply (generic version)

The version of `F_{p^m}` and of multivariate polynomials are in `Props/FiniteField.lean` and
`Props/Multivariate.lean`.
-/

namespace Verif.Props

/-- **C06** (any commutative ring element type). `x ** n` is the `n`-fold product for every `n ≥ 0`. -/
theorem C06_pow {M : Type _} [CommMonoid M] [DecidableEq M] (x : M) (n : Nat) :
    pyPow 1 (· * ·) x (n : Int) = .ok (x ^ n) := pyPow_spec x n

/-- **C06** (Z/p, on stored integers). -/
theorem C06_pow_modp (p : Nat) (hp : 1 < p) (a : Int) (n : Nat) :
    pyPow (Modp.mk p 1) (Modp.mul p) (Modp.mk p a) (n : Int) = .ok (a ^ n % p) := by
  obtain ⟨y, h1, h2, h3⟩ := pyPow_interp (one := Modp.mk p 1) (mul := Modp.mul p)
    (φ := fun z : Int => (z : ZMod p)) (P := fun z => 0 ≤ z ∧ z < p)
    (Modp.mk_range p (by omega) 1) (by rw [Modp.mk_cast]; simp)
    (fun a b _ _ => ⟨Modp.mk_range p (by omega) _, by rw [Modp.mul, Modp.mk_cast]; simp⟩)
    (Modp.mk_range p (by omega) a) n
  rw [h1]
  congr 1
  rw [Modp.mk_cast] at h3
  have h3' : ((y : Int) : ZMod p) = ((a ^ n : Int) : ZMod p) := by rw [h3]; simp
  rw [ZMod.intCast_eq_intCast_iff', Int.emod_eq_of_lt h2.1 h2.2] at h3'
  exact h3'

/-- **C06** (polynomials). -/
theorem C06_pow_poly {R : Type _} [CommRing R] [DecidableEq R] (f : List R) (hf : Poly.Canon f) (n : Nat) :
    ∃ y, pyPow Poly.one Poly.mul f (n : Int) = .ok y ∧ Poly.Canon y ∧ Poly.toPoly y = Poly.toPoly f ^ n :=
  pyPow_interp Poly.canon_one Poly.toPoly_one (fun a b _ _ => ⟨Poly.canon_mul a b, Poly.toPoly_mul a b⟩) hf n

/-- **C06** (negative exponents). No error and no inverse: the base for odd `n`, one for even `n`. -/
theorem C06_pow_negative {α : Type _} (one : α) (mul : α → α → α) (x : α) (n : Int) (hn : n < 0) :
    pyPow one mul x n = .ok (if n % 2 = 1 then x else one) := powGen_neg one x n hn

/-- This meets the hypotheses of `C06_pow_modp`, `C06_pow_poly`. -/
example : pyPow (Modp.mk 7 1) (Modp.mul 7) (Modp.mk 7 3) 6 = .ok 1 ∧
    pyPow (Modp.mk 7 1) (Modp.mul 7) (Modp.mk 7 3) (-1) = .ok 3 ∧
    pyPow Poly.one Poly.mul ([1, 1] : List ℤ) 3 = .ok [1, 3, 3, 1] := by decide

end Verif.Props
