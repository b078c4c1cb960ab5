import Verif.Proofs.Polynomial
import Mathlib.Data.Matrix.Mul
import Mathlib.Algebra.Polynomial.Roots
/-!
# Specification: augmented matrices, vanishing polynomials
-/

namespace Verif.Gauss
open Polynomial

/-- The nested list with the rows of `A`, each followed by its right-hand side in `v`, as an entry function. -/
def augmented {P : Type _} [Zero P] {n : Nat} (A : Matrix (Fin n) (Fin n) P) (v : Fin n → P) (a b : Nat) : P :=
  if ha : a < n then (if hb : b < n then A ⟨a, ha⟩ ⟨b, hb⟩ else v ⟨a, ha⟩) else 0

/-- The constant polynomial `a`, as the library builds it from the coefficient list `[a]`. -/
def const {K : Type _} [Field K] [DecidableEq K] (a : K) : Poly.CPoly K := Poly.CPoly.mk [a]

/-- `f` is a vanishing polynomial of the finite set `S`: its degree is the size of `S` and its roots are the elements of `S`. -/
def Vanishing {F : Type _} [Field F] (f : F[X]) (S : Finset F) : Prop :=
  f.natDegree = S.card ∧ ∀ x, f.eval x = 0 ↔ x ∈ S

end Verif.Gauss
