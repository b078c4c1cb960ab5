import Mathlib.Algebra.Polynomial.Basic
/-!
# Specification: what a coefficient list denotes
-/

namespace Verif.Poly
open Polynomial

/-- The polynomial `∑ L[i] x^i` that a coefficient list (lowest degree first) denotes. -/
noncomputable def toPoly {R : Type _} [Semiring R] (L : List R) : R[X] :=
  ∑ i ∈ Finset.range L.length, C (L.getD i 0) * X ^ i

/-- A coefficient list is canonical when it has no trailing zero. -/
def Canon {R : Type _} [Zero R] (L : List R) : Prop := ∀ a, L.getLast? = some a → a ≠ 0

end Verif.Poly
