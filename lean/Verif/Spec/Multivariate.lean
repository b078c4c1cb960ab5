import Verif.Model.Multivariate
import Mathlib.Algebra.MvPolynomial.Basic
/-!
# What a multivariate polynomial object denotes

A dictionary from power tuples to coefficients denotes the sum of its monomials, an element of Mathlib's
`MvPolynomial (Fin n) R`.
-/

namespace Verif.Mv
open MvPolynomial

variable {R : Type _} [CommRing R]

/-- The exponent vector of a power tuple. -/
noncomputable def tupF (n : Nat) (t : Tup) : Fin n →₀ ℕ := Finsupp.equivFunOnFinite.symm fun i => t.getD i 0

/-- The polynomial a dictionary denotes. -/
noncomputable def toMv (n : Nat) (d : Dict R) : MvPolynomial (Fin n) R := (d.map fun e => monomial (tupF n e.1) e.2).sum

/-- A stored dictionary: distinct sorted tuples of length `n`, no zero coefficient. -/
structure WF (n : Nat) (d : Dict R) : Prop where
  sorted : d.Pairwise fun a b => a.1 < b.1
  len : ∀ e ∈ d, e.1.length = n
  nz : ∀ e ∈ d, e.2 ≠ 0

end Verif.Mv
