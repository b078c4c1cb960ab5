import Mathlib.Algebra.Polynomial.Eval.Defs
import Mathlib.Algebra.Polynomial.Degree.Defs
/-!
# Specification: folding a vector of values, and its distance from low degree

`w` has order `4 * q`; the four points `w^(y + q*j)`, `j < 4`, have the same fourth power `(w^4)^y`: they are the fibre of the position `y`.
-/

namespace Verif.SmoothFri
open Polynomial

variable {K : Type} [Field K]

/-- At the position `y` the vector `V`, of length `q`, is the fold of `U`, of length `4 q`, with the challenge `x`. -/
def FoldedAt (w : K) (q : Nat) (U V : List K) (x : K) (y : Nat) : Prop :=
  ∃ P : K[X], P.degree < 4 ∧ (∀ j < 4, U[y + q * j]? = some (P.eval (w ^ (y + q * j)))) ∧ V[y]? = some (P.eval x)

/-- Some value of `U` in the fibre of the position `y` is not that of `P`. -/
def OffFibre (w : K) (q : Nat) (U : List K) (P : K[X]) (y : Nat) : Prop := ∃ j < 4, U[y + q * j]? ≠ some (P.eval (w ^ (y + q * j)))

/-- The value of `V` at the position `y` is not that of `Q`. -/
def OffAt (w : K) (V : List K) (Q : K[X]) (y : Nat) : Prop := V[y]? ≠ some (Q.eval (w ^ y))

open Classical in
/-- The number of positions `y < q` with the property `R`. -/
noncomputable def count (q : Nat) (R : Nat → Prop) : Nat := ((Finset.range q).filter R).card

end Verif.SmoothFri
