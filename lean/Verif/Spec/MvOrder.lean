import Verif.Model.MvOrder
import Verif.Spec.Multivariate
/-!
# What an expression in multivariate polynomials denotes
-/

namespace Verif.MvO
open Mv (Tup Dict toMv)

variable {R : Type _} [CommRing R]

/-- The polynomial of `R[X_1, …, X_n]` an expression denotes. -/
noncomputable def denote (n : Nat) : Expr R → MvPolynomial (Fin n) R
  | .poly d => toMv n d
  | .add a b => denote n a + denote n b
  | .sub a b => denote n a - denote n b
  | .neg a => -denote n a
  | .mul a b => denote n a * denote n b
  | .pow a k => denote n a ^ k

/-- Every dictionary in the expression has distinct keys (as dictionaries do), all of them tuples of length `n`. -/
def Proper (n : Nat) : Expr R → Prop
  | .poly d => (d.map Prod.fst).Nodup ∧ ∀ e ∈ d, e.1.length = n
  | .add a b => Proper n a ∧ Proper n b
  | .sub a b => Proper n a ∧ Proper n b
  | .neg a => Proper n a
  | .mul a b => Proper n a ∧ Proper n b
  | .pow a _ => Proper n a

end Verif.MvO
