import Mathlib.Algebra.Polynomial.Degree.Defs
import Mathlib.Algebra.Polynomial.Eval.Defs
/-! # What interpolation means -/

namespace Verif.Spec
open scoped Polynomial

/-- `P` has degree below the number of points and takes the given values at the given points. -/
def Interpolates {K : Type _} [Field K] (P : K[X]) (xs ys : List K) : Prop :=
  P.degree < xs.length ∧ xs.map P.eval = ys

/-- `P` is the only polynomial that interpolates. -/
def UniqueInterpolant {K : Type _} [Field K] (P : K[X]) (xs ys : List K) : Prop :=
  Interpolates P xs ys ∧ ∀ Q, Interpolates Q xs ys → Q = P

end Verif.Spec
