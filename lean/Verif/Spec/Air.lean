import Verif.Model.Air
/-!
# What a valid transition is
-/

namespace Verif.Air
open Mv

variable {R : Type _} [CommRing R] [DecidableEq R]

/-- `y` is the state after `x`: its `width` coordinates are the values of the step polynomials at `x`. -/
def IsStep (n width : Nat) (polys : List (Dict R)) (x y : List R) : Prop :=
  y.length = width ∧ ∀ i, i < width → ∃ f, polys[i]? = some f ∧ ∃ v, y[i]? = some v ∧ call n f x = .ok v

end Verif.Air
