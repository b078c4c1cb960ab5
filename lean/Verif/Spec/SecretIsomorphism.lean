import Mathlib.Data.List.Basic
import Mathlib.Data.Int.Basic
/-!
# Specification: what anyone who has seen two graphs can write down
-/

namespace Verif.Spec

/-- The vertex of `G2` standing where `v` first stands in `G1`, the edges taken in the order in which they are listed; 1 if `v`
stands nowhere. -/
def opposite (G1 G2 : List (Int × Int)) (v : Int) : Int :=
  match (G1.zip G2).find? fun ed => decide (v = ed.1.1 ∨ v = ed.1.2) with
  | some ed => if v = ed.1.1 then ed.2.1 else ed.2.2
  | none => 1

/-- The list of the vertices opposite to `1, …, n`, counted from 0. -/
def guess (n : Nat) (G1 G2 : List (Int × Int)) : List Int := (List.range n).map fun k : Nat => opposite G1 G2 ((k : Int) + 1) - 1

end Verif.Spec
