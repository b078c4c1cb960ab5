import Verif.Spec.Air
import Verif.Model.Stark
/-!
# Reading a witness and a Merkle leaf
-/

namespace Verif.Stark

/-- Row `i` of a witness (a list of columns). -/
def wrow {K : Type _} [Zero K] (witness : List (List K)) (i : Nat) : List K := witness.map fun col => col.getD i 0

/-- The `j`-th 32-byte block of a leaf, as an integer modulo `p`. -/
def blk {p : Nat} [Fact p.Prime] (leaf : Bytes) (j : Nat) : Zp p := Zp.ofInt (fromBytes ((leaf.drop (32 * j)).take 32))

/-- `W` is an execution of the step polynomials from the boundary input: `width` columns of `steps` entries, each row the step of
the row before, the first row the input. -/
structure IsExecution {K : Type _} [CommRing K] [DecidableEq K] (width steps : Nat) (polys : List (Mv.Dict K))
    (boundary : List (Nat × Nat × K)) (W : List (List K)) : Prop where
  columns : W.length = width
  entries : ∀ col ∈ W, col.length = steps
  step : ∀ i, i + 1 < steps → Air.IsStep width width polys (wrow W i) (wrow W (i + 1))
  start : ∀ (d : Nat) (col : List K), W[d]? = some col → ∃ i j inp, boundary[d]? = some (i, j, inp) ∧ col.head? = some inp

end Verif.Stark
