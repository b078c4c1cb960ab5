import Verif.Proofs.Apr
/-!
# Specification of the APR reduction (the STARK paper's definitions, quoted in starks/apr.py)
-/

namespace Verif.Spec
open Poly
open scoped Polynomial
open Polynomial (C X)

/-- The point of step `i`: `g^i mod ζ`, as an element of the field with modulus `f`. -/
noncomputable def position {K : Type _} [Field K] [DecidableEq K] (f : List K) [FF.IsModulus f] (zeta : CPoly K) (i : Nat) :
    FF.Fq f := Apr.castHom f (Apr.residue zeta i)

/-- The class of `position` in the quotient ring. -/
theorem position_val {K : Type _} [Field K] [DecidableEq K] (f : List K) [FF.IsModulus f] (zeta : CPoly K) (i : Nat) :
    (position f zeta i).val = AdjoinRoot.mk (toPoly f) (X ^ i % toPoly zeta.1) := by
  rw [position, Apr.castHom_apply, FF.Fq.mk_val]
  exact congrArg _ (Apr.val_residue zeta i)

variable {F : Type _} [Field F]

/-- `Z_{B,j}(x)`: the product of `x - point(i)` over the boundary constraints `(i, j, α)` of register `j`. -/
noncomputable def boundaryZ (point : Nat → F) (B : List (Nat × Nat × F)) (j : Nat) : F[X] :=
  ((B.filter fun b => decide (b.2.1 = j)).map fun b => X - C (point b.1)).prod

/-- `E_{B,j}` takes the value `α` at the point of each constraint `(i, j, α)` of register `j`. -/
def MeetsBoundary (point : Nat → F) (B : List (Nat × Nat × F)) (j : Nat) (E : F[X]) : Prop :=
  ∀ i α, (i, j, α) ∈ B → E.eval (point i) = α

/-- The witness polynomial `W` of register `j` encodes the first `N` states: `W·Z_{B,j} + E_{B,j}` takes the value of the
register at each step. -/
def EncodesTrace (point : Nat → F) (states : List (List F)) (j N : Nat) (W Z E : F[X]) : Prop :=
  ∀ (i : Nat) (row : List F) (v : F), i < N → states[i]? = some row → row[j]? = some v → (W * Z + E).eval (point i) = v

end Verif.Spec
