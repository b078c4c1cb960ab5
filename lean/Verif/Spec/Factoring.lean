import Mathlib.Data.Int.Interval
import Mathlib.Data.Int.GCD
/-!
# Specification: residues and factors

The numbers `0, …, M - 1` without common factor with `M`, and what it is to have split `M`.
-/

namespace Verif.Spec

/-- The residues modulo `M` that have no factor in common with `M`. -/
def coprimes (M : Nat) : Finset Int := (Finset.Ico 0 (M : Int)).filter fun x => Int.gcd x M = 1

/-- `d` is a factor of `M` other than 1 and `M`. -/
def Splits (M d : Nat) : Prop := d ∣ M ∧ 1 < d ∧ d < M

instance (M d : Nat) : Decidable (Splits M d) := by unfold Splits; infer_instance

end Verif.Spec
