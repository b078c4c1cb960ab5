import Verif.Py
/-!
# How often a function is called

A computation that calls a hash function at no more than `n` inputs has the same outcome with every other hash function that has the same
values there.  This says so without looking into the computation.
-/

namespace Verif.Spec

/-- The outcome of `f` with the hash function `blake` is determined by its values at `n` inputs or fewer. -/
def Determined {α : Type _} (f : (Bytes → Bytes) → α) (blake : Bytes → Bytes) (n : Nat) : Prop :=
  ∃ Q : List Bytes, Q.length ≤ n ∧ ∀ blake', (∀ x ∈ Q, blake' x = blake x) → f blake' = f blake

end Verif.Spec
