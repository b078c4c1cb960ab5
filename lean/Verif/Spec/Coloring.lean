import Mathlib.Data.Fin.Basic
import Mathlib.Data.Int.Basic
/-!
# Specification: the secrets drawn for a graph with vertices `1, …, n`
-/

namespace Verif.Spec

/-- The secrets of vertex `v` when two secrets are drawn for every vertex. -/
def drawn {S : Type} {n : Nat} (r : Fin n → S × S) (v : Int) : List S :=
  if h : 1 ≤ v ∧ v ≤ n then [(r ⟨(v - 1).toNat, by omega⟩).1, (r ⟨(v - 1).toNat, by omega⟩).2] else []

end Verif.Spec
