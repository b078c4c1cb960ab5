import Verif.Py
import Mathlib.SetTheory.Cardinal.Finite
import Mathlib.Data.Rat.Defs
/-!
# A random hash function

The hash function as a function on 32-byte strings, drawn at random together with a 32-byte string; a probability is the fraction of the
outcomes for which an event happens.
-/

namespace Verif

/-- The 32-byte strings. -/
abbrev Digest := {b : Bytes // b.length = 32}

/-- A function on 32-byte strings, as a hash function of byte strings: what it does with strings of other lengths does not matter. -/
def hashOf (H : Digest → Digest) (x : Bytes) : Bytes := if h : x.length = 32 then (H ⟨x, h⟩).1 else List.replicate 32 0

/-- The fraction of the outcomes for which `P` holds. -/
noncomputable def fraction {Ω : Type _} (P : Ω → Prop) : ℚ := (Nat.card {ω // P ω} : ℚ) / (Nat.card Ω : ℚ)

end Verif
