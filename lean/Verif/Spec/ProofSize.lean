import Mathlib.Data.Finset.Card
import Mathlib.Algebra.BigOperators.Group.Finset.Basic
import Verif.Spec.Compression
/-! # The size of a compressed proof -/

namespace Verif.Compression

/-- What a byte string counts: its length, and one byte more if it has 32 bytes. -/
def cost (x : Bytes) : Nat := x.length + if x.length = 32 then 1 else 0

/-- The entries `T` written with back references: every different entry counts once, every repetition two bytes. -/
def sharedSize (T : List Bytes) : Nat := ∑ x ∈ T.toFinset, cost x + 2 * (T.length - T.toFinset.card)

/-- The entries `T` written out. -/
def plainSize (T : List Bytes) : Nat := (T.map cost).sum

end Verif.Compression
