import Verif.Py
/-! # Specification: the objects inside a proof -/

namespace Verif.Compression

/-- All byte strings contained in a FRI proof. -/
def friObjects (prf : List (Bytes × List (List (List Bytes))) × List Bytes) : List Bytes :=
  (prf.1.flatMap fun it => it.1 :: (it.2.flatten).flatten) ++ prf.2

/-- The byte strings the format can carry: not two bytes long (those are read as back references) and not one of the
four separators. -/
def Clean (x : Bytes) : Prop :=
  x.length ≠ 2 ∧ ∀ c ∈ ['-', '+', '=', '/'], x ≠ List.replicate 4 (UInt8.ofNat c.toNat)

/-- The number of list entries of the compressed form: one per byte string, one separator per branch, per yproof and per
item, and one before the final component. -/
def friCount (prf : List (Bytes × List (List (List Bytes))) × List Bytes) : Nat :=
  (prf.1.map fun it => 2 + (it.2.map fun y => 1 + (y.map fun b => b.length + 1).sum).sum).sum + 1 + prf.2.length

/-- Four times the character `c`. -/
def sep (c : Char) : Bytes := List.replicate 4 (UInt8.ofNat c.toNat)

/-- A FRI proof written out with its separators. -/
def friEntries (prf : List (Bytes × List (List (List Bytes))) × List Bytes) : List Bytes :=
  (prf.1.flatMap fun it => sep '-' :: it.1 :: it.2.flatMap fun y => (y.flatMap fun b => b ++ [sep '+']) ++ [sep '=']) ++ sep '/' :: prf.2

/-- A list of branches written out with its separators. -/
def branchEntries (branches : List (List Bytes)) : List Bytes := branches.flatMap fun b => b ++ [sep '-']

/-- Two bytes can refer to every repeated entry: it occurs among the first 65536. -/
def Referable (T : List Bytes) : Prop := ∀ (pos : Nat) (x : Bytes), T[pos]? = some x → x ∈ T.take pos → x ∈ T.take 65536

end Verif.Compression
