import Verif.Model.Merkle
/-!
# `starks/merkle_tree.py` with arbitrary integer indices

`Model/Merkle.lean` takes natural indices.  Here `mk_branch` and `verify_branch` take any Python int; the list index of a negative int
counts from the end.  The divisors are positive, where Lean's `/` and `%` on `Int` are Python's `//` and `%`.
-/

namespace Verif.Merkle

/-- Python `l[i]` for any int `i`. -/
def idxZ {α : Type _} (l : List α) (i : Int) : Py α :=
  if 0 ≤ i then pyIdx l i.toNat
  else if 0 ≤ i + l.length then pyIdx l (i + l.length).toNat else .error .indexError

/-- merkle_tree.py:26-33 `get_index_in_permuted`. -/
def getIndexInPermutedZ (x : Int) (L : Nat) : Py Int :=
  if L / 4 = 0 then .error .zeroDivision else .ok (x / ((L / 4 : Nat) : Int) + 4 * (x % ((L / 4 : Nat) : Int)))

/-- merkle_tree.py:59-68 `mk_branch`; the `while` loop (lines 64-67) does nothing for an index below 2, and is the loop on naturals
otherwise. -/
def mkBranchZ (tree : List Bytes) (index : Int) : Py (List Bytes) := do
  let index ← getIndexInPermutedZ index (tree.length / 2)
  let index := index + ((tree.length / 2 : Nat) : Int)
  let leaf ← idxZ tree index
  branchLoop tree (index.toNat + 1) index.toNat [leaf]

/-- merkle_tree.py:79-84: the loop of `verify_branch`. -/
def verifyLoopZ (H : Bytes → Bytes) : List Bytes → Int → Bytes → Bytes
  | [], _, v => v
  | p :: ps, index, v => verifyLoopZ H ps (index / 2) (if index % 2 ≠ 0 then H (p ++ v) else H (v ++ p))

/-- merkle_tree.py:71-86 `verify_branch` with `output_as_int=False`. -/
def verifyBranchZ (H : Bytes → Bytes) (root : Bytes) (index : Int) (proof : List Bytes) : Py Bytes := do
  let index ← getIndexInPermutedZ index (2 ^ proof.length / 2)
  let index := index + ((2 ^ proof.length / 2 : Nat) : Int)
  match proof with
  | [] => .error .indexError
  | v0 :: ps => do
    pyAssert (verifyLoopZ H ps index v0 == root)
    .ok v0

end Verif.Merkle
