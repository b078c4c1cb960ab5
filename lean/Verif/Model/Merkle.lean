import Verif.Py
/-!
# Model of `starks/merkle_tree.py`

The hash function (`blake`, merkle_tree.py:5) is an arbitrary parameter `H : Bytes → Bytes`. Indices are natural
numbers (Python would also accept negative ones and wrap around).
-/

namespace Verif.Merkle

/-- merkle_tree.py:20-22, the loop of `permute4`, over the indices still to come. -/
def permute4Loop {α : Type _} (values : List α) (ld4 : Nat) : List Nat → List α → Py (List α)
  | [], o => .ok o
  | i :: is, o => do
    let a ← pyIdx values i
    let b ← pyIdx values (i + ld4)
    let c ← pyIdx values (i + ld4 * 2)
    let d ← pyIdx values (i + ld4 * 3)
    permute4Loop values ld4 is (o ++ [a, b, c, d])

/-- merkle_tree.py:11-23 `permute4` -/
def permute4 {α : Type _} (values : List α) : Py (List α) :=
  permute4Loop values (values.length / 4) (List.range (values.length / 4)) []

/-- merkle_tree.py:26-33 `get_index_in_permuted`; `ZeroDivisionError` when `L < 4`. -/
def getIndexInPermuted (x L : Nat) : Py Nat :=
  if L / 4 = 0 then .error .zeroDivision else .ok (x / (L / 4) + 4 * (x % (L / 4)))

/-- The three kinds of list item `merkelize` accepts: an int, a byte string, or a field element, represented here by the
outcome of its `to_bytes()`. -/
inductive Leaf
  | int (n : Int)
  | bytes (b : Bytes)
  | elt (enc : Py Bytes)

/-- merkle_tree.py:48-53 -/
def Leaf.encode : Leaf → Py Bytes
  | .int n => intToBytes n 32
  | .bytes b => .ok b
  | .elt enc => enc

/-- merkle_tree.py:47-53: the leaves appended to `nodes`. -/
def encodeLeaves : List Leaf → List Bytes → Py (List Bytes)
  | [], nodes => .ok nodes
  | x :: xs, nodes => do
    let b ← x.encode
    encodeLeaves xs (nodes ++ [b])

/-- merkle_tree.py:54-55: `for i in range(len(L) - 1, 0, -1)`; the argument is the current `i`. -/
def merkleLoop (H : Bytes → Bytes) : Nat → List Bytes → Py (List Bytes)
  | 0, nodes => .ok nodes
  | i + 1, nodes => do
    let a ← pyIdx nodes ((i + 1) * 2)
    let b ← pyIdx nodes ((i + 1) * 2 + 1)
    merkleLoop H i (nodes.set (i + 1) (H (a ++ b)))

/-- merkle_tree.py:36-56 `merkelize` -/
def merkelize (H : Bytes → Bytes) (L : List Leaf) : Py (List Bytes) := do
  let L ← permute4 L
  let nodes ← encodeLeaves L (List.replicate L.length [])
  merkleLoop H (L.length - 1) nodes

/-- merkle_tree.py:64-67: the `while index > 1` loop of `mk_branch`. -/
def branchLoop (tree : List Bytes) : Nat → Nat → List Bytes → Py (List Bytes)
  | 0, _, _ => .error .diverge
  | fuel + 1, index, o =>
    if index > 1 then do
      let s ← pyIdx tree (index ^^^ 1)
      branchLoop tree fuel (index / 2) (o ++ [s])
    else .ok o

/-- merkle_tree.py:59-68 `mk_branch` -/
def mkBranch (tree : List Bytes) (index : Nat) : Py (List Bytes) := do
  let index ← getIndexInPermuted index (tree.length / 2)
  let index := index + tree.length / 2
  let leaf ← pyIdx tree index
  branchLoop tree (index + 1) index [leaf]

/-- merkle_tree.py:79-84: the `for p in proof[1:]` loop of `verify_branch`. -/
def verifyLoop (H : Bytes → Bytes) : List Bytes → Nat → Bytes → Bytes
  | [], _, v => v
  | p :: ps, index, v =>
    verifyLoop H ps (index / 2) (if index % 2 = 1 then H (p ++ v) else H (v ++ p))

/-- merkle_tree.py:71-86 `verify_branch` with `output_as_int=False`. -/
def verifyBranch (H : Bytes → Bytes) (root : Bytes) (index : Nat) (proof : List Bytes) : Py Bytes := do
  let index ← getIndexInPermuted index (2 ^ proof.length / 2)
  let index := index + 2 ^ proof.length / 2
  match proof with
  | [] => .error .indexError
  | v0 :: ps => do
    pyAssert (verifyLoop H ps index v0 == root)
    .ok v0

/-- merkle_tree.py:86 with `output_as_int=True`. -/
def verifyBranchInt (H : Bytes → Bytes) (root : Bytes) (index : Nat) (proof : List Bytes) : Py Nat := do
  let v ← verifyBranch H root index proof
  .ok (fromBytes v)

/-- `zip(*rows)` (merkle_tree.py:118): the columns, as many as the shortest row has entries; none if there are no
rows. -/
def zipStar {α : Type _} : List (List α) → List (List α)
  | [] => []
  | [row] => row.map (fun a => [a])
  | row :: rows => List.zipWith List.cons row (zipStar rows)

/-- merkle_tree.py:117 `b''.join([val.to_bytes() for val in evals])`, values given by the outcome of `to_bytes()`. -/
def joinBytes : List (Py Bytes) → Py Bytes
  | [] => .ok []
  | e :: es => do
    let b ← e
    let bs ← joinBytes es
    .ok (b ++ bs)

/-- merkle_tree.py:94-119 `merkelize_polynomial_evaluations` (its parameter `dims` is unused there). -/
def merkelizePolynomialEvaluations (H : Bytes → Bytes) (evals : List (List (Py Bytes))) : Py (List Bytes) := do
  let leaves ← (zipStar evals).mapM joinBytes
  merkelize H (leaves.map .bytes)

/-- merkle_tree.py:121-147 `unpack_merkle_leaf`; slices past the end are short or empty, as in Python. -/
def unpackMerkleLeaf (leaf : Bytes) (dims numPolys : Nat) : List Bytes :=
  (List.range numPolys).flatMap fun polyInd =>
    (List.range dims).map fun dim =>
      (leaf.take (32 * (polyInd * dims + dim + 1))).drop (32 * (polyInd * dims + dim))

end Verif.Merkle
