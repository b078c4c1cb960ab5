import Verif.Py
/-! # Specification: the strings a Merkle verification hashes -/

namespace Verif.Merkle

/-- The strings hashed while folding a proof from leaf `v` at heap position `index` to the root: at an odd position the
sibling is on the left, at an even one on the right. -/
def hashedStrings (H : Bytes → Bytes) : List Bytes → Nat → Bytes → List Bytes
  | [], _, _ => []
  | p :: ps, index, v =>
    let s := if index % 2 = 1 then p ++ v else v ++ p
    s :: hashedStrings H ps (index / 2) (H s)

/-- The strings hashed by the verification of a whole proof for leaf number `index` of a tree with `2^(len(proof)-1)`
leaves. -/
def hashedByVerification (H : Bytes → Bytes) (index : Nat) (proof : List Bytes) : List Bytes :=
  let n := 2 ^ (proof.length - 1)
  hashedStrings H proof.tail (index / (n / 4) + 4 * (index % (n / 4)) + n) (proof.headD [])

/-- `s` is one of the strings hashed in building the tree with the nodes `tree`: the children `2j`, `2j + 1` of a node `j`. -/
def HashedInTree (tree : List Bytes) (s : Bytes) : Prop :=
  ∃ j a b, 1 ≤ j ∧ tree[2 * j]? = some a ∧ tree[2 * j + 1]? = some b ∧ s = a ++ b

end Verif.Merkle
