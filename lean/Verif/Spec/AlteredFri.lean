import Verif.Model.SmoothFri
import Verif.Spec.Merkle
/-!
# Specification for the alteration of proofs of proximity
-/

namespace Verif.SmoothFri
open Merkle Compression

/-- `s` is one of the strings hashed in checking a proof of proximity: in checking one of its branches, for some position, or in building
the tree of its last component. -/
def HashedInFri (blake : Bytes → Bytes) (proof : FriProof) (s : Bytes) : Prop :=
  (∃ it ∈ proof.1, ∃ opened ∈ it.2, ∃ br ∈ opened, ∃ x, s ∈ hashedByVerification blake x br) ∨
    ∃ tree, merkelize blake (proof.2.map fun b => .int (fromBytes b)) = .ok tree ∧ HashedInTree tree s

/-- What is read of the `i`-th opening in the `k`-th round of a proof: its first five branches. -/
def readOf (proof : FriProof) (k i : Nat) : Option (List (List Bytes)) :=
  (proof.1[k]?).bind fun it => (it.2[i]?).map (List.take 5)

end Verif.SmoothFri
