import Verif.Model.ChainHash
import Verif.Spec.Provers
/-!
# What has been hashed so far

A chain has been made, by whomever, and strings have been hashed on the way.  The hashes of these strings are given; those of all other
strings are still to be drawn.
-/

namespace Verif.Spec
open ChainJson ChainHash

/-- The strings hashed so far, and their hashes (the values of `hash` at other strings do not matter). -/
structure Past (n : Nat) where
  known : Finset (Short n)
  hash : Short n → Digest

/-- The hash functions that agree with what has been seen. -/
def Past.Future {n : Nat} (P : Past n) := {H : Short n → Digest // ∀ x ∈ P.known, H x = P.hash x}

/-- The past in which `l` was made: the texts of its blocks have been hashed, no two strings with the same hash have been seen, and the only proofs of work
that have been found are proofs after blocks of `l`. -/
structure Past.Made {n : Nat} {N : Type} (P : Past n) (T : Texts N) (other : Bytes → Digest) (l : List (Json N)) : Prop where
  texts : ∀ b ∈ l, ∃ h, ⟨dumps T.dump b, h⟩ ∈ P.known
  distinct : ∀ x ∈ P.known, ∀ y ∈ P.known, P.hash x = P.hash y → x = y
  work : ∀ p q d h, ⟨guess T p q (hexdigest d), h⟩ ∈ P.known → validProof T (drawn P.hash other) p q (hexdigest d) = true →
    ∃ b ∈ l, blockHash T (drawn P.hash other) b = hexdigest d

end Verif.Spec
