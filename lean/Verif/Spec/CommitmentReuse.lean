import Verif.Model.Commitment
/-!
# Specification: one commitment object used several times

The commitments a `BBSIntCommitmentScheme` object with the given secrets returns for the integers `xs`, one after the other, as in
misc/commitment.py:142-150 (the loop of the demonstration, which uses one object for ten integers).
-/

namespace Verif.Spec

/-- Successive calls of `commit` on one object. -/
def commitEach {S T : Type} (owp : S → T) (hp : S → Nat) (secrets : List S) (xs : List Nat) : Py (List (List (T × Nat))) :=
  PolyUtils.pyMap (fun x : Nat => Commit.commitInt owp hp secrets x) xs

end Verif.Spec
