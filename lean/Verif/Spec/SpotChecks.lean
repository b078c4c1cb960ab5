import Verif.Spec.RandomHash
import Verif.Spec.Stark
import Verif.Spec.Polynomial
/-!
# Committing to polynomials before the spot checks are drawn
-/

namespace Verif.Stark
open Poly

/-- A hash function that is `H` on strings of 32 bytes and `other` on all others. -/
def hashWith (H : Digest → Digest) (other : Bytes → Bytes) (x : Bytes) : Bytes := if h : x.length = 32 then (H ⟨x, h⟩).1 else other x

/-- The first root of the proof is a commitment to the values of the polynomials `P`, `D`, `B`: whatever branch of the proof opens a
position under it shows their values there. -/
def Commits {p : Nat} [Fact p.Prime] {φ : Type} (blake : Bytes → Bytes) (S : Params (Zp p)) (P D B : List (List (Zp p))) (pr : Proof φ) : Prop :=
  ∀ br ∈ pr.branches, ∀ (pos : Nat) (leaf : Bytes), pos < S.precision → Merkle.verifyBranch blake pr.mRoot pos br = .ok leaf →
    ∀ (d : Nat) (Pd Dd Bd : List (Zp p)), P[d]? = some Pd → D[d]? = some Dd → B[d]? = some Bd →
      blk leaf d = (toPoly Pd).eval (S.G2 ^ pos) ∧ blk leaf (S.width + d) = (toPoly Dd).eval (S.G2 ^ pos) ∧
      blk leaf (2 * S.width + d) = (toPoly Bd).eval (S.G2 ^ pos)

/-- The values of the polynomials `P` at the powers of `G1` are an execution of the step polynomials from the boundary input to the
claimed output, the last entries of the columns of `W`. -/
def Executes {p : Nat} [Fact p.Prime] (S : Params (Zp p)) (W : List (List (Zp p))) (boundary : List (Nat × Nat × Zp p)) (P : List (List (Zp p))) : Prop :=
  (∀ i, i + 1 < S.steps → Air.IsStep S.width S.width S.polys (P.map fun q => (toPoly q).eval (S.G1 ^ i))
    (P.map fun q => (toPoly q).eval (S.G1 ^ (i + 1)))) ∧
  ∀ d, d < S.width → ∃ Pd i j inp col out, P[d]? = some Pd ∧ boundary[d]? = some (i, j, inp) ∧ (toPoly Pd).eval 1 = inp ∧
    W[d]? = some col ∧ col.getLast? = some out ∧ (toPoly Pd).eval (S.G1 ^ (S.steps - 1)) = out

end Verif.Stark
