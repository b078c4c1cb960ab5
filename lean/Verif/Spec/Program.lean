import Verif.Model.Stark
import Verif.Spec.Stark
/-!
# Specification: the states a proof opens
-/

namespace Verif.Stark
open Air

variable {p : Nat} [Fact p.Prime] {φ : Type}

/-- `state` is a state of the trace that a proof shows to the verifier: it is read from the first of the three branches for a sampled
position, which leads to the first root of the proof. -/
def IsOpened (blake : Bytes → Bytes) (S : Params (Zp p)) (pr : Proof φ) (state : List (Zp p)) : Prop :=
  ∃ positions i pos br leaf, Utils.getPseudorandomIndices blake pr.lRoot S.precision S.factor S.ext = .ok positions ∧
    positions[i]? = some pos ∧ pr.branches[i * 3]? = some br ∧ Merkle.verifyBranch blake pr.mRoot pos.toNat br = .ok leaf ∧
    state = (List.range S.width).map (blk leaf)

/-- Two lists of step polynomials lead from `state` to the same next state. -/
def SameStep (n width : Nat) (polys polys' : List (Mv.Dict (Zp p))) (state : List (Zp p)) : Prop :=
  ∃ next, IsStep n width polys state next ∧ IsStep n width polys' state next

end Verif.Stark
