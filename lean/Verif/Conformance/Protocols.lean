import Verif.Model.Merkle
import Verif.Model.Rationals
import Verif.Model.Modp
import Verif.Model.ZeroKnowledge
import Verif.Model.ColoringSession

/-!
# The repository's own unit tests, run on the model: Merkle trees and the interactive protocols

Tests of the model (see `Verif/Conformance/Arithmetic.lean`), not proofs of properties.  The hash function is not modelled,
so the Merkle tests run with a stand-in that returns 32 bytes.  The random choices are fixed to one value.
-/
namespace Verif.Conformance
open Verif.Merkle

/-! ## starks/test/test_merkle_tree.py -/

private def H (b : Bytes) : Bytes := (b.take 31) ++ [UInt8.ofNat (b.foldl (fun a x => (31 * a + x.toNat) % 256) 7)]
private def leaves (n : Nat) : List Leaf := (List.range n).map fun x : Nat => .bytes (((intToBytes (x : Int) 32).toOption).getD [])

-- test_merkletree, test_verify_branch, test_mk_branch (128 leaves)
example : (do let t ← merkelize H (leaves 128); let b ← mkBranch t 59; let r ← pyIdx t 1
              let v ← verifyBranchInt H r 59 b
              .ok (t.length, b.length, v)) = (.ok (256, 8, 59) : Py (Nat × Nat × Nat)) := by decide +kernel
-- test_mk_branch (256 leaves)
example : (do let t ← merkelize H (leaves 256); let b ← mkBranch t 59
              .ok (t.length, b.length)) = (.ok (512, 9) : Py (Nat × Nat)) := by decide +kernel
-- test_merkletree_zmodp
example : (do let t ← merkelize H ((List.range 128).map fun i : Nat => .elt (Modp.toBytes (Modp.mk 7 (i : Int))))
              .ok t.length) = (.ok 256 : Py Nat) := by decide +kernel
-- test_merkletree_qmodp: 144 leaves, some with a denominator that is 0 modulo 7
example : (do let t ← merkelize H ((List.range 12).flatMap fun i : Nat => (List.range 12).map fun j : Nat =>
                .elt (do let q ← Rat.mk 7 (i : Int) (j : Int); Rat.toBytes q))
              .ok t.length) = (.ok 288 : Py Nat) := by decide +kernel
-- test_unpack_merkle_leaf
private def parts : List Bytes := (List.range 6).map fun x : Nat => ((intToBytes (x : Int) 32).toOption).getD []
example : unpackMerkleLeaf parts.flatten 2 3 = parts := by decide +kernel

/-! ## misc/test_zero_knowledge.py -/

open ZK in
private def G : Graph := [(1, 2), (1, 4), (1, 3), (2, 5), (2, 5), (3, 6), (5, 6)]
/-- one outcome of `random_permutation(6)`, and another for the prover's own draw -/
private def perm : List Int := [3, 0, 5, 1, 4, 2]
private def perm' : List Int := [5, 4, 0, 2, 1, 3]
-- test_graph_ops
example : ZK.numVertices G = .ok 6 := by decide +kernel
-- test_permutation_ops
example : (do let g ← ZK.applyIso G (ZK.permFun perm); let n ← ZK.numVertices g; .ok (g.length, n)) = (.ok (7, 6) : Py (Nat × Int)) := by
  decide +kernel
-- test_zk_graph_prover_send_isomorphic
example : (do let h ← ZK.sendCopy G perm'; let n ← ZK.numVertices h; .ok (h.length, n)) = (.ok (7, 6) : Py (Nat × Int)) := by decide +kernel
-- test_zk_verifier_acceptance, test_run_protocol: both challenges
example : ∀ choice ∈ [(1 : Int), 2], (do let g ← ZK.applyIso G (ZK.permFun perm); ZK.runProtocol G g perm perm' choice) = .ok true := by
  decide +kernel
-- test_zk_verifier_id_acceptance
example : ∀ choice ∈ [(1 : Int), 2], ZK.runProtocol G G [0, 1, 2, 3, 4, 5] perm' choice = .ok true := by decide +kernel
-- test_zk_verifier_nonacceptance: the test lists a permutation of 1..6 where the code wants one of 0..5.  On challenge 1 the
-- verifier accepts; on challenge 2 the composed map asks for an element the list does not have and the call raises or refuses
example : ZK.runProtocol G (G ++ [(1, 6)]) [1, 2, 3, 4, 5, 6] perm' 1 = .ok true ∧
    ZK.runProtocol G (G ++ [(1, 6)]) [1, 2, 3, 4, 5, 6] perm' 2 ≠ .ok true := by decide +kernel
-- test_basic
example : (do let g ← ZK.applyIso G (ZK.permFun perm); ZK.applyIso g (ZK.invPermFun perm)) = .ok G := by decide +kernel
-- test_messages_from_protocol, test_simulate_protocol, test_convince_beyond_doubt: the calls return
example : (do let g ← ZK.applyIso G (ZK.permFun perm); let _ ← ZK.messages G g perm perm' 1; let _ ← ZK.messages G g perm perm' 2
              let _ ← ZK.simulate G g perm' 1; let _ ← ZK.simulate G g perm' 2
              ZK.convince G g perm 1 (2 ^ 20) (fun k => (perm', (k % 2 : Nat) + 1)) 30).isOk = true := by decide +kernel

/-! ## misc/test_bbs.py, misc/test_commitment.py, misc/test_zero_knowledge_3_coloring.py -/

-- test_parity
example : Bbs.parity 3 = .ok 0 ∧ Bbs.parity 4 = .ok 1 := by decide +kernel

private def coloring : List (Int × Int) := [(1, 0), (2, 1), (3, 2), (4, 1), (5, 2), (6, 0)]
private def owp (x : Nat) : Nat := x ^ 2 % 77
private def secrets (v : Int) : List Nat := [v.toNat + 2, 2 * v.toNat + 5]
-- test_commit_to_coloring
example : (do let c ← Color.commitColoring owp Bbs.parityNat G coloring [1, 2, 0] secrets; .ok c.length) = (.ok 6 : Py Nat) := by
  decide +kernel
-- test_basic: whichever edge the verifier chooses
example : ∀ edge ∈ Color.sortEdges G, Color.runProtocol owp Bbs.parityNat G coloring [1, 2, 0] secrets edge = .ok true := by decide +kernel

end Verif.Conformance
