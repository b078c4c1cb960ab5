import Verif.Model.Blockchain
/-! # Specification: what a valid chain is -/

namespace Verif.Spec
open Verif.Chain

variable {Tx Hs : Type}

/-- Every block but the first carries the hash of the block before it and a proof valid for it. -/
def Linked (C : Crypto Tx Hs) (chain : List (Block Tx Hs)) : Prop :=
  ∀ i a b, chain[i]? = some a → chain[i + 1]? = some b → b.previousHash = C.hash a ∧ C.vp a.proof b.proof (C.hash a) = true

/-- Block indices count up from 1. -/
def Counted (chain : List (Block Tx Hs)) : Prop := ∀ i b, chain[i]? = some b → b.index = i + 1

/-- Every block but the first carries the hash of, and a proof valid for, some earlier block. -/
def Treelike (C : Crypto Tx Hs) (chain : List (Block Tx Hs)) : Prop :=
  ∀ j b, chain[j + 1]? = some b → ∃ i ≤ j, ∃ a, chain[i]? = some a ∧ b.previousHash = C.hash a ∧ C.vp a.proof b.proof (C.hash a) = true

/-- The transactions of a node, oldest first: those in the chain, then the pending ones. -/
def allTx (s : State Tx Hs) : List Tx := s.chain.flatMap (·.transactions) ++ s.current

/-- The transaction a request adds, if any. -/
def added : Op Tx Hs → List Tx
  | .submit t => [t]
  | .mine reward _ => [reward]
  | _ => []

/-- The block and proof a `/mine` request works with while it is in progress. -/
def _root_.Verif.Chain.Pc.held : Pc Tx Hs → Option (Block Tx Hs × Nat)
  | .read b p => some (b, p)
  | .rewarded b p => some (b, p)
  | _ => none

/-- No two `/mine` requests are in progress. -/
def Exclusive (c : Conf Tx Hs) : Prop := ∀ i j, (c.threads i).held ≠ none → (c.threads j).held ≠ none → i = j

/-- The transaction a scheduling decision adds: a submission adds its own, a `/mine` request its reward at its second step. -/
def addedBy (c : Conf Tx Hs) : Choice Tx → List Tx
  | .submit t => [t]
  | .step i reward _ => match c.threads i with
    | .read _ _ => [reward]
    | _ => []

/-- The transactions a whole schedule adds, in order. -/
def addedByAll (C : Crypto Tx Hs) (fuel : Nat) (c : Conf Tx Hs) : List (Choice Tx) → List Tx
  | [] => []
  | ch :: rest => addedBy c ch ++ addedByAll C fuel (conc C fuel c ch) rest

end Verif.Spec
