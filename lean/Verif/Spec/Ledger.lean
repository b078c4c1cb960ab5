import Verif.Model.BlockchainWorld
import Verif.Spec.Chain
/-! # Specification: the ledger a chain stands for -/

namespace Verif.Spec
open Verif.Chain

variable {Tx Hs : Type}

/-- The transactions in the blocks of a chain, oldest first. -/
def mined (chain : List (Block Tx Hs)) : List Tx := chain.flatMap (·.transactions)

/-- The transactions node `i` has accepted when it has served a request: a submission to it, or the reward of a block it mined. -/
def acceptedAt (i : Nat) : NetOp Tx → List Tx
  | .submit j t => if j = i then [t] else []
  | .mine j reward _ => if j = i then [reward] else []
  | _ => []

/-- A transaction with its contents (blockchain.py:134-138). -/
structure Payment where
  sender : String
  recipient : String
  amount : Int
deriving DecidableEq

/-- A payment that creates coins: its sender is "0" (run_blockchain.py:17-18). -/
def Payment.Creates (t : Payment) : Prop := t.sender = "0"

instance (t : Payment) : Decidable t.Creates := inferInstanceAs (Decidable (_ = _))

/-- What the ledger says that `a` owns: everything received less everything sent. -/
def balance (a : String) (l : List Payment) : Int :=
  (l.map fun t => (if t.recipient = a then t.amount else 0) - (if t.sender = a then t.amount else 0)).sum

end Verif.Spec
