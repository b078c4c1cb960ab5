import Verif.Model.BlockchainNet
/-!
# Model of several nodes that run `misc/run_blockchain.py` and serve requests, one request at a time
-/

namespace Verif.Chain

variable {Tx Hs : Type} [DecidableEq Hs] (C : Crypto Tx Hs)

/-- A request to node `i` of a network: the routes of run_blockchain.py:11-98 that change something. -/
inductive NetOp (Tx : Type) where
  | submit (i : Nat) (t : Tx)
  | mine (i : Nat) (reward : Tx) (time : Nat)
  | register (i : Nat) (netloc path : String)
  | consensus (i : Nat)

/-- One request served to the end by the node it is sent to (run_blockchain.py:11-36, 39-53, 65-80 with one address, 83-98). -/
def netServe (host : String → Nat) (fuel : Nat) (net : Net Tx Hs) : NetOp Tx → Net Tx Hs
  | .submit i t => Function.update net i (serve C fuel (net i) (.submit t))
  | .mine i reward time => Function.update net i (serve C fuel (net i) (.mine reward time))
  | .register i netloc path => Function.update net i (serve C fuel (net i) (.register netloc path))
  | .consensus i => consensus C host net i

/-- A history of requests to the nodes of a network. -/
def netServeAll (host : String → Nat) (fuel : Nat) (net : Net Tx Hs) (ops : List (NetOp Tx)) : Net Tx Hs :=
  ops.foldl (netServe C host fuel) net

/-- run_blockchain.py:8 at every node: node `i` is started at the time `times i`, with no nodes registered (blockchain.py:13-19). -/
def newNet (times : Nat → Nat) : Net Tx Hs := fun i => ⟨[], [⟨1, times i, [], 100, C.one⟩], []⟩

end Verif.Chain
