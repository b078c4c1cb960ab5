import Verif.Model.BlockchainThreads
/-! # Specification: the requests threads serve -/

namespace Verif.Spec
open Verif.Chain

/-- The request a thread that has not started is about to serve. -/
inductive Request {Tx Hs : Type} : HPc Tx Hs → Op Tx Hs → Prop
  | submit (t : Tx) : Request (.submit t) (.submit t)
  | mine (reward : Tx) (time : Nat) : Request (.mine reward time) (.mine reward time)

end Verif.Spec
