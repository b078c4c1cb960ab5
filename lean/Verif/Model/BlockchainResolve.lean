import Verif.Model.Blockchain
/-!
# Model of `/mine`, `/transactions/new` and `/nodes/resolve` requests in progress at the same time

`new_transaction` and `new_block` are taken to be atomic, as in the second half of Model/Blockchain.  A `/nodes/resolve` request is divided at its calls to the
peers, which take time: reading the length of the chain, one step for every answer, and the assignment at the end.
-/

namespace Verif.Chain

variable {Tx Hs : Type} [DecidableEq Hs] (C : Crypto Tx Hs)

/-- The point a request has reached. -/
inductive QPc (Tx Hs : Type) where
  /-- a request that has not touched the shared object -/
  | new
  /-- a `/mine` request (run_blockchain.py:11-36) -/
  | mine (pc : Pc Tx Hs)
  /-- a `/nodes/resolve` request in the loop of blockchain.py:83-93, with the values of `max_length` and `new_chain` -/
  | polling (maxLength : Int) (newChain : Option (List (Block Tx Hs)))
  | done

/-- A node and the requests in progress, by number. -/
structure QConf (Tx Hs : Type) where
  shared : State Tx Hs
  threads : Nat → QPc Tx Hs

/-- What the scheduler does next. -/
inductive QChoice (Tx Hs : Type) where
  /-- `/transactions/new`, served to the end -/
  | submit (t : Tx)
  /-- the next step of the `/mine` request `i` -/
  | mine (i : Nat) (reward : Tx) (time : Nat)
  /-- the `/nodes/resolve` request `i` reads the length of the chain -/
  | start (i : Nat)
  /-- the `/nodes/resolve` request `i` gets an answer from a peer -/
  | poll (i : Nat) (r : Resp Tx Hs)
  /-- the `/nodes/resolve` request `i` has asked all peers -/
  | finish (i : Nat)

/-- A request goes on: the object and the point it has reached. -/
def QConf.set (c : QConf Tx Hs) (i : Nat) (s : State Tx Hs) (pc : QPc Tx Hs) : QConf Tx Hs := ⟨s, fun j => if j = i then pc else c.threads j⟩

/-- One scheduling decision. A decision that does not fit the point the request has reached does nothing.
`/mine`: `mineStep`. `/nodes/resolve`: blockchain.py:76-80 (`start`), 84-93 (`poll`, an exception ends the request), 96-100 (`finish`: `if new_chain` is false for `None`
and for an empty list). -/
def qstep (fuel : Nat) (c : QConf Tx Hs) : QChoice Tx Hs → QConf Tx Hs
  | .submit t => match newTransaction c.shared t with
    | .ok r => ⟨r.2, c.threads⟩
    | .error _ => c
  | .mine i reward time => match c.threads i with
    | .new => let r := mineStep C fuel reward time c.shared .start; c.set i r.1 (.mine r.2)
    | .mine pc => let r := mineStep C fuel reward time c.shared pc; c.set i r.1 (.mine r.2)
    | _ => c
  | .start i => match c.threads i with
    | .new => c.set i c.shared (.polling c.shared.chain.length none)
    | _ => c
  | .poll i r => match c.threads i with
    | .polling maxLength _ => match r with
      | .raises _ => c.set i c.shared .done
      | .answer status length chain =>
        if status = 200 ∧ maxLength < length then
          match validChain C chain with
          | .ok true => c.set i c.shared (.polling length (some chain))
          | .ok false => c
          | .error _ => c.set i c.shared .done
        else c
    | _ => c
  | .finish i => match c.threads i with
    | .polling _ (some (b :: rest)) => c.set i { c.shared with chain := b :: rest } .done
    | .polling _ _ => c.set i c.shared .done
    | _ => c

/-- A schedule. -/
def qrun (fuel : Nat) (c : QConf Tx Hs) (sched : List (QChoice Tx Hs)) : QConf Tx Hs := sched.foldl (qstep C fuel) c

/-- A new node (blockchain.py:13-19) with no request in progress. -/
def qnew (time : Nat) : QConf Tx Hs := ⟨⟨[], [⟨1, time, [], 100, C.one⟩], []⟩, fun _ => .new⟩

end Verif.Chain
