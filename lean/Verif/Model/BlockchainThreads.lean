import Verif.Model.Blockchain
/-!
# `misc/blockchain.py` at the grain of accesses to shared objects

The list `current_transactions` is a Python object: `new_block` puts that object, not a copy, into the block
(blockchain.py:114), and `new_transaction` first loads the attribute, then appends to the object loaded (134). Here lists live
on a heap, blocks hold references, and a thread can be interrupted between any two of the steps below. `time()` and the reward
are part of the request. `nodes` is left out.
-/

namespace Verif.Chain

variable {Tx Hs : Type} (C : Crypto Tx Hs)

/-- blockchain.py:111-117: a block with the reference of its transaction list -/
structure HBlock (Hs : Type) where
  index : Nat
  timestamp : Nat
  ref : Nat
  proof : Nat
  previousHash : Hs
deriving DecidableEq

/-- The shared state: all transaction lists ever created, the one `self.current_transactions` refers to, and the chain. -/
structure HState (Tx Hs : Type) where
  heap : List (List Tx)
  cur : Nat
  chain : List (HBlock Hs)
deriving DecidableEq

/-- What a block says when it is read now. -/
def HState.deref (s : HState Tx Hs) (b : HBlock Hs) : Block Tx Hs := ⟨b.index, b.timestamp, s.heap.getD b.ref [], b.proof, b.previousHash⟩

/-- What a reader of the node sees now. -/
def HState.view (s : HState Tx Hs) : State Tx Hs := ⟨s.heap.getD s.cur [], s.chain.map s.deref, []⟩

/-- `list.append` on the list at `ref` -/
def HState.append (s : HState Tx Hs) (ref : Nat) (t : Tx) : HState Tx Hs := { s with heap := s.heap.set ref (s.heap.getD ref [] ++ [t]) }

/-- The point a request has reached. -/
inductive HPc (Tx Hs : Type) where
  /-- `/transactions/new` before blockchain.py:134 -/
  | submit (t : Tx)
  /-- 134, the attribute is loaded -/
  | submitLoaded (t : Tx) (ref : Nat)
  /-- `/mine` before run_blockchain.py:14 -/
  | mine (reward : Tx) (time : Nat)
  /-- after run_blockchain.py:15 -/
  | read (reward : Tx) (time : Nat) (last : HBlock Hs) (proof : Nat)
  /-- blockchain.py:134, the attribute is loaded -/
  | loaded (reward : Tx) (time : Nat) (last : HBlock Hs) (proof ref : Nat)
  /-- after run_blockchain.py:23 -/
  | rewarded (time : Nat) (last : HBlock Hs) (proof : Nat)
  /-- after run_blockchain.py:26 -/
  | hashed (time proof : Nat) (prev : Hs)
  /-- after blockchain.py:117 -/
  | built (block : HBlock Hs)
  /-- after blockchain.py:120 -/
  | reset (block : HBlock Hs)
  | done
deriving DecidableEq

/-- One step of a request. -/
def hstep (fuel : Nat) (s : HState Tx Hs) : HPc Tx Hs → HState Tx Hs × HPc Tx Hs
  | .submit t => (s, .submitLoaded t s.cur)
  | .submitLoaded t ref => (s.append ref t, .done)
  | .mine reward time => match s.chain.getLast? with
    | none => (s, .done)
    | some last => match proofOfWork C fuel (s.deref last) with
      | .ok proof => (s, .read reward time last proof)
      | .error _ => (s, .done)
  | .read reward time last proof => (s, .loaded reward time last proof s.cur)
  | .loaded reward time last proof ref => (s.append ref reward, .rewarded time last proof)
  | .rewarded time last proof => (s, .hashed time proof (C.hash (s.deref last)))
  | .hashed time proof prev => (s, .built ⟨s.chain.length + 1, time, s.cur, proof, prev⟩)
  | .built block => ({ s with heap := s.heap ++ [[]], cur := s.heap.length }, .reset block)
  | .reset block => ({ s with chain := s.chain ++ [block] }, .done)
  | .done => (s, .done)

/-- A node with one request per thread. -/
structure HConf (Tx Hs : Type) where
  shared : HState Tx Hs
  threads : List (HPc Tx Hs)
deriving DecidableEq

/-- Thread `i` takes a step. -/
def hconc (fuel : Nat) (c : HConf Tx Hs) (i : Nat) : HConf Tx Hs :=
  match c.threads[i]? with
  | none => c
  | some pc => let r := hstep C fuel c.shared pc; ⟨r.1, c.threads.set i r.2⟩

/-- A schedule: the threads that take the successive steps. -/
def hconcAll (fuel : Nat) (c : HConf Tx Hs) (sched : List Nat) : HConf Tx Hs := sched.foldl (hconc C fuel) c

/-- A request run to its end without interruption: no request takes more than seven steps. -/
def hrun (fuel : Nat) (s : HState Tx Hs) (pc : HPc Tx Hs) : HState Tx Hs × HPc Tx Hs :=
  (List.range 7).foldl (fun r _ => hstep C fuel r.1 r.2) (s, pc)

/-- blockchain.py:13-19: a new node, its first block holding a list of its own -/
def hinit (time : Nat) : HState Tx Hs := ⟨[[], []], 1, [⟨1, time, 0, 100, C.one⟩]⟩

end Verif.Chain
