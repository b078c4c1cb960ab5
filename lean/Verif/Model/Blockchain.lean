import Verif.Py
/-!
# Model of `misc/blockchain.py`

SHA-256 is not modelled: `hash` (of a block) and `vp` (`valid_proof`) are arbitrary functions, `Hs` the type of hash strings.
Blocks received from peers are assumed to have the five keys a block has; their values are arbitrary. Transactions are an
arbitrary type `Tx`. `time()` is a parameter. Printing is dropped.
-/

namespace Verif.Chain

/-- blockchain.py:111-117: a block. `index` is a `Nat` since a peer can send any; so are the others. -/
structure Block (Tx Hs : Type) where
  index : Nat
  timestamp : Nat
  transactions : List Tx
  proof : Nat
  previousHash : Hs
deriving DecidableEq

/-- blockchain.py:13-19: the attributes of a `Blockchain` -/
structure State (Tx Hs : Type) where
  current : List Tx
  chain : List (Block Tx Hs)
  nodes : List String

/-- The functions of the code that rest on SHA-256: `hash(block)` (146-156) and `valid_proof(last_proof, proof, last_hash)` (178-192). -/
structure Crypto (Tx Hs : Type) where
  hash : Block Tx Hs → Hs
  vp : Nat → Nat → Hs → Bool
  one : Hs

variable {Tx Hs : Type} [DecidableEq Hs] (C : Crypto Tx Hs)

/-- blockchain.py:102-123 `new_block`; `prev = none` is a falsy `previous_hash`. The value is the block and the new state. -/
def newBlock (s : State Tx Hs) (time proof : Nat) (prev : Option Hs) : Py (Block Tx Hs × State Tx Hs) := do
  let p ← match prev with
    | some h => .ok h
    | none => match s.chain.getLast? with
      | some b => .ok (C.hash b)
      | none => .error .indexError
  let block : Block Tx Hs := ⟨s.chain.length + 1, time, s.current, proof, p⟩
  .ok (block, { s with current := [], chain := s.chain ++ [block] })

/-- blockchain.py:13-19 `__init__` -/
def init (time : Nat) : Py (State Tx Hs) := do
  let r ← newBlock C ⟨[], [], []⟩ time 100 (some C.one)
  .ok r.2

/-- blockchain.py:21-35 `register_node`; the two arguments are the `netloc` and `path` of the parsed URL. `nodes` is a set. -/
def registerNode (s : State Tx Hs) (netloc path : String) : Py (State Tx Hs) :=
  if netloc ≠ "" then .ok { s with nodes := if netloc ∈ s.nodes then s.nodes else netloc :: s.nodes }
  else if path ≠ "" then .ok { s with nodes := if path ∈ s.nodes then s.nodes else path :: s.nodes }
  else .error .valueError

/-- blockchain.py:48-66: the loop of `valid_chain` -/
def validLoop (last : Block Tx Hs) : List (Block Tx Hs) → Bool
  | [] => true
  | b :: rest =>
    if b.previousHash ≠ C.hash last then false
    else if ¬ C.vp last.proof b.proof (C.hash last) then false
    else validLoop b rest

/-- blockchain.py:37-66 `valid_chain` -/
def validChain : List (Block Tx Hs) → Py Bool
  | [] => .error .indexError
  | b :: rest => .ok (validLoop C b rest)

/-- What `requests.get(...)` (84) does: raise, or answer with a status, a claimed length and a chain. -/
inductive Resp (Tx Hs : Type) where
  | raises (e : PyErr)
  | answer (status : Nat) (length : Int) (chain : List (Block Tx Hs))

/-- blockchain.py:83-93: the loop of `resolve_conflicts`; the responses come in the iteration order of the set of nodes. -/
def resolveLoop : List (Resp Tx Hs) → Int → Option (List (Block Tx Hs)) → Py (Option (List (Block Tx Hs)))
  | [], _, new => .ok new
  | .raises e :: _, _, _ => .error e
  | .answer status length chain :: rest, maxLength, new =>
    if status = 200 then
      if maxLength < length then do
        let v ← validChain C chain
        if v then resolveLoop rest length (some chain) else resolveLoop rest maxLength new
      else resolveLoop rest maxLength new
    else resolveLoop rest maxLength new

/-- blockchain.py:68-100 `resolve_conflicts`: the value is the boolean returned and the new state. `if new_chain` is false for
an empty list. -/
def resolve (s : State Tx Hs) (responses : List (Resp Tx Hs)) : Py (Bool × State Tx Hs) := do
  let new ← resolveLoop C responses s.chain.length none
  match new with
  | some (b :: rest) => .ok (true, { s with chain := b :: rest })
  | _ => .ok (false, s)

/-- blockchain.py:125-140 `new_transaction`: the value is the index returned and the new state -/
def newTransaction (s : State Tx Hs) (t : Tx) : Py (Nat × State Tx Hs) :=
  match s.chain.getLast? with
  | some b => .ok (b.index + 1, { s with current := s.current ++ [t] })
  | none => .error .indexError

/-- blockchain.py:172-174: the loop of `proof_of_work` -/
def powLoop (lastProof : Nat) (lastHash : Hs) : Nat → Nat → Py Nat
  | 0, _ => .error .diverge
  | fuel + 1, proof => if C.vp lastProof proof lastHash = false then powLoop lastProof lastHash fuel (proof + 1) else .ok proof

/-- blockchain.py:158-176 `proof_of_work` -/
def proofOfWork (fuel : Nat) (last : Block Tx Hs) : Py Nat := powLoop C last.proof (C.hash last) fuel 0

/-- run_blockchain.py:11-36 `mine`; `reward` is the transaction to the node itself -/
def mine (fuel : Nat) (s : State Tx Hs) (reward : Tx) (time : Nat) : Py (Block Tx Hs × State Tx Hs) := do
  let last ← match s.chain.getLast? with
    | some b => .ok b
    | none => .error .indexError
  let proof ← proofOfWork C fuel last
  let r ← newTransaction s reward
  newBlock C r.2 time proof (some (C.hash last))

/-- The requests a node serves (run_blockchain.py:11-98). -/
inductive Op (Tx Hs : Type) where
  | submit (t : Tx)
  | mine (reward : Tx) (time : Nat)
  | register (netloc path : String)
  | resolve (responses : List (Resp Tx Hs))

/-- One request served to the end; a request that raises (or a `mine` that never finds a proof) leaves the state as it was:
no handler assigns before a statement that can raise, except `new_transaction` (append, then read `chain[-1]`), which cannot
raise as the chain is never empty (`C66_valid`). -/
def serve (fuel : Nat) (s : State Tx Hs) : Op Tx Hs → State Tx Hs
  | .submit t => match newTransaction s t with | .ok r => r.2 | .error _ => s
  | .mine reward time => match mine C fuel s reward time with | .ok r => r.2 | .error _ => s
  | .register netloc path => match registerNode s netloc path with | .ok r => r | .error _ => s
  | .resolve rs => match resolve C s rs with | .ok r => r.2 | .error _ => s

/-- A history of requests served one after the other. -/
def serveAll (fuel : Nat) (s : State Tx Hs) (ops : List (Op Tx Hs)) : State Tx Hs := ops.foldl (serve C fuel) s

/-! ## Interleaved requests

A `/mine` request in progress, between its accesses to the shared object. `new_transaction` and `new_block` are taken to be
atomic here. -/

/-- The point a `/mine` request has reached: not started, after reading the last block and finding a proof (run_blockchain.py:14-15),
after adding its reward (19-23), finished (27). -/
inductive Pc (Tx Hs : Type) where
  | start
  | read (last : Block Tx Hs) (proof : Nat)
  | rewarded (last : Block Tx Hs) (proof : Nat)
  | done

/-- One step of a `/mine` request. Nothing happens when it is finished or raises. -/
def mineStep (fuel : Nat) (reward : Tx) (time : Nat) (s : State Tx Hs) : Pc Tx Hs → State Tx Hs × Pc Tx Hs
  | .start => match s.chain.getLast? with
    | none => (s, .done)
    | some last => match proofOfWork C fuel last with
      | .ok proof => (s, .read last proof)
      | .error _ => (s, .done)
  | .read last proof => match newTransaction s reward with
    | .ok r => (r.2, .rewarded last proof)
    | .error _ => (s, .done)
  | .rewarded last proof => match newBlock C s time proof (some (C.hash last)) with
    | .ok r => (r.2, .done)
    | .error _ => (s, .done)
  | .done => (s, .done)

/-- A node serving any number of `/mine` requests, one per thread. -/
structure Conf (Tx Hs : Type) where
  shared : State Tx Hs
  threads : Nat → Pc Tx Hs

/-- What the scheduler does next: let a thread take a step, or serve another transaction to the end. -/
inductive Choice (Tx : Type) where
  | step (thread : Nat) (reward : Tx) (time : Nat)
  | submit (t : Tx)

/-- One scheduling decision. -/
def conc (fuel : Nat) (c : Conf Tx Hs) : Choice Tx → Conf Tx Hs
  | .step i reward time =>
    let r := mineStep C fuel reward time c.shared (c.threads i)
    ⟨r.1, fun j => if j = i then r.2 else c.threads j⟩
  | .submit t => match newTransaction c.shared t with | .ok r => ⟨r.2, c.threads⟩ | .error _ => c

/-- A schedule. -/
def concAll (fuel : Nat) (c : Conf Tx Hs) (sched : List (Choice Tx)) : Conf Tx Hs := sched.foldl (conc C fuel) c

end Verif.Chain
