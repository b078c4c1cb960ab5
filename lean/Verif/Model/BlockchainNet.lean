import Verif.Model.Blockchain
import Mathlib.Logic.Function.Basic
/-!
# Model of the request handlers of `misc/run_blockchain.py` with their data, and of several nodes

A request's JSON body is a dictionary (a list of keys and values, the first occurrence of a key counting) or `None`; bodies of other
shapes are left out. Handlers return the outcome and the state they leave behind, since a handler that raises keeps what it
has already assigned. JSON encoding and decoding of a chain is taken to be faithful.
-/

namespace Verif.Chain

variable {Tx Hs : Type} [DecidableEq Hs] (C : Crypto Tx Hs)

/-- run_blockchain.py:39-53 `new_transaction`: the status, the index announced (none with status 400), the state. `k in None` raises
`TypeError`. A transaction is the triple of sender, recipient and amount (blockchain.py:134-138). -/
def submitHandler {V : Type} (s : State (V × V × V) Hs) (body : Option (List (String × V))) :
    Py (Nat × Option Nat) × State (V × V × V) Hs :=
  match body with
  | none => (.error .typeError, s)
  | some values =>
    match values.lookup "sender", values.lookup "recipient", values.lookup "amount" with
    | some a, some b, some c =>
      match newTransaction s (a, b, c) with
      | .ok r => (.ok (201, some r.1), r.2)
      | .error e => (.error e, s)
    | _, _, _ => (.ok (400, none), s)

omit [DecidableEq Hs] in
/-- run_blockchain.py:73-74: `for node in nodes: blockchain.register_node(node)`; `parse` is `urlparse`, giving `netloc` and `path`. -/
def registerLoop (parse : String → String × String) (s : State Tx Hs) : List String → Py Unit × State Tx Hs
  | [] => (.ok (), s)
  | a :: rest =>
    match registerNode s (parse a).1 (parse a).2 with
    | .ok s' => registerLoop parse s' rest
    | .error e => (.error e, s)

omit [DecidableEq Hs] in
/-- run_blockchain.py:65-80 `register_nodes`: `nodes` is `values.get('nodes')`; the status and the state. -/
def registerHandler (parse : String → String × String) (s : State Tx Hs) (nodes : Option (List String)) : Py Nat × State Tx Hs :=
  match nodes with
  | none => (.ok 400, s)
  | some l =>
    match registerLoop parse s l with
    | (.ok _, s') => (.ok 201, s')
    | (.error e, s') => (.error e, s')

omit [DecidableEq Hs] in
/-- run_blockchain.py:56-62 `full_chain`: what a peer receives. -/
def fullChain (s : State Tx Hs) : Resp Tx Hs := .answer 200 s.chain.length s.chain

/-- Several nodes, by number. -/
abbrev Net (Tx Hs : Type) := Nat → State Tx Hs

/-- run_blockchain.py:83-98 `consensus` (blockchain.py:68-100) on node `i` of a network in which every registered address `a` belongs to a
node, `host a`, that answers. -/
def consensus (host : String → Nat) (net : Net Tx Hs) (i : Nat) : Net Tx Hs :=
  match resolve C (net i) ((net i).nodes.map fun a => fullChain (net (host a))) with
  | .ok r => Function.update net i r.2
  | .error _ => net

/-- Nodes of the network running `consensus` one after the other. -/
def consensusAll (host : String → Nat) (net : Net Tx Hs) (order : List Nat) : Net Tx Hs := order.foldl (consensus C host) net

end Verif.Chain
