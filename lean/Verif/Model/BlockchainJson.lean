import Verif.Py
/-!
# Model of `misc/blockchain.py` and `misc/run_blockchain.py` with arbitrary JSON values

`Model/Blockchain` and `Model/BlockchainNet` give blocks five fields and request bodies the shape of a dictionary.  Here both are
whatever JSON a client or a peer sends, read with Python's rules: which operation raises what on which kind of value.  Numbers (Python
ints and floats) are an abstract type.  SHA-256, `urlparse` and the network are arbitrary.  A handler returns its outcome together with
the state it leaves behind, since one that raises keeps what it has already assigned.  Texts with lone surrogates (on which `.encode()` at
190 raises) are left out, and so is the limit on the nesting of JSON values.
-/

namespace Verif.ChainJson

/-- A JSON value as `json.loads` gives it. A dictionary is a list of keys and values, the first occurrence of a key counting. -/
inductive Json (N : Type)
  | null
  | bool (b : Bool)
  | num (n : N)
  | str (s : String)
  | arr (l : List (Json N))
  | obj (l : List (String × Json N))

/-- What is left open: numbers, with `a < b` and `a + 1`; `hash` (blockchain.py:146-156), `valid_proof` (178-192), and `urlparse` (28), which
gives `netloc` and `path` or raises. -/
structure World (N : Type) where
  ofNat : Nat → N
  lt : N → N → Bool
  succ : N → N
  hash : Json N → String
  vp : Json N → Json N → String → Bool
  parse : Json N → Py (String × String)

variable {N : Type}

namespace Json

/-- `j[i]` for an int `i ≥ 0`. -/
def item : Json N → Nat → Py (Json N)
  | .arr l, i => pyIdx l i
  | .str s, i => match s.toList[i]? with | some c => .ok (.str (String.ofList [c])) | none => .error .indexError
  | .obj _, _ => .error .keyError
  | _, _ => .error .typeError

/-- `j[-1]` -/
def last : Json N → Py (Json N)
  | .arr l => match l.getLast? with | some a => .ok a | none => .error .indexError
  | .str s => match s.toList.getLast? with | some c => .ok (.str (String.ofList [c])) | none => .error .indexError
  | .obj _ => .error .keyError
  | _ => .error .typeError

/-- `j[k]` for a str `k`. -/
def key : Json N → String → Py (Json N)
  | .obj d, k => match d.lookup k with | some a => .ok a | none => .error .keyError
  | _, _ => .error .typeError

/-- `len(j)` -/
def len : Json N → Py Nat
  | .arr l => .ok l.length
  | .str s => .ok s.length
  | .obj d => .ok d.length
  | _ => .error .typeError

/-- `j == s` for a str `s`. -/
def isStr : Json N → String → Bool
  | .str t, s => t == s
  | _, _ => false

/-- `s in t` for two strs, given as lists of characters. -/
def substring (s : List Char) : List Char → Bool
  | [] => s.isEmpty
  | c :: t => s.isPrefixOf (c :: t) || substring s t

/-- `k in j` for a str `k`. -/
def contains : Json N → String → Py Bool
  | .obj d, k => .ok (d.lookup k).isSome
  | .arr l, k => .ok (l.any fun a => a.isStr k)
  | .str s, k => .ok (substring k.toList s.toList)
  | _, _ => .error .typeError

/-- The elements a `for` loop over `j` goes through. -/
def iter : Json N → Py (List (Json N))
  | .arr l => .ok l
  | .str s => .ok (s.toList.map fun c => .str (String.ofList [c]))
  | .obj d => .ok (d.map fun a => .str a.1)
  | _ => .error .typeError

/-- `bool(j)` for a list or a str; other values never get there (`resolve`). -/
def truthy : Json N → Bool
  | .arr l => !l.isEmpty
  | .str s => !s.toList.isEmpty
  | .obj d => !d.isEmpty
  | .null => false
  | .bool b => b
  | .num _ => true

/-- A number that can be compared with an int, or to which 1 can be added; a bool counts as 0 or 1. -/
def number (W : World N) : Json N → Py N
  | .num n => .ok n
  | .bool b => .ok (W.ofNat (if b then 1 else 0))
  | _ => .error .typeError

end Json

/-- blockchain.py:13-19: the attributes of a `Blockchain`. -/
structure Node (N : Type) where
  current : List (Json N)
  chain : Json N
  nodes : List String

variable (W : World N)

/-- blockchain.py:111-117: a block this node makes. -/
def block (index : Nat) (time : N) (txs : List (Json N)) (proof : Json N) (prev : String) : Json N :=
  .obj [("index", .num (W.ofNat index)), ("timestamp", .num time), ("transactions", .arr txs), ("proof", proof), ("previous_hash", .str prev)]

/-- blockchain.py:134-138: a transaction. -/
def transaction (sender recipient amount : Json N) : Json N := .obj [("sender", sender), ("recipient", recipient), ("amount", amount)]

/-- blockchain.py:13-19 `__init__` -/
def init (time : N) : Node N := ⟨[], .arr [block W 1 time [] (.num (W.ofNat 100)) "1"], []⟩

/-- blockchain.py:48-64: the loop of `valid_chain`, at `current_index = i`, with `fuel` indices left. -/
def validLoop (chain : Json N) : Nat → Nat → Json N → Py Bool
  | 0, _, _ => .ok true
  | fuel + 1, i, last => do
    let b ← chain.item i
    let h := W.hash last
    let prev ← b.key "previous_hash"
    if ¬ prev.isStr h then .ok false
    else do
      let p ← last.key "proof"
      let q ← b.key "proof"
      if ¬ W.vp p q h then .ok false else validLoop chain fuel (i + 1) b

/-- blockchain.py:37-66 `valid_chain` -/
def validChain (chain : Json N) : Py Bool := do
  let b ← chain.item 0
  let n ← chain.len
  validLoop W chain (n - 1) 1 b

/-- What `requests.get(...)` (84) does: raise, or answer with a status and a body, which `response.json()` decodes or raises. -/
inductive Answer (N : Type)
  | raises (e : PyErr)
  | answer (status : Nat) (body : Py (Json N))

/-- blockchain.py:83-93: the loop of `resolve_conflicts`; the answers come in the iteration order of the set of nodes. -/
def resolveLoop : List (Answer N) → N → Option (Json N) → Py (Option (Json N))
  | [], _, new => .ok new
  | .raises e :: _, _, _ => .error e
  | .answer status body :: rest, maxLength, new =>
    if status = 200 then do
      let j ← body
      let length ← j.key "length"
      let chain ← j.key "chain"
      let n ← length.number W
      if W.lt maxLength n then do
        let v ← validChain W chain
        if v then resolveLoop rest n (some chain) else resolveLoop rest maxLength new
      else resolveLoop rest maxLength new
    else resolveLoop rest maxLength new

/-- blockchain.py:68-100 `resolve_conflicts` -/
def resolve (s : Node N) (answers : List (Answer N)) : Py Bool × Node N :=
  match s.chain.len with
  | .error e => (.error e, s)
  | .ok n =>
    match resolveLoop W answers (W.ofNat n) none with
    | .error e => (.error e, s)
    | .ok none => (.ok false, s)
    | .ok (some c) => if c.truthy then (.ok true, { s with chain := c }) else (.ok false, s)

/-- blockchain.py:125-140 `new_transaction`: the transaction is appended before the last block is read. -/
def newTransaction (s : Node N) (t : Json N) : Py N × Node N :=
  (do
    let b ← s.chain.last
    let i ← b.key "index"
    let n ← i.number W
    .ok (W.succ n), { s with current := s.current ++ [t] })

/-- blockchain.py:102-123 `new_block` for a `previous_hash` that is not empty; the transactions are reset before the block is appended, and
only a list has `append`. -/
def newBlock (s : Node N) (time : N) (proof : Json N) (prev : String) : Py (Json N) × Node N :=
  match s.chain.len with
  | .error e => (.error e, s)
  | .ok n =>
    let b := block W (n + 1) time s.current proof prev
    match s.chain with
    | .arr l => (.ok b, { s with current := [], chain := .arr (l ++ [b]) })
    | _ => (.error .attributeError, { s with current := [] })

/-- blockchain.py:172-174: the loop of `proof_of_work`. -/
def powLoop (lastProof : Json N) (lastHash : String) : Nat → Nat → Py Nat
  | 0, _ => .error .diverge
  | fuel + 1, proof => if W.vp lastProof (.num (W.ofNat proof)) lastHash = false then powLoop lastProof lastHash fuel (proof + 1) else .ok proof

/-- blockchain.py:158-176 `proof_of_work` -/
def proofOfWork (fuel : Nat) (last : Json N) : Py Nat := do
  let p ← last.key "proof"
  powLoop W p (W.hash last) fuel 0

/-- run_blockchain.py:19-23: the reward. -/
def reward (me : String) : Json N := transaction (.str "0") (.str me) (.num (W.ofNat 1))

/-- run_blockchain.py:11-36 `mine` -/
def mine (fuel : Nat) (s : Node N) (me : String) (time : N) : Py Nat × Node N :=
  match s.chain.last with
  | .error e => (.error e, s)
  | .ok last =>
    match proofOfWork W fuel last with
    | .error e => (.error e, s)
    | .ok proof =>
      match newTransaction W s (reward W me) with
      | (.error e, s') => (.error e, s')
      | (.ok _, s') =>
        match newBlock W s' time (.num (W.ofNat proof)) (W.hash last) with
        | (.error e, s'') => (.error e, s'')
        | (.ok _, s'') => (.ok 200, s'')

/-- run_blockchain.py:45: `all(k in values for k in required)` -/
def hasAll (values : Json N) : List String → Py Bool
  | [] => .ok true
  | k :: ks => do
    let b ← values.contains k
    if b then hasAll values ks else .ok false

/-- run_blockchain.py:39-53 `new_transaction`: the status and the index announced. -/
def submitHandler (s : Node N) (values : Json N) : Py (Nat × Option N) × Node N :=
  match hasAll values ["sender", "recipient", "amount"] with
  | .error e => (.error e, s)
  | .ok false => (.ok (400, none), s)
  | .ok true =>
    match (do
      let a ← values.key "sender"
      let b ← values.key "recipient"
      let c ← values.key "amount"
      .ok (transaction a b c) : Py (Json N)) with
    | .error e => (.error e, s)
    | .ok t =>
      match newTransaction W s t with
      | (.error e, s') => (.error e, s')
      | (.ok n, s') => (.ok (201, some n), s')

/-- blockchain.py:21-35 `register_node` -/
def registerNode (s : Node N) (address : Json N) : Py (Node N) := do
  let u ← W.parse address
  if u.1 ≠ "" then .ok { s with nodes := if u.1 ∈ s.nodes then s.nodes else u.1 :: s.nodes }
  else if u.2 ≠ "" then .ok { s with nodes := if u.2 ∈ s.nodes then s.nodes else u.2 :: s.nodes }
  else .error .valueError

/-- run_blockchain.py:73-74: `for node in nodes: blockchain.register_node(node)` -/
def registerLoop (s : Node N) : List (Json N) → Py Unit × Node N
  | [] => (.ok (), s)
  | a :: rest =>
    match registerNode W s a with
    | .ok s' => registerLoop s' rest
    | .error e => (.error e, s)

/-- `values.get(k)`: only dictionaries have `get`. -/
def getKey : Json N → String → Py (Json N)
  | .obj d, k => .ok ((d.lookup k).getD .null)
  | _, _ => .error .attributeError

/-- run_blockchain.py:65-80 `register_nodes` -/
def registerHandler (s : Node N) (values : Json N) : Py Nat × Node N :=
  match getKey values "nodes" with
  | .error e => (.error e, s)
  | .ok .null => (.ok 400, s)
  | .ok nodes =>
    match nodes.iter with
    | .error e => (.error e, s)
    | .ok l =>
      match registerLoop W s l with
      | (.ok _, s') => (.ok 201, s')
      | (.error e, s') => (.error e, s')

/-- The requests a node serves (run_blockchain.py:11-98); `me` is `node_identifier`, `time` the clock. -/
inductive Req (N : Type)
  | submit (body : Json N)
  | mine (me : String) (time : N)
  | register (body : Json N)
  | resolve (answers : List (Answer N))

/-- One request served: the status, or what is raised (status 500), and the state afterwards. -/
def serve (fuel : Nat) (s : Node N) : Req N → Py Nat × Node N
  | .submit body => match submitHandler W s body with
    | (.ok r, s') => (.ok r.1, s')
    | (.error e, s') => (.error e, s')
  | .mine me time => mine W fuel s me time
  | .register body => registerHandler W s body
  | .resolve answers => match resolve W s answers with
    | (.ok _, s') => (.ok 200, s')
    | (.error e, s') => (.error e, s')

/-- A history of requests served one after the other. -/
def serveAll (fuel : Nat) (s : Node N) (reqs : List (Req N)) : Node N := reqs.foldl (fun s r => (serve W fuel s r).2) s

end Verif.ChainJson
