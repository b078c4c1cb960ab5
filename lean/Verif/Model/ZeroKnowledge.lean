import Verif.Model.PolyUtils
/-!
# Model of `misc/zero_knowledge.py`

A graph is a list of pairs of ints. A function on vertices is `Int → Py Int`, since the functions the code builds can
raise. Random draws (`random.shuffle`, `random.choice`) are parameters.
-/

namespace Verif.ZK

/-- A graph: a Python list of pairs of vertices. -/
abbrev Graph := List (Int × Int)

/-- `l[i]` for any int `i`: negative indices count from the end. -/
def pyIdxI {α : Type _} (l : List α) (i : Int) : Py α :=
  if 0 ≤ i then pyIdx l i.toNat
  else if -(l.length : Int) ≤ i then pyIdx l (l.length + i).toNat
  else .error .indexError

/-- `max(...)` over a list: `ValueError` when it is empty. -/
def pyMaxI : List Int → Py Int
  | [] => .error .valueError
  | a :: l => .ok (l.foldl max a)

/-- zero_knowledge.py:3-5 `num_vertices` -/
def numVertices (G : Graph) : Py Int := pyMaxI (G.flatMap fun e => [e.1, e.2])

/-- zero_knowledge.py:15-17 `make_permutation_function` -/
def permFun (L : List Int) (i : Int) : Py Int := do
  let a ← pyIdxI L (i - 1)
  .ok (a + 1)

/-- zero_knowledge.py:20-22 `make_inverse_permutation_function`; `list.index` raises `ValueError` on a missing value. -/
def invPermFun (L : List Int) (i : Int) : Py Int :=
  match L.idxOf? (i - 1) with
  | some k => .ok (1 + k)
  | none => .error .valueError

/-- zero_knowledge.py:25-27 `apply_isomorphism` -/
def applyIso (G : Graph) (f : Int → Py Int) : Py Graph :=
  PolyUtils.pyMap (fun e => do
    let a ← f e.1
    let b ← f e.2
    .ok (a, b)) G

/-- zero_knowledge.py:58-64 and 114-117: the constructors of `ZKProver` and `ZKVerifier`; the value is `self.n`. -/
def init (G1 G2 : Graph) : Py Int := do
  let n ← numVertices G1
  let n2 ← numVertices G2
  let _ ← pyAssert (n == n2)
  .ok n

/-- zero_knowledge.py:66-73 `send_isomorphic_copy`, `perm` being the list `random_permutation(self.n)` returned. -/
def sendCopy (G1 : Graph) (perm : List Int) : Py Graph := applyIso G1 (permFun perm)

/-- zero_knowledge.py:75-93 `prove_isomorphic_to`: the function returned. -/
def proveIso (iso perm : List Int) (choice : Int) : Int → Py Int :=
  if choice = 1 then invPermFun perm
  else fun i => do
    let j ← invPermFun perm i
    permFun iso j

/-- zero_knowledge.py:124-137 `accepts` -/
def accepts (G1 G2 : Graph) (f : Int → Py Int) (choice : Int) (H : Graph) : Py Bool := do
  let G ← pyIdxI [G1, G2] (choice - 1)
  let K ← applyIso H f
  .ok (decide (G = K))

/-- zero_knowledge.py:140-149 `run_protocol`, with the random permutation and the random choice as parameters. -/
def runProtocol (G1 G2 : Graph) (iso perm : List Int) (choice : Int) : Py Bool := do
  let _ ← init G1 G2
  let _ ← init G1 G2
  let H ← sendCopy G1 perm
  accepts G1 G2 (proveIso iso perm choice) choice H

/-- zero_knowledge.py:156, 159: `probability_fooled > error_tolerance` after `k` rounds, for the tolerance `a / b`. The float is exactly
`2^-k` down to the least positive one, `2^-1074`; half of that is rounded to 0. -/
def goesOn (a : Int) (b k : Nat) : Bool := if k ≤ 1074 then a * 2 ^ k < b else a < 0

/-- zero_knowledge.py:156-160: the loop of `convince_beyond_doubt` after `k` rounds. Draws of round `k`: `draws k`. -/
def convinceLoop (G1 G2 : Graph) (iso : List Int) (a : Int) (b : Nat) (draws : Nat → List Int × Int) : Nat → Nat → Py Nat
  | 0, _ => .error .diverge
  | fuel + 1, k =>
    if goesOn a b k then do
      let r ← runProtocol G1 G2 iso (draws k).1 (draws k).2
      let _ ← pyAssert r
      convinceLoop G1 G2 iso a b draws fuel (k + 1)
    else .ok k

/-- zero_knowledge.py:152-160 `convince_beyond_doubt`; the value is the number of rounds run (the code returns nothing). -/
def convince (G1 G2 : Graph) (iso : List Int) (a : Int) (b : Nat) (draws : Nat → List Int × Int) (fuel : Nat) : Py Nat :=
  convinceLoop G1 G2 iso a b draws fuel 0

/-- zero_knowledge.py:163-171 `messages_from_protocol`: the transcript `H`, `choice`, witness. -/
def messages (G1 G2 : Graph) (iso perm : List Int) (choice : Int) : Py (Graph × Int × (Int → Py Int)) := do
  let _ ← init G1 G2
  let _ ← init G1 G2
  let H ← sendCopy G1 perm
  .ok (H, choice, proveIso iso perm choice)

/-- zero_knowledge.py:174-185 `simulate_protocol`: `perm` is drawn for the number of vertices of the chosen graph. -/
def simulate (G1 G2 : Graph) (perm : List Int) (choice : Int) : Py (Graph × Int × (Int → Py Int)) := do
  let G ← pyIdxI [G1, G2] (choice - 1)
  let _ ← numVertices G
  let H ← applyIso G (permFun perm)
  .ok (H, choice, permFun perm)

end Verif.ZK
