import Verif.Model.Primality
import Verif.Model.ZeroKnowledge
import Mathlib.Data.Nat.Digits.Defs
/-!
# Model of `misc/blum_blum_shub.py`, `misc/commitment.py` and `misc/zkp_3_coloring.py`

Ints that are bits, hardcore predicates or committed integers are `Nat` except where the sign matters. `owp` and `hp` are the
`oneWayPermutation` and `hardcorePredicate` parameters, arbitrary functions. A scheme object is its list of secrets.
-/

namespace Verif.Bbs

/-- `bin(n)[2:]` for `n ≥ 0`: the binary digits, most significant first; `"0"` for 0. -/
def binAux : Nat → Nat → List Nat
  | 0, _ => []
  | fuel + 1, n => if n < 2 then [n] else binAux fuel (n / 2) ++ [n % 2]

/-- `[int(x) for x in bin(n)[2:]]`. For negative `n`, `bin(n)` starts with `-0b`, so the first character left is `b` and `int`
raises `ValueError`. The fuel suffices: `binAux` uses at most `log2 n + 1` of it. -/
def binDigits (n : Int) : Py (List Nat) := if n < 0 then .error .valueError else .ok (binAux (n.toNat + 1) n.toNat)

/-- blum_blum_shub.py:39-43 `parity` -/
def parity (n : Int) : Py Nat := do
  let d ← binDigits n
  .ok (d.sum % 2)

/-- blum_blum_shub.py:39-43 `parity` on a non-negative int, where it always returns: the hardcore predicate -/
def parityNat (n : Nat) : Nat := (binAux (n + 1) n).sum % 2

/-- blum_blum_shub.py:15-21 `good_prime`, with the draws of `probablyPrime` -/
def goodPrime (p : Int) (draw : Nat → Int) : Py Bool :=
  if p % 4 = 3 then Primality.probablyPrime p 100 draw else .ok false

/-- blum_blum_shub.py:53-54: the function `blum_blum_shub` returns, for the modulus `M` -/
def bbs (M : Int) (x : Int) : Int := Primality.powMod x 2 M

end Verif.Bbs

namespace Verif.Commit
open Bbs

variable {S T : Type} [DecidableEq T]

/-- commitment.py:31-35 `generateSecret`: `r` is the `random.getrandbits` draw -/
def secretOf (owp : S → S) (r : S) : S := owp r

/-- commitment.py:37-42 `BBSBitCommitmentScheme.commit` -/
def commitBit (owp : S → T) (hp : S → Nat) (secret : S) (bit : Nat) : T × Nat := (owp secret, hp secret ^^^ bit)

/-- commitment.py:60-62 `BBSBitCommitmentVerifier.decode` -/
def decodeBit (hp : S → Nat) (s : S) (c : T × Nat) : Nat := c.2 ^^^ hp s

/-- commitment.py:51-58 `BBSBitCommitmentVerifier.verify` -/
def verifyBit (owp : S → T) (hp : S → Nat) (s : S) (c : T × Nat) : Bool :=
  c == (owp s, hp s ^^^ decodeBit hp s c)

/-- commitment.py:88 `.zfill(n)` on a list of digits -/
def zfill (n : Nat) (l : List Nat) : List Nat := List.replicate (n - l.length) 0 ++ l

/-- commitment.py:86-90 `BBSIntCommitmentScheme.commit`; the scheme has one secret per bit -/
def commitInt (owp : S → T) (hp : S → Nat) (secrets : List S) (x : Int) : Py (List (T × Nat)) := do
  let d ← binDigits x
  .ok (List.zipWith (commitBit owp hp) secrets (zfill secrets.length d))

/-- commitment.py:101-106 `decodeBits`: `zip` of the `numBits` verifiers with the secrets and the commitments -/
def decodeBits (hp : S → Nat) (numBits : Nat) (secrets : List S) (cs : List (T × Nat)) : List Nat :=
  (List.zipWith (decodeBit hp) secrets cs).take numBits

/-- commitment.py:108-112 `BBSIntCommitmentVerifier.verify` -/
def verifyInt (owp : S → T) (hp : S → Nat) (numBits : Nat) (secrets : List S) (cs : List (T × Nat)) : Bool :=
  ((List.zipWith (verifyBit owp hp) secrets cs).take numBits).all id

/-- `str(n)`: the decimal digits, most significant first -/
def strDigits (n : Nat) : List Nat := if n < 10 then [n] else (Nat.digits 10 n).reverse

/-- `int(s, 2)` on a string of decimal digits: `ValueError` when it is empty or has a digit other than 0 and 1 -/
def parseBin (l : List Nat) : Py Nat :=
  if l = [] ∨ l.any (1 < ·) then .error .valueError else .ok (l.foldl (fun a d => 2 * a + d) 0)

/-- commitment.py:114-116 `BBSIntCommitmentVerifier.decode` -/
def decodeInt (hp : S → Nat) (numBits : Nat) (secrets : List S) (cs : List (T × Nat)) : Py Nat :=
  parseBin ((decodeBits hp numBits secrets cs).flatMap strDigits)

end Verif.Commit

namespace Verif.Color
open Commit

variable {S T : Type} [DecidableEq T]

/-- zkp_3_coloring.py:24, 66 `[tuple(sorted(e)) for e in graph]` -/
def sortEdges (G : List (Int × Int)) : List (Int × Int) := G.map fun e => (min e.1 e.2, max e.1 e.2)

/-- zkp_3_coloring.py:26 `list(range(1, num_vertices(graph) + 1))` -/
def vertices (n : Int) : List Int := (List.range n.toNat).map fun i => Int.ofNat i + 1

/-- `d[k]` on a dictionary given as a list of pairs with distinct keys -/
def lookup {V : Type} (d : List (Int × V)) (k : Int) : Py V :=
  match d.find? fun e => e.1 == k with
  | some e => .ok e.2
  | none => .error .keyError

/-- zkp_3_coloring.py:31-46 `commit_to_coloring`: `secrets v` are the two secrets drawn for vertex `v` and `perm` the list
`random_permutation(3)` returned. All colours are looked up before anything is committed. -/
def commitColoring (owp : S → T) (hp : S → Nat) (G : List (Int × Int)) (coloring : List (Int × Int)) (perm : List Int)
    (secrets : Int → List S) : Py (List (Int × List (T × Nat))) := do
  let n ← ZK.numVertices G
  let permuted ← PolyUtils.pyMap (fun v => do
    let c ← lookup coloring v
    let d ← ZK.pyIdxI perm c
    .ok (v, d)) (vertices n)
  PolyUtils.pyMap (fun vd => do
    let c ← commitInt owp hp (secrets vd.1) vd.2
    .ok (vd.1, c)) permuted

/-- zkp_3_coloring.py:48-56 `reveal_colors`; the scheme of a vertex outside `1..n` is missing from the dictionary -/
def revealColors (G : List (Int × Int)) (secrets : Int → List S) (u v : Int) : Py (List S × List S) := do
  let n ← ZK.numVertices G
  let u' := min u v
  let v' := max u v
  if (u', v') ∈ sortEdges G then do
    let a ← lookup ((vertices n).map fun w => (w, secrets w)) u'
    let b ← lookup ((vertices n).map fun w => (w, secrets w)) v'
    .ok (a, b)
  else .error .exception

/-- zkp_3_coloring.py:78-87 `ZK3ColVerifier.accepts`: the loop over the two ends of the chosen edge, then the comparison -/
def accepts (owp : S → T) (hp : S → Nat) (committed : List (Int × List (T × Nat))) (edge : Int × Int)
    (revealed : List S × List S) : Py Bool := do
  let c1 ← lookup committed edge.1
  let a ← decodeInt hp 2 revealed.1 c1
  if verifyInt owp hp 2 revealed.1 c1 then do
    let c2 ← lookup committed edge.2
    let b ← decodeInt hp 2 revealed.2 c2
    if verifyInt owp hp 2 revealed.2 c2 then .ok (a != b) else .ok false
  else .ok false

/-- zkp_3_coloring.py:90-111 `run_protocol`; `edge` is the edge `random.choice` picked from the sorted edges. The two functions
come from `blum_blum_shub`, here they are arbitrary. -/
def runProtocol (owp : S → T) (hp : S → Nat) (G : List (Int × Int)) (coloring : List (Int × Int)) (perm : List Int)
    (secrets : Int → List S) (edge : Int × Int) : Py Bool := do
  let committed ← commitColoring owp hp G coloring perm secrets
  let revealed ← revealColors G secrets edge.1 edge.2
  let c1 ← lookup committed edge.1
  let _ ← decodeInt hp 2 revealed.1 c1
  let c2 ← lookup committed edge.2
  let _ ← decodeInt hp 2 revealed.2 c2
  accepts owp hp committed edge revealed

end Verif.Color
