import Verif.Model.Stark
import Verif.Model.Compression
/-!
# Model of `SmoothSubgroupFRI` (`starks/fri.py:176-366`)

In the pinned commit the whole class is commented out, although `starks/test/test_compression.py:6` imports it and
`starks/stark.py:13, 268, 299` imports and calls, under the name `FRI`, a class with the signatures of these two methods, which exists
nowhere else.  It is modelled as it reads once the leading `#` of every line is removed.  The field is `Z/p`, the hash
function is arbitrary.  A proof is `Compression.FriProof`: the pair of `proof[:-1]` and `proof[-1]`; an empty `proof` (`IndexError` at
`proof[-1]`) is not represented.  `maxdeg_plus_1`, `exclude_multiples_of` and `fri_spot_check_security_factor` are natural numbers.
The `print` calls are left out.  `fuel` bounds the loops over powers of the root of unity.
-/

namespace Verif.SmoothFri
open Verif.Poly Verif.PolyUtils Verif.Stark Verif.Compression

variable {p : Nat} [Fact p.Prime]

/-- fri.py:238-241: `[[l[i + quarter_len * j] for j in range(4)] for i in range(quarter_len)]` -/
def rows (l : List (Zp p)) (q : Nat) : Py (List (List (Zp p))) :=
  pyMap (fun i => pyMap (fun j => pyIdx l (i + q * j)) (List.range 4)) (List.range q)

/-- fri.py:251-254: the branches opened for each `y`, first in the column's tree, then the four of the row. -/
def openAll (m m2 : List Bytes) (q : Nat) (ys : List Int) : Py (List (List (List Bytes))) :=
  pyMap (fun y : Int => do
    let b ← Merkle.mkBranch m2 y.toNat
    let bs ← pyMap (fun j => Merkle.mkBranch m (y.toNat + q * j)) (List.range 4)
    .ok (b :: bs)) ys

/-- fri.py:216-243: one folding step from the values on the powers of the root of unity: the tree, the column and its tree. -/
def fold (fuel : Nat) (blake : Bytes → Bytes) (w : Zp p) (values : List (Zp p)) :
    Py (List Bytes × Nat × List (Zp p) × List Bytes) := do
  let xs ← Utils.getPowerCycle fuel w
  pyAssert (values.length == xs.length)
  let m ← Merkle.merkelize blake (values.map fun a => .elt (enc a))
  let root ← pyIdx m 1
  let q := xs.length / 4
  let xrows ← rows xs q
  let yrows ← rows values q
  let polys ← multiInterp4 xrows yrows
  let column := polys.map fun f => call f (dec root : Zp p)
  let m2 ← Merkle.merkelize blake (column.map fun a => .elt (enc a))
  .ok (m, q, column, m2)

/-- fri.py:189-266 `generate_proximity_proof(f, root_of_unity, maxdeg_plus_1, exclude_multiples_of,
fri_spot_check_security_factor)`.  The first argument bounds the depth of the recursion; `maxdeg_plus_1` always suffices, since
it is divided by four before every recursive call.  The recursive call does not pass the security factor on, so it is 40. -/
def proveRec (fuel : Nat) (blake : Bytes → Bytes) : Nat → List (Zp p) → Zp p → Nat → Nat → Nat → Py FriProof
  | 0, _, _, _, _, _ => .error .diverge
  | depth + 1, f, w, d, e, factor => do
    let values ← FFT.nbFft fuel p w f
    if d ≤ 16 then do
      let out ← pyMap enc values
      .ok ([], out)
    else do
      let (m, q, column, m2) ← fold fuel blake w values
      let root2 ← pyIdx m2 1
      let ys ← Utils.getPseudorandomIndices blake root2 column.length factor e
      let branches ← openAll m m2 q ys
      let g ← FFT.nbInvFft fuel p (w ^ 4) column
      let rest ← proveRec fuel blake depth g (w ^ 4) (d / 4) e 40
      .ok ((root2, branches) :: rest.1, rest.2)

/-- fri.py:189-266 `generate_proximity_proof` -/
def prove (fuel : Nat) (blake : Bytes → Bytes) (f : List (Zp p)) (w : Zp p) (d e factor : Nat) : Py FriProof :=
  proveRec fuel blake (d + 1) f w d e factor

/-- fri.py:277-282: `while testval != 1: roudeg *= 2; testval = testval * testval` -/
def rouLoop : Nat → Zp p → Nat → Py Nat
  | 0, _, _ => .error .diverge
  | fuel + 1, t, r => if t ≠ 1 then rouLoop fuel (t * t) (r * 2) else .ok r

/-- fri.py:285-290 `quartic_roots_of_unity` -/
def quartic (w : Zp p) (r : Nat) : List (Zp p) := [1, w ^ (r / 4), w ^ (r / 2), w ^ (r * 3 / 4)]

/-- fri.py:310-325: what one `y` contributes: the coordinates, the row and the column's value.  The opened byte strings are read as
integers; they enter a field operation or a comparison with a field element next, and are reduced there. -/
def query (blake : Bytes → Bytes) (root root2 : Bytes) (w : Zp p) (qr : List (Zp p)) (rq : Nat)
    (branches : List (List (List Bytes))) (i : Nat) (y : Nat) : Py (List (Zp p) × List (Zp p) × Zp p) := do
  let x1 := w ^ y
  let xs := qr.map fun u => u * x1
  let br ← pyIdx branches i
  let row ← pyMap (fun jb : Nat × List Bytes => Merkle.verifyBranchInt blake root (y + rq * jb.1) jb.2)
    ((List.range 4).zip br.tail)
  let b0 ← pyIdx br 0
  let c ← Merkle.verifyBranchInt blake root2 y b0
  .ok (xs, row.map fun n : Nat => (Zp.ofInt (n : Int) : Zp p), Zp.ofInt (c : Int))

/-- fri.py:293-334: the checks made for one component of `proof[:-1]`. -/
def verifyLayer (blake : Bytes → Bytes) (qr : List (Zp p)) (root : Bytes) (w : Zp p) (r e factor : Nat) (it : Item) : Py Unit := do
  let ys ← Utils.getPseudorandomIndices blake it.1 ((r / 4 : Nat) : Int) factor e
  let qs ← pyMap (fun yi : Int × Nat => query blake root it.1 w qr (r / 4) it.2 yi.2 yi.1.toNat) ys.zipIdx
  let polys ← multiInterp4 (qs.map (·.1)) (qs.map (·.2.1))
  let _ ← pyMap (fun pc : List (Zp p) × Zp p => pyAssert (decide (call pc.1 (dec root) = pc.2))) (polys.zip (qs.map (·.2.2)))
  .ok ()

/-- fri.py:293-340: `for prf in proof[:-1]`, with the updates of the root, the root of unity and the two degrees. -/
def verifyLayers (blake : Bytes → Bytes) (qr : List (Zp p)) (e factor : Nat) :
    List Item → Bytes → Zp p → Nat → Nat → Py (Bytes × Zp p × Nat)
  | [], root, w, d, _ => .ok (root, w, d)
  | it :: rest, root, w, d, r => do
    verifyLayer blake qr root w r e factor it
    verifyLayers blake qr e factor rest it.1 (w ^ 4) (d / 4) (r / 4)

/-- fri.py:354-357: `pts` -/
def pts (len e : Nat) : List Nat := if e ≠ 0 then (List.range len).filter fun x => x % e ≠ 0 else List.range len

/-- fri.py:343-363: the direct component. -/
def verifyLast (fuel : Nat) (blake : Bytes → Bytes) (root : Bytes) (w : Zp p) (d e : Nat) (last : List Bytes) : Py Unit := do
  let data : List Nat := last.map fromBytes
  pyAssert (decide (d ≤ 16))
  let m ← Merkle.merkelize blake (data.map fun n : Nat => .int (n : Int))
  let mroot ← pyIdx m 1
  pyAssert (mroot == root)
  let powers ← Utils.getPowerCycle fuel w
  let xs ← pyMap (fun x => pyIdx powers x) ((pts data.length e).take d)
  let ys ← pyMap (fun x => pyIdx data x) ((pts data.length e).take d)
  let f ← lagrangeInterp xs (ys.map fun n : Nat => (Zp.ofInt (n : Int) : Zp p))
  let _ ← pyMap (fun x => do
    let a ← pyIdx powers x
    let b ← pyIdx data x
    pyAssert (decide (call f a = Zp.ofInt (b : Int)))) ((pts data.length e).drop d)
  .ok ()

/-- fri.py:268-366 `verify_proximity_proof` -/
def verify (fuel : Nat) (blake : Bytes → Bytes) (proof : FriProof) (root : Bytes) (w : Zp p) (d e factor : Nat) : Py Bool := do
  let r ← rouLoop fuel w 1
  let (root', w', d') ← verifyLayers blake (quartic w r) e factor proof.1 root w d r
  verifyLast fuel blake root' w' d' e proof.2
  .ok true

end Verif.SmoothFri
