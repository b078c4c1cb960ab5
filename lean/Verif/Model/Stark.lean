import Verif.Model.Air
import Verif.Model.FFT
import Verif.Model.Merkle
import Verif.Model.Utils
import Verif.Proofs.Modp
import Verif.Proofs.Polynomial
/-!
# Model of starks/stark.py

`stark.py` imports a class `FRI` that `starks/fri.py` does not define, so the module as it stands cannot be imported; the model is
of the code below that import.  The two uses of `FRI` (generating and verifying a proximity proof) are arbitrary functions
`friProve`, `friVerify`.  `blake` is an arbitrary function.  The polynomial constructions are modelled over any field `K`,
with the arithmetic between polynomials and elements of `K` that the code has over `IntegersModP(p)`; over `FiniteField(p, m)` some of
that arithmetic raises `TypeError` (Model/Typecheck, C48_extension_field_refuted, C52_extension_field_refuted).  The parts
that serialise field elements are modelled over `Zp p` only, since elements of `FiniteField(p, m)` have no usable `to_bytes`.
Powers of field elements are `^` (C06).  `fuel` bounds the loops that compute the powers of a root of unity.  Printing and timing
are dropped.  `get_pseudorandom_ks` is in `Model/Utils`.
-/

namespace Verif.Stark
open Poly PolyUtils
open Mv (Dict)

/-- The value of a polynomial at a polynomial (polynomial.py:158-164, multivariate_polynomial.py:329-338): a polynomial, or a field
element if the argument was never used. -/
inductive PVal (K : Type _)
  | elt (c : K)
  | poly (f : List K)
deriving DecidableEq

section polys
variable {K : Type _} [Field K] [DecidableEq K]

/-- stark.py:27-36 `construct_trace_polynomials` -/
def tracePolys (fuel p : Nat) (g : K) (witness : List (List K)) : Py (List (List K)) :=
  pyMap (FFT.nbInvFft fuel p g) witness

/-- polynomial.py:158-164 `f(x)` for a polynomial `x`: the first coefficient is added as a field element. -/
def callAt (f : List K) (x : CPoly K) : PVal K :=
  if f.length ≤ 1 then .elt (f.headD 0) else .poly (call f x).1

/-- multivariate_polynomial.py:329-338 `f(vals)` for a list of `n ≥ 1` polynomials: a field element only if `f` has no monomials.
(`CPoly.mk` strips trailing zeros, of which the trace polynomials have none.) -/
def mvCallAt (n : Nat) (f : Dict K) (vals : List (List K)) : Py (PVal K) := do
  let r ← Mv.call n f (vals.map CPoly.mk)
  .ok (if f.isEmpty then .elt 0 else .poly r.1)

/-- `a - b` for values of either kind: modp.py:47-49, polynomial.py:80-81, and numbertype.py:61-62 for a field element minus a
polynomial. -/
def psub : PVal K → PVal K → PVal K
  | .elt a, .elt b => .elt (a - b)
  | .elt a, .poly g => .poly (add (neg g) (ctor [a]))
  | .poly f, .elt b => .poly (add f (ctor [-b]))
  | .poly f, .poly g => .poly (sub f g)

/-- stark.py:49 `root_of_unity*X` -/
def scaledX (g : K) : CPoly K := CPoly.mk [0, 1] * CPoly.mk [g]

/-- stark.py:38-55 `construct_constraint_polynomials`; `n` is the number of variables of the step polynomials. -/
def constraintPolys (n : Nat) (polys : List (Dict K)) (trace : List (List K)) (g : K) : Py (List (PVal K)) :=
  pyMap (fun nf : PVal K × Dict K => do
    let s ← mvCallAt n nf.2 trace
    .ok (psub nf.1 s)) ((trace.map fun f => callAt f (scaledX g)).zip polys)

/-- stark.py:66-72: `z`. -/
def zPoly (steps : Nat) (last : K) : Py (List K) := do
  let Xn ← pyPow one mul (ctor [0, 1]) (steps : Int)
  let num := add Xn (ctor [-1])
  let den := add (ctor [0, 1]) (ctor [-last])
  let r ← mod num den
  pyAssert (eq r (ctor [0]))
  truediv num den

/-- stark.py:75 `assert cp % z == 0`; a field element has no `%`. -/
def checkCp (z : List K) : PVal K → Py (List K)
  | .elt _ => .error .typeError
  | .poly f => do
    let r ← mod f z
    pyAssert (eq r (ctor [0]))
    .ok f

/-- stark.py:57-78 `construct_remainder_polynomials` -/
def remainderPolys (cps : List (PVal K)) (steps : Nat) (last : K) : Py (List (List K)) := do
  let z ← zPoly steps last
  let fs ← pyMap (checkCp z) cps
  pyMap (fun f => truediv f z) fs

/-- `l[-1]` -/
def pyLast {α : Type _} (l : List α) : Py α :=
  match l.getLast? with
  | some a => .ok a
  | none => .error .indexError

/-- stark.py:90, 363: `zeropoly2`. -/
def zeroPoly2 (last : K) : List K := mul (ctor [-1, 1]) (ctor [-last, 1])

/-- stark.py:91-97: one interpolant; the arguments are polynomials, whose coefficient lists `lagrange_interp_2` reads. -/
def interpolant (witness : List (List K)) (boundary : List (Nat × Nat × K)) (last : K) (dim : Nat) : Py (List K) := do
  let con ← pyIdx boundary dim
  let row ← pyIdx witness dim
  let out ← pyLast row
  lagrangeInterp2 (ctor [1, last]) (ctor [con.2.2, out])

/-- stark.py:80-104 `construct_boundary_polynomials` -/
def boundaryPolys (trace witness : List (List K)) (boundary : List (Nat × Nat × K)) (last : K) (width : Nat) :
    Py (List (List K)) := do
  let is ← pyMap (interpolant witness boundary last) (List.range width)
  pyMap (fun pi : List K × List K => truediv (sub pi.1 pi.2) (zeroPoly2 last)) (trace.zip is)

/-- stark.py:152-154, 170-172: `powers`. -/
def powers (w : K) (deg : Nat) : List K :=
  (List.range (deg - 1)).foldl (fun acc _ => acc ++ [acc.getLastD 1 * w]) [1]

/-- stark.py:160, 175: `powers[i]`, where `i` is the loop variable left over from line 153 (unbound if that loop was empty). -/
def lastPower (w : K) (deg : Nat) : Py K :=
  if deg ≤ 1 then .error .unboundLocal else pyIdx (powers w deg) (deg - 1)

/-- stark.py:130-162 `compute_pseudorandom_linear_combination_1d`; `w` is `root_of_unity**steps`. -/
def combination1d (blake : Bytes → Bytes) (entropy : Bytes) (P D B : List (List K)) (w : K) (deg : Nat) :
    Py (List (List K)) :=
  match Utils.getPseudorandomKs blake entropy 4 with
  | some [k1, k2, k3, k4] =>
    pyMap (fun pdb : List K × List K × List K => do
      let v ← lastPower w deg
      let p := pdb.1
      let d := pdb.2.1
      let b := pdb.2.2
      .ok (add (add (add (add d (mul p (ctor [(k1 : K)]))) (mul (mul p (ctor [(k2 : K)])) (ctor [v])))
        (mul b (ctor [(k3 : K)]))) (mul (mul b (ctor [(k4 : K)])) (ctor [v])))) (P.zip (D.zip B))
  | _ => .error .typeError

/-- stark.py:164-177 `compute_pseudorandom_linear_combination`; `none` is the int 0, the sum of an empty list. -/
def combination (blake : Bytes → Bytes) (entropy : Bytes) (P D B : List (List K)) (G : K) (deg steps width : Nat) :
    Py (Option (List K)) := do
  let w := G ^ steps
  let ls ← combination1d blake entropy P D B w deg
  match Utils.getPseudorandomKs blake entropy width with
  | none => .error .typeError
  | some ks => do
    let terms ← pyMap (fun lk : List K × Nat => do
      let v ← lastPower w deg
      .ok (add lk.1 (mul (mul lk.1 (ctor [(lk.2 : K)])) (ctor [v])))) (ls.zip ks)
    match terms with
    | [] => .ok none
    | t :: ts => .ok (some (ts.foldl add (add t (ctor [0]))))

/-- The attributes of a `STARK` object. `n` is the number of variables of the step polynomials. -/
structure Params (K : Type _) where
  p : Nat
  steps : Nat
  ext : Nat
  width : Nat
  n : Nat
  polys : List (Dict K)
  factor : Nat
  G2 : K
  G1 : K
  last : K

/-- stark.py:209 `self.precision` -/
def Params.precision (S : Params K) : Nat := S.steps * S.ext

/-- stark.py:185-228 `STARK.__init__`, for a field of characteristic `p`.  For `p = 2` the code uses a name `BinaryFFT` that is not
imported. -/
def mkStark (fuel p steps ext width n : Nat) (polys : List (Dict K)) (factor : Nat) : Py (Params K) :=
  if p = 2 then .error .nameError
  else if steps * ext = 0 then .error .zeroDivision
  else do
    let G2 : K := 7 ^ ((p - 1) / (steps * ext))
    let G1 := G2 ^ ext
    let xs ← Utils.getPowerCycle fuel G2
    let last ← pyIdx xs ((steps - 1) * ext)
    .ok { p, steps, ext, width, n, polys, factor, G2, G1, last }

end polys

section protocol
variable {p : Nat} [Fact p.Prime]

/-- modp.py:94-95 `to_bytes` -/
def enc (a : Zp p) : Py Bytes := Modp.toBytes a.1

/-- modp.py:33-34 `field(b)` for bytes.  The code does not reduce modulo `p` there, but every value so made goes through a field
operation, which does, before it is compared. -/
def dec (b : Bytes) : Zp p := Zp.ofInt (fromBytes b)

/-- stark.py:390-402 `compute_merkle_spot_checks`; positions are not negative (C36). -/
def spotChecks (blake : Bytes → Bytes) (S : Params (Zp p)) (mtree ltree : List Bytes) (samples : Nat) :
    Py (List (List Bytes)) := do
  let root ← pyIdx ltree 1
  let positions ← Utils.getPseudorandomIndices blake root S.precision samples S.ext
  let bs ← pyMap (fun pos : Int => do
    let b1 ← Merkle.mkBranch mtree pos.toNat
    let b2 ← Merkle.mkBranch mtree ((pos.toNat + S.ext) % S.precision)
    let b3 ← Merkle.mkBranch ltree pos.toNat
    .ok [b1, b2, b3]) positions
  .ok bs.flatten

/-- A STARK proof (stark.py:270-277). -/
structure Proof (φ : Type _) where
  mRoot : Bytes
  lRoot : Bytes
  branches : List (List Bytes)
  fri : φ

variable {φ : Type _}

/-- stark.py:233-279 `mk_proof`.  `friProve` takes the combination, the root of unity, the degree bound and the excluded step. -/
def mkProof (fuel : Nat) (blake : Bytes → Bytes) (friProve : List (Zp p) → Zp p → Nat → Nat → Py φ) (S : Params (Zp p))
    (witness : List (List (Zp p))) (boundary : List (Nat × Nat × Zp p)) : Py (Proof φ) := do
  let P ← tracePolys fuel S.p S.G1 witness
  let cps ← constraintPolys S.n S.polys P S.G1
  let D ← remainderPolys cps S.steps S.last
  let B ← boundaryPolys P witness boundary S.last S.width
  let evals ← pyMap (FFT.nbFft fuel S.p S.G2) (P ++ D ++ B)
  let mtree ← Merkle.merkelizePolynomialEvaluations blake (evals.map fun row => row.map enc)
  let mRoot ← pyIdx mtree 1
  let l ← combination blake mRoot P D B S.G2 S.precision S.steps S.width
  match l with
  | none => .error .attributeError
  | some l => do
    let levals ← FFT.nbFft fuel S.p S.G2 l
    let ltree ← Merkle.merkelize blake (levals.map fun a => .elt (enc a))
    let branches ← spotChecks blake S mtree ltree 80
    let lRoot ← pyIdx ltree 1
    let deg ← Air.getDegree S.polys
    let fri ← friProve l S.G2 (S.steps * deg) S.ext
    .ok { mRoot, lRoot, branches, fri }

/-- stark.py:354-359: the transition check for one coordinate. -/
def checkTransition (pg1 fp d : List (Zp p)) (z : Zp p) (dim : Nat) : Py Unit := do
  let a ← pyIdx pg1 dim
  let c ← pyIdx d dim
  let b ← pyIdx fp dim
  pyAssert (decide (a - b - z * c = 0))

/-- stark.py:364-372: the boundary check for one coordinate. -/
def checkBoundary (witness : List (List (Zp p))) (boundary : List (Nat × Nat × Zp p)) (last x : Zp p) (P B : List (Zp p))
    (dim : Nat) : Py Unit := do
  let con ← pyIdx boundary dim
  let row ← pyIdx witness dim
  let out ← pyLast row
  let i ← lagrangeInterp2 [1, last] [con.2.2, out]
  let a ← pyIdx P dim
  let b ← pyIdx B dim
  pyAssert (decide (a - b * call (zeroPoly2 last) x - call i x = 0))

/-- stark.py:319-381 `verify_proof_at_position`; `k1, …, k4` are unpacked there but not used. -/
def verifyAt (blake : Bytes → Bytes) (S : Params (Zp p)) (witness : List (List (Zp p))) (boundary : List (Nat × Nat × Zp p))
    (pr : Proof φ) (i pos : Nat) : Py Unit := do
  let x := S.G2 ^ pos
  let br1 ← pyIdx pr.branches (i * 3)
  let leaf1 ← Merkle.verifyBranch blake pr.mRoot pos br1
  let u1 := Merkle.unpackMerkleLeaf leaf1 S.width 3
  let br2 ← pyIdx pr.branches (i * 3 + 1)
  let leaf2 ← Merkle.verifyBranch blake pr.mRoot ((pos + S.ext) % S.precision) br2
  let u2 := Merkle.unpackMerkleLeaf leaf2 S.width 3
  let br3 ← pyIdx pr.branches (i * 3 + 2)
  let _l ← Merkle.verifyBranchInt blake pr.lRoot pos br3
  let pOfX := (u1.take S.width).map dec
  let pOfG1X := (u2.take S.width).map dec
  let dOfX := ((u1.drop S.width).take S.width).map dec
  let bOfX := (u1.drop (2 * S.width)).map dec
  let z ← pyDiv (x ^ S.steps - 1) (x - S.last)
  let fp ← Air.nextState S.n S.width S.polys pOfX
  let _ ← pyMap (checkTransition pOfG1X fp dOfX z) (List.range S.width)
  let _ ← pyMap (checkBoundary witness boundary S.last x pOfX bOfX) (List.range S.width)
  .ok ()

/-- stark.py:281-317 `verify_proof` -/
def verifyProof (blake : Bytes → Bytes) (friVerify : φ → Bytes → Zp p → Nat → Nat → Py Bool) (S : Params (Zp p))
    (witness : List (List (Zp p))) (boundary : List (Nat × Nat × Zp p)) (pr : Proof φ) : Py Bool := do
  let deg ← Air.getDegree S.polys
  let ok ← friVerify pr.fri pr.lRoot S.G2 (S.steps * deg) S.ext
  pyAssert ok
  let positions ← Utils.getPseudorandomIndices blake pr.lRoot S.precision S.factor S.ext
  let _ ← pyMap (fun ip : Int × Nat => verifyAt blake S witness boundary pr ip.2 ip.1.toNat) positions.zipIdx
  .ok true

end protocol

end Verif.Stark
