import Verif.Model.Air
import Verif.Model.FiniteField
import Verif.Model.ReedSolomon
import Verif.Proofs.Polynomial
import Mathlib.Data.Nat.Log
import Mathlib.Data.Rat.Defs
/-!
# Model of starks/apr.py

`K` is Z/p, base polynomials (`self.basePolys`) are canonical coefficient lists over it, `F` is the extension field
(`self.field`) and `cast` its constructor on base polynomials (finitefield.py:85-86).  Wherever a base polynomial meets a field
element in an operation the code casts it (numbertype.py:25-48); the model casts it beforehand.  A field of the kind `m = 1`
has no `base_field` and is left out.

The division of multivariate polynomials goes through strings and sympy; it is a parameter.
-/

namespace Verif.Apr
open Poly PolyUtils

variable {K F : Type _} [Field K] [DecidableEq K] [Field F] [DecidableEq F]

/-- `int(math.log(n, 2))`, for the values it is called with: 511 (apr.py:66) and a degree of at most 1024 (apr.py:69),
where the rounding of floats does not change the integer part. -/
def intLog2 (n : Int) : Py Nat := if n ≤ 0 then .error .valueError else .ok (Nat.log 2 n.toNat)

/-- apr.py:62 `g`, apr.py:83 `g**k` for `k ≥ 0`. -/
def gPow (k : Nat) : Py (CPoly K) := do
  let l ← pyPow one mul (ctor [0, 1] : List K) (k : Int)
  .ok (CPoly.mk l)

/-- apr.py:216, 234, 270: `(g**i) % self.zeta` -/
def gPowMod (zeta : CPoly K) (i : Nat) : Py (CPoly K) := do
  let x ← gPow i
  let r ← Poly.mod x.1 zeta.1
  .ok (CPoly.mk r)

/-- An `AffineSpace` object (reedsolomon.py:19-26): basis and shift. -/
structure Aff (V : Type _) where
  basis : List V
  shift : V

/-- apr.py:241-252 `construct_neighbors`; a linear polynomial over the field is its coefficient list. -/
def neighbors (cast : CPoly K → F) (tau : List Nat) (zeta : CPoly K) : List (Nat × List F) :=
  tau.flatMap fun t => [(t, ctor [0, 1]), (t, ctor [cast zeta, cast (CPoly.mk [0, 1])]), (t, ctor [0, cast (CPoly.mk [0, 1])])]

/-- apr.py:83-85: `H`, `H0`, `H1`; no shift means `base_field(0)`. -/
def spaceH (t : Nat) : Py (Aff (CPoly K) × Aff (CPoly K) × Aff (CPoly K)) := do
  let b ← pyMap gPow (List.range t)
  let b0 ← pyMap gPow (List.range (t - 1))
  let b1 ← pyMap gPow (List.range (t - 1))
  let s ← gPow (t - 1)
  .ok (⟨b, 0⟩, ⟨b0, 0⟩, ⟨b1, s⟩)

/-- apr.py:132-136 `construct_L` -/
def spaceL (k R t d : Nat) : Py (Aff (CPoly K)) := do
  let b ← pyMap gPow (List.range (1 + k + R + t + d))
  let x ← gPow (1 + k + R + t + d)
  let s ← gPow (1 + k + R + t + d)
  .ok ⟨b ++ [x * (1 + CPoly.mk [0, 1])], s⟩

/-- apr.py:138-142 `construct_L_cmp` -/
def spaceLcmp (k R t d : Nat) : Py (Aff (CPoly K)) := do
  let b ← pyMap gPow (List.range (1 + k + R + t + d))
  let s ← gPow (1 + k + R + t + d)
  .ok ⟨b, s⟩

/-- apr.py:214-217: the loop over `B`; the register `j` of a constraint is not looked at. -/
def zLoop (cast : CPoly K → F) (zeta : CPoly K) : List (Nat × Nat × F) → List F → Py (List F)
  | [], accum => .ok accum
  | (i, _, _) :: B, accum => do
    let g ← gPowMod zeta i
    zLoop cast zeta B (mul accum (sub (ctor [0, 1]) (ctor [cast g])))

/-- apr.py:202-219 `construct_Z_boundaries` -/
def zBoundaries (cast : CPoly K → F) (zeta : CPoly K) (width : Nat) (B : List (Nat × Nat × F)) : Py (List (List F)) :=
  pyMap (fun _ => zLoop cast zeta B (ctor [cast 1])) (List.range width)

/-- apr.py:221-239 `construct_Eps_boundaries` -/
def epsBoundaries (cast : CPoly K → F) (zeta : CPoly K) (width : Nat) (B : List (Nat × Nat × F)) : Py (List (List F)) :=
  pyMap (fun _ => do
    let xs ← pyMap (fun b : Nat × Nat × F => gPowMod zeta b.1) B
    lagrangeInterp (xs.map cast) (B.map fun b => b.2.2)) (List.range width)

/-- apr.py:144-154 `compute_rho_js`, as exact quotients (the code's are the nearest floats); `len` is the size of `L`. -/
def rhoJs (k t : Nat) (Zs : List (List F)) (len : Nat) : List ℚ :=
  Zs.map fun Z => ((2 ^ (k + t) - Poly.degree Z : Int) : ℚ) / (len : ℚ)

/-- apr.py:156-162 `compute_rho_cmp` -/
def rhoCmp (k t d : Nat) (len : Nat) : ℚ := (1 + 2 ^ (k + t + d) : ℚ) / (len : ℚ)

/-! ### The constraint polynomials -/

/-- polynomial.py:161-163, a polynomial over the field called on a multivariate one; `pw` is `power_of_x`, `none` while it is
the int 1.  A value that is a field element is kept as the constant polynomial. -/
def callMvLoop (n : Nat) (x : Mv.Dict F) : List F → Mv.Dict F → Option (Mv.Dict F) → Mv.Dict F
  | [], y, _ => y
  | a :: f, y, none => callMvLoop n x f (Mv.add y (Mv.ofElt n a)) (some (Mv.mul x (Mv.ofElt n 1)))
  | a :: f, y, some P => callMvLoop n x f (Mv.add y (Mv.mul P (Mv.ofElt n a))) (some (Mv.mul P x))

/-- polynomial.py:158-164 `__call__` on a multivariate polynomial. -/
def callMv (n : Nat) (f : List F) (x : Mv.Dict F) : Mv.Dict F := callMvLoop n x f [] none

/-- multivariate_polynomial.py:335-336, at multivariate polynomials; `prod` is `none` while it is `ring(1)`. -/
def evalMono (n : Nat) (vals : List (Mv.Dict F)) : Mv.Tup → Nat → Option (Mv.Dict F) → Py (Option (Mv.Dict F))
  | [], _, prod => .ok prod
  | e :: es, i, prod => do
    let v ← pyIdx vals i
    let ve ← Mv.pow n v (e : Int)
    evalMono n vals es (i + 1) (some (match prod with
      | none => Mv.mul ve (Mv.ofElt n 1)
      | some P => Mv.mul P ve))

/-- multivariate_polynomial.py:333-337, at multivariate polynomials. -/
def evalLoop (n : Nat) (vals : List (Mv.Dict F)) : Mv.Dict F → Mv.Dict F → Py (Mv.Dict F)
  | [], y => .ok y
  | (t, c) :: d, y => do
    let prod ← evalMono n vals t 0 none
    evalLoop n vals d (Mv.add y (match prod with
      | none => Mv.ofElt n c
      | some P => Mv.mul P (Mv.ofElt n c)))

/-- multivariate_polynomial.py:329-338 `__call__` of a polynomial in `m` variables on multivariate polynomials in `n`. -/
def evalAt (m n : Nat) (P : Mv.Dict F) (vals : List (Mv.Dict F)) : Py (Mv.Dict F) := do
  pyAssert (vals.length == m)
  evalLoop n vals P []

/-- apr.py:113, 175: `X_loc`, the first of `n` variables (the int coefficient is cast by the first product). -/
def xLoc (n : Nat) : Mv.Dict F := Mv.ofDict [(1 :: List.replicate (n - 1) 0, 1)]

/-- apr.py:102-130 `tilde_expansion`; `n` is `1 + len(self.Nbrs)`. -/
def tilde (n : Nat) (Zs Es : List (List F)) (indices : List Nat) (neighbor : List F) : Py (List (Mv.Dict F)) :=
  let NX := callMv n neighbor (xLoc n)
  let ZN := Zs.map fun Z => callMv n Z NX
  let EN := Es.map fun E => callMv n E NX
  pyMap (fun tau => do
    let z ← pyIdx ZN tau
    let e ← pyIdx EN tau
    .ok (Mv.add (Mv.mul (Mv.ofDict [(List.replicate tau 0 ++ [1] ++ List.replicate (NX.length - tau) 0, 1)]) z) e)) indices

/-- multivariate_polynomial.py:301-306 `PolytoMulti`: the zero polynomial prints as "0" (polynomial.py:64-65), which
`CheckforDiv` leaves alone and `StrToMulti` turns into the zero polynomial (lines 220-223); here the parsing of longer strings is an
arbitrary function `parse` (it is modelled in `Verif.Model.MvString`, C109). -/
def polyToMulti (parse : List F → Py (Mv.Dict F)) (f : List F) : Py (Mv.Dict F) :=
  if isZero f then .ok (Mv.ofDict [([], 0)]) else parse f

/-- apr.py:165-200 `construct_Phi_polynomials`; `division` is multivariate_polynomial.py:283-298. -/
def phis (division : Mv.Dict F → List F → Py (Mv.Dict F)) (parse : List F → Py (Mv.Dict F)) (cast : CPoly K → F)
    (fieldIter : Py (List K)) (n width : Nat) (Ps : List (Mv.Dict F)) (H0 : Aff (CPoly K)) (zeta : CPoly K)
    (Zs Es : List (List F)) : Py (List (Mv.Dict F)) := do
  let ZH0 ← ReedSolomon.affineVanishing fieldIter cast H0.basis H0.shift
  let n_id : List F := ctor [0, 1]
  let n_cyc_1 : List F := ctor [cast zeta, cast (CPoly.mk [0, 1])]
  let n_cyc_0 : List F := ctor [0, cast (CPoly.mk [0, 1])]
  let r ← pyMap (fun P => do
    let Xp := Mv.mul (xLoc n) (Mv.sub (xLoc n) (Mv.ofElt n 1))
    let t0 ← division Xp ZH0
    let q ← truediv (ctor [1]) ZH0
    let t1 ← polyToMulti parse q
    let a ← tilde n Zs Es (List.range width) n_id
    let b ← tilde n Zs Es (List.range width) n_cyc_0
    let v0 ← evalAt (2 * width) n P (a ++ b)
    let a' ← tilde n Zs Es (List.range width) n_id
    let b' ← tilde n Zs Es (List.range width) n_cyc_1
    let v1 ← evalAt (2 * width) n P (a' ++ b')
    .ok [Mv.mul t0 v0, Mv.mul t1 v1]) Ps
  .ok r.flatten

/-! ### The witness -/

/-- poly_utils.py:57-60 `draw_random_interpolant`: the int 0, whatever the arguments. -/
def drawRandomInterpolant (_degree : Nat) (_xs _ys : List F) : List F := []

/-- apr.py:254-276 `generate_witness`; `Q_j - E_B_j` with the int 0 is `-E_B_j + 0` (numbertype.py:61-62). -/
def witness (cast : CPoly K → F) (zeta : CPoly K) (k t : Nat) (wAir Zs Es : List (List F)) : Py (List (List F)) :=
  pyMap (fun wze : List F × List F × List F => do
    let xs ← pyMap (gPowMod zeta) (List.range (2 ^ t))
    let ys ← pyMap (pyIdx wze.1) (List.range (2 ^ t))
    let Q := drawRandomInterpolant (2 ^ (k + t)) (xs.map cast) ys
    truediv (add (neg wze.2.2) Q) wze.2.1) (wAir.zip (Zs.zip Es))

/-! ### The constructor -/

/-- An `APR` object. -/
structure APR (K F : Type _) [Field K] [Field F] where
  air : Air.AIR F
  t : Nat
  d : Nat
  R : Nat
  k : Nat
  zeta : CPoly K
  nbrs : List (Nat × List F)
  H : Aff (CPoly K)
  H0 : Aff (CPoly K)
  H1 : Aff (CPoly K)
  L : Aff (CPoly K)
  Lcmp : Aff (CPoly K)
  Zs : List (List F)
  Es : List (List F)
  rhoJs : List ℚ
  rhoCmp : ℚ
  Phi : List (Mv.Dict F)
  w : List (List F)

/-- apr.py:46-100 `APR(air, zero_knowledge_expansion)` over `FiniteField(p, m)`.  The first arguments are the outside world:
sympy's factorisation and division, the random draws (`inner`, `fuel` bound the rounds, as in `FF.generatePrimitive`). -/
def mkAPR (factorint : Nat → List Nat) (draws : Nat → List K) (inner fuel : Nat)
    (division : Mv.Dict F → List F → Py (Mv.Dict F)) (parse : List F → Py (Mv.Dict F)) (cast : CPoly K → F)
    (fieldIter : Py (List K)) (p m : Nat) (air : Air.AIR F) (k : Nat) : Py (APR K F) := do
  let t ← intLog2 air.steps
  let d ← intLog2 (air.cdegree : Int)
  let d := d + 1
  let R := 5
  let tau := List.range air.width
  let z ← FF.generatePrimitive factorint p air.width draws inner fuel
  let zeta : CPoly K := CPoly.mk z
  let nbrs := neighbors cast tau zeta
  let (H, H0, H1) ← spaceH t
  let L ← spaceL k R t d
  let Lcmp ← spaceLcmp k R t d
  let Zs ← zBoundaries cast zeta air.width air.B
  let Es ← epsBoundaries cast zeta air.width air.B
  let rho_js := rhoJs k t Zs (ReedSolomon.affineLen p m L.basis)
  let rho_cmp := rhoCmp k t d (ReedSolomon.affineLen p m Lcmp.basis)
  let Phi ← phis division parse cast fieldIter (1 + nbrs.length) air.width (air.polys.map fun P => P.dict) H0 zeta Zs Es
  let wAir ← Air.witness air
  let w ← witness cast zeta k t wAir Zs Es
  .ok { air, t, d, R, k, zeta, nbrs, H, H0, H1, L, Lcmp, Zs, Es, rhoJs := rho_js, rhoCmp := rho_cmp, Phi, w }

end Verif.Apr
