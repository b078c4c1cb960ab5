import Verif.Model.Polynomial
/-!
# Model of starks/poly_utils.py: batch inversion, polynomials from roots, interpolation

Field elements are elements of a Mathlib field.  `1 / x` is `x.inverse() * 1` (numbertype.py:115-116), which raises on 0.
Printing (poly_utils.py:333-334) is dropped.
-/

namespace Verif.PolyUtils
open Poly

variable {K : Type _} [Field K] [DecidableEq K]

/-- poly_utils.py:306-312: `partials` after the loop; `last` is `partials[-1]` before the remaining `values`. -/
def partials : K → List K → List K
  | last, [] => [last]
  | last, v :: vs => last :: partials (last * (if v = 0 then 1 else v)) vs

/-- poly_utils.py:316-319: the loop `for i in range(len(values), 0, -1)`, over the pairs
`(partials[i-1], values[i-1])` in that order; `outs` is `outputs[i:]`.  `truthy` is Python's truth test on a value. -/
def backLoop (truthy : K → Bool) : List (K × K) → K → List K → List K
  | [], _, outs => outs
  | (pr, v) :: rest, inv, outs =>
    backLoop truthy rest (if v ≠ 0 then inv * v else inv) ((if truthy v then pr * inv else 0) :: outs)

/-- poly_utils.py:301-320 `multi_inv`.  `recip x` is `1 / x`; `truthy` is the truth test of line 317. -/
def multiInv (truthy : K → Bool) (recip : K → Py K) (values : List K) : Py (List K) := do
  let ps := partials 1 values
  pyAssert (ps.length == values.length + 1)
  let inv ← recip (ps.getLastD 1)
  .ok (backLoop truthy (ps.zip values).reverse inv [])

/-- Truth of a field element in Python: the element classes define neither `__bool__` nor `__len__`, so every element,
zero included, is true (modp.py:29-105, finitefield.py:71-203). -/
def eltTruthy (_ : K) : Bool := true

/-- `1 / x` for a field element, numbertype.py:115-116. -/
def recip (x : K) : Py K := pyDiv 1 x

/-- poly_utils.py:331-332: `for j in range(len(root) - 1): root[j] -= root[j + 1] * x` (each `root[j+1]` is still the old
one when it is read). -/
def rootStep (x : K) : List K → List K
  | a :: b :: t => (a - b * x) :: rootStep x (b :: t)
  | l => l

/-- poly_utils.py:329-332: the loop over `roots`, with `root.insert(0, field(0))`. -/
def rootLoop : List K → List K → List K
  | [], root => root
  | x :: xs, root => rootLoop xs (rootStep x (0 :: root))

/-- poly_utils.py:322-335 `zpoly` -/
def zpoly (roots : List K) : List K := ctor (rootLoop roots [1])

/-- `[e(x) for x in xs]` where `e` may raise. -/
def pyMap {α β : Type _} (f : α → Py β) : List α → Py (List β)
  | [] => .ok []
  | a :: as => do
    let b ← f a
    let bs ← pyMap f as
    .ok (b :: bs)

/-- poly_utils.py:365-367: `for j in range(len(ys)): if num_coefficients[j] and ys[i]: b[j] += num_coefficients[j] * yslice`.
Field elements are always true (see `eltTruthy`), so the guard does not skip; `num_coefficients[j]` may raise `IndexError`. -/
def addScaled (yslice : K) : List K → List K → Py (List K)
  | [], _ => .ok []
  | _ :: _, [] => .error .indexError
  | b :: bs, n :: ns => do
    let r ← addScaled yslice bs ns
    .ok ((if eltTruthy n && eltTruthy yslice then b + n * yslice else b) :: r)

/-- poly_utils.py:362-367: the loop over `i in range(len(xs))`, given `nums`, `ys`, `invdenoms` from position `i` on. -/
def interpLoop : List (List K) → List K → List K → List K → Py (List K)
  | [], _, _, b => .ok b
  | num :: nums, y :: ys, d :: ds, b => do
    let b ← addScaled (y * d) b num
    interpLoop nums ys ds b
  | _ :: _, _, _, _ => .error .indexError

/-- poly_utils.py:337-368 `lagrange_interp` -/
def lagrangeInterp (xs ys : List K) : Py (List K) := do
  let root := zpoly xs
  pyAssert (pabs root == ys.length + 1)
  let nums ← pyMap (fun x => truediv root (ctor [-x, 1])) xs
  let denoms := (nums.zip xs).map fun nx => call nx.1 nx.2
  let invdenoms ← multiInv eltTruthy recip denoms
  let b ← interpLoop nums ys invdenoms (ys.map fun _ => 0)
  .ok (ctor b)

/-- poly_utils.py:373-378, 418-423: `eq0` … `eq3`. -/
def cubics (x0 x1 x2 x3 : K) : List K × List K × List K × List K :=
  let x01 := x0 * x1; let x02 := x0 * x2; let x03 := x0 * x3
  let x12 := x1 * x2; let x13 := x1 * x3; let x23 := x2 * x3
  (ctor [-x12 * x3, x12 + x13 + x23, -x1 - x2 - x3, 1],
   ctor [-x02 * x3, x02 + x03 + x23, -x0 - x2 - x3, 1],
   ctor [-x01 * x3, x01 + x03 + x13, -x0 - x1 - x3, 1],
   ctor [-x01 * x2, x01 + x02 + x12, -x0 - x1 - x2, 1])

/-- poly_utils.py:390-393, 438-439:
`[eq0.coefficients[i]*inv_y0 + … + eq3.coefficients[i]*inv_y3 for i in range(4)]`, from index `i`. -/
def combine4 (e0 e1 e2 e3 : List K) (a0 a1 a2 a3 : K) : List Nat → Py (List K)
  | [] => .ok []
  | i :: is => do
    let c0 ← pyIdx e0 i
    let c1 ← pyIdx e1 i
    let c2 ← pyIdx e2 i
    let c3 ← pyIdx e3 i
    let r ← combine4 e0 e1 e2 e3 a0 a1 a2 a3 is
    .ok ((c0 * a0 + c1 * a1 + c2 * a2 + c3 * a3) :: r)

/-- poly_utils.py:371-393 `lagrange_interp_4` -/
def lagrangeInterp4 (xs ys : List K) : Py (List K) := do
  let x0 ← pyIdx xs 0
  let x1 ← pyIdx xs 1
  let x2 ← pyIdx xs 2
  let x3 ← pyIdx xs 3
  let (eq0, eq1, eq2, eq3) := cubics x0 x1 x2 x3
  let e0 := call eq0 x0
  let e1 := call eq1 x1
  let e2 := call eq2 x2
  let e3 := call eq3 x3
  let e01 := e0 * e1
  let e23 := e2 * e3
  let invall ← recip (e01 * e23)
  let y0 ← pyIdx ys 0
  let y1 ← pyIdx ys 1
  let y2 ← pyIdx ys 2
  let y3 ← pyIdx ys 3
  let c ← combine4 eq0 eq1 eq2 eq3 (y0 * invall * e1 * e23) (y1 * invall * e0 * e23) (y2 * invall * e01 * e3)
    (y3 * invall * e01 * e2) [0, 1, 2, 3]
  .ok (ctor c)

/-- poly_utils.py:397-410 `lagrange_interp_2`, for list arguments (a polynomial argument is replaced by its coefficient
list on lines 399-402). -/
def lagrangeInterp2 (xs ys : List K) : Py (List K) := do
  let x1 ← pyIdx xs 1
  let x0 ← pyIdx xs 0
  let eq0 := ctor [-x1, 1]
  let eq1 := ctor [-x0, 1]
  let e0 := call eq0 x0
  let e1 := call eq1 x1
  let invall ← recip (e0 * e1)
  let y0 ← pyIdx ys 0
  let y1 ← pyIdx ys 1
  let a0 := y0 * invall * e1
  let a1 := y1 * invall * e0
  let c00 ← pyIdx eq0 0
  let c10 ← pyIdx eq1 0
  let c01 ← pyIdx eq0 1
  let c11 ← pyIdx eq1 1
  .ok (ctor [c00 * a0 + c10 * a1, c01 * a0 + c11 * a1])

/-- poly_utils.py:418-429: one round of the first loop of `multi_interp_4`: the four cubics and their values. -/
def interp4Data (xs : List K) : Py ((List K × List K × List K × List K) × List K) := do
  let x0 ← pyIdx xs 0
  let x1 ← pyIdx xs 1
  let x2 ← pyIdx xs 2
  let x3 ← pyIdx xs 3
  let eqs := cubics x0 x1 x2 x3
  .ok (eqs, [call eqs.1 x0, call eqs.2.1 x1, call eqs.2.2.1 x2, call eqs.2.2.2 x3])

/-- poly_utils.py:433-439: one round of the second loop, `inv` being `invalls[i*4 : i*4+4]`. -/
def interp4Finish (ys : List K) (eqs : List K × List K × List K × List K) (inv : List K) : Py (List K) := do
  let y0 ← pyIdx ys 0
  let i0 ← pyIdx inv 0
  let y1 ← pyIdx ys 1
  let i1 ← pyIdx inv 1
  let y2 ← pyIdx ys 2
  let i2 ← pyIdx inv 2
  let y3 ← pyIdx ys 3
  let i3 ← pyIdx inv 3
  let c ← combine4 eqs.1 eqs.2.1 eqs.2.2.1 eqs.2.2.2 (y0 * i0) (y1 * i1) (y2 * i2) (y3 * i3) [0, 1, 2, 3]
  .ok (ctor c)

/-- poly_utils.py:431-440: the second loop, from round `i`. -/
def interp4Loop (invalls : List K) : Nat → List (List K × (List K × List K × List K × List K)) → Py (List (List K))
  | _, [] => .ok []
  | i, (ys, eqs) :: rest => do
    let p ← interp4Finish ys eqs ((invalls.drop (i * 4)).take 4)
    let ps ← interp4Loop invalls (i + 1) rest
    .ok (p :: ps)

/-- poly_utils.py:412-440 `multi_interp_4` -/
def multiInterp4 (xsets ysets : List (List K)) : Py (List (List K)) := do
  let data ← pyMap (fun s => do let d ← interp4Data s.1; .ok (s.2, d)) (xsets.zip ysets)
  let invtargets := (data.map fun d => d.2.2).flatten
  let invalls ← multiInv eltTruthy recip invtargets
  interp4Loop invalls 0 (data.map fun d => (d.1, d.2.1))

end Verif.PolyUtils
