import Verif.Model.FFT
/-!
# Counting the arithmetic of `poly_utils.py` and `fft.py`

The functions of `Model/Polynomial`, `Model/PolyUtils` and `Model/FFT` once more, in the same order of evaluation, with a
counter: every `*` the code evaluates on two coefficients or values adds one multiplication, every `inverse()` adds one
inversion.  `a / b` is `a * b.inverse()` and `1 / x` is `x.inverse() * 1` (numbertype.py:112-116): one inversion and one
multiplication each.  Additions, subtractions, negations, comparisons, and arithmetic on indices and on the int `invlen`
(fft.py:327) are not counted.
-/

namespace Verif.OpCount
open Poly PolyUtils FFT

/-- Multiplications and inversions performed. -/
structure Ops where
  mul : Nat
  inv : Nat
deriving DecidableEq, Repr

instance : Add Ops := ⟨fun a b => ⟨a.mul + b.mul, a.inv + b.inv⟩⟩
instance : Zero Ops := ⟨⟨0, 0⟩⟩

/-- A computation that may raise and, when it returns, reports what it performed. -/
def Cnt (α : Type _) := Py (α × Ops)

/-- The outcome: the value returned together with what was performed, or the exception. -/
def Cnt.run {α : Type _} (x : Cnt α) : Py (α × Ops) := x

/-- A computation without any counted operation. -/
def free {α : Type _} (x : Py α) : Cnt α :=
  match x with
  | .ok a => .ok (a, 0)
  | .error e => .error e

instance : Monad Cnt where
  pure a := .ok (a, 0)
  bind x f :=
    match x with
    | .error e => .error e
    | .ok (a, n) =>
      match f a with
      | .error e => .error e
      | .ok (b, m) => .ok (b, n + m)

/-- `[e(x) for x in xs]` where `e` is counted and may raise. -/
def cMap {α β : Type} (f : α → Cnt β) : List α → Cnt (List β)
  | [] => pure []
  | a :: as => do
    let b ← f a
    let bs ← cMap f as
    pure (b :: bs)

section
variable {K : Type} [Field K] [DecidableEq K]

/-- `a * b` -/
def times (a b : K) : Cnt K := .ok (a * b, ⟨1, 0⟩)

/-- `a / b`, numbertype.py:112-113; `1 / b`, numbertype.py:115-116. -/
def over (a b : K) : Cnt K := do
  let i ← (if b = 0 then .error .zeroDivision else .ok (b⁻¹, ⟨0, 1⟩) : Cnt K)
  times a i

/-! ### poly_utils.py -/

/-- poly_utils.py:306-312, `PolyUtils.partials`. -/
def partialsC : K → List K → Cnt (List K)
  | last, [] => pure [last]
  | last, v :: vs => do
    let next ← times last (if v = 0 then 1 else v)
    let r ← partialsC next vs
    pure (last :: r)

/-- poly_utils.py:316-319, `PolyUtils.backLoop` (every element is true). -/
def backLoopC : List (K × K) → K → List K → Cnt (List K)
  | [], _, outs => pure outs
  | (pr, v) :: rest, inv, outs => do
    let o ← if eltTruthy v then times pr inv else pure 0
    let inv' ← if v ≠ 0 then times inv v else pure inv
    backLoopC rest inv' (o :: outs)

/-- poly_utils.py:301-320 `multi_inv`. -/
def multiInvC (values : List K) : Cnt (List K) := do
  let ps ← partialsC 1 values
  free (pyAssert (ps.length == values.length + 1))
  let inv ← over 1 (ps.getLastD 1)
  backLoopC (ps.zip values).reverse inv []

/-- poly_utils.py:331-332, `PolyUtils.rootStep`. -/
def rootStepC (x : K) : List K → Cnt (List K)
  | a :: b :: t => do
    let m ← times b x
    let r ← rootStepC x (b :: t)
    pure ((a - m) :: r)
  | l => pure l

/-- poly_utils.py:329-332, `PolyUtils.rootLoop`. -/
def rootLoopC : List K → List K → Cnt (List K)
  | [], root => pure root
  | x :: xs, root => do
    let r ← rootStepC x (0 :: root)
    rootLoopC xs r

/-- poly_utils.py:322-335 `zpoly` -/
def zpolyC (roots : List K) : Cnt (List K) := do
  let r ← rootLoopC roots [1]
  pure (ctor r)

/-- polynomial.py:123-124, the inner loop of a product, `Poly.mulInner`. -/
def mulInnerC (i : Nat) (a : K) : Nat → List K → List K → Cnt (List K)
  | _, [], acc => pure acc
  | j, b :: g, acc => do
    let m ← times a b
    mulInnerC i a (j + 1) g (acc.modify (i + j) (fun c => c + m))

/-- polynomial.py:122-124, `Poly.mulOuter`. -/
def mulOuterC (g : List K) : Nat → List K → List K → Cnt (List K)
  | _, [], acc => pure acc
  | i, a :: f, acc => do
    let acc ← mulInnerC i a 0 g acc
    mulOuterC g (i + 1) f acc

/-- polynomial.py:116-126 `__mul__` -/
def mulC (f g : List K) : Cnt (List K) :=
  if isZero f || isZero g then pure []
  else do
    let r ← mulOuterC g 0 f (List.replicate (pabs f + pabs g - 1) 0)
    pure (ctor r)

/-- polynomial.py:161-163, `Poly.callLoop`: two products for every coefficient, `power_of_x * a` and `power_of_x * x`. -/
def callLoopC (x : K) : List K → K → K → Cnt K
  | [], y, _ => pure y
  | a :: f, y, pw => do
    let m ← times pw a
    let pw ← times pw x
    callLoopC x f (y + m) pw

/-- polynomial.py:158-164 `__call__` -/
def callC (f : List K) (x : K) : Cnt K := callLoopC x f 0 1

/-- polynomial.py:134-141, `Poly.divmodLoop`: the leading coefficient of the divisor is inverted in every round. -/
def divmodLoopC (g : List K) (gDeg : Int) (gLC : K) : Nat → List K → List K → Cnt (List K × List K)
  | 0, _, _ => free (.error .diverge)
  | fuel + 1, q, r =>
    if degree r ≥ gDeg then do
      let e := (degree r - gDeg).toNat
      let lc ← free (leadingCoefficient r)
      let c ← over lc gLC
      let mono := ctor (List.replicate e 0 ++ [c])
      let p ← mulC mono g
      divmodLoopC g gDeg gLC fuel (add q mono) (sub r p)
    else pure (q, r)

/-- polynomial.py:129-143 `__divmod__` -/
def divmodC (f g : List K) : Cnt (List K × List K) := do
  let gLC ← free (leadingCoefficient g)
  divmodLoopC g (degree g) gLC (f.length + 1) [] f

/-- polynomial.py:146-149 `__truediv__` -/
def truedivC (f g : List K) : Cnt (List K) :=
  if isZero g then free (.error .zeroDivision) else do
    let qr ← divmodC f g
    pure qr.1

/-- poly_utils.py:365-367, `PolyUtils.addScaled`. -/
def addScaledC (yslice : K) : List K → List K → Cnt (List K)
  | [], _ => pure []
  | _ :: _, [] => free (.error .indexError)
  | b :: bs, n :: ns => do
    let h ← if eltTruthy n && eltTruthy yslice then (do let m ← times n yslice; pure (b + m)) else pure b
    let r ← addScaledC yslice bs ns
    pure (h :: r)

/-- poly_utils.py:362-367, `PolyUtils.interpLoop`. -/
def interpLoopC : List (List K) → List K → List K → List K → Cnt (List K)
  | [], _, _, b => pure b
  | num :: nums, y :: ys, d :: ds, b => do
    let ysl ← times y d
    let b ← addScaledC ysl b num
    interpLoopC nums ys ds b
  | _ :: _, _, _, _ => free (.error .indexError)

/-- poly_utils.py:337-368 `lagrange_interp` -/
def lagrangeInterpC (xs ys : List K) : Cnt (List K) := do
  let root ← zpolyC xs
  free (pyAssert (pabs root == ys.length + 1))
  let nums ← cMap (fun x => truedivC root (ctor [-x, 1])) xs
  let denoms ← cMap (fun nx : List K × K => callC nx.1 nx.2) (nums.zip xs)
  let invdenoms ← multiInvC denoms
  let b ← interpLoopC nums ys invdenoms (ys.map fun _ => 0)
  pure (ctor b)

/-- poly_utils.py:373-378, 418-423, `PolyUtils.cubics`. -/
def cubicsC (x0 x1 x2 x3 : K) : Cnt (List K × List K × List K × List K) := do
  let x01 ← times x0 x1
  let x02 ← times x0 x2
  let x03 ← times x0 x3
  let x12 ← times x1 x2
  let x13 ← times x1 x3
  let x23 ← times x2 x3
  let c0 ← times (-x12) x3
  let c1 ← times (-x02) x3
  let c2 ← times (-x01) x3
  let c3 ← times (-x01) x2
  pure (ctor [c0, x12 + x13 + x23, -x1 - x2 - x3, 1], ctor [c1, x02 + x03 + x23, -x0 - x2 - x3, 1],
    ctor [c2, x01 + x03 + x13, -x0 - x1 - x3, 1], ctor [c3, x01 + x02 + x12, -x0 - x1 - x2, 1])

/-- poly_utils.py:390-393, 438-439, `PolyUtils.combine4`. -/
def combine4C (e0 e1 e2 e3 : List K) (a0 a1 a2 a3 : K) : List Nat → Cnt (List K)
  | [] => pure []
  | i :: is => do
    let c0 ← free (pyIdx e0 i)
    let c1 ← free (pyIdx e1 i)
    let c2 ← free (pyIdx e2 i)
    let c3 ← free (pyIdx e3 i)
    let m0 ← times c0 a0
    let m1 ← times c1 a1
    let m2 ← times c2 a2
    let m3 ← times c3 a3
    let r ← combine4C e0 e1 e2 e3 a0 a1 a2 a3 is
    pure ((m0 + m1 + m2 + m3) :: r)

/-- `a * b * c * d` -/
def times4 (a b c d : K) : Cnt K := do
  let m ← times a b
  let m ← times m c
  times m d

/-- poly_utils.py:371-393 `lagrange_interp_4` -/
def lagrangeInterp4C (xs ys : List K) : Cnt (List K) := do
  let x0 ← free (pyIdx xs 0)
  let x1 ← free (pyIdx xs 1)
  let x2 ← free (pyIdx xs 2)
  let x3 ← free (pyIdx xs 3)
  let eqs ← cubicsC x0 x1 x2 x3
  let e0 ← callC eqs.1 x0
  let e1 ← callC eqs.2.1 x1
  let e2 ← callC eqs.2.2.1 x2
  let e3 ← callC eqs.2.2.2 x3
  let e01 ← times e0 e1
  let e23 ← times e2 e3
  let t ← times e01 e23
  let invall ← over 1 t
  let y0 ← free (pyIdx ys 0)
  let y1 ← free (pyIdx ys 1)
  let y2 ← free (pyIdx ys 2)
  let y3 ← free (pyIdx ys 3)
  let a0 ← times4 y0 invall e1 e23
  let a1 ← times4 y1 invall e0 e23
  let a2 ← times4 y2 invall e01 e3
  let a3 ← times4 y3 invall e01 e2
  let c ← combine4C eqs.1 eqs.2.1 eqs.2.2.1 eqs.2.2.2 a0 a1 a2 a3 [0, 1, 2, 3]
  pure (ctor c)

/-- poly_utils.py:397-410 `lagrange_interp_2` -/
def lagrangeInterp2C (xs ys : List K) : Cnt (List K) := do
  let x1 ← free (pyIdx xs 1)
  let x0 ← free (pyIdx xs 0)
  let eq0 := ctor [-x1, 1]
  let eq1 := ctor [-x0, 1]
  let e0 ← callC eq0 x0
  let e1 ← callC eq1 x1
  let t ← times e0 e1
  let invall ← over 1 t
  let y0 ← free (pyIdx ys 0)
  let y1 ← free (pyIdx ys 1)
  let m0 ← times y0 invall
  let a0 ← times m0 e1
  let m1 ← times y1 invall
  let a1 ← times m1 e0
  let c00 ← free (pyIdx eq0 0)
  let c10 ← free (pyIdx eq1 0)
  let c01 ← free (pyIdx eq0 1)
  let c11 ← free (pyIdx eq1 1)
  let p ← times c00 a0
  let q ← times c10 a1
  let r ← times c01 a0
  let s ← times c11 a1
  pure (ctor [p + q, r + s])

/-- poly_utils.py:418-429, `PolyUtils.interp4Data`. -/
def interp4DataC (xs : List K) : Cnt ((List K × List K × List K × List K) × List K) := do
  let x0 ← free (pyIdx xs 0)
  let x1 ← free (pyIdx xs 1)
  let x2 ← free (pyIdx xs 2)
  let x3 ← free (pyIdx xs 3)
  let eqs ← cubicsC x0 x1 x2 x3
  let v0 ← callC eqs.1 x0
  let v1 ← callC eqs.2.1 x1
  let v2 ← callC eqs.2.2.1 x2
  let v3 ← callC eqs.2.2.2 x3
  pure (eqs, [v0, v1, v2, v3])

/-- poly_utils.py:433-439, `PolyUtils.interp4Finish`. -/
def interp4FinishC (ys : List K) (eqs : List K × List K × List K × List K) (inv : List K) : Cnt (List K) := do
  let y0 ← free (pyIdx ys 0)
  let i0 ← free (pyIdx inv 0)
  let a0 ← times y0 i0
  let y1 ← free (pyIdx ys 1)
  let i1 ← free (pyIdx inv 1)
  let a1 ← times y1 i1
  let y2 ← free (pyIdx ys 2)
  let i2 ← free (pyIdx inv 2)
  let a2 ← times y2 i2
  let y3 ← free (pyIdx ys 3)
  let i3 ← free (pyIdx inv 3)
  let a3 ← times y3 i3
  let c ← combine4C eqs.1 eqs.2.1 eqs.2.2.1 eqs.2.2.2 a0 a1 a2 a3 [0, 1, 2, 3]
  pure (ctor c)

/-- poly_utils.py:431-440, `PolyUtils.interp4Loop`. -/
def interp4LoopC (invalls : List K) : Nat → List (List K × (List K × List K × List K × List K)) → Cnt (List (List K))
  | _, [] => pure []
  | i, (ys, eqs) :: rest => do
    let p ← interp4FinishC ys eqs ((invalls.drop (i * 4)).take 4)
    let ps ← interp4LoopC invalls (i + 1) rest
    pure (p :: ps)

/-- poly_utils.py:412-440 `multi_interp_4` -/
def multiInterp4C (xsets ysets : List (List K)) : Cnt (List (List K)) := do
  let data ← cMap (fun s : List K × List K => do let d ← interp4DataC s.1; pure (s.2, d)) (xsets.zip ysets)
  let invalls ← multiInvC (data.map fun d => d.2.2).flatten
  interp4LoopC invalls 0 (data.map fun d => (d.1, d.2.1))

/-! ### fft.py -/

/-- fft.py:297-298, `FFT.simpleRow`. -/
def simpleRowC (vals roots : List K) (i : Nat) : Nat → Nat → K → Cnt K
  | 0, _, last => pure last
  | n + 1, j, last => do
    let v ← free (pyIdx vals j)
    let r ← free (pyIdx roots (i * j % roots.length))
    let m ← times v r
    simpleRowC vals roots i n (j + 1) (last + m)

/-- fft.py:287-300 `_simple_ft` -/
def simpleFtC (vals roots : List K) : Cnt (List K) :=
  cMap (fun i => simpleRowC vals roots i roots.length 0 0) (List.range roots.length)

/-- fft.py:310-313, `FFT.butterfly`: `y_times_root` is computed once. -/
def butterflyC (roots : List K) (h : Nat) : List (K × K) → Nat → List K → Cnt (List K)
  | [], _, o => pure o
  | (x, y) :: rest, i, o => do
    let r ← free (pyIdx roots i)
    let m ← times y r
    let o ← free (pySet o i (x + m))
    let o ← free (pySet o (i + h) (x - m))
    butterflyC roots h rest (i + 1) o

/-- fft.py:303-314 `_fft`, with fuel, `FFT.fftRec`. -/
def fftRecC : Nat → List K → List K → Cnt (List K)
  | 0, _, _ => free (.error .diverge)
  | fuel + 1, vals, roots =>
    if vals.length ≤ 4 then simpleFtC vals roots
    else do
      let L ← fftRecC fuel (evens vals) (evens roots)
      let R ← fftRecC fuel (odds vals) (evens roots)
      butterflyC roots L.length (L.zip R) 0 (vals.map fun _ => 0)

/-- fft.py:303-314 `_fft` -/
def fftC (vals roots : List K) : Cnt (List K) := fftRecC (vals.length + 1) vals roots

/-- fft.py:320-321, 337-338, `Utils.cycleLoop`. -/
def cycleLoopC (r : K) : Nat → List K → K → Cnt (List K)
  | 0, _, _ => free (.error .diverge)
  | fuel + 1, o, last =>
    if last ≠ 1 then do
      let m ← times last r
      cycleLoopC r fuel (o ++ [m]) m
    else pure o

/-- fft.py:319-321, 336-338 -/
def rootzC (fuel : Nat) (w : K) : Cnt (List K) := cycleLoopC w fuel [1, w] w

/-- fft.py:316-331 `fft_1d` -/
def fft1dC (fuel : Nat) (vals : List K) (modulus : Nat) (w : K) (inv : Bool) : Cnt (List K) := do
  let rz ← rootzC fuel w
  let vals := pad rz vals
  if inv then do
    let invlen : Nat := vals.length ^ (modulus - 2) % modulus
    let o ← fftC vals rz.tail.reverse
    cMap (fun x => times x (invlen : K)) o
  else fftC vals rz.dropLast

/-- fft.py:334-345 `mul_polys` -/
def mulPolysC (fuel : Nat) (a b : List K) (w : K) : Cnt (List K) := do
  let rz ← rootzC fuel w
  let a := pad rz a
  let b := pad rz b
  let x1 ← fftC a rz.dropLast
  let x2 ← fftC b rz.dropLast
  let prod ← cMap (fun v : K × K => times v.1 v.2) (x1.zip x2)
  fftC prod rz.tail.reverse

end
end Verif.OpCount
