import Verif.Model.ReedSolomon
import Mathlib.Data.Nat.Digits.Defs
/-!
# Model of starks/fri.py (`AffineSubspaceFRI`)

The space `S = affine_space` has scalars `K`, its elements live in `V` (polynomials over Z/p in the library's own use) and
`cast` is the constructor of the field `F` of the object, which Python applies whenever an element of `V` meets one of `F`.  The
functions handed in are arbitrary callables on both kinds of elements.

Not modelled: the floating-point computation of the number of rounds `r` (lines 64-69, 106-110): `rounds` is arbitrary.  The
challenges are those of `select_random`, whose strings print floats and objects; they are arbitrary too, `selectRandom` below
being modelled on its own.  `verify_proximity_proof` (lines 169-174) raises `NotImplementedError`; the rest of the file is
commented out.
-/

namespace Verif.Fri
open PolyUtils ReedSolomon Poly

/-! ### Helpers -/

/-- fri.py:31-34: the loop of `HextoBin`, with the digits already collected as a list of characters. -/
def hexLoop : Nat → Nat → List Nat → Py (List Nat)
  | 0, _, _ => .error .diverge
  | fuel + 1, num, bStr => if num > 0 then hexLoop fuel (num / 2) (num % 2 :: bStr) else .ok bStr

/-- fri.py:29-38 `HextoBin`, on the number `int(Hexnum, 16)`; the items are the characters '0' and '1'.  The fuel is enough
(`hexLoop_spec`). -/
def hexToBin (num : Nat) : Py (List Nat) := hexLoop (num + 1) num []

/-- fri.py:23-27 `select_random(field, x)`; `digest x` is the SHA-384 digest as a number.  For an extension field
`FiniteField(p, m)`, `ofPoly` reduces the polynomial; for a prime field it is `none`, since `IntegersModP` cannot cast a polynomial
(modp.py:33-41). -/
def selectRandom {K F : Type _} [Field K] [DecidableEq K] (ofPoly : Option (List K → F)) (digest : String → Nat) (x : String) :
    Py F := do
  let num ← hexToBin (digest x)
  match ofPoly with
  | some red => .ok (red (ctor (num.map fun b : Nat => ((b : Nat) : K))))
  | none => .error .typeError

/-- fri.py:40-44 `select_subspace`: the first `eta` basis elements; the shift is not passed on, so it is 0 (reedsolomon.py:23-24). -/
def selectSubspace {V : Type _} [Zero V] (basis : List V) (eta : Nat) : List V × V := (basis.take eta, 0)

section
variable {K V F : Type _} [AddCommGroup V] [SMul K V] [Field F] [DecidableEq F]

/-- fri.py:46-53 `eval_on_subspace`: a list of values, not an `AffineSpace`. -/
def evalOnSubspace (fieldIter : Py (List K)) (cast : V → F) (q : List F) (basis : List V) (shift : V) : Py (List F) := do
  let elts ← affineIter fieldIter basis shift
  .ok (elts.map fun v => call q (cast v))

/-- The rate parameter as given: an int, or anything else (a float, a `Fraction`) and whether that is positive. -/
inductive Rate
  | int (n : Int)
  | other (positive : Bool)
deriving DecidableEq

/-- fri.py:64, 106: `-math.log(self.rho, 2)` raises `ValueError` when `rho ≤ 0`. -/
def checkRate : Rate → Py Unit
  | .int n => if 0 < n then .ok () else .error .valueError
  | .other b => if b then .ok () else .error .valueError

/-- The object (fri.py:57-60), the number of rounds and the challenges. -/
structure Obj (K V F : Type _) where
  p : Nat
  m : Nat
  fieldIter : Py (List K)
  basis : List V
  shift : V
  cast : V → F
  rho : Rate
  rounds : Int
  challenge : Nat → Py F

/-- A function handed to `commit` or `query`: it is called on elements of the space and on field elements. -/
abbrev Fn (V F : Type _) := V ⊕ F → Py F

/-- fri.py:85-89: the loop over `y in L_i_plus_1`; only the last value survives. -/
def foldLoop (cast : V → F) (f : Fn V F) (L0 : List V) (x : F) : List F → Option F → Py (Option F)
  | [], last => .ok last
  | y :: ys, _ => do
    let coset := L0.map fun l => y + cast l
    let evals ← pyMap (fun c => f (.inr c)) coset
    let interp ← lagrangeInterp coset evals
    foldLoop cast f L0 x ys (some (call interp x))

/-- fri.py:62-101 `commit`; `none` is Python's `None`.  `eta` is 2 (line 66).  The loop never starts a second iteration: when
`i < r - 1`, `L_i` becomes a list and `select_subspace` raises `AttributeError` on it (lines 92-93). -/
def commit (o : Obj K V F) (f : Fn V F) : Py (Option (List F)) := do
  checkRate o.rho
  let len ← affineLenBuiltin o.p o.m o.basis
  let L0 := selectSubspace o.basis 2
  if 0 < o.rounds then
    let x ← o.challenge 0
    let q ← affineVanishing o.fieldIter o.cast L0.1 L0.2
    let L1 ← evalOnSubspace o.fieldIter o.cast q o.basis o.shift
    if 0 < o.rounds - 1 then
      let elts0 ← affineIter o.fieldIter L0.1 L0.2
      let _ ← foldLoop o.cast f elts0 x L1 none
      .error .attributeError
    else
      let elts ← affineIter o.fieldIter o.basis o.shift
      let vals ← pyMap (fun v => f (.inl v)) elts
      let interp ← lagrangeInterp (elts.map o.cast) vals
      match o.rho with
      | .int n => .ok (some (interp.take (n * len).toNat))
      | .other _ => .error .typeError
  else .ok none

/-- fri.py:142-149: `randint` drew `n`; the element counted `n` from 1, if any. -/
def pick (elts : List V) (n : Nat) : Option V := if n = 0 then none else elts[n - 1]?

/-- fri.py:140-166: one iteration `j` of the test for one round (`r = 1`); `fs` is `f` with the last polynomial appended.  The
result tells whether the test goes on. -/
def queryOnce (o : Obj K V F) (fs : List (Fn V F)) (q : List F) (elts L0 : List V) (x : F) (n : Nat) : Py Bool := do
  let s ← (match pick elts n with
    | some v => .ok v
    | none => .error .indexError : Py V)
  let s1 := call q (o.cast s)
  let coset := L0.map fun l => s + l
  let f0 ← pyIdx fs 0
  let evals ← pyMap (fun c => f0 (.inl c)) coset
  let P ← lagrangeInterp (coset.map o.cast) evals
  let f1 ← pyIdx fs 1
  let v ← f1 (.inr s1)
  .ok (!decide (v = call P x))

/-- fri.py:103-167 `query(f, coeff)`; `draw j` is the value of the `j`-th `randint(0, len(L[0]))`.  `None` as `coeff`, which
`commit` may have returned, cannot be iterated over (line 125, polynomial.py:36).  (The polynomial appended to the caller's list `f`
on line 129 is not shown in the result.) -/
def query (o : Obj K V F) (f : List (Fn V F)) (coeff : Option (List F)) (draw : Nat → Nat) : Py Bool := do
  checkRate o.rho
  let _ ← affineLenBuiltin o.p o.m o.basis
  let L0 := selectSubspace o.basis 2
  if 0 < o.rounds - 1 then
    let q ← affineVanishing o.fieldIter o.cast L0.1 L0.2
    let _ ← evalOnSubspace o.fieldIter o.cast q o.basis o.shift
    .error .attributeError
  else
    let q ← affineVanishing o.fieldIter o.cast L0.1 L0.2
    let P' ← (match coeff with
      | some c => .ok (ctor c)
      | none => .error .typeError : Py (List F))
    let xs ← evalOnSubspace o.fieldIter o.cast q o.basis o.shift
    let ys := xs.map fun v => call P' v
    let last ← lagrangeInterp xs ys
    let fs := f ++ [fun e => .ok (call last (Sum.elim o.cast id e))]
    let elts ← affineIter o.fieldIter o.basis o.shift
    if 0 < o.rounds then
      let x ← o.challenge 0
      let L0e ← affineIter o.fieldIter L0.1 L0.2
      let b ← queryOnce o fs q elts L0e x (draw 0)
      if b then queryOnce o fs q elts L0e x (draw 1) else .ok false
    else .ok true

end

end Verif.Fri
