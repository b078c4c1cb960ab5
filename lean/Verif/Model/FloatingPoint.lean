import Verif.Model.BinaryField
/-!
# Model of `starks/floatingpoint.py`

`FloatingPoint(field)` for `field = FiniteField(p, m)` with modulus `f` (so `m = deg f` in the intended use; the code reads
`field.m`, the model takes `m` as a parameter). The components `v`, `p` are elements of the field, i.e. coefficient
lists; `z`, `s` are non-negative Python ints (the code intends bits). `typecheck` is modelled as both operands being `Fp`.
The memoisation of line 26 is not repeated here (see `Model/Numbertype.lean`).
-/

namespace Verif.Float
open Poly FF

variable {K : Type _} [Field K] [DecidableEq K]

/-- floatingpoint.py:34-39 the fields of an instance. -/
structure Fp (K : Type _) where
  v : List K
  p : List K
  z : Nat
  s : Nat
deriving DecidableEq

/-- floatingpoint.py:20-22 the loop; `index` at least halves, so `index` rounds are enough. -/
def ntbLoop : Nat → Nat → List Nat
  | 0, _ => []
  | fuel + 1, index => if index > 0 then index % 2 :: ntbLoop fuel (index / 2) else []

/-- floatingpoint.py:17-24 `num_to_binary_list` (a negative index gives the empty list). -/
def numToBinaryList (index : Int) : List Nat := ntbLoop index.toNat index.toNat

/-- `field(polysOver(num_to_binary_list(n)))` (line 108), and the cast `typecheck` makes of the list (lines 164, 194). -/
def ofNum (f : List K) (n : Int) : Py (List K) := ofList f ((numToBinaryList n).map fun d : Nat => (d : K))

/-- `field(polysOver([c]))`, lines 118, 148, 156, 161, 186, 191, 204, 217, 218, 221, 224. -/
def const (f : List K) (c : K) : Py (List K) := ofList f [c]

/-- floatingpoint.py:43-44 `__eq__` -/
def eq (x y : Fp K) : Bool :=
  x.z == y.z || (fqEq x.v y.v && fqEq x.p y.p && x.z == y.z && x.s == y.s)

/-- floatingpoint.py:49-124 `__add__` -/
def add (f : List K) (m : Nat) (x y : Fp K) : Py (Fp K) :=
  if x.z = 1 then .ok ⟨y.v, y.p, y.z, y.s⟩
  else if y.z = 1 then .ok ⟨x.v, x.p, x.z, x.s⟩
  else do
    let a ← fqLT f x.v y.v
    let b ← fqLT f x.p y.p
    let (vmin, vmax, sc) :=
      if fqEq x.p y.p then
        if a = 1 then (x.v, y.v, y.s) else (y.v, x.v, x.s)
      else
        if b = 1 then (x.v, y.v, y.s) else (y.v, x.v, x.s)
    let (pmin, pmax) := if b = 1 then (x.p, y.p) else (y.p, x.p)
    let delta ← fqSub f pmax pmin
    let l ← ofNum f m
    let c ← fqLT f delta l
    let (vc, pc) ← if c = 0 then .ok (vmax, pmax) else do
      let t ← twoPow f delta
      let u ← fqMul f vmax t
      let w ← fqAdd f u vmin
      .ok (w, pmin)
    let zero ← const f 0
    .ok ⟨vc, pc, if fqEq vc zero then 1 else 0, sc⟩

/-- floatingpoint.py:128-132 `__sub__`: the result, and the right operand as the call leaves it (line 130 assigns to
`other.s`). -/
def sub (f : List K) (m : Nat) (x y : Fp K) : Py (Fp K) × Fp K :=
  let y' := { y with s := y.s ^^^ 1 }
  (add f m x y', y')

/-- floatingpoint.py:136-167 `__truediv__` -/
def truediv (f : List K) (m : Nat) (x y : Fp K) : Py (Fp K) :=
  if y.z = 1 then .error .zeroDivision
  else do
    let zero ← const f 0
    if fqEq y.v zero then .error .zeroDivision
    else do
      let zc := x.z ||| y.z
      let sc := x.s ^^^ y.s
      if zc = 1 then .ok ⟨zero, zero, zc, sc⟩
      else do
        let vc ← fqTruediv f x.v y.v
        let pc ← fqSub f x.p y.p
        let yi ← fqInverse f y.v
        let l ← ofNum f (degree x.v + degree yi - (m - 1))
        let pc ← fqAdd f pc l
        .ok ⟨vc, pc, zc, sc⟩

/-- floatingpoint.py:171-197 `__mul__`. Line 194 uses the degree of `self.v` **twice**. -/
def mul (f : List K) (m : Nat) (x y : Fp K) : Py (Fp K) := do
  let zc := x.z ||| y.z
  let sc := x.s ^^^ y.s
  if zc = 1 then do
    let zero ← const f 0
    .ok ⟨zero, zero, zc, sc⟩
  else do
    let vc ← fqMul f x.v y.v
    let pc ← fqAdd f x.p y.p
    let l ← ofNum f (degree x.v + degree x.v - (m - 1))
    let pc ← fqAdd f pc l
    .ok ⟨vc, pc, zc, sc⟩

/-- floatingpoint.py:201-208 `Float_to_Fix` -/
def floatToFix (f : List K) (x : Fp K) : Py (List K × Nat) :=
  if x.z = 1 then do
    let zero ← const f 0
    .ok (zero, 0)
  else do
    let t ← twoPow f x.p
    let o ← fqMul f x.v t
    .ok (o, x.s)

/-- floatingpoint.py:219-221 the loop of `__pow__`; state `counter`, `output`. -/
def powLoop (f : List K) (m : Nat) (x : Fp K) (fixed : List K) : Nat → List K → Fp K → Py (Fp K)
  | 0, _, _ => .error .diverge
  | fuel + 1, counter, output =>
    if fqNe counter fixed then do
      let output' ← mul f m output x
      let one ← const f 1
      let counter' ← regularBinaryAddition f counter one
      powLoop f m x fixed fuel counter' output'
    else .ok output

/-- floatingpoint.py:218 and 224: `Fp(field(1), field(0), 0, 0)`. -/
def oneFp (f : List K) : Py (Fp K) := do
  let o ← const f 1
  let z ← const f 0
  .ok ⟨o, z, 0, 0⟩

/-- floatingpoint.py:212-226 `__pow__`, allowed `fuel` rounds of the loop. -/
def pow (f : List K) (m : Nat) (fuel : Nat) (x y : Fp K) : Py (Fp K) := do
  let fs ← floatToFix f y
  let zero ← const f 0
  let one ← oneFp f
  let r ← powLoop f m x fs.1 fuel zero one
  if y.s = 1 then truediv f m one r else .ok r

end Verif.Float
