import Verif.Py
import Mathlib.Algebra.Group.Defs
/-!
# Model of starks/utils.py and of `get_pseudorandom_ks` (starks/stark.py)

Not modelled here: `plus_one`; `generate_Xi_s` is in `Model/Multivariate`.  Printing and timing in `mimc` are dropped.
-/

namespace Verif.Utils

/-- utils.py:20-27 `mimc`: the loop `for i in range(steps - 1)`.  `i` counts up from `i`, `n` iterations remain. -/
def mimcLoop (modulus : Int) (rc : List Int) : Nat → Nat → Int → Py Int
  | 0, _, inp => .ok inp
  | n + 1, i, inp => do
    if rc.length = 0 then throw .zeroDivision
    let c ← pyIdx rc (i % rc.length)
    mimcLoop modulus rc n (i + 1) ((inp ^ 3 + c).fmod modulus)

/-- utils.py:22: the modulus of `mimc`. -/
def mimcModulus : Int := 2 ^ 256 - 2 ^ 32 * 351 + 1

/-- utils.py:20-27 `mimc` -/
def mimc (inp steps : Int) (rc : List Int) : Py Int := mimcLoop mimcModulus rc (steps - 1).toNat 0 inp

/-- utils.py:36-37: `while o[-1] != field(1): o.append(o[-1] * r)`; `last` is `o[-1]`. -/
def cycleLoop {M : Type _} [Monoid M] [DecidableEq M] (r : M) : Nat → List M → M → Py (List M)
  | 0, _, _ => .error .diverge
  | fuel + 1, o, last =>
    if last ≠ 1 then cycleLoop r fuel (o ++ [last * r]) (last * r) else .ok o

/-- utils.py:30-38 `get_power_cycle` -/
def getPowerCycle {M : Type _} [Monoid M] [DecidableEq M] (fuel : Nat) (r : M) : Py (List M) := do
  let o ← cycleLoop r fuel [1, r] r
  .ok o.dropLast

/-- utils.py:74-75: `while len(data) < 4 * count: data += blake(data[-32:])` -/
def extendData (blake : Bytes → Bytes) (need : Int) : Nat → Bytes → Py Bytes
  | 0, _ => .error .diverge
  | fuel + 1, data =>
    if (data.length : Int) < need then extendData blake need fuel (data ++ blake (data.drop (data.length - 32)))
    else .ok data

/-- Python `a % b` on ints. -/
def pyMod (a b : Int) : Py Int := if b = 0 then .error .zeroDivision else .ok (a.fmod b)

/-- utils.py:76-81, 85-89: `[int.from_bytes(data[i:i+4], 'big') % m for i in range(0, count*4, 4)]`; `n` entries remain,
starting with number `k`. -/
def drawWords (data : Bytes) (m : Int) : Nat → Nat → Py (List Int)
  | 0, _ => .ok []
  | n + 1, k => do
    let x ← pyMod (fromBytes ((data.drop (4 * k)).take 4)) m
    let xs ← drawWords data m n (k + 1)
    .ok (x :: xs)

/-- utils.py:90: `[x + 1 + x // (exclude_multiples_of - 1) for x in o]` -/
def spread (e : Int) : List Int → Py (List Int)
  | [] => .ok []
  | x :: xs => do
    let qr ← pyDivmod x (e - 1)
    let r ← spread e xs
    .ok ((x + 1 + qr.1) :: r)

/-- utils.py:60-90 `get_pseudorandom_indices`.  `blake` is an arbitrary function; the loop is given `4*count + 1` steps,
which suffices whenever every hash is non-empty. -/
def getPseudorandomIndices (blake : Bytes → Bytes) (entropy : Bytes) (modulus count e : Int) : Py (List Int) := do
  pyAssert (modulus < 2 ^ 24)
  let data ← extendData blake (4 * count) ((4 * count).toNat + 1) entropy
  if e = 0 then drawWords data modulus count.toNat 0
  else do
    let qr ← pyDivmod (modulus * (e - 1)) e
    let o ← drawWords data qr.1 count.toNat 0
    spread e o

/-- utils.py:93-94 `is_a_power_of_2` -/
def isAPowerOf2 : Nat → Int → Py Bool
  | 0, _ => .error .diverge
  | fuel + 1, x => if x = 1 then .ok true else if x.fmod 2 ≠ 0 then .ok false else isAPowerOf2 fuel (x.fdiv 2)

/-- stark.py:119, 124: the ASCII bytes of `"0x0%s" % i` for a one-digit `i`. -/
def label (i : Nat) : Bytes := [48, 120, 48, UInt8.ofNat (48 + i)]

/-- stark.py:106-126 `get_pseudorandom_ks`; `none` is Python's `None`, returned when no branch is taken. -/
def getPseudorandomKs (blake : Bytes → Bytes) (root : Bytes) (num : Int) : Option (List Nat) :=
  if 0 ≤ num ∧ num ≤ 4 then
    some (((List.range num.toNat).map fun i => label (i + 1)).map fun l => fromBytes (blake (root ++ l)))
  else if num < 10 then
    some (((List.range num.toNat).map label).map fun l => fromBytes (blake (root ++ l)))
  else none

end Verif.Utils
