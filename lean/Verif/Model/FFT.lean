import Verif.Model.PolyUtils
import Verif.Model.Utils
/-!
# Model of starks/fft.py: `NonBinaryFFT`, `fft_1d`, `mul_polys`

Elements are elements of a Mathlib field.  The code pads with the int 0 and starts sums at the int 0; every operation on
such an int first casts it into the field (numbertype.py:25-48), so the model uses the field's zero.  The abstract classes
`FFT` and `BinaryFFT` raise `NotImplementedError` everywhere and are not modelled; `Additive_FFT` is in `Model/AdditiveFFT`.
-/

namespace Verif.FFT
open Poly PolyUtils

/-- `l[::2]` -/
def evens {α : Type _} : List α → List α
  | [] => []
  | [a] => [a]
  | a :: _ :: l => a :: evens l

/-- `l[1::2]` -/
def odds {α : Type _} (l : List α) : List α := evens l.tail

/-- `l[i] = a` for a non-negative index. -/
def pySet {α : Type _} (l : List α) (i : Nat) (a : α) : Py (List α) :=
  if i < l.length then .ok (l.set i a) else .error .indexError

variable {K : Type _} [Field K] [DecidableEq K]

/-- fft.py:297-298: the inner loop of `_simple_ft` for row `i`: `n` columns remain, starting with column `j`. -/
def simpleRow (vals roots : List K) (i : Nat) : Nat → Nat → K → Py K
  | 0, _, last => .ok last
  | n + 1, j, last => do
    let v ← pyIdx vals j
    let r ← pyIdx roots (i * j % roots.length)
    simpleRow vals roots i n (j + 1) (last + v * r)

/-- fft.py:287-300 `_simple_ft` -/
def simpleFt (vals roots : List K) : Py (List K) :=
  pyMap (fun i => simpleRow vals roots i roots.length 0 0) (List.range roots.length)

/-- fft.py:310-313: the loop of `_fft` over `enumerate(zip(L, R))`, at index `i`; `h` is `len(L)`. -/
def butterfly (roots : List K) (h : Nat) : List (K × K) → Nat → List K → Py (List K)
  | [], _, o => .ok o
  | (x, y) :: rest, i, o => do
    let r ← pyIdx roots i
    let o ← pySet o i (x + y * r)
    let o ← pySet o (i + h) (x - y * r)
    butterfly roots h rest (i + 1) o

/-- fft.py:303-314 `_fft`, with fuel. -/
def fftRec : Nat → List K → List K → Py (List K)
  | 0, _, _ => .error .diverge
  | fuel + 1, vals, roots =>
    if vals.length ≤ 4 then simpleFt vals roots
    else do
      let L ← fftRec fuel (evens vals) (evens roots)
      let R ← fftRec fuel (odds vals) (evens roots)
      butterfly roots L.length (L.zip R) 0 (vals.map fun _ => 0)

/-- fft.py:303-314 `_fft`; the recursion depth never exceeds the length of the list. -/
def fft (vals roots : List K) : Py (List K) := fftRec (vals.length + 1) vals roots

/-- fft.py:319-321, 336-338: `rootz = [1, w]; while rootz[-1] != 1: rootz.append(rootz[-1] * w)` -/
def rootz (fuel : Nat) (w : K) : Py (List K) := Utils.cycleLoop w fuel [1, w] w

/-- fft.py:323-324, 339-342: pad with zeroes. -/
def pad (rz vals : List K) : List K :=
  if rz.length > vals.length + 1 then vals ++ List.replicate (rz.length - vals.length - 1) 0 else vals

/-- fft.py:316-331 `fft_1d`.  `pow(n, modulus - 2, modulus)` on ints is `n ^ (modulus - 2) % modulus` (for `modulus ≥ 2`,
the field's characteristic). -/
def fft1d (fuel : Nat) (vals : List K) (modulus : Nat) (w : K) (inv : Bool) : Py (List K) := do
  let rz ← rootz fuel w
  let vals := pad rz vals
  if inv then do
    let invlen : Nat := vals.length ^ (modulus - 2) % modulus
    let o ← fft vals rz.tail.reverse
    .ok (o.map fun x => x * (invlen : K))
  else fft vals rz.dropLast

/-- fft.py:263-266 `NonBinaryFFT.fft` -/
def nbFft (fuel p : Nat) (w : K) (f : List K) : Py (List K) := fft1d fuel f p w false

/-- fft.py:268-272 `NonBinaryFFT.inv_fft` -/
def nbInvFft (fuel p : Nat) (w : K) (values : List K) : Py (List K) := do
  let cs ← fft1d fuel values p w true
  .ok (ctor cs)

/-- fft.py:334-345 `mul_polys` -/
def mulPolys (fuel : Nat) (a b : List K) (w : K) : Py (List K) := do
  let rz ← rootz fuel w
  let a := pad rz a
  let b := pad rz b
  let x1 ← fft a rz.dropLast
  let x2 ← fft b rz.dropLast
  fft ((x1.zip x2).map fun v => v.1 * v.2) rz.tail.reverse

end Verif.FFT
