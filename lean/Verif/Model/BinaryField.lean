import Verif.Model.FiniteField
/-!
# Model of the binary-field operations of starks/finitefield.py

`bit c` says whether `str(c)[0] == '1'` for a coefficient `c`; in characteristic 2 the strings are "0" and "1", so this is
`c = 1` (the model takes `K` with two elements).  Bit strings are lists of characters.
-/

namespace Verif.FF
open Poly

variable {K : Type _} [Field K] [DecidableEq K]

/-- `str(c)[0] == '1'` for an element of Z/2. -/
def bit (c : K) : Bool := decide (c = 1)

/-- `str(c)[0]` for an element of Z/2. -/
def bitChar (c : K) : Char := if c = 1 then '1' else '0'

/-- finitefield.py:16-23 `num_to_binary_list_pow` -/
def numToBinaryListPow (index : Nat) : List K := List.replicate index 0 ++ [1]

/-- finitefield.py:156-159: the loop of `two_pow`, at index `i`. -/
def twoPowLoop (f : List K) : List K → Nat → List K → Py (List K)
  | [], _, num => .ok num
  | c :: cs, i, num =>
    if bit c then do
      let l ← ofList f (numToBinaryListPow (i + 1))
      let num' ← fqMul f num l
      twoPowLoop f cs (i + 1) num'
    else twoPowLoop f cs (i + 1) num

/-- finitefield.py:153-161 `two_pow` -/
def twoPow (f a : List K) : Py (List K) := do
  let num ← ofList f [1]
  twoPowLoop f a 0 num

/-- finitefield.py:166-181 `LT` -/
def fqLT (f a b : List K) : Py Nat :=
  if degree a > degree b then .ok 0
  else if degree b > degree a then .ok 1
  else do
    let x ← fqAdd f a b
    if fqEq x (ofElt 0) then .ok 1
    else do
      let ca ← pyIdx a (degree x).toNat
      let cb ← pyIdx b (degree x).toNat
      if (bitChar ca).toNat > (bitChar cb).toNat then .ok 0 else .ok 1

/-- `s.zfill(n)` for a string of binary digits (no sign). -/
def zfill (s : List Char) (n : Nat) : List Char := List.replicate (n - s.length) '0' ++ s

/-- finitefield.py:39-44: the loop over `i = max_len-1 … 0`, given the digit pairs in that order. -/
def addLoop : List (Char × Char) → Nat → List Char → Nat × List Char
  | [], carry, result => (carry, result)
  | (x, y) :: rest, carry, result =>
    let r := carry + (if x = '1' then 1 else 0) + (if y = '1' then 1 else 0)
    addLoop rest (if r < 2 then 0 else 1) ((if r % 2 = 1 then '1' else '0') :: result)

/-- finitefield.py:26-55 `add_binary_nums`: strings are read most significant digit first, the result is a list of
digits, least significant first. -/
def addBinaryNums (x y : List Char) : List Char :=
  let maxLen := max x.length y.length
  let x := zfill x maxLen
  let y := zfill y maxLen
  let cr := addLoop (x.zip y).reverse 0 []
  let result := if cr.1 ≠ 0 then '1' :: cr.2 else cr.2
  (zfill result maxLen).reverse

/-- finitefield.py:185-197 `Regular_Binary_Addition`; `cast c` is `Zp(c)` for a digit character. -/
def regularBinaryAddition (f a b : List K) : Py (List K) :=
  let x := (a.map bitChar).reverse
  let y := (b.map bitChar).reverse
  ofList f ((addBinaryNums x y).map fun c => if c = '1' then 1 else 0)

end Verif.FF
