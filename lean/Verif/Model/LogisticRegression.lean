import Mathlib.Data.Nat.Digits.Defs
import Verif.Py
/-!
# Model of starks/test/Logistic_Regression.py

The file reads numbers and turns each into the four arguments of `FloatingPoint`.  It uses `struct` without importing it; the parameter
`imported` says whether the name is defined.  The list `temp_list` is one object that is put into the output again and again, so lists
are modelled by addresses in a heap.
-/

namespace Verif.LogReg

/-- A number read by `float(line)` (Logistic_Regression.py:23): whether it is negative, and the 64-bit pattern
`struct.unpack('Q', struct.pack('d', num))[0]` (line 12) of its absolute value. -/
structure Num where
  neg : Bool
  val : Nat
deriving DecidableEq

/-- Logistic_Regression.py:9 `getBin`.  `bin(x)[2:]` for `x > 0`; for 0 it is `'-'`, since `bin(0)[3:]` is empty. -/
def getBin (x : Nat) : List Char :=
  if 0 < x then (Nat.digits 2 x).reverse.map fun d => if d = 1 then '1' else '0' else ['-']

/-- `s.zfill(n)`: zeros go after a leading sign. -/
def zfill (s : List Char) (n : Nat) : List Char :=
  match s with
  | '-' :: t => '-' :: (List.replicate (n - s.length) '0' ++ t)
  | _ => List.replicate (n - s.length) '0' ++ s

/-- Logistic_Regression.py:11-13 `floatToBinary64` -/
def floatToBinary64 (imported : Bool) (val : Nat) : Py (List Char) :=
  if imported then .ok (zfill (getBin val) 63) else .error .nameError

/-- `int(c)` for one of the characters that occur. -/
def intChar (c : Char) : Py Nat :=
  if c = '0' then .ok 0 else if c = '1' then .ok 1 else .error .valueError

/-- `range(a, b, -1)` -/
def rangeDown (a b : Nat) : List Nat := (List.range (a - b)).map fun i => a - i

/-- The lists of the program, by address. -/
abbrev Heap := List (List Nat)

/-- `temp_list.append(v)`, where `temp_list` has address 0. -/
def append (h : Heap) (v : Nat) : Heap := h.modify 0 (· ++ [v])

/-- `temp_list.clear()` -/
def clear (h : Heap) : Heap := h.modify 0 fun _ => []

/-- Logistic_Regression.py:31-34, 38-41: the loops over the digits. -/
def digitLoop (s : List Char) : List Nat → Nat → Heap → Py (Nat × Heap)
  | [], z, h => .ok (z, h)
  | j :: js, z, h => do
    let c ← pyIdx s j
    let z := if c = '1' then 0 else z
    let v ← intChar c
    digitLoop s js z (append h v)

/-- Logistic_Regression.py:23-50: one line (`none` if it is no number).  The state is the heap and `output_list`, a list of addresses. -/
def readLine (imported : Bool) (line : Option Num) (h : Heap) (out : List Nat) : Py (Heap × List Nat) :=
  match line with
  | none => .error .valueError
  | some num => do
    let s ← floatToBinary64 imported num.val
    let (z, h) ← digitLoop s (rangeDown 62 11) 1 h
    let (z, h) ← digitLoop s (rangeDown 10 0) z (clear h)
    let h := clear (append (clear h) z)
    let h := clear (append h (if num.neg then 1 else 0))
    .ok (h, out ++ [0, 0, 0, 0])

/-- Logistic_Regression.py:22-50: the loop over the lines. -/
def readLines (imported : Bool) : List (Option Num) → Heap → List Nat → Py (Heap × List Nat)
  | [], h, out => .ok (h, out)
  | l :: ls, h, out => do
    let (h, out) ← readLine imported l h out
    readLines imported ls h out

/-- Logistic_Regression.py:16-52 `Read_from_File`, given the lines of the file; the result is what the caller sees. -/
def readFromFile (imported : Bool) (lines : List (Option Num)) : Py (List (List Nat)) := do
  let (h, out) ← readLines imported lines [[]] []
  .ok (out.map fun a => h.getD a [])

/-- Logistic_Regression.py:76: the arguments of the first number.  (Constructing the field, its elements and the float does not raise.) -/
def firstArgs (l : List (List Nat)) : Py (List Nat × List Nat × Nat × Nat) := do
  let a ← pyIdx l 0
  let b ← pyIdx l 1
  let c ← pyIdx l 2
  let c ← pyIdx c 0
  let d ← pyIdx l 3
  let d ← pyIdx d 0
  .ok (a, b, c, d)

/-- Logistic_Regression.py:55-97 `Logistic_Regression`, with `rest` for everything after the first number. -/
def logisticRegression {α : Type _} (imported : Bool) (lines : List (Option Num))
    (rest : List (List Nat) → List Nat × List Nat × Nat × Nat → Py α) : Py α := do
  let l ← readFromFile imported lines
  let a ← firstArgs l
  rest l a

end Verif.LogReg
