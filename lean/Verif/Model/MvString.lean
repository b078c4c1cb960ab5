import Verif.Model.Multivariate
import Verif.Model.Polynomial
import Mathlib.Data.Nat.Digits.Defs
/-!
# Model of the string side of starks/multivariate_polynomial.py (lines 99-109, 170-326)

Multivariate division prints both operands, lets sympy divide, and parses what sympy prints.  Strings are lists of characters; a
position `i` in a string is represented by the rest of the string from there.  `s.isdigit()` is true of '0'…'9' only (of the other
characters Python counts as digits none is printed here); `is` and `is not` between one-character strings are comparisons (CPython
keeps one object per character).  Sympy is an arbitrary function on strings.
-/

namespace Verif.MvString
open Mv

abbrev Str := List Char

/-- `c.isdigit()` -/
def isDigit (c : Char) : Bool := c.isDigit

/-- The digit of value `d`. -/
def digitChar (d : Nat) : Char := Char.ofNat (48 + d)

/-- `str(n)` -/
def strNat (n : Nat) : Str := if n = 0 then ['0'] else (Nat.digits 10 n).reverse.map digitChar

/-- `int(s)` for a string of digits -/
def natOf (s : Str) : Nat := s.foldl (fun a c => 10 * a + (c.toNat - 48)) 0

/-- `int(c)` for one character -/
def intChar (c : Char) : Py Nat := if isDigit c then .ok (c.toNat - 48) else .error .valueError

/-- the digits of `int(s)`: single underscores may stand between digits -/
def intDigits : Str → Bool → Nat → Py Nat
  | [], after, acc => if after then .ok acc else .error .valueError
  | c :: s, after, acc =>
    if isDigit c then intDigits s true (10 * acc + (c.toNat - 48))
    else if c = '_' ∧ after = true ∧ s ≠ [] then intDigits s false acc
    else .error .valueError

/-- `int(s)`: blanks around it, a sign, digits. -/
def pyInt (s : Str) : Py Int :=
  let t := ((s.dropWhile fun c => c.isWhitespace).reverse.dropWhile fun c => c.isWhitespace).reverse
  match t with
  | '-' :: r => do
    let v ← intDigits r false 0
    .ok (-(v : Int))
  | '+' :: r => do
    let v ← intDigits r false 0
    .ok (v : Int)
  | r => do
    let v ← intDigits r false 0
    .ok (v : Int)

/-- `' + '.join(l)` -/
def joinPlus : List Str → Str
  | [] => []
  | [a] => a
  | a :: l => a ++ (" + ".toList ++ joinPlus l)

/-- multivariate_polynomial.py:103-104 `power_tuple_to_string` -/
def tupStr (t : Tup) : Str := (t.zipIdx.map fun e => "*X_".toList ++ strNat (e.2 + 1) ++ "**".toList ++ strNat e.1).flatten

/-- multivariate_polynomial.py:99-109 `__repr__` (and `str`): `items` are the dictionary's items in its insertion order, the
coefficients already printed. -/
def mvRepr (n : Nat) (items : List (Tup × Str)) : Str :=
  if items = [] then ['0']
  else joinPlus (items.map fun e => if e.1 ≠ List.replicate n 0 then e.2 ++ ' ' :: tupStr e.1 else e.2)

/-- multivariate_polynomial.py:200-202: the loop of `size_p` -/
def sizeLoop : Str → Nat → Py Nat
  | [], m => .ok m
  | c :: r, m =>
    match c, r with
    | 'X', '_' :: d :: _ => do
      let v ← intChar d
      sizeLoop r (if v > m then v else m)
    | _, _ => sizeLoop r m

/-- multivariate_polynomial.py:197-204 `size_p`, on the printed polynomial -/
def sizeP (st : Str) : Py Nat := sizeLoop st 0

/-- multivariate_polynomial.py:209-212 -/
def maxSym : Str → Nat → Py Nat
  | [], m => .ok m
  | c :: r, m =>
    if c = '_' then
      match r with
      | [] => .error .indexError
      | d :: _ => do
        let v ← intChar d
        maxSym r (if v > m then v else m)
    else maxSym r m

/-- `while st[i].isdigit(): …` (lines 228-230, 258-260): the digits and the rest; reading past the end raises. -/
def spanDigits (r : Str) : Py (Str × Str) :=
  match r.dropWhile isDigit with
  | [] => .error .indexError
  | c :: r' => .ok (r.takeWhile isDigit, c :: r')

/-- multivariate_polynomial.py:240-243 -/
def skipX : Str → Py Str
  | 'X' :: r =>
    match r with
    | [] => .error .indexError
    | '_' :: r' => .ok r'
    | _ => .ok ('X' :: r)
  | '*' :: r =>
    match r with
    | [] => .error .indexError
    | 'X' :: r' =>
      match r' with
      | [] => .error .indexError
      | '_' :: r'' => .ok r''
      | _ => .ok ('*' :: r)
    | _ => .ok ('*' :: r)
  | r => .ok r

/-- multivariate_polynomial.py:251-264: the power and the rest -/
def power : Str → Py (Nat × Str)
  | '*' :: '*' :: r => do
    let (poww, r') ← spanDigits r
    if poww = [] then .error .valueError else .ok (natOf poww, r')
  | r => .ok (1, r)

/-- multivariate_polynomial.py:266-268: `l[index-1] = pow`; index 0 is the last entry -/
def setPow (t : Tup) (index pow : Nat) : Py Tup :=
  if index = 0 then (if t = [] then .error .indexError else .ok (t.set (t.length - 1) pow))
  else if index ≤ t.length then .ok (t.set (index - 1) pow) else .error .indexError

/-- multivariate_polynomial.py:239-268: the body of the loop over the factors of a monomial -/
def factorStep (t : Tup) (r : Str) : Py (Tup × Str) := do
  let r1 ← skipX r
  let index := r1.takeWhile isDigit
  if index = [] then .error .valueError
  else do
    let (pow, r2) ← power (r1.dropWhile isDigit)
    let t' ← setPow t (natOf index) pow
    .ok (t', r2)

/-- multivariate_polynomial.py:239-268: the loop over the factors of a monomial -/
def innerLoop : Nat → Tup → Str → Py (Tup × Str)
  | 0, _, _ => .error .diverge
  | _ + 1, t, [] => .ok (t, [])
  | fuel + 1, t, c :: r =>
    if c = ' ' then .ok (t, c :: r)
    else do
      let (t', r') ← factorStep t (c :: r)
      innerLoop fuel t' r'

/-- `d[t] = c`: an entry that is there already is overwritten -/
def assign {R : Type _} (t : Tup) (c : R) : Dict R → Dict R
  | [] => [(t, c)]
  | (t', c') :: d => if t' = t then (t', c) :: d else (t', c') :: assign t c d

variable {R : Type _} [CommRing R] [DecidableEq R]

/-- multivariate_polynomial.py:226-272: the loop over the terms -/
def outerLoop (zero : Tup) : Nat → Dict R → Str → Py (Dict R)
  | 0, _, _ => .error .diverge
  | _ + 1, d, [] => .ok d
  | fuel + 1, d, c :: r => do
    let (temp, r1) ← spanDigits (c :: r)
    let k := if temp = [] then 1 else natOf temp
    let (t, r2) ← innerLoop (r1.length + 1) zero r1
    outerLoop zero fuel (assign t (0 + (k : R)) d) (r2.drop 3)

/-- multivariate_polynomial.py:208-274 `StrToMulti`; the fuel is enough (C107). -/
def strToMulti (st : Str) (s : Nat) : Py (Dict R) := do
  let m ← maxSym st 0
  let zero := List.replicate (max s m) 0
  if m = 0 then do
    let v ← pyInt st
    .ok (ofDict [(zero, 0 + ((v : Int) : R))])
  else do
    let d ← outerLoop zero (st.length + 1) [] st
    .ok (ofDict d)

/-- multivariate_polynomial.py:186-191, 291-296: the first entry of the printed pair `(Poly(…, …), Poly(…, …))` -/
def quotientPart (z : Str) : Str := (z.drop 6).takeWhile fun c => c ≠ ','

/-- multivariate_polynomial.py:170-194 `__truediv__`; `sympy x y` is what sympy prints for `div(Poly(x), Poly(y))`. -/
def truediv (sympy : Str → Str → Py Str) (n : Nat) (X Y : List (Tup × Str)) : Py (Dict R) := do
  let xs ← sizeP (mvRepr n X)
  let ys ← sizeP (mvRepr n Y)
  let z ← sympy (mvRepr n X) (mvRepr n Y)
  strToMulti (quotientPart z) (max xs ys)

/-- multivariate_polynomial.py:277-278 `div_remainder` -/
def divRemainder (self Y Z : Dict R) : Dict R := Mv.sub self (Mv.mul Y Z)

/-- polynomial.py:63-70 `__repr__`; the coefficients already printed. -/
def polyRepr (coeffs : List Str) : Str :=
  if coeffs = [] then ['0']
  else joinPlus (coeffs.zipIdx.map fun e => if 0 < e.2 then e.1 ++ " *x**".toList ++ strNat e.2 else e.1)

/-- finitefield.py:127-129 `__repr__` of an element of `FiniteField(p, m)` (line 200: the class's name); `poly` is the polynomial
printed. -/
def fqRepr (p m : Nat) (poly : Str) : Str :=
  poly ++ " ∈ F_{".toList ++ strNat p ++ '^' :: strNat m ++ ['}']

/-- multivariate_polynomial.py:320-321: skip to the next closing brace; running past the end raises. -/
def toBrace : Str → Py Str
  | [] => .error .indexError
  | c :: r => if c = '}' then .ok (c :: r) else toBrace r

/-- multivariate_polynomial.py:316-324: the loop of `CheckforDiv` -/
def checkLoop : Nat → Str → Str → Py Str
  | 0, _, _ => .error .diverge
  | _ + 1, result, [] => .ok result
  | fuel + 1, result, c :: r =>
    match r[3]? with
    | some 'F' => do
      let r' ← toBrace (c :: r)
      checkLoop fuel (result ++ [c]) (r'.drop 1)
    | _ => checkLoop fuel (result ++ [c]) r

/-- `poly.find("F_") != -1` -/
def hasF : Str → Bool
  | 'F' :: '_' :: _ => true
  | _ :: r => hasF r
  | [] => false

/-- multivariate_polynomial.py:309-326 `CheckforDiv`, on the printed argument -/
def checkForDiv (poly : Str) : Py Str := if hasF poly then checkLoop (poly.length + 1) [] poly else .ok poly

/-- multivariate_polynomial.py:283-298 `division`; `self` and `divisor` printed -/
def division (sympy : Str → Str → Py Str) (self divisor : Str) : Py (Dict R) := do
  let x ← checkForDiv self
  let xs ← sizeP self
  let y ← checkForDiv divisor
  let z ← sympy x y
  strToMulti (quotientPart z) (max xs 1)

/-- multivariate_polynomial.py:301-306 `PolytoMulti` -/
def polyToMulti (self p : Str) : Py (Dict R) := do
  let size ← sizeP self
  let y ← checkForDiv p
  strToMulti y size

end Verif.MvString
