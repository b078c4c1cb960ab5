import Verif.Model.Numbertype
import Verif.Model.PolyUtils
import Verif.Proofs.Polynomial
/-!
# Model of starks/poly_utils.py:72-154: Gaussian elimination and the Moore-matrix vanishing polynomial

`gauss` only indexes `M[a][b]` for `a < row`, `b ≤ row`, so the nested list is modelled by its entry function; a nested
list that is too small raises `IndexError`, which is not modelled.  `M` is mutated in place, so `gauss` also returns the
final matrix.  The int `0` stored on line 125 is the zero element (`typecheck` casts it where it is used).

The entries are elements of a type `P` with `+ - *` and a division `div` that may raise; `bigger i k a b` is the outcome of
`max(a, b) == 1` (line 106) when the code compares row `k` in step `i`.
-/

namespace Verif.Gauss
open Poly

/-- The entries of the nested list `M`. -/
abbrev Mat (P : Type _) := Nat → Nat → P

section generic
variable {P : Type _}

/-- `M[a][b] = v` -/
def setE (M : Mat P) (a b : Nat) (v : P) : Mat P := fun a' b' => if a' = a ∧ b' = b then v else M a' b'

/-- `range(a, b)` -/
def pyRange (a b : Nat) : List Nat := List.range' a (b - a)

/-- poly_utils.py:105-108: the search for the pivot row, over the remaining `k`s, state `maxEl, maxRow`. -/
def pivotLoop (bigger : Nat → Nat → P → P → Py Bool) (M : Mat P) (i : Nat) : List Nat → P → Nat → Py Nat
  | [], _, maxRow => .ok maxRow
  | k :: ks, maxEl, maxRow => do
    let b ← bigger i k (M k i) maxEl
    if b then pivotLoop bigger M i ks (M k i) k else pivotLoop bigger M i ks maxEl maxRow

/-- poly_utils.py:111-114: swap rows `i` and `maxRow`, column by column. -/
def swapLoop (i maxRow : Nat) : List Nat → Mat P → Mat P
  | [], M => M
  | k :: ks, M => swapLoop i maxRow ks (setE (setE M maxRow k (M i k)) i k (M maxRow k))

variable [Add P] [Sub P] [Mul P] [Neg P] [Zero P]

/-- poly_utils.py:123-127: `for j in range(i, row+1)`, row `k` plus `c` times row `i`. -/
def rowLoop (i k : Nat) (c : P) : List Nat → Mat P → Mat P
  | [], M => M
  | j :: js, M => rowLoop i k c js (setE M k j (if i = j then 0 else M k j + c * M i j))

/-- poly_utils.py:121-127: `for k in range(i+1, row)`. -/
def elimLoop (div : P → P → Py P) (row i : Nat) : List Nat → Mat P → Py (Mat P)
  | [], M => .ok M
  | k :: ks, M => do
    let c ← div (-M k i) (M i i)
    elimLoop div row i ks (rowLoop i k c (pyRange i (row + 1)) M)

/-- poly_utils.py:100-127: `for i in range(row)`. -/
def forwardLoop (div : P → P → Py P) (bigger : Nat → Nat → P → P → Py Bool) (row : Nat) : List Nat → Mat P → Py (Mat P)
  | [], M => .ok M
  | i :: is, M => do
    let maxRow ← pivotLoop bigger M i (pyRange (i + 1) row) (M i i) i
    let M ← elimLoop div row i (pyRange (i + 1) row) (swapLoop i maxRow (pyRange i (row + 1)) M)
    forwardLoop div bigger row is M

/-- poly_utils.py:133-134: `for k in range(i-1, -1, -1)`. -/
def substLoop (row i : Nat) (x : P) : List Nat → Mat P → Mat P
  | [], M => M
  | k :: ks, M => substLoop row i x ks (setE M k row (M k row - M k i * x))

/-- poly_utils.py:130-134: `for i in range(row-1, -1, -1)`; `x` is `x[i+1:]`, the entries already found. -/
def backLoop (div : P → P → Py P) (row : Nat) : Nat → Mat P → List P → Py (List P × Mat P)
  | 0, M, x => .ok (x, M)
  | i + 1, M, x => do
    let xi ← div (M i row) (M i i)
    backLoop div row i (substLoop row i xi (List.range i).reverse M) (xi :: x)

/-- poly_utils.py:99-136 `gauss`: the returned list and the mutated matrix. -/
def gauss (div : P → P → Py P) (bigger : Nat → Nat → P → P → Py Bool) (M : Mat P) (row : Nat) : Py (List P × Mat P) := do
  let M ← forwardLoop div bigger row (List.range row) M
  backLoop div row row M []

/-- poly_utils.py:91-92: `for j in range(len(b)-1): temp = temp + Moore[i][j+1] * kernel[j+1]`. -/
def tempLoop (M : Mat P) (i : Nat) (kernel : List P) : List Nat → P → Py P
  | [], temp => .ok temp
  | j :: js, temp => do
    let x ← pyIdx kernel (j + 1)
    tempLoop M i kernel js (temp + M i (j + 1) * x)

/-- poly_utils.py:89-93: the test of the result, on the matrix as `gauss` left it. -/
def testLoop [DecidableEq P] (M : Mat P) (kernel : List P) (d : Nat) : List Nat → Py Unit
  | [] => .ok ()
  | i :: is => do
    let x ← pyIdx kernel 0
    let temp ← tempLoop M i kernel (List.range (d - 1)) (M i 0 * x)
    pyAssert (temp == M i d)
    testLoop M kernel d is

end generic

section poly
variable {K : Type _} [Field K] [DecidableEq K]

/-- poly_utils.py:147-154: the loop of `max` from position `i` on, `n` rounds to go, for two polynomials of equal degree, the
first being `a`.  `same i` says whether the `i`-th coefficients from the top are the same **object** (line 148 tests
identity, not equality); `startsWith1` says whether the printed coefficient starts with the character `1`. -/
def tieLoop (same : Nat → Bool) (startsWith1 : K → Bool) (a : List K) : Nat → Nat → Bool
  | _, 0 => true
  | i, n + 1 => if same i then tieLoop same startsWith1 a (i + 1) n else startsWith1 (a.getD (a.length - 1 - i) 0)

/-- poly_utils.py:139-154 `max`, with `True` for 1 and `False` for 0. -/
def maxPoly (same : Nat → Bool) (startsWith1 : K → Bool) (a b : List K) : Bool :=
  if degree a > degree b then true
  else if degree b > degree a then false
  else tieLoop same startsWith1 a 0 (degree a + 1).toNat

/-- polynomial.py:146-149 `__truediv__` between polynomials. -/
def divPoly (f g : CPoly K) : Py (CPoly K) := do
  let q ← truediv f.1 g.1
  .ok (CPoly.mk q)

/-- `gauss` on a matrix of polynomials over a field; `same i k` is the object-identity oracle in the comparison of row `k` in
step `i`. -/
def gaussPoly (same : Nat → Nat → Nat → Bool) (startsWith1 : K → Bool) (M : Mat (CPoly K)) (row : Nat) :
    Py (List (CPoly K) × Mat (CPoly K)) :=
  gauss divPoly (fun i k a b => .ok (maxPoly (same i k) startsWith1 a.1 b.1)) M row

/-- `gauss` on a matrix of field elements: they have no method `degree` (modp.py:29-105, finitefield.py:72-203,
numbertype.py:54-122), so `max` raises `AttributeError` on its first line. -/
def gaussElt (M : Mat K) (row : Nat) : Py (List K × Mat K) :=
  gauss pyDiv (fun _ _ _ _ => .error .attributeError) M row

/-- poly_utils.py:77-84: the Moore matrix, row `i` being `b[i], b[i]^2, b[i]^4, …`; entries outside it are never read.
(`**` on extension-field elements is finitefield.py:112-118, which computes the same powers, C06.) -/
def mooreMatrix {P : Type _} [One P] [Mul P] [Zero P] (b : List P) : Py (Mat P) := do
  let rows ← PolyUtils.pyMap (fun x => do
    let ps ← PolyUtils.pyMap (fun j : Nat => pyPow 1 (· * ·) x ((2 ^ (j + 1) : Nat) : Int)) (List.range b.length)
    .ok (x :: ps)) b
  .ok fun i j => (rows.getD i []).getD j 0

/-- poly_utils.py:72-97 `construct_affine_vanishing_polynomial_Moore` for a space with a basis of polynomials;
`cast` is the constructor of `field`, applied to each entry by `polysOver` (polynomial.py:36-37). -/
def moorePoly {F : Type _} [Zero F] [DecidableEq F] (cast : CPoly K → F) (same : Nat → Nat → Nat → Bool)
    (startsWith1 : K → Bool) (b : List (CPoly K)) : Py (List F) := do
  let M ← mooreMatrix b
  let r ← gaussPoly same startsWith1 M b.length
  testLoop r.2 r.1 b.length (List.range b.length)
  .ok (strip (r.1.map cast) 0)

/-- poly_utils.py:72-97 `construct_affine_vanishing_polynomial_Moore` for a space with a basis of field elements. -/
def mooreElt (b : List K) : Py (List K) := do
  let M ← mooreMatrix b
  let r ← gaussElt M b.length
  testLoop r.2 r.1 b.length (List.range b.length)
  .ok (ctor r.1)

end poly

end Verif.Gauss
