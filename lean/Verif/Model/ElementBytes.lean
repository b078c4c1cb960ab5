import Verif.Model.Modp
import Verif.Model.Merkle
/-!
# Model of the byte encodings in `starks/polynomial.py` and `starks/finitefield.py`

A polynomial over `IntegersModP(p)` is the list of the ints its coefficients carry.
-/

namespace Verif.ElementBytes

/-- polynomial.py:13-21 `strip(L, ring(0))`; the elements compare by the ints they carry (modp.py:58-60), without reduction. -/
def stripInts (L : List Int) : List Int := (L.reverse.dropWhile fun a => Modp.eq a 0).reverse

/-- polynomial.py:40-43: `ring(c[32*i:32*(i+1)])` for the blocks that are left. -/
def blocks : Nat → Bytes → List Int
  | 0, _ => []
  | n + 1, c => Modp.mkBytes (c.take 32) :: blocks n (c.drop 32)

/-- polynomial.py:35-44, 55: `Polynomial(c)` for a byte string, over `IntegersModP(p)`. -/
def polyOfBytes (c : Bytes) : Py (List Int) :=
  if c.length % 32 ≠ 0 then .error .valueError else .ok (stripInts (blocks (c.length / 32) c))

/-- finitefield.py:78-79: `Fq(c)` for a byte string: the polynomial, **not** reduced modulo the ideal generator. -/
def fqOfBytes (c : Bytes) : Py (List Int) := polyOfBytes c

/-- polynomial.py:166-167 `to_bytes` over `IntegersModP(p)` or `FiniteField(p, m)`: the coefficients' own `to_bytes` (modp.py:94,
finitefield.py:149) takes no arguments, so the call with two raises `TypeError`; without coefficients the method ends without a
`return` (`none` is Python's `None`). -/
def polyToBytes {α : Type _} : List α → Py (Option Bytes)
  | [] => .ok none
  | _ :: _ => .error .typeError

/-- finitefield.py:149-150 `to_bytes` of an element: that of its polynomial. -/
def fqToBytes {α : Type _} (poly : List α) : Py (Option Bytes) := polyToBytes poly

/-- merkle_tree.py:53: a polynomial or an element of `FiniteField(p, m)` as a leaf.  A `None` is appended as it is, and the first
sum it enters (line 55) raises `TypeError`; here the leaf itself does. -/
def leafOf (enc : Py (Option Bytes)) : Merkle.Leaf :=
  .elt (match enc with
    | .ok (some b) => .ok b
    | .ok none => .error .typeError
    | .error e => .error e)

/-- The byte string one expects for a polynomial: the 32-byte encodings of its coefficients in increasing order. -/
def concat32 : List Int → Py Bytes
  | [] => .ok []
  | a :: L => do
    let b ← Modp.toBytes a
    let r ← concat32 L
    .ok (b ++ r)

end Verif.ElementBytes
