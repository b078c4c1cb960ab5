/-!
# Python primitives used by the model

Exceptions are values, `int` is `Int`/`Nat` (unbounded, as in Python), `bytes` is `List UInt8`.
-/

namespace Verif

/-- The exceptions the modelled code can raise.  `diverge` marks a loop or recursion that ran out of the
fuel it was given: it is the model's rendering of "did not return". -/
inductive PyErr
  | typeError | valueError | zeroDivision | indexError | keyError | assertion
  | attributeError | nameError | overflow | unboundLocal | exception | diverge
deriving DecidableEq, Repr

/-- A Python computation that may raise. -/
abbrev Py (α : Type _) := Except PyErr α

/-- `assert c`. -/
def pyAssert (c : Bool) : Py Unit := if c then .ok () else .error .assertion

/-- `l[i]` for a non-negative index. -/
def pyIdx {α : Type _} (l : List α) (i : Nat) : Py α :=
  match l[i]? with
  | some a => .ok a
  | none => .error .indexError

/-- Python `divmod(a, b)` on ints: floor division, `ZeroDivisionError` on `b = 0`. -/
def pyDivmod (a b : Int) : Py (Int × Int) :=
  if b = 0 then .error .zeroDivision else .ok (a.fdiv b, a.fmod b)

/-- Python `bytes`. -/
abbrev Bytes := List UInt8

/-- `int.from_bytes(b, 'big')`. -/
def fromBytes (b : Bytes) : Nat := b.foldl (fun acc x => acc * 256 + x.toNat) 0

/-- The big-endian digits of `n` in base 256, exactly `len` of them. -/
def beDigits : Nat → Nat → Bytes
  | 0, _ => []
  | len + 1, n => beDigits len (n / 256) ++ [UInt8.ofNat (n % 256)]

/-- `n.to_bytes(len, 'big')`: `OverflowError` for negative or too large `n`. -/
def intToBytes (n : Int) (len : Nat) : Py Bytes :=
  if n < 0 ∨ (256 : Int) ^ len ≤ n then .error .overflow else .ok (beDigits len n.toNat)

end Verif
