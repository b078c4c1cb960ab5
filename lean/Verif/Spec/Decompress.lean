import Verif.Py
/-! # Specification: reading lists with back references, and the bytes that are counted -/

namespace Verif.Compression

/-- Entry `i` of the list stands for `x`: it is `x`, or it consists of the two bytes of the number of an entry that is `x`. -/
def StandsFor (c : List Bytes) (i : Nat) (x : Bytes) : Prop :=
  (c[i]? = some x ∧ x.length ≠ 2) ∨ ∃ a b : UInt8, c[i]? = some [a, b] ∧ c[256 * a.toNat + b.toNat]? = some x

/-- The bytes whose number `bin_length` returns (compression.py:104-105): the entries one after the other, those of 32 bytes after a byte 255. -/
def wire : List Bytes → Bytes
  | [] => []
  | x :: c => (if x.length = 32 then [255] else []) ++ x ++ wire c

/-- An entry of a compressed list of 32-byte strings: such a string, a separator, or a reference to an entry before number 11051, which
is `256 * 43 + 43`, the two bytes `++`. -/
def Entry (x : Bytes) : Prop :=
  x.length = 32 ∨ (∃ c ∈ ['-', '+', '=', '/'], x = List.replicate 4 (UInt8.ofNat c.toNat)) ∨
    ∃ a b : UInt8, x = [a, b] ∧ 256 * a.toNat + b.toNat < 11051

end Verif.Compression
