import Verif.Py
import Mathlib.Tactic.Ring
import Mathlib.Tactic.Positivity
import Mathlib.Data.Int.Basic
/-! # Big-endian byte encoding: round trips -/

namespace Verif

theorem beDigits_length : ∀ len n, (beDigits len n).length = len
  | 0, _ => rfl
  | len + 1, n => by simp [beDigits, beDigits_length len]

theorem fromBytes_append_single (b : Bytes) (x : UInt8) : fromBytes (b ++ [x]) = fromBytes b * 256 + x.toNat := by
  simp [fromBytes]

theorem fromBytes_beDigits : ∀ len n, n < 256 ^ len → fromBytes (beDigits len n) = n
  | 0, n, h => by simp at h; subst h; rfl
  | len + 1, n, h => by
    rw [beDigits, fromBytes_append_single, fromBytes_beDigits len (n / 256)]
    · have : (UInt8.ofNat (n % 256)).toNat = n % 256 := by simp
      rw [this]; omega
    · rw [Nat.div_lt_iff_lt_mul (by norm_num)]; rw [pow_succ] at h; exact h

theorem fromBytes_lt (b : Bytes) : fromBytes b < 256 ^ b.length := by
  induction b using List.reverseRecOn with
  | nil => simp [fromBytes]
  | append_singleton b x ih =>
    rw [fromBytes_append_single, List.length_append, List.length_singleton, pow_succ]
    have := x.toNat_lt
    omega

theorem beDigits_fromBytes (b : Bytes) : beDigits b.length (fromBytes b) = b := by
  induction b using List.reverseRecOn with
  | nil => rfl
  | append_singleton b x ih =>
    rw [fromBytes_append_single, List.length_append, List.length_singleton, beDigits]
    have hx := x.toNat_lt
    have h1 : (fromBytes b * 256 + x.toNat) / 256 = fromBytes b := by omega
    have h2 : (fromBytes b * 256 + x.toNat) % 256 = x.toNat := by omega
    rw [h1, h2, ih]; simp

theorem fromBytes_inj (a b : Bytes) (hl : a.length = b.length) (h : fromBytes a = fromBytes b) : a = b := by
  rw [← beDigits_fromBytes a, ← beDigits_fromBytes b, hl, h]

/-- `to_bytes` succeeds exactly on the integers in range, and decoding gives the integer back. -/
theorem intToBytes_spec (n : Int) (len : Nat) :
    (0 ≤ n ∧ n < 256 ^ len ∧ ∃ b, intToBytes n len = .ok b ∧ b.length = len ∧ (fromBytes b : Int) = n) ∨
    ((n < 0 ∨ 256 ^ len ≤ n) ∧ intToBytes n len = .error .overflow) := by
  unfold intToBytes
  by_cases h : n < 0 ∨ (256 : Int) ^ len ≤ n
  · right; exact ⟨h, by rw [if_pos h]⟩
  · left
    have h' := h
    simp only [not_or, not_lt, not_le] at h
    refine ⟨h.1, h.2, _, by rw [if_neg h'], beDigits_length _ _, ?_⟩
    rw [fromBytes_beDigits]
    · omega
    · have : ((n.toNat : Int)) < ((256 ^ len : Nat) : Int) := by push_cast; omega
      exact_mod_cast this

end Verif
