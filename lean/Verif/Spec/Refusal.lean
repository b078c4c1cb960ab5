import Verif.Py
/-!
# What a verifier may do with a proof it does not accept

Stated for any computation with a Boolean outcome, and for the shape of a proof, without reference to the verifiers.
-/

namespace Verif.Spec

/-- The computation returns `True` or raises `AssertionError`. -/
def TrueOrAssertion (x : Py Bool) : Prop := x = .ok true ∨ x = .error .assertion

/-- The computation returns `True` or raises one of `AssertionError`, `IndexError`, `ZeroDivisionError` and `OverflowError`.  In particular it
ends, and does not return `False`. -/
def TrueOrRaises (x : Py Bool) : Prop :=
  x = .ok true ∨ x = .error .assertion ∨ x = .error .indexError ∨ x = .error .zeroDivision ∨ x = .error .overflow

/-- A proof of proximity over a domain of `2^k` points that has the shape of an honest one, whatever bytes it is made of: at least four
values are left after the layers, and the last component lists them in at most 32 bytes each; every layer has `F` groups of at least five branches, and
every branch at least three byte strings. -/
structure FriShape (k F : Nat) (prf : List (Bytes × List (List (List Bytes))) × List Bytes) : Prop where
  depth : 2 * prf.1.length + 2 ≤ k
  values : prf.2.length = 2 ^ (k - 2 * prf.1.length)
  bytes : ∀ b ∈ prf.2, b.length ≤ 32
  groups : ∀ it ∈ prf.1, F ≤ it.2.length
  branches : ∀ it ∈ prf.1, ∀ br ∈ it.2, 5 ≤ br.length ∧ ∀ s ∈ br, 3 ≤ s.length

end Verif.Spec
