import Verif.Spec.RandomHash
/-!
# Provers that may call the hash function a limited number of times

A prover is a program that calls the hash function, sees the answers, and goes on as it likes.  The hash function is drawn at random
among all functions from strings of at most `n` bytes to strings of 32 bytes; what it does with longer strings does not matter.
-/

namespace Verif

/-- A program that may call the hash function before it gives its answer. -/
inductive Prog (α : Type)
  | done (a : α) : Prog α
  | ask (x : Bytes) (next : Digest → Prog α) : Prog α

/-- The answer of the program when the hash function is `blake`. -/
def Prog.run {α : Type} (blake : Bytes → Digest) : Prog α → α
  | .done a => a
  | .ask x next => (next (blake x)).run blake

/-- The strings the program has hashed, in order. -/
def Prog.asked {α : Type} (blake : Bytes → Digest) : Prog α → List Bytes
  | .done _ => []
  | .ask x next => x :: (next (blake x)).asked blake

/-- The strings of at most `n` bytes. -/
abbrev Short (n : Nat) := {b : Bytes // b.length ≤ n}

/-- The hash function that is `H` on strings of at most `n` bytes and `other` on all others. -/
def drawn {n : Nat} (H : Short n → Digest) (other : Bytes → Digest) (x : Bytes) : Digest := if h : x.length ≤ n then H ⟨x, h⟩ else other x

/-- The hash function as the code calls it: from strings to strings. -/
def asBytes (h : Bytes → Digest) (x : Bytes) : Bytes := (h x).1

/-- What a prover shows to open a commitment: the root, the position and the branch. -/
structure Opening where
  root : Bytes
  index : Nat
  branch : List Bytes

end Verif
