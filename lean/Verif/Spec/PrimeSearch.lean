import Mathlib.Data.Nat.Prime.Defs
import Mathlib.Data.Int.Interval
import Verif.Spec.RandomHash
/-!
# Specification: the random choices of the search for a prime

The test of a candidate `c` draws `accuracy = 100` bases, each uniformly between 2 and `c - 2`.  (For candidates below 5 there is at most
one such base; the test of these does not depend on it.)
-/

namespace Verif.Spec

/-- The bases `random.randint(2, c - 2)` may return. -/
abbrev Base (c : Int) := {b : Int // 2 ≤ b ∧ b ≤ max 2 (c - 2)}

/-- Bases for the tests of the first `t` of the candidates `rnd 0, rnd 1, …`. -/
abbrev Bases (t : Nat) (rnd : Nat → Int) := (i : Fin t) → Fin 100 → Base (rnd i)

/-- The bases as the `j`-th draw in the test of the `i`-th candidate. -/
def Bases.draw {t : Nat} {rnd : Nat → Int} (ω : Bases t rnd) (i j : Nat) : Int :=
  if h : i < t ∧ j < 100 then (ω ⟨i, h.1⟩ ⟨j, h.2⟩).1 else 2

/-- The first `t` candidates, each a string of `n` random bits. -/
abbrev Candidates (t n : Nat) := Fin t → Fin (2 ^ n)

/-- The `i`-th candidate. -/
def Candidates.draw {t n : Nat} (r : Candidates t n) (i : Nat) : Int := if h : i < t then (r ⟨i, h⟩ : Nat) else 0

/-- The proportion of primes that are 3 modulo 4 among the numbers below `2^n`. -/
noncomputable def density (n : Nat) : ℚ := fraction fun c : Fin (2 ^ n) => Nat.Prime c ∧ (c : Nat) % 4 = 3

end Verif.Spec
