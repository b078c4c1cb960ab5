import Verif.Model.Rationals
import Mathlib.Data.ZMod.Basic
import Mathlib.Algebra.Field.ZMod
/-!
# Specification: fractions modulo a prime

What an instance of `RationalsModP(p)` stands for, in Mathlib's `ZMod p`.
-/

namespace Verif.Rat

/-- Lowest terms, with both components reduced modulo `p` and a non-zero denominator. -/
def Wf (p : Nat) (x : Q) : Prop := 0 ≤ x.m ∧ x.m < p ∧ 0 < x.n ∧ x.n < p ∧ Int.gcd x.m x.n = 1

/-- The element of `Z/p` a fraction denotes: numerator divided by denominator. -/
def val (p : Nat) [Fact p.Prime] (x : Q) : ZMod p := (x.m : ZMod p) / (x.n : ZMod p)

end Verif.Rat
