import Verif.Model.FloatingPoint
import Verif.Spec.Bits
import Verif.Proofs.Polynomial
/-!
# Specification: floating-point values over a binary field
-/

namespace Verif.Float

variable {K : Type _} [Field K] [DecidableEq K]

/-- The significand and the exponent are elements of the field with modulus `f`. -/
def IsFloat (f : List K) (x : Fp K) : Prop :=
  (Poly.Canon x.v ∧ x.v.length < f.length) ∧ Poly.Canon x.p ∧ x.p.length < f.length

/-- Every binary digit of `a` is a binary digit of `b`. -/
def Nested (a b : List K) : Prop := ∀ i : Nat, a.getD i 0 = 1 → b.getD i 0 = 1

/-- No binary digit is common to `a` and `b`. -/
def Disjoint (a b : List K) : Prop := ∀ i : Nat, a.getD i 0 = 1 → b.getD i 0 ≠ 1

end Verif.Float
