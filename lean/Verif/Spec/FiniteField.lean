import Mathlib.RingTheory.AdjoinRoot
/-! # What a primitive polynomial is -/

namespace Verif.Spec
open scoped Polynomial

/-- The class of `x` is a unit of `K[x]/(F)` and every unit is one of its powers. -/
def RootGenerates {K : Type _} [Field K] (F : K[X]) : Prop :=
  ∃ u : (AdjoinRoot F)ˣ, (u : AdjoinRoot F) = AdjoinRoot.root F ∧ ∀ v : (AdjoinRoot F)ˣ, ∃ k : ℤ, v = u ^ k

/-- Primitive polynomials. -/
def Primitive {K : Type _} [Field K] (F : K[X]) : Prop := Irreducible F ∧ RootGenerates F

/-- `fs` lists the distinct prime divisors of `n`, which is what `sympy.factorint(n).keys()` is for. -/
def IsFactorint (factorint : Nat → List Nat) : Prop := ∀ n q : Nat, 0 < n → (q ∈ factorint n ↔ q.Prime ∧ q ∣ n)

end Verif.Spec
