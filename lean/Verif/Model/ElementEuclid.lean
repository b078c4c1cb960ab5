import Verif.Model.Modp
import Verif.Proofs.FiniteField
/-!
# Elements of Z/p and of extension fields as arguments of starks/euclidean.py

`gcd` and `extended_euclidean_algorithm` take "any number type with a divmod and a valuation abs()" (euclidean.py:10-12, 28-29); both
element classes define the two.  The ints 0 and 1 of euclidean.py:36, 38 are cast by the operators they meet (numbertype.py:30-33);
where they are returned as they are, the model shows the elements they equal.
-/

namespace Verif.ElementEuclid

/-- modp.py:44-53, 66-69, 81-82: the stored ints of elements of `IntegersModP(p)` -/
def modOps (p : Nat) : EuclidOps Int where
  abs := Int.natAbs
  divmod := Modp.divmod p
  sub := Modp.sub p
  mul := Modp.mul p
  zero := Modp.mk p 0
  one := Modp.mk p 1

/-- finitefield.py:124-125, 131-134: `abs` and `divmod` of elements of an extension field, `sub` and `mul` as in
`Verif.Proofs.FiniteField` (`fqSub_eq`, `fqMul_eq`).  `divmod` reduces both results; reducing does not raise. -/
def fqOps {K : Type _} [Field K] [DecidableEq K] (f : List K) [FF.IsModulus f] : EuclidOps (FF.Fq f) where
  abs a := Poly.pabs a.1
  divmod a b := do
    let qr ← FF.fqDivmod f a.1 b.1
    .ok (FF.Fq.mk (Poly.ctor qr.1) (Poly.canon_ctor _), FF.Fq.mk (Poly.ctor qr.2) (Poly.canon_ctor _))
  sub := (· - ·)
  mul := (· * ·)
  zero := 0
  one := 1

end Verif.ElementEuclid
