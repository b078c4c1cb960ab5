import Verif.Proofs.Modp
import Verif.Proofs.SmallPrimes
import Mathlib.Algebra.Polynomial.Basic
/-! # Specification: the binary polynomials that the tests and tutorials use as moduli -/

namespace Verif.Spec
open Polynomial Verif.Props

/-- `x^2 + x + 1` (test_poly_utils.py:181, described as primitive), `x^4 + x + 1` ("Binary Finite Fields Pt 2"), `x^17 + x^3 + 1`
(test_finitefield.py, test_air.py, test_apr.py, test_multivariate.py, described as primitive) and `x^64 + x^4 + x^3 + x + 1`
("Binary Finite Fields Pt 1", Logistic_Regression.py, described as primitive), with their degrees. -/
def Documented (m : Nat) (P : (Zp 2)[X]) : Prop :=
  (m = 2 ∧ P = X ^ 2 + X + 1) ∨ (m = 4 ∧ P = X ^ 4 + X + 1) ∨ (m = 17 ∧ P = X ^ 17 + X ^ 3 + 1) ∨
    (m = 64 ∧ P = X ^ 64 + X ^ 4 + X ^ 3 + X + 1)

end Verif.Spec
