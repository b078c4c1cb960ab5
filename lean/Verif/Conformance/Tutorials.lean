import Verif.Props.BinaryField
import Verif.Model.Polynomial
import Verif.Model.Modp
import Mathlib.Tactic.NormNum.Prime

/-!
# The examples of the tutorials, run on the model

Tests of the model (see `Verif/Conformance/Arithmetic.lean`), not proofs of properties: the answers are those the notebooks show.
-/
namespace Verif.Conformance
open Verif.FF Verif.Poly Verif.Modp

private instance fact7t : Fact (Nat.Prime 7) := ⟨by decide⟩

/-! ## tutorials/Introduction to Finite Fields.ipynb -/

-- `a = mod12(3)`: `a + a`, `a + a + a`, `a + a + a + a`, `a*a`, `a*a*a`
example : (let a := mk 12 3; (Modp.add 12 a a, Modp.add 12 (Modp.add 12 a a) a, Modp.add 12 (Modp.add 12 (Modp.add 12 a a) a) a,
    Modp.mul 12 a a, Modp.mul 12 (Modp.mul 12 a a) a)) = (6, 9, 0, 9, 3) := by decide +kernel
-- `mod12(2) * mod12(i)` and `mod12(7) * mod12(i)` for `i in range(12)`
example : ((List.range 12).map fun i => Modp.mul 12 (mk 12 2) (mk 12 i)) = [0, 2, 4, 6, 8, 10, 0, 2, 4, 6, 8, 10] := by decide +kernel
example : ((List.range 12).map fun i => Modp.mul 12 (mk 12 7) (mk 12 i)) = [0, 7, 2, 9, 4, 11, 6, 1, 8, 3, 10, 5] := by decide +kernel
-- 7 is its own inverse, 2 has none
example : Modp.inverse 12 (mk 12 7) = .ok 7 ∧ Modp.inverse 12 (mk 12 2) = .error .attributeError := by decide +kernel
-- the table of products modulo 3
example : ((List.range 3).flatMap fun i => (List.range 3).map fun j => Modp.mul 3 (mk 3 i) (mk 3 j)) = [0, 0, 0, 0, 1, 2, 0, 2, 1] := by
  decide +kernel

/-! ## tutorials/Polynomials.ipynb -/

-- `polysMod7([100, 100])`, `x + x`, `x + 1`
example : ctor ([100, 100] : List (Zp 7)) = [2, 2] ∧ Poly.add (ctor [0, 1]) (ctor [0, 1] : List (Zp 7)) = [0, 2] ∧
    Poly.add (ctor [0, 1]) (ctor [1] : List (Zp 7)) = [1, 1] := by decide +kernel
-- `g = x**2 + x + 2`, `g(1)`
example : Poly.call ([2, 1, 1] : List (Zp 7)) (1 : Zp 7) = 4 := by decide +kernel

/-! ## tutorials/Binary Finite Fields Pt 2.ipynb: `x^2+x+1` and `x^3+x^2+1` modulo `x^4+x+1` -/

example : fqAdd ([1, 1, 0, 0, 1] : List (Zp 2)) [1, 1, 1] [1, 0, 1, 1] = .ok [0, 1, 0, 1] ∧
    fqSub ([1, 1, 0, 0, 1] : List (Zp 2)) [1, 1, 1] [1, 0, 1, 1] = .ok [0, 1, 0, 1] ∧
    fqMul ([1, 1, 0, 0, 1] : List (Zp 2)) [1, 1, 1] [1, 0, 1, 1] = .ok [1, 0, 1] ∧
    fqTruediv ([1, 1, 0, 0, 1] : List (Zp 2)) [1, 1, 1] [1, 0, 1, 1] = .ok [1, 1, 1, 1] := by decide +kernel

end Verif.Conformance
