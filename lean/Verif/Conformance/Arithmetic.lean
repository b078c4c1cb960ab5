import Verif.Model.Modp
import Verif.Model.Rationals
import Verif.Model.MixedElements
import Verif.Model.Euclidean
import Verif.Model.ElementEuclid
import Verif.Model.Utils
import Verif.Proofs.Modp

/-!
# The repository's own unit tests, run on the model: numbers

These are **tests of the model**, not proofs of properties: each `example` is one assertion of a test in /repo,
transcribed to the model and evaluated by the kernel.  They show that the model agrees with the code on the inputs for
which the authors wrote down the expected answer.  No claim of the manifest rests on them.
-/
namespace Verif.Conformance
open Verif.Mixed Verif.ElementEuclid

/-! ## starks/test/test_modpy.py -/

-- 16-17: `mod7(5) == mod7(5)`, `mod7(5) == mod7(12)`
example : Modp.eq (Modp.mk 7 5) (Modp.mk 7 5) = true ∧ Modp.eq (Modp.mk 7 5) (Modp.mk 7 12) = true := by decide +kernel
-- 19: `mod7(5) == 1 / mod7(3)`
example : (do let q ← rtruediv (.int 1) (.mod 7 3); eq (.mod 7 5) (.elem q)) = (.ok true : Py Bool) := by decide +kernel
-- 20-24: products and sums
example : mul (.mod 7 3) (.elem (.mod 7 5)) = .ok (.mod 7 1) ∧ mul (.mod 7 3) (.plain (.int 1)) = .ok (.mod 7 3) ∧
    add (.mod 7 5) (.elem (.mod 7 4)) = .ok (.mod 7 2) ∧ add (.mod 7 3) (.elem (.mod 7 4)) = .ok (.mod 7 0) := by decide +kernel
-- test_large_modulus
example : Modp.ne (Modp.mk (2 ^ 256 - 2 ^ 32 * 351 + 1) 5) (Modp.mk (2 ^ 256 - 2 ^ 32 * 351 + 1) 11) = true ∧
    Modp.ne (Modp.mk (2 ^ 256 - 2 ^ 32 * 351 + 1) (2 ^ 32)) (Modp.mk (2 ^ 256 - 2 ^ 32 * 351 + 1) (2 ^ 64)) = true ∧
    Modp.ne (Modp.mk (2 ^ 256 - 2 ^ 32 * 351 + 1) (2 ^ 64)) (Modp.mk (2 ^ 256 - 2 ^ 32 * 351 + 1) (2 ^ 128)) = true ∧
    Modp.eq (Modp.mk (2 ^ 256 - 2 ^ 32 * 351 + 1) (2 ^ 256)) (Modp.mk (2 ^ 256 - 2 ^ 32 * 351 + 1) (2 ^ 32 * 351 - 1)) = true := by
  decide +kernel
/-- `ratmod(a, b)` as an operand -/
private def rat (p : Nat) (a b : Int) : Py Elem := do let q ← Rat.mk p a b; .ok (.rat p q)
-- test_rationals_construction
example : Rat.mk 3 1 2 = .ok ⟨1, 2⟩ := by decide +kernel
-- test_rationals_arithmetic
example : (do let x ← rat 31 1 2; let y ← rat 31 1 4; let z ← mul x (.elem x); eq z (.elem y)) = (.ok true : Py Bool) := by decide +kernel
example : (do let x ← rat 31 3 4; let y ← rat 31 5 6; let r ← rat 31 5 8; let z ← mul x (.elem y); eq z (.elem r)) =
    (.ok true : Py Bool) := by decide +kernel
example : (do let x ← rat 31 3 4; let r ← rat 31 4 3; let z ← rtruediv (.int 1) x; eq z (.elem r)) = (.ok true : Py Bool) := by
  decide +kernel
example : (do let x ← rat 31 1 2; let r ← rat 31 3 2; let z ← radd (.int 1) x; eq z (.elem r)) = (.ok true : Py Bool) := by decide +kernel
example : (do let x ← rat 31 1 2; let r ← rat 31 (-1) 2; let z ← neg x; eq z (.elem r)) = (.ok true : Py Bool) := by decide +kernel
example : (do let x ← rat 31 1 2; let r ← rat 31 1 2; let z ← rsub (.int 1) x; eq z (.elem r)) = (.ok true : Py Bool) := by decide +kernel
-- test_exponentiation: the two ways of taking the power are the same function of the model's integers (C03)
/-- the loop of `test_count_unique_rationals` -/
private def uniques (p : Nat) : List (Int × Int) → List Rat.Q → Py (List Rat.Q)
  | [], us => .ok us
  | (a, b) :: rest, us => do
    let c ← Rat.mk p a b
    uniques p rest (if us.any fun u => Rat.eq p c u then us else us ++ [c])
example : (do let us ← uniques 7 ((List.range 7).flatMap fun a => (List.range 6).map fun b => ((a : Int), (b : Int) + 1)) []
              .ok us.length) = (.ok 7 : Py Nat) := by decide +kernel

/-! ## starks/test/test_euclidean.py -/

example : gcd intOps 7 9 = .ok 1 ∧ gcd intOps 8 18 = .ok 2 ∧ gcd intOps (-12) 24 = .ok (-12) ∧ gcd intOps 12 (-24) = .ok 12 ∧
    gcd intOps 4864 3458 = .ok 38 := by decide +kernel
example : xgcd intOps 4864 3458 = .ok (32, -45, 38) ∧ xgcd intOps 3458 4864 = .ok (-45, 32, 38) := by decide +kernel
-- test_mod_2_gcd
example : gcd (modOps 2) (Modp.mk 2 1) (Modp.mk 2 0) = .ok (Modp.mk 2 1) ∧ gcd (modOps 2) (Modp.mk 2 1) (Modp.mk 2 1) = .ok (Modp.mk 2 1) ∧
    gcd (modOps 2) (Modp.mk 2 2) (Modp.mk 2 2) = .ok (Modp.mk 2 0) := by decide +kernel
-- test_mod_7_gcd
example : gcd (modOps 7) (Modp.mk 7 6) (Modp.mk 7 14) = .ok (Modp.mk 7 6) ∧ gcd (modOps 7) (Modp.mk 7 6) (Modp.mk 7 9) = .ok (Modp.mk 7 2) := by
  decide +kernel
-- test_mod_large_gcd
example : gcd (modOps 9923) (Modp.mk 9923 4864) (Modp.mk 9923 3458) = .ok (Modp.mk 9923 38) ∧
    xgcd (modOps 9923) (Modp.mk 9923 4864) (Modp.mk 9923 3458) = .ok (Modp.mk 9923 32, Modp.mk 9923 (-45), Modp.mk 9923 38) := by
  decide +kernel

/-! ## starks/test/test_utils.py -/

-- test_mimc: a call that returns
example : (Utils.mimc 5 3 [2, 7]).isOk = true := by decide +kernel
-- test_get_power_cycle
example : Utils.getPowerCycle 10 ((3 : ZMod 31) ^ ((31 - 1) / 6)) = .ok [1, 26, 25, 30, 5, 6] := by decide +kernel

end Verif.Conformance
