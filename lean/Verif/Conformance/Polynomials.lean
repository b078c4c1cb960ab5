import Verif.Props.BinaryField
import Verif.Model.Polynomial
import Verif.Model.PolyUtils
import Verif.Model.MvUtils
import Verif.Model.Gauss
import Verif.Model.ReedSolomon
import Verif.Model.Air
import Verif.Model.MvString
import Verif.Proofs.Apr
import Mathlib.Data.Rat.Defs
import Mathlib.Tactic.NormNum.Prime

/-!
# The repository's own unit tests, run on the model: polynomials

Tests of the model (see `Verif/Conformance/Arithmetic.lean`), not proofs of properties.
-/
namespace Verif.Conformance
open Verif.FF Verif.Poly Verif.PolyUtils

private instance fact3 : Fact (Nat.Prime 3) := ⟨by decide⟩
private instance fact5 : Fact (Nat.Prime 5) := ⟨by decide⟩
private instance fact7 : Fact (Nat.Prime 7) := ⟨by decide⟩
private instance fact11 : Fact (Nat.Prime 11) := ⟨by decide⟩

/-! ## starks/test/test_polynomial.py

Each test runs over the rationals, Z/5 and Z/11. -/

/-- `p(L)` -/
private def P (K : Type) [Field K] [DecidableEq K] (L : List Int) : List K := ctor (L.map fun z : Int => (z : K))
/-- `p(L) == r` where `r` is the outcome of an operation -/
private def is {K : Type} [Field K] [DecidableEq K] (x : List K) (r : Py (List K)) : Py Bool := do let y ← r; .ok (Poly.eq x y)
/-- all the assertions of test_equality … test_modulus for one coefficient class -/
private def battery (K : Type) [Field K] [DecidableEq K] : List (Py Bool) :=
  let p := P K
  [-- test_equality
   is (p []) (.ok (p [])), is (p [1, 2]) (.ok (p [1, 2])), is (p [1, 2, 0]) (.ok (p [1, 2, 0, 0])),
   -- test_addition
   is (p [1, 2, 3]) (.ok (add (p [1, 0, 3]) (p [0, 2]))), is (p [1, 2, 3]) (.ok (add (p [1, 2, 3]) (p []))),
   is (p [5, 2, 3]) (.ok (add (p [4]) (p [1, 2, 3]))), is (p [1, 2]) (.ok (add (p [1, 2, 3]) (p [0, 0, -3]))),
   -- test_subtraction
   is (p [1, -2, 3]) (.ok (sub (p [1, 0, 3]) (p [0, 2]))), is (p [1, 2, 3]) (.ok (sub (p [1, 2, 3]) (p []))),
   is (p [-1, -2, -3]) (.ok (sub (p []) (p [1, 2, 3]))),
   -- test_multiplication
   is (p [1, 2, 1]) (.ok (mul (p [1, 1]) (p [1, 1]))), is (p [2, 5, 5, 3]) (.ok (mul (p [2, 3]) (p [1, 1, 1]))),
   is (p [0, 7, 49]) (.ok (mul (p [0, 1, 7]) (p [7]))),
   -- test_division
   is (p [1, 1, 1, 1, 1, 1]) (truediv (p [-1, 0, 0, 0, 0, 0, 1]) (p [-1, 1])),
   is (p [-1, 1, -1, 1, -1, 1]) (truediv (p [1, 0, 0, 0, 0, 0, 1]) (p [1, 1])),
   is (p []) (truediv (p []) (p [1, 1])), is (p [1, 1]) (truediv (p [1, 1]) (p [1])),
   is (p [1, 1]) (truediv (p [2, 2]) (p [2])),
   -- test_modulus
   is (p []) (mod (p [1, 7, 49]) (p [7])), is (p [-7]) (mod (p [-3, 10, -5, 3]) (p [1, 3]))]

-- every assertion holds over the three classes
example : battery ℚ = List.replicate 20 (.ok true) := by decide +kernel
example : battery (ZMod 11) = List.replicate 20 (.ok true) := by decide +kernel
example : battery (ZMod 5) = List.replicate 20 (.ok true) := by decide +kernel

-- test_division_more
example : is ([1 / 7, 1, 7] : List ℚ) (truediv (P ℚ [1, 7, 49]) (P ℚ [7])) = .ok true ∧
    is ([1 / 7, 1, 7] : List (ZMod 5)) (truediv (P _ [1, 7, 49]) (P _ [7])) = .ok true ∧
    is ([1 / 7, 1, 7] : List (ZMod 11)) (truediv (P _ [1, 7, 49]) (P _ [7])) = .ok true := by decide +kernel
-- test_polynomial_call
example : call ([1, 1] : List (ZMod 5)) (3 : ZMod 5) = 3 + 1 ∧ call ([1, 1, 1] : List (ZMod 5)) (3 : ZMod 5) = 1 + 3 + 3 ^ 2 ∧
    call ([1, 1, 1] : List (ZMod 5)) (3 : ZMod 5) = 3 := by decide +kernel

/-! ## starks/test/test_poly_utils.py -/

-- test_zpoly
example : call (zpoly [(3 : ZMod 7)]) (3 : ZMod 7) = 0 ∧ Poly.eq (zpoly [(3 : ZMod 7)]) [-3, 1] = true ∧
    call (zpoly [(1 : ZMod 7), 2]) (1 : ZMod 7) = 0 ∧ call (zpoly [(1 : ZMod 7), 2]) (2 : ZMod 7) = 0 ∧
    Poly.eq (zpoly [(1 : ZMod 7), 2]) [2, -3, 1] = true := by decide +kernel
-- test_multi_inv (the first three)
example : multiInv eltTruthy recip [(6 : ZMod 7), 6, 6] = .ok [6, 6, 6] ∧ multiInv eltTruthy recip [(6 : ZMod 7), 1, 6] = .ok [6, 1, 6] ∧
    (multiInv eltTruthy recip [(0 : ZMod 7), 1, 1]).isOk = true := by decide +kernel
-- test_lagrange_interp
example : lagrangeInterp [(1 : ZMod 7), 6] [1, 6] = .ok (ctor [0, 1]) ∧ lagrangeInterp [(1 : ZMod 7), 6] [0, 0] = .ok (ctor [0]) := by
  decide +kernel
-- test_lagrange_interp_4, test_lagrange_interp_2, test_multi_interp_4
example : lagrangeInterp4 [(1 : ZMod 7), 2, 3, 6] [1, 2, 3, 6] = .ok (ctor [0, 1]) ∧ lagrangeInterp2 [(1 : ZMod 7), 2] [1, 2] = .ok (ctor [0, 1]) ∧
    multiInterp4 [[(1 : ZMod 7), 2, 3, 6], [1, 2, 3, 6]] [[1, 2, 3, 6], [1, 2, 3, 6]] = .ok [ctor [0, 1], ctor [0, 1]] := by
  decide +kernel
-- test_is_monic
example : isMonic (ctor [1, 1, 1] : List (ZMod 3)) = .ok true ∧ isMonic (ctor [1, 1, 2] : List (ZMod 3)) = .ok false := by decide +kernel
-- test_gauss, whichever coefficients are taken to be the same object (poly_utils.py:148 tests identity)
private def gaussInput : Gauss.Mat (CPoly (Zp 2)) := fun a b =>
  (([[[1, 1], [0], [0, 1], [1]], [[1], [0], [0, 1], [1, 1]], [[1, 0], [0, 1], [0, 1], [1]]].getD a []).map CPoly.mk).getD b 0
example : ∀ same : Bool, ((Gauss.gaussPoly (fun _ _ _ => same) (fun c => decide (c = 1)) gaussInput 3).map Prod.fst).map
    (·.map fun c => c.1) = .ok [[1], [1], [1]] := by decide +kernel

-- test_construct_multivariate_dirac_delta (Z/3, three variables)
private def diracAt (values pt : List (ZMod 3)) : Py (ZMod 3) := do
  match ← Mv.dirac 3 3 values with
  | none => .error .attributeError
  | some d => Mv.call 3 d pt
example : diracAt [0, 0, 0] [0, 0, 0] = .ok 1 ∧ diracAt [0, 0, 0] [1, 0, 0] = .ok 0 ∧ diracAt [0, 0, 0] [0, 1, 0] = .ok 0 ∧
    diracAt [0, 0, 0] [0, 0, 1] = .ok 0 ∧ diracAt [1, 1, 1] [1, 1, 1] = .ok 1 ∧ diracAt [1, 1, 1] [1, 0, 0] = .ok 0 ∧
    diracAt [1, 1, 1] [0, 1, 0] = .ok 0 ∧ diracAt [1, 1, 1] [0, 0, 1] = .ok 0 := by decide +kernel
-- test_construct_multivariate_coefficients
example : (do let q ← Mv.coefficients 7 1 7 3 (fun x : List (ZMod 7) => do let a ← pyIdx x 0; .ok (a + 1))
              .ok (Mv.eq q (Mv.ofDict [([0, 0, 0], 1), ([1, 0, 0], 1)]))) = (.ok true : Py Bool) := by decide +kernel
-- test_project_multivar: the call returns
example : (Mv.project 3 0 (Mv.ofDict [([1, 1, 0], (1 : ZMod 7))])).isOk = true := by decide +kernel

/-! ## starks/test/test_multivariate.py (Z/7, three variables) -/

private abbrev D := Mv.Dict (ZMod 7)
private def m (d : D) : D := Mv.ofDict d
private def y1 : D := m [([0, 1, 0], 1)]
private def y2 : D := m [([0, 2, 0], 1)]
private def xy : D := m [([1, 0, 0], 1), ([0, 1, 0], 1)]
private def xy2 : D := m [([2, 0, 0], 1), ([1, 1, 0], 2), ([0, 2, 0], 1)]
-- test_basic_construction
example : Mv.eq (Mv.ofElt 3 0 : D) (m []) = true := by decide +kernel
-- test_degree
example : Mv.degree y1 = 1 ∧ Mv.degree (m [([1, 0, 0], 1), ([0, 1, 0], 1), ([0, 0, 1], 1)]) = 1 ∧
    Mv.degree (m [([2, 0, 0], 1), ([0, 2, 0], 1), ([0, 0, 2], 1)]) = 2 ∧
    Mv.degree (m [([1, 1, 0], 1), ([0, 1, 1], 1), ([1, 0, 1], 1)]) = 2 := by decide +kernel
-- test_eq
example : Mv.eq (m []) (m []) = true ∧ Mv.eq y1 y1 = true ∧ Mv.eq (m []) y1 = false := by decide +kernel
-- test_neg
example : Mv.eq (m []) (Mv.neg (m [])) = true ∧ Mv.eq (m [([0, 1, 0], -1)]) (Mv.neg y1) = true := by decide +kernel
-- test_add
example : Mv.eq (m []) (Mv.add (m []) (m [])) = true ∧ Mv.eq y1 (Mv.add y1 (m [])) = true := by decide +kernel
-- test_mul
example : Mv.eq (m []) (Mv.mul (m []) (m [])) = true ∧ Mv.eq y2 (Mv.mul y1 y1) = true ∧ Mv.eq xy2 (Mv.mul xy xy) = true := by
  decide +kernel
-- test_cross_mul: the element on the left is converted to a constant (C103)
example : Mv.eq (m [([0, 1, 0], 3)]) (Mv.mul (Mv.ofElt 3 3) y1) = true := by decide +kernel
-- test_exponentiation
example : (do let z ← Mv.pow 3 (m []) 2; let a ← Mv.pow 3 y1 2; let b ← Mv.pow 3 xy 2
              .ok (Mv.eq (m []) z, Mv.eq y2 a, Mv.eq xy2 b)) = (.ok (true, true, true) : Py (Bool × Bool × Bool)) := by decide +kernel
-- test_call
example : Mv.call 3 (m []) [(1 : ZMod 7), 1, 1] = .ok 0 ∧ Mv.call 3 y1 [(1 : ZMod 7), 1, 1] = .ok 1 ∧
    Mv.call 3 xy2 [(1 : ZMod 7), 1, 1] = .ok 4 := by decide +kernel
-- test_div, given what sympy prints for the two divisions
example : MvString.truediv (R := ZMod 7) (fun _ _ => .ok "(Poly(X_2, X_1, X_2, X_3, domain='ZZ'), Poly(0, X_1, X_2, X_3, domain='ZZ'))".toList)
    3 [([0, 2, 0], ['1'])] [([0, 1, 0], ['1'])] = .ok y1 ∧
  MvString.truediv (R := ZMod 7) (fun _ _ => .ok "(Poly(X_1 + X_2, X_1, X_2, X_3, domain='ZZ'), Poly(0, X_1, X_2, X_3, domain='ZZ'))".toList)
    3 [([2, 0, 0], ['1']), ([1, 1, 0], ['2']), ([0, 2, 0], ['1'])] [([1, 0, 0], ['1']), ([0, 1, 0], ['1'])] = .ok (Mv.ofDict xy) := by
  decide +kernel

/-! ## starks/test/test_air.py -/

-- test_higher_dim_trace (the numbers are small, so the modulus 2**256 - 2**32 * 351 + 1 is replaced by 101)
example : Air.getTrace 2 [(0 : ZMod 101), 1] 5 2 [Mv.xi 2 1, Mv.add (Mv.xi 2 0) (Mv.xi 2 1)] =
    .ok ([[0, 1], [1, 1], [1, 2], [2, 3], [3, 5]], [3, 5]) := by decide +kernel

/-! ## starks/test/test_apr.py: both tests construct an AIR with 7 or 3 steps, which air.py:99 rejects -/

example : (Air.mkAIR 2 2 [(0 : ZMod 101), 1] 7 [Mv.xi 2 1, Mv.add (Mv.xi 2 0) (Mv.xi 2 1)]).toOption = none ∧
    (Air.mkAIR 2 2 [(0 : ZMod 101), 1] 3 [Mv.xi 2 1, Mv.add (Mv.xi 2 0) (Mv.xi 2 1)]).toOption.isNone = true := by
  constructor <;> rfl

/-! ## starks/test/test_reedsolomon.py -/

-- test_affine_space_iteration: four elements
example : (do let l ← ReedSolomon.affineIter (ReedSolomon.zpIter 2 (fun z : Int => (Zp.ofInt z : Zp 2))) [(1 : CPoly (Zp 2)), CPoly.mk [0, 1]] 0
              .ok l.length) = (.ok 4 : Py Nat) := by decide +kernel

end Verif.Conformance
