import Verif.Props.BinaryField
import Verif.Props.AdditiveFFT
import Verif.Model.FloatingPoint
import Verif.Model.FFT
import Verif.Model.Typecheck

/-!
# The repository's own unit tests, run on the model: finite fields, floating point, transforms

Tests of the model (see `Verif/Conformance/Arithmetic.lean`), not proofs of properties.
-/
namespace Verif.Conformance
open Verif.FF Verif.Poly Verif.Float Verif.Props

/-- `x^4 + x + 1` over Z/2: the modulus of test_fft.py and test_floatingpoint.py -/
abbrev gf16 : List (Zp 2) := [1, 1, 0, 0, 1]

theorem irr_gf16 : Canon gf16 ∧ Irreducible (toPoly gf16) := by
  have hc : Canon gf16 := by intro a h; simp at h; subst h; decide +kernel
  refine ⟨hc, ?_⟩
  obtain ⟨b, h1, h2⟩ := isIrreducible_spec hc (by rw [natDegree_toPoly hc]; simp)
  rw [card_zp] at h1
  have : isIrreducible 2 gf16 = .ok true := by decide +kernel
  rw [this] at h1
  injection h1 with h1
  exact h2.1 h1.symm

instance modulus_gf16 : IsModulus gf16 := ⟨irr_gf16.1, irr_gf16.2⟩

/-! ## starks/test/test_finitefield.py -/

-- test_irreducibility
private instance fact3 : Fact (Nat.Prime 3) := ⟨by decide⟩
private instance fact5 : Fact (Nat.Prime 5) := ⟨by decide⟩
private instance fact7 : Fact (Nat.Prime 7) := ⟨by decide⟩
private instance fact11 : Fact (Nat.Prime 11) := ⟨by decide⟩
private instance fact13 : Fact (Nat.Prime 13) := ⟨by decide⟩
example : isIrreducible 2 (ctor [0, 1] : List (Zp 2)) = .ok true ∧ isIrreducible 2 (ctor [1, 0, 1] : List (Zp 2)) = .ok false ∧
    isIrreducible 3 (ctor [1, 0, 1] : List (Zp 3)) = .ok true ∧ isIrreducible 5 (ctor [1, 0, 0, 1] : List (Zp 5)) = .ok false ∧
    isIrreducible 7 (ctor [1, 0, 0, 1] : List (Zp 7)) = .ok false ∧ isIrreducible 11 (ctor [1, 0, 0, 1] : List (Zp 11)) = .ok false ∧
    isIrreducible 13 (ctor [-2, 0, 1] : List (Zp 13)) = .ok true := by
  decide +kernel

/-! ## starks/test/test_numbertype.py -/

theorem irr_gf9 : Canon ([1, 0, 1] : List (Zp 3)) ∧ Irreducible (toPoly ([1, 0, 1] : List (Zp 3))) := by
  have hc : Canon ([1, 0, 1] : List (Zp 3)) := by intro a h; simp at h; subst h; decide +kernel
  refine ⟨hc, ?_⟩
  obtain ⟨b, h1, h2⟩ := isIrreducible_spec hc (by rw [natDegree_toPoly hc]; simp)
  rw [card_zp] at h1
  have : isIrreducible 3 ([1, 0, 1] : List (Zp 3)) = .ok true := by decide +kernel
  rw [this] at h1
  injection h1 with h1
  exact h2.1 h1.symm

private instance modulus_gf9 : IsModulus ([1, 0, 1] : List (Zp 3)) := ⟨irr_gf9.1, irr_gf9.2⟩

open Typecheck in
-- test_typecast: `x + p` and `p + x` return
example : (binop .add (.zp 1 : Val 3 [1, 0, 1] 1) (.zpoly (CPoly.mk [1, 2]))).isOk = true ∧
    (binop .add (.zpoly (CPoly.mk [1, 2]) : Val 3 [1, 0, 1] 1) (.zp 1)).isOk = true := by decide +kernel

/-! ## starks/test/test_floatingpoint.py -/

/-- `field(polysOver(L))` -/
private def e (L : List (Zp 2)) : List (Zp 2) := ((ofPoly gf16 (ctor L)).toOption).getD []
private def fp (v p : List (Zp 2)) (z s : Nat) : Fp (Zp 2) := ⟨e v, e p, z, s⟩
/-- `x == r` where `r` is the outcome of an operation -/
private def is (x : Fp (Zp 2)) (r : Py (Fp (Zp 2))) : Py Bool := do let y ← r; .ok (Float.eq x y)

-- test_addition
example : is (fp [0] [1] 1 0) (add gf16 4 (fp [1, 1, 1] [1] 0 0) (fp [1, 1, 1] [1] 0 0)) = .ok true := by decide +kernel
example : is (fp [1, 1] [1, 1, 1] 0 0) (add gf16 4 (fp [1, 1] [1, 1, 1] 0 0) (fp [1] [0] 0 0)) = .ok true := by decide +kernel
example : is (fp [0, 1] [1, 1] 0 0) (add gf16 4 (fp [1, 0, 1] [1, 1] 0 1) (fp [1, 1, 1] [1, 1] 0 0)) = .ok true := by decide +kernel
example : is (fp [1, 0, 1] [1, 1] 0 1) (add gf16 4 (fp [1, 0, 1] [1, 1] 0 1) (fp [0] [0] 1 0)) = .ok true := by decide +kernel
-- test_subtraction
example : is (fp [0] [1] 1 1) (sub gf16 4 (fp [1, 1, 1] [1] 0 0) (fp [1, 1, 1] [1] 0 0)).1 = .ok true := by decide +kernel
example : is (fp [1, 1] [1, 1, 1] 0 0) (sub gf16 4 (fp [1, 1] [1, 1, 1] 0 0) (fp [1] [0] 0 0)).1 = .ok true := by decide +kernel
example : is (fp [0, 1, 1, 1] [1, 1] 0 1) (sub gf16 4 (fp [1, 0, 1] [1, 1] 0 1) (fp [1, 1, 1] [1, 1] 0 0)).1 = .ok true := by decide +kernel
example : is (fp [1, 1, 1] [1] 0 1) (sub gf16 4 (fp [0] [0] 1 0) (fp [1, 1, 1] [1] 0 0)).1 = .ok true := by decide +kernel
-- test_multiplication
example : is (fp [0] [0] 0 0) (mul gf16 4 (fp [0] [0] 0 0) (fp [1, 1, 1] [1, 1, 1] 0 0)) = .ok true := by decide +kernel
example : is (fp [0] [0] 0 0) (mul gf16 4 (fp [0] [0] 0 0) (fp [0] [0] 0 0)) = .ok true := by decide +kernel
example : is (fp [1, 1, 1] [1] 0 0) (mul gf16 4 (fp [1] [0] 0 0) (fp [1, 1, 1] [1] 0 0)) = .ok true := by decide +kernel
example : is (fp [1, 1, 1, 1] [1, 0, 1] 0 1) (mul gf16 4 (fp [1, 0, 1] [1, 1] 0 1) (fp [1, 1] [1, 1, 1] 0 0)) = .ok true := by decide +kernel
-- test_division
example : is (fp [1, 1, 1] [1] 0 0) (Float.truediv gf16 4 (fp [1, 1, 1] [1] 0 0) (fp [1] [0] 0 0)) = .ok true := by decide +kernel
example : is (fp [1, 1] [0, 1, 1] 0 1) (Float.truediv gf16 4 (fp [1, 0, 1] [1, 1] 0 1) (fp [1, 1] [1, 1, 1] 0 0)) = .ok true := by
  decide +kernel
example : is (fp [0, 1, 1] [1] 0 0) (Float.truediv gf16 4 (fp [1] [0] 0 0) (fp [1, 1, 1] [1] 0 0)) = .ok true := by decide +kernel
-- test_exponentiation
example : is (fp [1, 1, 1] [1] 0 0) (Float.pow gf16 4 20 (fp [1, 1, 1] [1] 0 0) (fp [1] [0] 0 0)) = .ok true := by decide +kernel
example : is (fp [1] [0] 0 0) (Float.pow gf16 4 20 (fp [1, 1, 1] [1] 0 0) (fp [0] [0] 0 0)) = .ok true := by decide +kernel
example : is (fp [1, 1, 1] [0] 0 0) (Float.pow gf16 4 20 (fp [1, 1, 1] [1] 0 0) (fp [1] [0, 1] 0 0)) = .ok true := by decide +kernel

/-! ## starks/test/test_fft.py -/

open AdditiveFFT in
-- test_Taylor_Expansion: both expansions return a pair of elements of degree at most 3
example : (match taylor (eltBits gf16) (eltOfBits gf16) (eltOfBits gf16 [true, true, false, true]) 3 with
    | .ok (.inr (a, b)) => decide (degree a.1 ≤ 3 ∧ degree b.1 ≤ 3) | _ => false) = true ∧
  (match taylor (eltBits gf16) (eltOfBits gf16) (eltOfBits gf16 [true, false, true, true]) 3 with
    | .ok (.inr (a, b)) => decide (degree a.1 ≤ 3 ∧ degree b.1 ≤ 3) | _ => false) = true := by decide +kernel
open AdditiveFFT in
-- test_adfft: the call returns
example : (adfft (eltBits gf16) (eltOfBits gf16) 2 (eltOfBits gf16 [true, true, false, true])
    [eltOfBits gf16 [true, false, true], eltOfBits gf16 [false, true, true]]).isOk = true := by decide +kernel
open AdditiveFFT in
-- test_adfft_inverse: the call returns
example : (adfftInv (eltBits gf16) (eltOfBits gf16) 3
    ([[true, false, false], [true, true, true], [true, false], [true, true], [true, true, true], [true, false, false], [true],
      [true]].map (eltOfBits gf16))
    ([[true, true], [false, false, true], [false, true], [false, true, true], [true, false, true], [true, true, true], [false],
      [true, true]].map (eltOfBits gf16))).isOk = true := by decide +kernel
-- test_basic, test_fft_output_type
private instance fact31 : Fact (Nat.Prime 31) := ⟨by decide⟩
example : (do let ev ← FFT.nbFft 40 31 ((3 : ZMod 31) ^ ((31 - 1) / 6)) [0, 1, 2, 3]; .ok ev.length) = (.ok 6 : Py Nat) := by
  decide +kernel
-- test_fft_inv
example : (do let ev ← FFT.nbFft 40 31 ((3 : ZMod 31) ^ ((31 - 1) / 6)) [0, 1, 2, 3]
              let inv ← FFT.nbInvFft 40 31 ((3 : ZMod 31) ^ ((31 - 1) / 6)) ev
              .ok (Poly.eq inv (ctor [0, 1, 2, 3]))) = (.ok true : Py Bool) := by decide +kernel

end Verif.Conformance
