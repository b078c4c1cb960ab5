import Verif.Proofs.Rounds
import Verif.Proofs.SmallPrimes
import Verif.Proofs.Modulus
/-!
# C131: few rounds, shallow recursion

The fuel of the modelled loops counts rounds, and the fuel of the modelled recursions counts nested calls: a run that needs more
gives `PyErr.diverge`.  "At most `n` rounds" reads: every amount of fuel above `n` gives the same result.
-/

namespace Verif.Props
open Poly FFT

/-- **C131**, Euclid's algorithm: if the smaller of the two numbers has `k` bits, `gcd` divides at most `2 k` times; the extended
algorithm, which looks for inverses, too (`b` is the smaller number there). -/
theorem C131_euclid (a b : Int) (k : Nat) :
    (min a.natAbs b.natAbs < 2 ^ k → ∃ r, gcd intOps a b = .ok r ∧ ∀ fuel, 2 * k < fuel →
      gcdLoop intOps fuel (if a.natAbs < b.natAbs then b else a) (if a.natAbs < b.natAbs then a else b) = .ok r) ∧
    (b.natAbs < 2 ^ k → ∃ r, xgcdOrdered intOps a b = .ok r ∧ ∀ fuel, 2 * k < fuel → xgcdLoop intOps fuel a b 1 0 0 1 = .ok r) :=
  ⟨Rounds.gcd_rounds a b k, Rounds.xgcd_rounds a b k⟩

/-- This meets the hypotheses of `C131_euclid`: the prime of `mimc` and a number of 30 bits. -/
example : (1000000007 : Int).natAbs < 2 ^ 30 ∧
    xgcdLoop intOps 61 Utils.mimcModulus 1000000007 1 0 0 1 = xgcdOrdered intOps Utils.mimcModulus 1000000007 ∧
    gcdLoop intOps 5 144 89 = .error .diverge ∧ gcdLoop intOps 15 144 89 = .ok 1 := by decide +kernel

/-- **C131**, `x ** n` in any type that inherits `__pow__`: at most `k` rounds for an exponent of `k + 1` bits. -/
theorem C131_pow {α : Type _} (one : α) (mul : α → α → α) (x : α) (n : Int) (k : Nat) (hk : n < 2 ^ (k + 1)) :
    ∃ r, pyPow one mul x n = .ok r ∧
      ∀ fuel, k < fuel → powLoop (fun a b => .ok (mul a b)) n fuel 2 x (if n.fmod 2 = 1 then x else one) = .ok r :=
  Rounds.pow_rounds one mul x n k hk

/-- This meets the hypotheses of `C131_pow`. -/
example : (1000000006 : Int) < 2 ^ (29 + 1) ∧ powLoop (fun a b => .ok (a * b % 1000000007 : Nat)) 1000000006 30 2 5 1 = .ok 1 ∧
    powLoop (fun a b => .ok (a * b % 1000000007 : Nat)) 1000000006 29 2 5 1 = .error .diverge := by decide +kernel

/-- **C131**, `x ** n` in an extension field is recursive: at most `2 k + 1` nested calls for an exponent of `k + 1` bits. -/
theorem C131_pow_extension {p : Nat} [Fact p.Prime] (f a : List (Zp p)) (n : Int) (h0 : 0 ≤ n) (k : Nat) (hk : n < 2 ^ (k + 1)) (fuel : Nat)
    (hf : 2 * k < fuel) : FF.fqPow f a fuel n = FF.fqPow f a (2 * k + 1) n := Rounds.fqPow_stable f a k n h0 hk fuel hf

/-- This meets the hypotheses of `C131_pow_extension`; the depth is needed. -/
example : (0 : Int) ≤ 15 ∧ (15 : Int) < 2 ^ (3 + 1) ∧ FF.fqPow ([1, 0, 1] : List (Zp 3)) [1, 1] 7 15 = .ok [2, 1] ∧
    FF.fqPow ([1, 0, 1] : List (Zp 3)) [1, 1] 6 15 = .error .diverge := by decide +kernel

/-- **C131**, `is_a_power_of_2(x)` and the loop of `decompose(x)`: `d` nested calls (rounds) are too few exactly when `2^d` divides `x`;
so the depth is at most the number of bits, and no depth is enough for 0. -/
theorem C131_power_of_2 (d : Nat) (x : Int) :
    (Utils.isAPowerOf2 d x = .error .diverge ↔ (2 : Int) ^ d ∣ x) ∧
    (∀ e, Primality.decomposeLoop d e x = .error .diverge ↔ (2 : Int) ^ d ∣ x) :=
  ⟨Rounds.isAPowerOf2_diverge d x, fun e => Rounds.decomposeLoop_diverge d e x⟩

example : Utils.isAPowerOf2 10 1024 = .error .diverge ∧ Utils.isAPowerOf2 11 1024 = .ok true ∧ Utils.isAPowerOf2 4 24 = .ok false ∧
    Utils.isAPowerOf2 3 24 = .error .diverge := by decide +kernel

/-- **C131**, the recursive Fourier transform: `d + 1` nested calls are too few exactly when there are more than `4 * 2^d` values, and
deeper recursion changes nothing otherwise. -/
theorem C131_fft {K : Type _} [Field K] (d : Nat) (vals roots : List K) :
    (fftRec (d + 1) vals roots = .error .diverge ↔ 4 * 2 ^ d < vals.length) ∧
    (vals.length ≤ 4 * 2 ^ d → fft vals roots = fftRec (d + 1) vals roots) := by
  refine ⟨Rounds.fftRec_diverge d vals roots, fun h => ?_⟩
  by_cases hd : d ≤ vals.length
  · by_cases hd' : d = vals.length
    · rw [fft, hd']
    · exact Rounds.fftRec_stable d vals roots h _ (by omega)
  · rw [fft]
    have h1 : vals.length < 2 ^ vals.length := Nat.lt_two_pow_self
    exact (Rounds.fftRec_stable vals.length vals roots (by omega) (d + 1) (by omega)).symm

/-- This meets the hypotheses of `C131_fft`. -/
example : (fftRec 2 ([1, 2, 3, 4, 5, 6, 7, 8] : List (Zp 17)) [1, 2, 4, 8, 16, 15, 13, 9]).toOption =
      (fft ([1, 2, 3, 4, 5, 6, 7, 8] : List (Zp 17)) [1, 2, 4, 8, 16, 15, 13, 9]).toOption ∧
    (fftRec 2 ([1, 2, 3, 4, 5, 6, 7, 8] : List (Zp 17)) [1, 2, 4, 8, 16, 15, 13, 9]).toOption = some [2, 8, 14, 6, 13, 3, 12, 1] ∧
    fftRec 1 ([1, 2, 3, 4, 5, 6, 7, 8] : List (Zp 17)) [1, 2, 4, 8, 16, 15, 13, 9] = .error .diverge := by decide +kernel

/-- **C131**, the recursive prover of the proximity test: `k + 1` nested calls for a degree bound below `17 * 4^k`. -/
theorem C131_prover {p : Nat} [Fact p.Prime] (fuel : Nat) (blake : Bytes → Bytes) (f : List (Zp p)) (w : Zp p) (d e factor k : Nat)
    (hd : d < 17 * 4 ^ k) : SmoothFri.prove fuel blake f w d e factor = SmoothFri.proveRec fuel blake (k + 1) f w d e factor := by
  unfold SmoothFri.prove
  by_cases h : k ≤ d
  · exact Rounds.proveRec_stable fuel blake k f w d e factor hd _ (by omega)
  · have h1 : d < 4 ^ d := Nat.lt_pow_self (by omega)
    exact (Rounds.proveRec_stable fuel blake d f w d e factor (by omega) (k + 1) (by omega)).symm

/-- This meets the hypotheses of `C131_prover`: a million coefficients need nine nested calls at most. -/
example : 1000000 < 17 * 4 ^ 8 := by decide +kernel

end Verif.Props
