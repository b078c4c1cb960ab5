import Verif.Props.Values
import Mathlib.Data.List.GetD
/-!
# C173: parity checks of the values at the powers of a root
-/

namespace Verif.Props
open Poly FFT
open scoped Polynomial

section
variable {K : Type} [Field K] [DecidableEq K]

/-- **C173**, coefficients: `n` times the coefficient at `j` of what `inv_fft` returns is the sum of the values times the powers of
`w^(n-j)`. -/
theorem C173_coefficient (p : Nat) [Fact p.Prime] [CharP K p] (w : K) (n k : Nat) (hn : n = 2 ^ k ∨ n = 3 * 2 ^ k) (hw : HasOrder w n) :
    ∃ N, ∀ fuel ≥ N, ∀ v : List K, v.length = n → ∃ f, nbInvFft fuel p w v = .ok f ∧ Canon f ∧ f.length ≤ n ∧
      ∀ j < n, (n : K) * f.getD j 0 = ∑ i ∈ Finset.range n, v.getD i 0 * (w ^ (n - j)) ^ i := by
  have hg := (good_iff n).2 ⟨k, hn⟩
  refine ⟨n, fun fuel h v hv => ⟨ctor ((dft w⁻¹ n v).map fun x => x * (n : K)⁻¹), ?_, canon_ctor _, ?_, fun j hj => ?_⟩⟩
  · simp only [nbInvFft, fft1d_inv hg w hw.eq p v (by omega) fuel h, bind, Except.bind]
  · exact length_le_of_canon (canon_ctor _) n fun i hi => by rw [toPoly_ctor]; exact coeff_eq_zero_of_length_le (by simp; omega)
  · rw [← coeff_toPoly, toPoly_ctor, toPoly_scale, Polynomial.coeff_C_mul, coeff_toPoly, List.getD_eq_getElem?_getD, dft_getElem? _ _ _ _ hj,
      Option.getD_some, ← mul_assoc, mul_inv_cancel₀ (cast_ne_zero hg.pos hw.eq), one_mul, eval_toPoly, hv]
    have hw1 : w ^ n = 1 := (primitive hw.eq).pow_eq_one
    have e : w⁻¹ ^ j = w ^ (n - j) := by
      rw [inv_pow]
      exact inv_eq_of_mul_eq_one_right (by rw [← pow_add, Nat.add_sub_cancel' hj.le, hw1])
    rw [e]

/-- **C173**, sums: the values of a polynomial of degree below `n` add up to `n` times its constant coefficient. -/
theorem C173_sum (p : Nat) (w : K) (n k : Nat) (hn : n = 2 ^ k ∨ n = 3 * 2 ^ k) (hw : HasOrder w n) (f : List K) (hf : f.length ≤ n) :
    ∃ N, ∀ fuel ≥ N, ∃ v, nbFft fuel p w f = .ok v ∧ v.sum = n * f.getD 0 0 := by
  refine ⟨n, fun fuel h => ⟨_, fft_values hn hw p hf h, ?_⟩⟩
  have hF : ∀ i, n ≤ i → (toPoly f).coeff i = 0 := fun i hi => coeff_eq_zero_of_length_le (by omega)
  have := congrArg (fun l : List K => l[0]?) (dft_inv hw.1 hw.eq (toPoly f) hF)
  have h0 : 0 < n := hw.1
  simp only [dft_getElem? _ _ _ _ h0, List.getElem?_map, List.getElem?_range h0, Option.map_some, Option.some.injEq] at this
  rw [← coeff_toPoly, ← this, pow_zero, eval_toPoly]
  simp only [List.length_map, List.length_range, one_pow, mul_one]
  change ∑ i ∈ Finset.range n, (toPoly f).eval (w ^ i) = _
  refine Finset.sum_congr rfl fun i hi => ?_
  rw [List.getD_eq_getElem?_getD, List.getElem?_map, List.getElem?_range (Finset.mem_range.1 hi)]
  rfl

/-- **C173**, parity checks: `n` values are those of a polynomial with at most `m` coefficients, the one `inv_fft` returns, exactly when
their products with the powers of `w^j` add up to 0 for `j = 1, …, n - m`. -/
theorem C173_parity (p : Nat) [Fact p.Prime] [CharP K p] (w : K) (n k : Nat) (hn : n = 2 ^ k ∨ n = 3 * 2 ^ k) (hw : HasOrder w n) :
    ∃ N, ∀ fuel ≥ N, ∀ v : List K, v.length = n → ∃ f, nbInvFft fuel p w v = .ok f ∧ nbFft fuel p w f = .ok v ∧
      ∀ m ≤ n, f.length ≤ m ↔ ∀ j, 1 ≤ j → j ≤ n - m → ∑ i ∈ Finset.range n, v.getD i 0 * (w ^ j) ^ i = 0 := by
  obtain ⟨N, hN⟩ := C173_coefficient p w n k hn hw
  obtain ⟨M, hM⟩ := C25_inverse_fft p w n k hn hw
  refine ⟨max N M, fun fuel h v hv => ?_⟩
  obtain ⟨f, h1, h2, h3, h4⟩ := hN fuel (le_trans (le_max_left _ _) h) v hv
  obtain ⟨g, g1, -, -, g2⟩ := (hM fuel (le_trans (le_max_right _ _) h)).2 v hv
  rw [h1] at g1
  cases g1
  have hn0 : (n : K) ≠ 0 := cast_ne_zero hw.1 hw.eq
  refine ⟨f, h1, g2, fun m hm => ⟨fun hf j hj hj' => ?_, fun hz => ?_⟩⟩
  · have := h4 (n - j) (by have := hw.1; omega)
    rw [Nat.sub_sub_self (by omega)] at this
    rw [← this, List.getD_eq_default (l := f) (d := 0) (n := n - j) (by omega), mul_zero]
  · refine length_le_of_canon h2 m fun i hi => ?_
    by_cases hin : i < n
    · have := h4 i hin
      rw [hz (n - i) (by omega) (by omega)] at this
      rw [coeff_toPoly]
      exact (mul_eq_zero.1 this).resolve_left hn0
    · exact coeff_eq_zero_of_length_le (by omega)

end

/-- `1 + 2x + 3x²` modulo 17 with `w = 2` of order 8: the values add up to 8 and pass the five checks, and with the first value changed they pass
none. This meets the hypotheses of `C173_coefficient`, `C173_sum` and `C173_parity`. -/
example : HasOrder (2 : Zp 17) 8 ∧ nbFft 8 17 (2 : Zp 17) [1, 2, 3] = .ok [6, 0, 6, 5, 2, 9, 7, 7] ∧ ([6, 0, 6, 5, 2, 9, 7, 7] : List (Zp 17)).sum = 8 ∧
    (∀ j ∈ Finset.Icc 1 5, ∑ i ∈ Finset.range 8, ([6, 0, 6, 5, 2, 9, 7, 7] : List (Zp 17)).getD i 0 * (2 ^ j) ^ i = 0) ∧
    (∀ j ∈ Finset.Icc 1 5, ∑ i ∈ Finset.range 8, ([7, 0, 6, 5, 2, 9, 7, 7] : List (Zp 17)).getD i 0 * (2 ^ j) ^ i ≠ 0) := by
  refine ⟨⟨by norm_num, by decide +kernel, fun j h1 h2 => by interval_cases j <;> decide +kernel⟩, by decide +kernel, by decide +kernel, by decide +kernel, by decide +kernel⟩

end Verif.Props
