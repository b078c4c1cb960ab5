import Verif.Proofs.FFT
import Verif.Proofs.Modp
import Verif.Proofs.SmallPrimes
/-!
# C24–C26: the multiplicative FFT

`HasOrder w n`: `n` is the multiplicative order of `w`.  `(toPoly f).eval` is Mathlib's polynomial evaluation.
-/

namespace Verif.Props
open Poly FFT
open scoped Polynomial

/-- `n ≥ 1` is the least positive exponent with `w^n = 1`. -/
def HasOrder {K : Type} [Field K] (w : K) (n : Nat) : Prop := 0 < n ∧ w ^ n = 1 ∧ ∀ j, 0 < j → j < n → w ^ j ≠ 1

theorem HasOrder.eq {K : Type} [Field K] {w : K} {n : Nat} (h : HasOrder w n) : orderOf w = n :=
  (orderOf_eq_iff h.1).2 ⟨h.2.1, fun m h2 h3 => h.2.2 m h3 h2⟩

section
variable {K : Type} [Field K] [DecidableEq K]

/-- **C24**. If `w` has order `n = 2^k` or `n = 3·2^k`, `NonBinaryFFT(field, w).fft(f)` returns `[f(1), f(w), …, f(w^(n-1))]`
for every `f` with at most `n` coefficients. -/
theorem C24_fft (w : K) (n k : Nat) (hn : n = 2 ^ k ∨ n = 3 * 2 ^ k) (hw : HasOrder w n) (p : Nat) (f : List K)
    (hf : f.length ≤ n) :
    ∃ N, ∀ fuel ≥ N, nbFft fuel p w f = .ok ((List.range n).map fun i => (toPoly f).eval (w ^ i)) :=
  ⟨n, fun fuel h => fft1d_fwd ((good_iff n).2 ⟨k, hn⟩) w hw.eq p f hf fuel h⟩

/-- **C24**, the sizes are the right ones: for every other order the transform raises `IndexError` on every polynomial of
degree below `n`, forward and inverse; and for a `w` of infinite order (or `w = 0`) it never returns. -/
theorem C24_other_sizes (w : K) (p : Nat) (f : List K) :
    (∀ n, (∀ k, n ≠ 2 ^ k ∧ n ≠ 3 * 2 ^ k) → HasOrder w n → f.length ≤ n →
      ∃ N, ∀ fuel ≥ N, nbFft fuel p w f = .error .indexError ∧ nbInvFft fuel p w f = .error .indexError) ∧
    ((∀ j, 0 < j → w ^ j ≠ 1) → ∀ fuel, nbFft fuel p w f = .error .diverge ∧ nbInvFft fuel p w f = .error .diverge) := by
  constructor
  · intro n hk hw hf
    have hg : ¬ Good n := fun h => by
      obtain ⟨k, h | h⟩ := (good_iff n).1 h
      · exact (hk k).1 h
      · exact (hk k).2 h
    refine ⟨n, fun fuel h => ⟨fft1d_bad hw.1 hg w hw.eq p f hf false fuel h, ?_⟩⟩
    rw [nbInvFft, fft1d_bad hw.1 hg w hw.eq p f hf true fuel h]; rfl
  · intro h fuel
    have h0 : orderOf w = 0 := by rw [orderOf_eq_zero_iff']; exact fun n hn => h n hn
    constructor
    · rw [nbFft, fft1d, rootz_div w h0]; rfl
    · rw [nbInvFft, fft1d, rootz_div w h0]; rfl

/-- **C24**, the bound on the degree is needed: for a list of more than `n` coefficients, any result is as long as the list (so it is not the
list of the `n` values), and for at most four coefficients it holds the values of the first `n` terms only. -/
theorem C24_large_degree (w : K) (n k : Nat) (hn : n = 2 ^ k ∨ n = 3 * 2 ^ k) (hw : HasOrder w n) (p : Nat) (f : List K)
    (hf : n < f.length) :
    ∃ N, ∀ fuel ≥ N,
      (4 < f.length → ∀ r, nbFft fuel p w f = .ok r → r.length = f.length) ∧
      (f.length ≤ 4 → nbFft fuel p w f = .ok ((List.range n).map fun i => (toPoly (f.take n)).eval (w ^ i))) :=
  ⟨n, fun fuel h => ⟨fun h4 r hr => nbFft_long hw.1 w hw.eq p fuel h f r h4 hf.le hr,
    fun h4 => nbFft_short ((good_iff n).2 ⟨k, hn⟩) w hw.eq p fuel h f h4 hf.le⟩⟩

/-- Nine coefficients and eight points in `ℤ/17`: nine values; three coefficients and two points: the values of `1 + x`. -/
example : (∃ r, nbFft 20 17 (Zp.ofInt 2 : Zp 17) [1, 1, 1, 1, 1, 1, 1, 1, 1] = .ok r ∧ r.length = 9) ∧
    nbFft 20 17 (Zp.ofInt 16 : Zp 17) [1, 1, 1] = .ok [2, 0] := by
  refine ⟨⟨_, rfl, ?_⟩, ?_⟩ <;> decide +kernel

/-- **C25**. In a field of prime characteristic `p`, with `w` of order `n = 2^k` or `3·2^k`: `inv_fft(fft(f)) = f` for every
polynomial of degree below `n`, and `fft(inv_fft(v)) = v` for every list of `n` values; neither raises. -/
theorem C25_inverse_fft (p : Nat) [Fact p.Prime] [CharP K p] (w : K) (n k : Nat) (hn : n = 2 ^ k ∨ n = 3 * 2 ^ k)
    (hw : HasOrder w n) :
    ∃ N, ∀ fuel ≥ N,
      (∀ f : List K, Canon f → degree f < n → ∃ v, nbFft fuel p w f = .ok v ∧ v.length = n ∧ nbInvFft fuel p w v = .ok f) ∧
      (∀ v : List K, v.length = n → ∃ f, nbInvFft fuel p w v = .ok f ∧ Canon f ∧ degree f < n ∧ nbFft fuel p w f = .ok v) := by
  have hg := (good_iff n).2 ⟨k, hn⟩
  refine ⟨n, fun fuel hfuel => ⟨?_, ?_⟩⟩
  · intro f hc hd
    have hl : f.length ≤ n := by unfold degree pabs at hd; omega
    refine ⟨_, fft1d_fwd hg w hw.eq p f hl fuel hfuel, by simp, ?_⟩
    simp only [nbInvFft, fft1d_inv hg w hw.eq p (dft w n f) (by simp) fuel hfuel, bind, Except.bind]
    rw [dft_inv_dft hg.pos hw.eq f hc hl]
  · intro v hv
    have e : nbInvFft fuel p w v = .ok (ctor ((dft w⁻¹ n v).map fun x => x * (n : K)⁻¹)) := by
      simp only [nbInvFft, fft1d_inv hg w hw.eq p v hv.le fuel hfuel, bind, Except.bind]
    have hl : (ctor ((dft w⁻¹ n v).map fun x => x * (n : K)⁻¹)).length ≤ n :=
      length_le_of_canon (canon_ctor _) n (fun i hi => by
        rw [toPoly_ctor]; exact coeff_eq_zero_of_length_le (by simpa using hi))
    refine ⟨_, e, canon_ctor _, by unfold degree pabs; omega, ?_⟩
    rw [nbFft, fft1d_fwd hg w hw.eq p _ hl fuel hfuel, dft_congr w n (toPoly_ctor _), dft_dft_inv hg.pos hw.eq v hv]

/-- **C26**, part. `mul_polys(a, b, w)` returns `n` times the coefficients of `a·b` (it lacks the `1/n` of the inverse
transform).  So the claim holds where `n = 1` in the field; it fails otherwise (`C26_mul_polys_refuted`). -/
theorem C26_mul_polys_partial (w : K) (n k : Nat) (hn : n = 2 ^ k ∨ n = 3 * 2 ^ k) (hw : HasOrder w n) (a b : List K)
    (ha : a.length ≤ n) (hb : b.length ≤ n) (hab : (toPoly a * toPoly b).degree < n) :
    ∃ N, ∀ fuel ≥ N, mulPolys fuel a b w = .ok ((List.range n).map fun i => n * (toPoly a * toPoly b).coeff i) ∧
      ((n : K) = 1 → ∃ r, mulPolys fuel a b w = .ok r ∧ r.length = n ∧ toPoly r = toPoly a * toPoly b) := by
  have hc : ∀ i, n ≤ i → (toPoly a * toPoly b).coeff i = 0 := fun i hi =>
    Polynomial.coeff_eq_zero_of_degree_lt (lt_of_lt_of_le hab (by exact_mod_cast hi))
  refine ⟨n, fun fuel h => ?_⟩
  have e := mulPolys_ok ((good_iff n).2 ⟨k, hn⟩) w hw.eq a b ha hb hc fuel h
  refine ⟨e, fun h1 => ⟨_, e, by simp, ?_⟩⟩
  simp only [h1, one_mul]
  exact toPoly_range _ _ hc

/-- **C26**, what is computed for all arguments that fit the domain: `n` times the product modulo `X^n - 1`, so a product of degree `n` or
more wraps around. -/
theorem C26_mul_polys_actual (w : K) (n k : Nat) (hn : n = 2 ^ k ∨ n = 3 * 2 ^ k) (hw : HasOrder w n) (a b : List K)
    (ha : a.length ≤ n) (hb : b.length ≤ n) :
    ∃ N, ∀ fuel ≥ N, mulPolys fuel a b w =
      .ok ((List.range n).map fun i => n * ((toPoly a * toPoly b) %ₘ (Polynomial.X ^ n - 1)).coeff i) :=
  ⟨n, fun fuel h => mulPolys_cyclic ((good_iff n).2 ⟨k, hn⟩) w hw.eq a b ha hb fuel h⟩

/-- **C26** fails whenever `n ≠ 1` in the field: for every non-zero product the result is not the coefficients of it. -/
theorem C26_mul_polys_refuted (w : K) (n k : Nat) (hn : n = 2 ^ k ∨ n = 3 * 2 ^ k) (hw : HasOrder w n) (hn1 : (n : K) ≠ 1)
    (a b : List K) (ha : a.length ≤ n) (hb : b.length ≤ n) (hab : (toPoly a * toPoly b).degree < n)
    (h0 : toPoly a * toPoly b ≠ 0) :
    ∃ N, ∀ fuel ≥ N, ∃ r, mulPolys fuel a b w = .ok r ∧ toPoly r ≠ toPoly a * toPoly b := by
  obtain ⟨N, hN⟩ := C26_mul_polys_partial w n k hn hw a b ha hb hab
  have hc : ∀ i, n ≤ i → (toPoly a * toPoly b).coeff i = 0 := fun i hi =>
    Polynomial.coeff_eq_zero_of_degree_lt (lt_of_lt_of_le hab (by exact_mod_cast hi))
  refine ⟨N, fun fuel hf => ⟨_, (hN fuel hf).1, fun heq => ?_⟩⟩
  have e := toPoly_scale (n : K) ((List.range n).map fun i => (toPoly a * toPoly b).coeff i)
  rw [toPoly_range _ _ hc, List.map_map] at e
  have e2 : ((fun x => x * (n : K)) ∘ fun i => (toPoly a * toPoly b).coeff i) = fun i => (n : K) * (toPoly a * toPoly b).coeff i := by
    funext i; simp [mul_comm]
  rw [e2, heq] at e
  have : (Polynomial.C (n : K) - 1) * (toPoly a * toPoly b) = 0 := by rw [sub_mul, ← e, one_mul, sub_self]
  rcases mul_eq_zero.1 this with h | h
  · apply hn1
    rw [sub_eq_zero, ← Polynomial.C_1] at h
    exact Polynomial.C_injective h
  · exact h0 h

end

/-- The code's prime field has characteristic `p`, so C25 applies to it. -/
instance charP_zp (p : Nat) [Fact p.Prime] : CharP (Zp p) p :=
  (CharP.charP_iff_prime_eq_zero Fact.out).2 (by
    have : (Zp.equivZMod (p := p)) (p : Zp p) = 0 := by rw [map_natCast]; simp
    exact (map_eq_zero_iff _ (Zp.equivZMod (p := p)).injective).1 this)

/-- 2 has order 8 in `ℤ/17`, 4 has order 6 in `ℤ/13`. This meets the hypotheses of `C24_fft`, `C25_inverse_fft`, `C26_mul_polys_partial`, `C26_mul_polys_actual`. -/
example : HasOrder (Zp.ofInt 2 : Zp 17) 8 ∧ HasOrder (Zp.ofInt 4 : Zp 13) 6 := by
  refine ⟨⟨by decide, by decide +kernel, fun j h1 h2 => ?_⟩, ⟨by decide, by decide +kernel, fun j h1 h2 => ?_⟩⟩
  · interval_cases j <;> decide +kernel
  · interval_cases j <;> decide +kernel

example : nbFft 20 17 (Zp.ofInt 2 : Zp 17) [1, 1] = .ok ([2, 3, 5, 9, 0, 16, 14, 10].map fun i : Int => (Zp.ofInt i : Zp 17)) ∧
    nbInvFft 20 17 (Zp.ofInt 2 : Zp 17) ([2, 3, 5, 9, 0, 16, 14, 10].map fun i : Int => Zp.ofInt i) = .ok [1, 1] := by
  decide +kernel

/-- An order the transform cannot handle: 2 has order 5 in `ℤ/31`. -/
example : haveI : Fact (Nat.Prime 31) := ⟨by norm_num⟩
    nbFft 20 31 (Zp.ofInt 2 : Zp 31) [1, 1] = .error .indexError := by decide +kernel

/-- `mul_polys([1, 1], [1], 2)` over `ℤ/17` is `[8, 8, 0, …]`, not `[1, 1, 0, …]`. -/
example : mulPolys 20 [1, 1] [1] (Zp.ofInt 2 : Zp 17) = .ok ([8, 8, 0, 0, 0, 0, 0, 0].map fun i : Int => (Zp.ofInt i : Zp 17)) := by
  decide +kernel

/-- `x^3 * (x^5 + 1)` over `ℤ/17` with a domain of 8 points: `8 (1 + x^3)`. -/
example : mulPolys 20 [0, 0, 0, 1] [1, 0, 0, 0, 0, 1] (Zp.ofInt 2 : Zp 17) =
    .ok ([8, 0, 0, 8, 0, 0, 0, 0].map fun i : Int => (Zp.ofInt i : Zp 17)) := by
  decide +kernel

end Verif.Props
