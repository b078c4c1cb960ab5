import Verif.Props.FFT
/-!
# C168: values at the powers of a root add, multiply and rotate as the polynomials do
-/

namespace Verif.Props
open Poly FFT
open scoped Polynomial

section
variable {K : Type} [Field K] [DecidableEq K]

theorem fft_values {w : K} {n k : Nat} (hn : n = 2 ^ k ∨ n = 3 * 2 ^ k) (hw : HasOrder w n) (p : Nat) {f : List K} (hf : f.length ≤ n)
    {fuel : Nat} (h : n ≤ fuel) : nbFft fuel p w f = .ok ((List.range n).map fun i => (toPoly f).eval (w ^ i)) :=
  fft1d_fwd ((good_iff n).2 ⟨k, hn⟩) w hw.eq p f hf fuel h

/-- A polynomial of degree below `n` is what `inv_fft` makes of its values. -/
theorem fft_back {w : K} {n k : Nat} (hn : n = 2 ^ k ∨ n = 3 * 2 ^ k) (hw : HasOrder w n) (p : Nat) [Fact p.Prime] [CharP K p] (F : K[X])
    (hF : ∀ i, n ≤ i → F.coeff i = 0) {fuel : Nat} (h : n ≤ fuel) :
    ∃ r, nbInvFft fuel p w ((List.range n).map fun i => F.eval (w ^ i)) = .ok r ∧ Canon r ∧ toPoly r = F := by
  have hg := (good_iff n).2 ⟨k, hn⟩
  have ht : toPoly (ctor ((List.range n).map fun i => F.coeff i)) = F := by rw [toPoly_ctor, toPoly_range F n hF]
  have hl : (ctor ((List.range n).map fun i => F.coeff i)).length ≤ n := length_le_of_canon (canon_ctor _) n (by rw [ht]; exact hF)
  refine ⟨_, ?_, canon_ctor _, ht⟩
  have e : (List.range n).map (fun i => F.eval (w ^ i)) = dft w n (ctor ((List.range n).map fun i => F.coeff i)) := by rw [dft, ht]
  rw [e]
  simp only [nbInvFft, fft1d_inv hg w hw.eq p (dft w n _) (by simp) fuel h, bind, Except.bind]
  rw [dft_inv_dft hg.pos hw.eq _ (canon_ctor _) hl]

/-- **C168**, sums: the values of a sum, a difference and a negative are the sums, differences and negatives of the values. -/
theorem C168_sum (w : K) (n k : Nat) (hn : n = 2 ^ k ∨ n = 3 * 2 ^ k) (hw : HasOrder w n) (p : Nat) (f g : List K) (hf : f.length ≤ n)
    (hg : g.length ≤ n) :
    ∃ N, ∀ fuel ≥ N, ∃ u v, nbFft fuel p w f = .ok u ∧ nbFft fuel p w g = .ok v ∧
      nbFft fuel p w (add f g) = .ok (List.zipWith (· + ·) u v) ∧ nbFft fuel p w (sub f g) = .ok (List.zipWith (· - ·) u v) ∧
      nbFft fuel p w (neg f) = .ok (u.map fun a => -a) := by
  have hlen : ∀ (r : List K), Canon r → (∀ i, (toPoly f).coeff i = 0 → (toPoly g).coeff i = 0 → (toPoly r).coeff i = 0) → r.length ≤ n :=
    fun r hr h => length_le_of_canon hr n fun i hi =>
      h i (coeff_eq_zero_of_length_le (hf.trans hi)) (coeff_eq_zero_of_length_le (hg.trans hi))
  refine ⟨n, fun fuel h => ⟨_, _, fft_values hn hw p hf h, fft_values hn hw p hg h, ?_, ?_, ?_⟩⟩
  · rw [fft_values hn hw p (hlen _ (canon_add f g) fun i a b => by rw [toPoly_add, Polynomial.coeff_add, a, b, add_zero]) h, toPoly_add,
      List.zipWith_map, List.zipWith_self]
    simp only [Polynomial.eval_add]
  · rw [fft_values hn hw p (hlen _ (canon_sub f g) fun i a b => by rw [toPoly_sub, Polynomial.coeff_sub, a, b, sub_zero]) h, toPoly_sub,
      List.zipWith_map, List.zipWith_self]
    simp only [Polynomial.eval_sub]
  · rw [fft_values hn hw p (hlen _ (canon_neg f) fun i a b => by rw [toPoly_neg, Polynomial.coeff_neg, a, neg_zero]) h, toPoly_neg,
      List.map_map]
    simp only [Polynomial.eval_neg, Function.comp_def]

/-- **C168**, products: the products of the values are the values of the product if it fits, and `inv_fft` gives it back; unlike `mul_polys`
(C26) this way of multiplying is right. -/
theorem C168_product (w : K) (n k : Nat) (hn : n = 2 ^ k ∨ n = 3 * 2 ^ k) (hw : HasOrder w n) (p : Nat) [Fact p.Prime] [CharP K p]
    (f g : List K) (hf : f.length ≤ n) (hg : g.length ≤ n) (hfg : (toPoly f * toPoly g).degree < n) :
    ∃ N, ∀ fuel ≥ N, ∃ u v, nbFft fuel p w f = .ok u ∧ nbFft fuel p w g = .ok v ∧
      nbFft fuel p w (mul f g) = .ok (List.zipWith (· * ·) u v) ∧ nbInvFft fuel p w (List.zipWith (· * ·) u v) = .ok (mul f g) := by
  have hc : ∀ i, n ≤ i → (toPoly f * toPoly g).coeff i = 0 := fun i hi =>
    Polynomial.coeff_eq_zero_of_degree_lt (lt_of_lt_of_le hfg (by exact_mod_cast hi))
  have hl : (mul f g).length ≤ n := length_le_of_canon (canon_mul f g) n (by rw [toPoly_mul]; exact hc)
  refine ⟨n, fun fuel h => ⟨_, _, fft_values hn hw p hf h, fft_values hn hw p hg h, ?_, ?_⟩⟩
  · rw [fft_values hn hw p hl h, toPoly_mul, List.zipWith_map, List.zipWith_self]
    simp only [Polynomial.eval_mul]
  · obtain ⟨r, r1, r2, r3⟩ := fft_back hn hw p _ hc h
    rw [← toPoly_mul] at r3
    rw [toPoly_inj r2 (canon_mul f g) r3] at r1
    rw [List.zipWith_map, List.zipWith_self, ← r1]
    simp only [Polynomial.eval_mul]

/-- **C168**, products that do not fit wrap around: what comes back is the product modulo `X^n - 1`. -/
theorem C168_wrap (w : K) (n k : Nat) (hn : n = 2 ^ k ∨ n = 3 * 2 ^ k) (hw : HasOrder w n) (p : Nat) [Fact p.Prime] [CharP K p]
    (f g : List K) (hf : f.length ≤ n) (hg : g.length ≤ n) :
    ∃ N, ∀ fuel ≥ N, ∃ u v r, nbFft fuel p w f = .ok u ∧ nbFft fuel p w g = .ok v ∧
      nbInvFft fuel p w (List.zipWith (· * ·) u v) = .ok r ∧ Canon r ∧ toPoly r = (toPoly f * toPoly g) %ₘ (Polynomial.X ^ n - 1) := by
  have hm : (Polynomial.X ^ n - 1 : K[X]).Monic := Polynomial.monic_X_pow_sub_C 1 (by have := hw.1; omega)
  have hd : ((toPoly f * toPoly g) %ₘ (Polynomial.X ^ n - 1)).degree < n := by
    have := Polynomial.degree_modByMonic_lt (toPoly f * toPoly g) hm
    rwa [show (Polynomial.X ^ n - 1 : K[X]) = Polynomial.X ^ n - Polynomial.C 1 by rw [Polynomial.C_1],
      Polynomial.degree_X_pow_sub_C hw.1] at this
  have he : ∀ i, ((toPoly f * toPoly g) %ₘ (Polynomial.X ^ n - 1)).eval (w ^ i) = (toPoly f).eval (w ^ i) * (toPoly g).eval (w ^ i) := by
    intro i
    have := congrArg (Polynomial.eval (w ^ i)) (Polynomial.modByMonic_add_div (toPoly f * toPoly g) (Polynomial.X ^ n - 1 : K[X]))
    have h1 : (w ^ i) ^ n = 1 := by rw [← pow_mul, mul_comm, pow_mul, hw.2.1, one_pow]
    simpa [h1] using this
  refine ⟨n, fun fuel h => ?_⟩
  obtain ⟨r, r1, r2, r3⟩ := fft_back hn hw p _ (fun i hi => Polynomial.coeff_eq_zero_of_degree_lt (lt_of_lt_of_le hd (by exact_mod_cast hi))) h
  refine ⟨_, _, r, fft_values hn hw p hf h, fft_values hn hw p hg h, ?_, r2, r3⟩
  rw [List.zipWith_map, List.zipWith_self, ← r1]
  simp only [he]

/-- **C168**, rotation: the values of `f(w^j x)` are those of `f` rotated by `j`. -/
theorem C168_rotate (w : K) (n k : Nat) (hn : n = 2 ^ k ∨ n = 3 * 2 ^ k) (hw : HasOrder w n) (p : Nat) (f g : List K) (hf : f.length ≤ n)
    (hg : g.length ≤ n) (j : Nat) (hj : toPoly g = (toPoly f).comp (Polynomial.C (w ^ j) * Polynomial.X)) :
    ∃ N, ∀ fuel ≥ N, ∃ u, nbFft fuel p w f = .ok u ∧ u.length = n ∧ nbFft fuel p w g = .ok (u.rotate j) ∧
      ∀ i < n, u[(i + j) % n]? = some (call f (w ^ j * w ^ i)) := by
  have key : ∀ i, (toPoly f).eval (w ^ ((i + j) % n)) = (toPoly f).eval (w ^ j * w ^ i) := fun i => by
    rw [← pow_add, add_comm j i, ← pow_mod_orderOf w (i + j), hw.eq]
  refine ⟨n, fun fuel h => ⟨_, fft_values hn hw p hf h, by simp, ?_, fun i hi => ?_⟩⟩
  · rw [fft_values hn hw p hg h, hj]
    congr 1
    apply List.ext_getElem (by simp)
    intro i h1 h2
    rw [List.getElem_rotate]
    simp only [List.getElem_map, List.getElem_range, List.length_map, List.length_range]
    rw [key, Polynomial.eval_comp]
    simp
  · rw [List.getElem?_map, List.getElem?_range (Nat.mod_lt _ hw.1), Option.map_some, key, Poly.call_spec, Polynomial.coe_aeval_eq_eval]

/-- **C168**, the values determine the polynomial: two polynomials of degree below `n` with the same values are equal. -/
theorem C168_injective (w : K) (n k : Nat) (hn : n = 2 ^ k ∨ n = 3 * 2 ^ k) (hw : HasOrder w n) (p : Nat) (f g : List K) (hcf : Canon f)
    (hcg : Canon g) (hf : f.length ≤ n) (hg : g.length ≤ n) :
    ∃ N, ∀ fuel ≥ N, (nbFft fuel p w f = nbFft fuel p w g ↔ f = g) := by
  refine ⟨n, fun fuel h => ⟨fun e => ?_, fun e => by rw [e]⟩⟩
  rw [fft_values hn hw p hf h, fft_values hn hw p hg h, Except.ok.injEq] at e
  have : dft w n f = dft w n g := e
  have h1 := dft_inv_dft hw.1 hw.eq f hcf hf
  rw [this, dft_inv_dft hw.1 hw.eq g hcg hg] at h1
  exact h1.symm

end

/-- `1 + 2x + 3x²` and `4 + 5x` modulo 17 with `w = 2` of order 8: the values of the sum, of the product, which comes back, and of
`1 + 4x + 12x²`, the first polynomial at `2x`; and a product of degree 8 or more, `x⁵·x⁴`, which comes back as `x`. This meets the hypotheses
of `C168_sum`, `C168_product`, `C168_wrap`, `C168_rotate` and `C168_injective`. -/
example : HasOrder (2 : Zp 17) 8 ∧ (toPoly ([1, 2, 3] : List (Zp 17)) * toPoly [4, 5]).degree < ((8 : Nat) : WithBot Nat) ∧
    toPoly ([1, 4, 12] : List (Zp 17)) = (toPoly [1, 2, 3]).comp (Polynomial.C ((2 : Zp 17) ^ 1) * Polynomial.X) ∧
    (do
      let u ← nbFft 8 17 (2 : Zp 17) [1, 2, 3]
      let v ← nbFft 8 17 (2 : Zp 17) [4, 5]
      let s ← nbFft 8 17 (2 : Zp 17) (add [1, 2, 3] [4, 5])
      let r ← nbInvFft 8 17 (2 : Zp 17) (List.zipWith (· * ·) u v)
      let t ← nbFft 8 17 (2 : Zp 17) [1, 4, 12]
      let a ← nbFft 8 17 (2 : Zp 17) [0, 0, 0, 0, 0, 1]
      let b ← nbFft 8 17 (2 : Zp 17) [0, 0, 0, 0, 1]
      let c ← nbInvFft 8 17 (2 : Zp 17) (List.zipWith (· * ·) a b)
      .ok (s == List.zipWith (· + ·) u v && t == u.rotate 1, r, c) : Py (Bool × List (Zp 17) × List (Zp 17))) =
      .ok (true, [4, 13, 5, 15], [0, 1]) := by
  refine ⟨⟨by norm_num, by decide +kernel, fun j h1 h2 => by interval_cases j <;> decide +kernel⟩, ?_, ?_, by decide +kernel⟩
  · rw [← toPoly_mul]
    refine lt_of_lt_of_le (Polynomial.degree_lt_iff_coeff_zero _ 4 |>.2 fun i hi => coeff_eq_zero_of_length_le ?_) (by decide)
    rw [show (mul ([1, 2, 3] : List (Zp 17)) [4, 5]).length = 4 by decide +kernel]
    exact hi
  · have h4 : (4 : Zp 17) = 2 * 2 := by decide +kernel
    have h12 : (12 : Zp 17) = 3 * 2 * 2 := by decide +kernel
    rw [h4, h12]
    simp only [toPoly_cons, toPoly_nil, Polynomial.add_comp, Polynomial.mul_comp, Polynomial.C_comp, Polynomial.X_comp, Polynomial.zero_comp,
      pow_one, Polynomial.C_mul]
    ring

end Verif.Props
