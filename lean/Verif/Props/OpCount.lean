import Verif.Proofs.OpCount
import Verif.Proofs.SmallPrimes
/-!
# C137: how many multiplications and inversions

`fooC` (`Model/OpCount`) runs `foo` and counts the multiplications and inversions; every theorem says that `fooC` returns what
`foo` returns, and with which count.
-/

namespace Verif.Props
open Poly PolyUtils FFT OpCount
open Polynomial hiding degree

variable {K : Type} [Field K] [DecidableEq K]

/-- **C137** (batch inversion keeps its docstring's promise).  `multi_inv` on any values, zeroes included, returns and has
inverted exactly one element; it has multiplied `2·n + 1` times, and once more for every value that is not zero. -/
theorem C137_multi_inv (values : List K) : ∃ out, multiInv eltTruthy recip values = .ok out ∧
    (multiInvC values).run = .ok (out, ⟨2 * values.length + values.countP (fun v => v ≠ 0) + 1, 1⟩) := by
  refine ⟨_, multiInv_eq eltTruthy values, ?_⟩
  rw [multiInvC_tag, multiInv_eq]; rfl

/-- Three values over the field of 17 elements, one of them zero: one inversion, nine multiplications. -/
example : (multiInvC [(3 : ZMod 17), 0, 5]).run = .ok ([6, 1, 7], ⟨9, 1⟩) := by decide +kernel

/-- **C137** (interpolating many rows of four points).  Whenever `multi_interp_4` returns, it has inverted exactly one element,
whatever the number of rows; it has multiplied at most `74·n + 1` times for `n` rows, and exactly that often when the four
points of each row are distinct. -/
theorem C137_multi_interp_4 (xsets ysets out : List (List K)) (h : multiInterp4 xsets ysets = .ok out) :
    ∃ m, (multiInterp4C xsets ysets).run = .ok (out, ⟨m, 1⟩) ∧ m ≤ 74 * (xsets.zip ysets).length + 1 ∧
      ((∀ xs ∈ xsets, (xs.take 4).Nodup) → m = 74 * (xsets.zip ysets).length + 1) := by
  obtain ⟨z, h1, h2, h3⟩ := multiInterp4C_spec xsets ysets out h
  refine ⟨_, h1, by omega, fun hx => ?_⟩
  rw [h3 hx]; omega

/-- This meets the hypotheses of `C137_multi_interp_4`: two rows, 149 multiplications, one inversion. -/
example : multiInterp4 [[(1 : ZMod 17), 2, 3, 4], [5, 6, 7, 9]] [[1, 4, 9, 16], [2, 2, 2, 2]] = .ok [[0, 0, 1], [2]] ∧
    (multiInterp4C [[(1 : ZMod 17), 2, 3, 4], [5, 6, 7, 9]] [[1, 4, 9, 16], [2, 2, 2, 2]]).run = .ok ([[0, 0, 1], [2]], ⟨149, 1⟩) ∧
    (∀ xs ∈ [[(1 : ZMod 17), 2, 3, 4], [5, 6, 7, 9]], (xs.take 4).Nodup) := by
  refine ⟨by decide +kernel, by decide +kernel, by decide +kernel⟩

/-- **C137** (interpolating four or two points).  Whenever `lagrange_interp_4` returns it has inverted once and multiplied 74
times; whenever `lagrange_interp_2` returns it has inverted once and multiplied 18 times. -/
theorem C137_interp_4_2 (xs ys out : List K) :
    (lagrangeInterp4 xs ys = .ok out → (lagrangeInterp4C xs ys).run = .ok (out, ⟨74, 1⟩)) ∧
    (lagrangeInterp2 xs ys = .ok out → (lagrangeInterp2C xs ys).run = .ok (out, ⟨18, 1⟩)) := by
  constructor
  · intro h; rw [lagrangeInterp4C_tag, h]; rfl
  · intro h; rw [lagrangeInterp2C_tag, h]; rfl

/-- This meets the hypotheses of `C137_interp_4_2`. -/
example : lagrangeInterp4 [(1 : ZMod 17), 2, 3, 4] [1, 4, 9, 16] = .ok [0, 0, 1] ∧
    (lagrangeInterp4C [(1 : ZMod 17), 2, 3, 4] [1, 4, 9, 16]).run = .ok ([0, 0, 1], ⟨74, 1⟩) ∧
    lagrangeInterp2 [(1 : ZMod 17), 2] [1, 4] = .ok [15, 3] ∧
    (lagrangeInterp2C [(1 : ZMod 17), 2] [1, 4]).run = .ok ([15, 3], ⟨18, 1⟩) := by
  refine ⟨by decide +kernel, by decide +kernel, by decide +kernel, by decide +kernel⟩

/-- **C137** (polynomial product, value, quotient).  `f * g` multiplies `len(f)·len(g)` times, `f(x)` multiplies `2·len(f)`
times, neither inverts; `divmod(f, g)` inverts once for every non-zero coefficient of the quotient, and for the coefficient of
`x^j` multiplies `1 + (j + 1)·len(g)` times. -/
theorem C137_polynomials (f g : List K) (x : K) :
    (mulC f g).run = .ok (mul f g, ⟨f.length * g.length, 0⟩) ∧
    (callC f x).run = .ok (call f x, ⟨2 * f.length, 0⟩) ∧
    (Canon f → Canon g → g ≠ [] → ∃ q r, divmod f g = .ok (q, r) ∧
      (divmodC f g).run = .ok ((q, r), ⟨∑ j ∈ (toPoly q).support, (1 + (j + 1) * g.length), (toPoly q).support.card⟩)) :=
  ⟨mulC_tag f g, callC_tag f x, fun hf hg h0 => divmodC_tag hf hg h0⟩

/-- This meets the hypotheses of `C137_polynomials`: the quotient has two non-zero coefficients. -/
example : Canon [(1 : ZMod 17), 0, 0, 1] ∧ Canon [(2 : ZMod 17), 0, 1] ∧ [(2 : ZMod 17), 0, 1] ≠ [] ∧
    (divmodC [(1 : ZMod 17), 1, 1, 1] [2, 0, 1]).run = .ok (([1, 1], [16, 16]), ⟨11, 2⟩) ∧
    (mulC [(1 : ZMod 17), 2] [3, 4, 5]).run = .ok ([3, 10, 13, 10], ⟨6, 0⟩) ∧ (callC [(1 : ZMod 17), 2] 3).run = .ok (7, ⟨4, 0⟩) := by
  refine ⟨by intro a h; simp at h; simp [← h], by intro a h; simp at h; simp [← h], by simp, by decide +kernel, by decide +kernel,
    by decide +kernel⟩

/-- **C137** (`lagrange_interp`).  For `n` points, repeated or not, and as many values, `lagrange_interp` returns; besides the
inversion made by `multi_inv` it inverts once for every non-zero coefficient of every `∏_{j ≠ i} (x - xs[j])`. -/
theorem C137_lagrange (xs ys : List K) (hl : ys.length = xs.length) : ∃ out c, lagrangeInterp xs ys = .ok out ∧
    (lagrangeInterpC xs ys).run = .ok (out, c) ∧
    c.inv = 1 + ∑ i ∈ Finset.range xs.length, (((xs.eraseIdx i).map fun x => X - C x).prod : K[X]).support.card := by
  obtain ⟨r, h1, h2⟩ := lagrangeInterpC_spec xs ys hl
  exact ⟨r, _, h1, h2, Nat.add_comm _ _⟩

/-- **C137** (price of `lagrange_interp`).  For `n` points the number of inversions is between `n + 1` and `n² + 1` and the
number of multiplications is at most `n³ + 6·n² + 4·n + 1`. -/
theorem C137_lagrange_bounds (xs ys : List K) (hl : ys.length = xs.length) : ∃ out c, lagrangeInterp xs ys = .ok out ∧
    (lagrangeInterpC xs ys).run = .ok (out, c) ∧ xs.length + 1 ≤ c.inv ∧ c.inv ≤ xs.length ^ 2 + 1 ∧
    c.mul ≤ xs.length ^ 3 + 6 * xs.length ^ 2 + 4 * xs.length + 1 := by
  obtain ⟨r, h1, h2⟩ := lagrangeInterpC_spec xs ys hl
  refine ⟨r, _, h1, h2, ?_⟩
  set n := xs.length with hn
  have hsub : ∀ i ∈ Finset.range n, (numer xs i).support ⊆ Finset.range n := by
    intro i hi j hj
    have hi' := Finset.mem_range.1 hi
    have hd := (numer_natDegree xs i hi').1
    rw [Finset.mem_range]
    have := Polynomial.le_natDegree_of_mem_supp j hj
    omega
  have hne : ∀ i ∈ Finset.range n, 1 ≤ (numer xs i).support.card := by
    intro i hi
    have := (numer_natDegree xs i (Finset.mem_range.1 hi)).2.ne_zero
    rw [Nat.one_le_iff_ne_zero, ne_eq, Finset.card_eq_zero, Polynomial.support_eq_empty]
    exact this
  refine ⟨?_, ?_, ?_⟩
  · have := Finset.card_nsmul_le_sum (Finset.range n) (fun i => (numer xs i).support.card) 1 hne
    simp only [Finset.card_range, smul_eq_mul, mul_one] at this
    simpa using this
  · have := Finset.sum_le_card_nsmul (Finset.range n) (fun i => (numer xs i).support.card) n (fun i hi => by
      simpa using Finset.card_le_card (hsub i hi))
    simp only [Finset.card_range, smul_eq_mul] at this
    simp only [pow_two]
    omega
  · have t1 : ∑ i ∈ Finset.range n, (i + 1) ≤ n * n := by
      have := Finset.sum_le_card_nsmul (Finset.range n) (fun i => i + 1) n (fun i hi => Finset.mem_range.1 hi)
      simpa using this
    have t2 : ∑ i ∈ Finset.range n, (divCost 2 (numer xs i)).mul ≤ n * (n * n + 2 * n) := by
      have hs : ∑ j ∈ Finset.range n, (1 + (j + 1) * 2) = n * n + 2 * n := by
        clear_value n
        clear hsub hne hn t1 h2 h1 hl
        induction n with
        | zero => rfl
        | succ k ih => rw [Finset.sum_range_succ, ih]; ring
      have := Finset.sum_le_card_nsmul (Finset.range n) (fun i => (divCost 2 (numer xs i)).mul) (n * n + 2 * n) (fun i hi => by
        rw [← hs]; exact Finset.sum_le_sum_of_subset (hsub i hi))
      simpa using this
    have t3 : (Finset.range n).sum (fun i => if (numer xs i).eval (xs.getD i 0) ≠ 0 then 1 else 0) ≤ n := by
      have := Finset.sum_le_card_nsmul (Finset.range n) (fun i => if (numer xs i).eval (xs.getD i 0) ≠ 0 then 1 else 0) 1
        (fun i _ => by split <;> omega)
      simpa using this
    have e1 : n * (n * n + 2 * n) = n ^ 3 + 2 * n ^ 2 := by ring
    have e2 : n * n = n ^ 2 := by ring
    have e3 : n * (n + 1) = n ^ 2 + n := by ring
    rw [e1] at t2
    rw [e2] at t1
    simp only [e3]
    omega

/-- **C137, refuted for `lagrange_interp`.**  It calls `multi_inv` to invert all denominators at once, but its divisions by
`x - xs[i]` invert as well: with at least one point it never gets by with one inversion. -/
theorem C137_lagrange_refuted (xs ys : List K) (hl : ys.length = xs.length) (hn : 1 ≤ xs.length) :
    ¬ ∃ out m, (lagrangeInterpC xs ys).run = .ok (out, ⟨m, 1⟩) := by
  rintro ⟨out, m, h⟩
  obtain ⟨o, c, -, h2, h3, -⟩ := C137_lagrange_bounds xs ys hl
  rw [h2] at h
  cases h
  simp only at h3
  omega

/-- This meets the hypotheses of `C137_lagrange`, `C137_lagrange_bounds` and `C137_lagrange_refuted`: interpolating three
points inverts ten times, nine times the leading coefficient 1 of `x - xs[i]`. -/
example : ([(1 : ZMod 17), 4, 9]).length = ([(1 : ZMod 17), 2, 3]).length ∧ 1 ≤ ([(1 : ZMod 17), 2, 3]).length ∧
    (lagrangeInterpC [(1 : ZMod 17), 2, 3] [1, 4, 9]).run = .ok ([0, 0, 1], ⟨91, 10⟩) := by
  refine ⟨rfl, by decide, by decide +kernel⟩

/-- **C137** (transforms).  For a root of unity `w` of order `n = 2^k ≥ 4` or `n = 3·2^k` and at most `n` values, the transform
multiplies exactly `n - 1` times to list the roots and `n·(k + 6)/2` times to transform; the inverse transform multiplies `n`
more times to scale; neither inverts. -/
theorem C137_fft (n k : Nat) (hn : n = 2 ^ k ∧ 2 ≤ k ∨ n = 3 * 2 ^ k) (w : K) (hw : orderOf w = n) (p : Nat) (vals : List K)
    (hv : vals.length ≤ n) (fuel : Nat) (hf : n ≤ fuel) :
    (∃ out, fft1d fuel vals p w false = .ok out ∧
      (fft1dC fuel vals p w false).run = .ok (out, ⟨(n - 1) + n * (k + 6) / 2, 0⟩)) ∧
    (∃ out, fft1d fuel vals p w true = .ok out ∧
      (fft1dC fuel vals p w true).run = .ok (out, ⟨(n - 1) + n * (k + 6) / 2 + n, 0⟩)) := by
  have hg : Good n := (good_iff n).2 ⟨k, hn.imp (fun h => h.1) id⟩
  have hm : fftMuls n = n * (k + 6) / 2 := by
    rcases hn with ⟨rfl, hk⟩ | rfl
    · obtain ⟨j, rfl⟩ : ∃ j, k = j + 2 := ⟨k - 2, by omega⟩
      exact fftMuls_pow j
    · exact fftMuls_three k
  rw [← hm]
  exact ⟨fft1dC_fwd hg w hw p vals hv fuel hf, fft1dC_inv hg w hw p vals hv fuel hf⟩

/-- **C137** (product of two polynomials through the transform).  Under the same conditions `mul_polys` multiplies exactly
`2·n - 1 + 3·n·(k + 6)/2` times. -/
theorem C137_mul_polys (n k : Nat) (hn : n = 2 ^ k ∧ 2 ≤ k ∨ n = 3 * 2 ^ k) (w : K) (hw : orderOf w = n) (a b : List K)
    (ha : a.length ≤ n) (hb : b.length ≤ n) (fuel : Nat) (hf : n ≤ fuel) :
    ∃ out, mulPolys fuel a b w = .ok out ∧
      (mulPolysC fuel a b w).run = .ok (out, ⟨(2 * n - 1) + 3 * (n * (k + 6) / 2), 0⟩) := by
  have hg : Good n := (good_iff n).2 ⟨k, hn.imp (fun h => h.1) id⟩
  have hm : fftMuls n = n * (k + 6) / 2 := by
    rcases hn with ⟨rfl, hk⟩ | rfl
    · obtain ⟨j, rfl⟩ : ∃ j, k = j + 2 := ⟨k - 2, by omega⟩
      exact fftMuls_pow j
    · exact fftMuls_three k
  obtain ⟨out, h1, h2⟩ := mulPolysC_spec hg w hw a b ha hb fuel hf
  have hp := hg.pos
  refine ⟨out, h1, ?_⟩
  rw [h2, hm, show n - 1 + 3 * (n * (k + 6) / 2) + n = 2 * n - 1 + 3 * (n * (k + 6) / 2) by omega]
  rfl

/-- This meets the hypotheses of `C137_fft` and `C137_mul_polys`: 2 has order 8 modulo 17. -/
example : ((8 : Nat) = 2 ^ 3 ∧ 2 ≤ 3 ∨ (8 : Nat) = 3 * 2 ^ 3) ∧ orderOf (2 : ZMod 17) = 8 ∧
    ([(1 : ZMod 17), 2, 3]).length ≤ 8 ∧
    (fft1dC 8 [(1 : ZMod 17), 2, 3] 17 2 false).run = .ok ([6, 0, 6, 5, 2, 9, 7, 7], ⟨43, 0⟩) ∧
    (fft1dC 8 [(6 : ZMod 17), 0, 6, 5, 2, 9, 7, 7] 17 2 true).run = .ok ([1, 2, 3, 0, 0, 0, 0, 0], ⟨51, 0⟩) ∧
    (mulPolysC 8 [(1 : ZMod 17), 2] [3, 4] 2).run = .ok ([7, 12, 13, 0, 0, 0, 0, 0], ⟨123, 0⟩) := by
  refine ⟨by simp, orderOf_eq_prime_pow (p := 2) (n := 2) (by decide +kernel) (by decide +kernel), by simp, by decide +kernel,
    by decide +kernel, by decide +kernel⟩

end Verif.Props
