import Verif.Proofs.Combination
import Verif.Proofs.SmallPrimes
/-!
# C133: a combination of low degree means parts of low degree

The verifier tests the degree of one polynomial, the combination of all the `P_i`, `D_i` and `B_i`.  `(toPoly f).degree` is Mathlib's degree
of the polynomial with coefficient list `f`.  The challenges `k1, …, k4` are what `get_pseudorandom_ks` computes from the entropy; here they
come from four 32-byte digests, drawn at random (`Spec/RandomHash`).
-/

namespace Verif.Props
open Finset Poly Stark Combination

section
variable {K : Type} [Field K] [DecidableEq K]

/-- **C133** (up to three columns; `C133_reused_labels_refuted` is about four to nine). In a field of characteristic `q`, if one of the parts has
degree `d` or more, all but `2·q³` of the `q⁴` possible values of the challenges make the degree of the combination `d` or more. -/
theorem C133_few_challenges_partial (q : Nat) [hq : Fact q.Prime] [CharP K q] (P D B : List (List K)) (width : Nat) (h0 : 0 < width) (h3 : width ≤ 3)
    (hP : P.length = width) (hD : D.length = width) (hB : B.length = width) (G : K) (hG : G ≠ 0) (deg steps : Nat) (hd : 2 ≤ deg)
    (d : Nat) (hf : ∃ f ∈ P ++ D ++ B, d ≤ (toPoly f).degree) :
    ∃ bad : Finset (Fin 4 → K), #bad ≤ 2 * q ^ 3 ∧ ∀ (blake : Bytes → Bytes) (entropy : Bytes) (k1 k2 k3 k4 : Nat) (l : List K),
      Utils.getPseudorandomKs blake entropy 4 = some [k1, k2, k3, k4] →
      combination blake entropy P D B G deg steps width = .ok (some l) → (toPoly l).degree < d → ![(k1 : K), k2, k3, k4] ∈ bad := by
  obtain ⟨f, hfm, hfd⟩ := hf
  have hf0 : toPoly f ≠ 0 := by rintro h; rw [h] at hfd; simp at hfd
  set n := (toPoly f).natDegree with hn
  have hdn : d ≤ n := by
    rw [Polynomial.degree_eq_natDegree hf0] at hfd
    exact_mod_cast hfd
  have hc : (toPoly f).coeff n ≠ 0 := by rw [hn, Polynomial.coeff_natDegree]; exact Polynomial.leadingCoeff_ne_zero.2 hf0
  have hz : ∀ L : List (List K), L.length = width → coeffs n L = 0 → f ∉ L := fun L hL h hm => by
    obtain ⟨i, hi, e⟩ := List.mem_iff_getElem.1 hm
    have := congrFun h ⟨i, by omega⟩
    simp only [coeffs, List.getD_eq_getElem _ _ hi, e] at this
    exact hc this
  refine ⟨Combination.bad q ((G ^ steps) ^ (deg - 1)) (coeffs n P) (coeffs n D) (coeffs n B),
    card_bad q hq.out.pos (pow_ne_zero _ (pow_ne_zero _ hG)) ?_, ?_⟩
  · rintro ⟨z1, z2, z3⟩
    simp only [List.mem_append] at hfm
    rcases hfm with (h | h) | h
    · exact hz P hP z1 h
    · exact hz D hD z2 h
    · exact hz B hB z3 h
  · intro blake entropy k1 k2 k3 k4 l hk hl hdeg
    refine mem_bad q hq.out.pos blake entropy P D B G deg steps width h0 h3 hP hD hB hd k1 k2 k3 k4 hk l hl n ?_
    exact Polynomial.coeff_eq_zero_of_degree_lt (hdeg.trans_le (by exact_mod_cast hdn))

/-- **C133** (up to three columns) as a probability: when the hashes of the four labelled strings are random, the combination has degree less
than `d`, although one of the parts has not, with probability at most `2/q` (up to a factor close to 1, because the digests are reduced modulo
`q`). -/
theorem C133_probability_partial (q : Nat) [hq : Fact q.Prime] [CharP K q] (P D B : List (List K)) (width : Nat) (h0 : 0 < width) (h3 : width ≤ 3)
    (hP : P.length = width) (hD : D.length = width) (hB : B.length = width) (G : K) (hG : G ≠ 0) (deg steps : Nat) (hd : 2 ≤ deg)
    (d : Nat) (hf : ∃ f ∈ P ++ D ++ B, d ≤ (toPoly f).degree) (entropy : Bytes) :
    fraction (fun ω : Fin 4 → Digest => ∃ (blake : Bytes → Bytes) (l : List K), (∀ i : Fin 4, blake (entropy ++ Utils.label (i.1 + 1)) = (ω i).1) ∧
      combination blake entropy P D B G deg steps width = .ok (some l) ∧ (toPoly l).degree < d) ≤ 2 / q * (1 + q / 2 ^ 256) ^ 4 := by
  obtain ⟨bad, hb, h⟩ := C133_few_challenges_partial q P D B width h0 h3 hP hD hB G hG deg steps hd d hf
  refine (Sampling.fraction_mono ?_).trans (fraction_tuples q hq.out.pos bad hb)
  rintro ω ⟨blake, l, hω, hl, hdeg⟩
  have := h blake entropy (fromBytes (ω 0).1) (fromBytes (ω 1).1) (fromBytes (ω 2).1) (fromBytes (ω 3).1) l
    (by rw [← hω 0, ← hω 1, ← hω 2, ← hω 3]; rfl) hl hdeg
  convert this using 1
  funext i
  fin_cases i <;> rfl

/-- **C133** fails for four to nine columns: `get_pseudorandom_ks` uses the labels of `k1, …, k4` again for the columns, and there are columns,
one of them any polynomial whatever, whose combination is zero for every hash function. -/
theorem C133_reused_labels_refuted (G : K) (hG : G ≠ 0) (deg steps width : Nat) (hd : 2 ≤ deg) (h4 : 4 ≤ width) (h9 : width ≤ 9) (h : List K) :
    ∃ P D B : List (List K), P.length = width ∧ D.length = width ∧ B.length = width ∧ h ∈ B ∧
      ∀ (blake : Bytes → Bytes) (entropy : Bytes), combination blake entropy P D B G deg steps width = .ok (some []) := by
  have hlen : ∀ L : List (List K), L.length = 4 → (place width L).length = width := fun L hL => by
    unfold place
    split
    · omega
    · simp [hL]; omega
  refine ⟨_, _, _, hlen _ rfl, hlen _ rfl, hlen _ rfl, ?_, fun blake entropy => forged_zero blake entropy G deg steps width h4 h9 hd hG h⟩
  unfold place forgedB
  split <;> simp

end

/-- This meets the hypotheses of `C133_few_challenges_partial`, `C133_probability_partial`, `C133_reused_labels_refuted`: three columns over the
integers modulo 17, one of degree 5, and the bound 4. -/
example : ∃ f ∈ [[1], [2, 1], []] ++ [[], [0, 0, 0, 0, 0, (3 : Zp 17)], [1]] ++ [[], [], [5]], ((4 : ℕ) : WithBot ℕ) ≤ (toPoly f).degree := by
  refine ⟨[0, 0, 0, 0, 0, 3], by simp, ?_⟩
  have h : (toPoly [0, 0, 0, 0, 0, (3 : Zp 17)]).coeff 5 ≠ 0 := by
    rw [coeff_toPoly]
    decide +kernel
  exact le_trans (by exact_mod_cast (by norm_num : 4 ≤ 5)) (Polynomial.le_degree_of_ne_zero h)

/-- Polynomials of degree 7 with a zero combination, for a hash function: four columns, and five. -/
example : (forgedB (Zp.ofInt 3 ^ 2 : Zp 17) [0, 0, 0, 0, 0, 0, 0, 1]).map List.length = [8, 8, 0, 0] ∧
    combination (fun b => List.replicate 31 7 ++ [b.getLastD 0]) [1, 2] (forgedP (Zp.ofInt 3 ^ 2 : Zp 17) [0, 0, 0, 0, 0, 0, 0, 1])
      (forgedD (Zp.ofInt 3 ^ 2 : Zp 17) [0, 0, 0, 0, 0, 0, 0, 1]) (forgedB (Zp.ofInt 3 ^ 2 : Zp 17) [0, 0, 0, 0, 0, 0, 0, 1]) (Zp.ofInt 3) 2 2 4 = .ok (some []) ∧
    combination (fun b => List.replicate 31 7 ++ [b.getLastD 0]) [1, 2] ([] :: forgedP (Zp.ofInt 3 ^ 2 : Zp 17) [0, 0, 0, 0, 0, 0, 0, 1])
      ([] :: forgedD (Zp.ofInt 3 ^ 2 : Zp 17) [0, 0, 0, 0, 0, 0, 0, 1]) ([] :: forgedB (Zp.ofInt 3 ^ 2 : Zp 17) [0, 0, 0, 0, 0, 0, 0, 1]) (Zp.ofInt 3) 2 2 5 =
      .ok (some []) := by
  decide +kernel

end Verif.Props
