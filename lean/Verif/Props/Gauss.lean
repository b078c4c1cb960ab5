import Verif.Proofs.Gauss
import Verif.Spec.Gauss
import Verif.Proofs.Modp
import Verif.Proofs.SmallPrimes
import Mathlib.LinearAlgebra.Matrix.Notation
import Mathlib.LinearAlgebra.Matrix.Determinant.Basic
/-!
# C87–C88: Gaussian elimination and the Moore-matrix vanishing polynomial
-/

namespace Verif.Props
open Poly Gauss Matrix

variable {K : Type _} [Field K] [DecidableEq K]

/-- **C87**, constant entries. For every square system of constant polynomials over a field, whatever the outcomes of the
object-identity tests in the pivot search: if the matrix is invertible, `gauss` returns the solution; if it is singular,
`gauss` raises `ZeroDivisionError`.  MISSING: entries of positive degree (`C87_gauss_refuted`). -/
theorem C87_gauss_partial (same : Nat → Nat → Nat → Bool) (startsWith1 : K → Bool) (n : Nat) (A : Matrix (Fin n) (Fin n) K)
    (v : Fin n → K) :
    (A.det ≠ 0 → ∃ (y : Fin n → K) (M' : Mat (CPoly K)),
      gaussPoly same startsWith1 (augmented (A.map const) (const ∘ v)) n = .ok (List.ofFn (const ∘ y), M') ∧ A *ᵥ y = v) ∧
    (A.det = 0 → gaussPoly same startsWith1 (augmented (A.map const) (const ∘ v)) n = .error .zeroDivision) := by
  have hM : augmented (A.map const) (const ∘ v) = mapMat const (augmented A v) := by
    funext a b
    change augmented (A.map const) (const ∘ v) a b = const (augmented A v a b)
    unfold augmented
    split_ifs
    · rfl
    · rfl
    · exact ((hom_const same startsWith1).zero).symm
  have hsum : ∀ (x : Nat → K) (r : Fin n), ∑ j ∈ Finset.range n, augmented A v r j * x j = (A *ᵥ fun j => x j) r := by
    intro x r
    rw [Matrix.mulVec, dotProduct, Finset.sum_range]
    exact Finset.sum_congr rfl fun j _ => by simp [augmented]
  obtain ⟨h1, h2⟩ := gauss_field (prefers_const same startsWith1) (augmented A v) n
  rw [hM, gaussPoly, gauss_map (hom_const same startsWith1)]
  constructor
  · intro hdet
    obtain ⟨y, M', g1, g2, g3⟩ := h1 (by
      intro x hx j hj
      have : A *ᵥ (fun j : Fin n => x j) = 0 := by
        funext r
        rw [← hsum x r, hx r r.2, zero_mul]; rfl
      by_contra hne
      exact hdet (Matrix.exists_mulVec_eq_zero_iff.mp ⟨fun j : Fin n => x j, fun h => hne (congrFun h ⟨j, hj⟩), this⟩))
    refine ⟨fun j => y.getD j 0, mapMat const M', ?_, ?_⟩
    · rw [g1]
      simp only [Except.map]
      congr 2
      apply List.ext_getElem
      · simp [g2]
      · intro i hi1 hi2
        simp only [List.length_map] at hi1
        simp [hi1]
    · funext r
      rw [← hsum (fun j => y.getD j 0) r, g3 r r.2, one_mul]
      simp [augmented]
  · intro hdet
    obtain ⟨x, hx0, hx⟩ := Matrix.exists_mulVec_eq_zero_iff.mpr hdet
    rw [h2 ⟨fun j => if h : j < n then x ⟨j, h⟩ else 0, ?_, ?_⟩]
    · rfl
    · intro r hr
      have := hsum (fun j => if h : j < n then x ⟨j, h⟩ else 0) ⟨r, hr⟩
      rw [zero_mul, this]
      simpa using congrFun hx ⟨r, hr⟩
    · obtain ⟨j, hj⟩ := Function.ne_iff.mp hx0
      exact ⟨j, j.2, by simpa using hj⟩

example : (!![2, 1; 1, 1] : Matrix (Fin 2) (Fin 2) ℚ).det ≠ 0 ∧ (!![2, 1; 4, 2] : Matrix (Fin 2) (Fin 2) ℚ).det = 0 := by
  constructor <;> simp [Matrix.det_fin_two] <;> norm_num

/-- the pivot search of a 2×2 system makes one comparison -/
theorem gauss_two {P : Type _} [Add P] [Sub P] [Mul P] [Neg P] [Zero P] (div : P → P → Py P)
    (bigger : Nat → Nat → P → P → Py Bool) (M : Mat P) :
    gauss div bigger M 2 = gauss div (fun _ _ _ _ => bigger 0 1 (M 1 0) (M 0 0)) M 2 := rfl

/-- **C87** is false for polynomial entries, where `/` drops the remainder: over Z/2, whatever the identity tests,
the system `x·a + b = x, a + b = 1` has the solution `a = 1, b = 0` and no other, and `gauss` returns `[1, 1]`; the system
`(1+x)·a + b = 1, x·a + b = 0` has determinant 1 and `gauss` raises `ZeroDivisionError`. -/
theorem C87_gauss_refuted (same : Nat → Nat → Nat → Bool) (startsWith1 : Zp 2 → Bool) :
    let c (l : List (Zp 2)) : CPoly (Zp 2) := CPoly.mk l
    let A := !![c [0, 1], c [1]; c [1], c [1]]
    let B := !![c [1, 1], c [1]; c [0, 1], c [1]]
    (∀ y, A *ᵥ y = ![c [0, 1], c [1]] ↔ y = ![c [1], c []]) ∧
    (∃ M', gaussPoly same startsWith1 (augmented A ![c [0, 1], c [1]]) 2 = .ok ([c [1], c [1]], M')) ∧
    B.det = 1 ∧ gaussPoly same startsWith1 (augmented B ![c [1], c []]) 2 = .error .zeroDivision := by
  intro c A B
  have : NoZeroDivisors (CPoly (Zp 2)) := (CPoly.equiv (R := Zp 2)).toMulEquiv.noZeroDivisors _
  have hdet : A.det ≠ 0 := by decide +kernel
  refine ⟨fun y => ⟨fun h => ?_, fun h => ?_⟩, ?_, by decide +kernel, ?_⟩
  · have hA : A *ᵥ ![c [1], c []] = ![c [0, 1], c [1]] := by decide +kernel
    have := Matrix.eq_zero_of_mulVec_eq_zero hdet (v := y - ![c [1], c []]) (by rw [Matrix.mulVec_sub, h, hA, sub_self])
    exact sub_eq_zero.mp this
  · rw [h]; decide +kernel
  · rw [gaussPoly, gauss_two]
    have key : (gauss divPoly (fun _ _ _ _ => .ok false) (augmented A ![c [0, 1], c [1]]) 2).map Prod.fst =
      .ok [c [1], c [1]] := by decide +kernel
    have hm : maxPoly (same 0 1) startsWith1 (augmented A ![c [0, 1], c [1]] 1 0).1 (augmented A ![c [0, 1], c [1]] 0 0).1 =
        false := rfl
    rw [hm]
    cases h : gauss divPoly (fun _ _ _ _ => .ok false) (augmented A ![c [0, 1], c [1]]) 2 with
    | error e => rw [h] at key; cases key
    | ok r =>
      rw [h] at key
      simp only [Except.map, Except.ok.injEq] at key
      exact ⟨r.2, by rw [← key]⟩
  · rw [gaussPoly, gauss_two]
    have key : ∀ t : Bool, (gauss divPoly (fun _ _ _ _ => .ok t) (augmented B ![c [1], c []]) 2).map Prod.fst =
      .error .zeroDivision := by decide +kernel
    have := key (maxPoly (same 0 1) startsWith1 (augmented B ![c [1], c []] 1 0).1 (augmented B ![c [1], c []] 0 0).1)
    revert this
    cases gauss divPoly _ (augmented B ![c [1], c []]) 2 with
    | error e => intro h; simpa [Except.map] using h
    | ok r => intro h; cases h

/-- **C87** on field elements: a single equation `a·x = b` is solved, and any larger system raises `AttributeError`,
because the pivot search asks the elements for their degree. -/
theorem C87_gauss_elements_refuted (M : Mat K) (row : Nat) :
    (row = 1 → M 0 0 ≠ 0 → gaussElt M row = .ok ([M 0 1 / M 0 0], M)) ∧
    (2 ≤ row → gaussElt M row = .error .attributeError) := by
  constructor
  · rintro rfl h
    have : swapLoop 0 0 (pyRange 0 2) M = M := by
      funext a b
      rw [swapLoop_eq _ _ _ _ _ _ (nodup_pyRange _ _)]
      split_ifs with h1 h2
      · rw [h2]
      · rfl
      · rfl
    change (backLoop pyDiv 1 1 (swapLoop 0 0 (pyRange 0 2) M) [] : Py (List K × Mat K)) = _
    rw [this]
    simp [backLoop, pyDiv, h, bind, Except.bind, substLoop, div_eq_mul_inv]
  · intro h
    obtain ⟨n, rfl⟩ := Nat.exists_eq_add_of_le h
    have h1 : List.range (2 + n) = 0 :: List.range' 1 (1 + n) := by
      rw [List.range_eq_range', show 2 + n = (1 + n) + 1 by omega, List.range'_succ]
    have h2 : pyRange (0 + 1) (2 + n) = 1 :: List.range' 2 n := by
      unfold pyRange
      rw [show 2 + n - (0 + 1) = n + 1 by omega, List.range'_succ]
    rw [gaussElt, gauss, h1, forwardLoop, h2, pivotLoop]
    rfl

example : gaussElt (augmented !![(2 : ℚ), 1; 1, 1] ![3, 2]) 2 = .error .attributeError ∧
    gaussElt (augmented !![(2 : ℚ)] ![6]) 1 = .ok ([3], augmented !![(2 : ℚ)] ![6]) := by
  refine ⟨(C87_gauss_elements_refuted _ _).2 le_rfl, ?_⟩
  refine ((C87_gauss_elements_refuted (augmented !![(2 : ℚ)] ![6]) 1).1 rfl (by simp [augmented])).trans ?_
  simp [augmented]
  norm_num

/-- **C88** is false for every space with a basis of `d ≥ 1` polynomials: when the function returns at all, its result is
not a vanishing polynomial of any set of `2^d` field elements, because it has at most `d` coefficients: the entries of the
kernel vector are the coefficients of `x^(2^j)` in the vanishing polynomial but are used as the coefficients of `x^j`. -/
theorem C88_moore_refuted {F : Type _} [Field F] [DecidableEq F] (cast : CPoly K → F) (same : Nat → Nat → Nat → Bool)
    (startsWith1 : K → Bool) (b : List (CPoly K)) (f : List F) (h : moorePoly cast same startsWith1 b = .ok f)
    (S : Finset F) (hS : S.card = 2 ^ b.length) : f.length ≤ b.length ∧ ¬Vanishing (toPoly f) S := by
  have hlen : f.length ≤ b.length := by
    unfold moorePoly at h
    cases h1 : (mooreMatrix b : Py (Mat (CPoly K))) with
    | error e => rw [h1] at h; cases h
    | ok M =>
      rw [h1] at h
      simp only [bind, Except.bind] at h
      cases h2 : gaussPoly same startsWith1 M b.length with
      | error e => rw [h2] at h; cases h
      | ok r =>
        rw [h2] at h
        simp only at h
        cases h3 : testLoop r.2 r.1 b.length (List.range b.length) with
        | error e => rw [h3] at h; cases h
        | ok u =>
          rw [h3] at h
          simp only [Except.ok.injEq] at h
          have := gauss_length (x := r.1) (M' := r.2) h2
          rw [← h, strip, List.length_take, List.length_map, this]
          exact min_le_right _ _
  refine ⟨hlen, fun hv => ?_⟩
  have h1 : (toPoly f).natDegree ≤ b.length := by
    apply Polynomial.natDegree_le_of_degree_le
    apply Polynomial.degree_le_of_natDegree_le
    rw [Polynomial.natDegree_le_iff_coeff_eq_zero]
    intro m hm
    exact coeff_eq_zero_of_length_le (by omega)
  rw [hv.1, hS] at h1
  exact absurd h1 (not_le.mpr Nat.lt_two_pow_self)

/-- **C88** on a basis of field elements: one non-zero element gives the constant polynomial of that element, which has no
root at all; from two elements on the function raises `AttributeError`. -/
theorem C88_moore_elements_refuted (b : List K) :
    (∀ c, b = [c] → c ≠ 0 → mooreElt b = .ok [c] ∧ ∀ x, (toPoly [c]).eval x ≠ 0) ∧
    (2 ≤ b.length → mooreElt b = .error .attributeError) := by
  have hm := mooreMatrix_eq b
  constructor
  · rintro c rfl hc
    constructor
    · rw [mooreElt, hm]
      simp only [bind, Except.bind, List.length_singleton]
      rw [(C87_gauss_elements_refuted _ _).1 rfl (by simpa using hc)]
      have : c ^ 2 / c = c := by field_simp
      simp [testLoop, tempLoop, pyIdx, bind, Except.bind, this, pyAssert, ← sq, ctor_const, hc]
    · intro x
      simpa [toPoly_cons, toPoly_nil] using hc
  · intro h
    rw [mooreElt, hm]
    simp only [bind, Except.bind]
    rw [(C87_gauss_elements_refuted _ _).2 h]

/-- This meets the hypotheses of `C88_moore_refuted`. -/
example : ∃ f, moorePoly (K := Zp 2) (fun q => q.1.getD 0 0) (fun _ _ _ => false) (fun _ => true) [CPoly.mk [1]] = .ok f ∧
    ({0, 1} : Finset (Zp 2)).card = 2 ^ [CPoly.mk [(1 : Zp 2)]].length ∧ f = [1] := by
  refine ⟨[1], ?_, ?_, rfl⟩ <;> decide +kernel

end Verif.Props
