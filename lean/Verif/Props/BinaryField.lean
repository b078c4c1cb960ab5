import Verif.Proofs.SmallPrimes
import Verif.Proofs.BinaryField
import Verif.Proofs.Primitive
import Mathlib.Tactic.NormNum.Prime
/-!
# C54–C56: arithmetic on the integers that elements of a binary field encode

`Spec.bitsVal` is the number with the given binary digits.  The integer an element `a` encodes is
`bitsVal (a.map (· = 1))`: bit `i` is the coefficient of `x^i`.
-/

namespace Verif.Props
open Poly FF Spec
open scoped Polynomial
open Polynomial (C X)

/-- The integer whose binary digits are the coefficients of an element. -/
def encoded (a : List (Zp 2)) : Nat := bitsVal (a.map fun c => decide (c = 1))

/-- x³ + x + 1 over Z/2: a concrete irreducible modulus. -/
theorem irr_two :
    Canon ([1, 1, 0, 1] : List (Zp 2)) ∧ Irreducible (toPoly ([1, 1, 0, 1] : List (Zp 2))) := by
  have hc : Canon ([1, 1, 0, 1] : List (Zp 2)) := by intro a h; simp at h; subst h; decide +kernel
  refine ⟨hc, ?_⟩
  obtain ⟨b, h1, h2⟩ := isIrreducible_spec hc (by rw [natDegree_toPoly hc]; simp)
  rw [card_zp] at h1
  have : isIrreducible 2 ([1, 1, 0, 1] : List (Zp 2)) = .ok true := by decide +kernel
  rw [this] at h1
  injection h1 with h1
  exact h2.1 h1.symm

/-- **C54**. `a.LT(b)` never raises, returns 0 or 1, and returns 1 exactly when the integer `a` encodes is at most the
integer `b` encodes. -/
theorem C54_LT (f : List (Zp 2)) (hf : Canon f) (hirr : Irreducible (toPoly f)) (a b : List (Zp 2)) (ha : Canon a)
    (hb : Canon b) (hda : degree a < degree f) (hdb : degree b < degree f) :
    fqLT f a b = .ok (if encoded a ≤ encoded b then 1 else 0) := by
  have : IsModulus f := ⟨hf, hirr⟩
  obtain ⟨r, h1, h2, h3⟩ := fqLT_spec zp_two f a b ha hb (by unfold degree pabs at hda; omega)
    (by unfold degree pabs at hdb; omega)
  rw [h1]
  congr 1
  change r = 1 ↔ encoded a ≤ encoded b at h3
  split
  · exact h3.2 ‹_›
  · rcases h2 with h | h
    · exact h
    · exact absurd (h3.1 h) ‹_›

example : fqLT ([1, 1, 0, 1] : List (Zp 2)) [1, 0, 1] [0, 1, 1] = .ok 1 ∧
    fqLT ([1, 1, 0, 1] : List (Zp 2)) [0, 1, 1] [1, 0, 1] = .ok 0 ∧
    encoded [1, 0, 1] = 5 ∧ encoded [0, 1, 1] = 6 := by decide +kernel

/-- This meets the hypotheses of `C56_two_pow_actual`. -/
example : ∃ f : List (Zp 2), Canon f ∧ Irreducible (toPoly f) ∧ degree ([1, 0, 1] : List (Zp 2)) < degree f :=
  ⟨_, irr_two.1, irr_two.2, by decide⟩

/-- **C55**. `add_binary_nums(x, y)` of two strings of binary digits (most significant first) is a list of binary digits,
least significant first, of the sum, as long as the longer string, plus one digit exactly when the sum needs it. -/
theorem C55_add_binary_nums (x y : List Char) (_hx : ∀ c ∈ x, c = '0' ∨ c = '1') (_hy : ∀ c ∈ y, c = '0' ∨ c = '1') :
    let num := fun s : List Char => bitsVal (s.map fun c => decide (c = '1'))
    num (addBinaryNums x y) = num x.reverse + num y.reverse ∧
    (∀ c ∈ addBinaryNums x y, c = '0' ∨ c = '1') ∧
    (addBinaryNums x y).length = max x.length y.length +
      (if 2 ^ max x.length y.length ≤ num x.reverse + num y.reverse then 1 else 0) :=
  addBinaryNums_spec x y

example : addBinaryNums ['1', '0', '1'] ['1', '1'] = ['0', '0', '0', '1'] ∧
    addBinaryNums ['1', '0', '0'] ['1'] = ['1', '0', '1'] := by decide

/-- **C55**, on field elements. `a.Regular_Binary_Addition(b)` returns the residue class of `Σ dᵢ xⁱ`, where `dᵢ` are the
binary digits of the sum of the encoded integers; when that sum fits in `m` bits (`m = deg f`) the result encodes it. -/
theorem C55_regular_binary_addition (f : List (Zp 2)) (hf : Canon f) (hirr : Irreducible (toPoly f)) (a b : List (Zp 2)) :
    (∃ (ds : List Bool) (r : List (Zp 2)), bitsVal ds = encoded a + encoded b ∧ regularBinaryAddition f a b = .ok r ∧
      Canon r ∧ degree r < degree f ∧
      AdjoinRoot.mk (toPoly f) (toPoly r) = AdjoinRoot.mk (toPoly f) (toPoly (ds.map fun d => if d then 1 else 0))) ∧
    (encoded a + encoded b < 2 ^ (toPoly f).natDegree →
      ∃ r, regularBinaryAddition f a b = .ok r ∧ Canon r ∧ encoded r = encoded a + encoded b) := by
  have : IsModulus f := ⟨hf, hirr⟩
  constructor
  · obtain ⟨ds, h1, h2⟩ := rba_eq zp_two f a b
    have h3 : ofList f (unbit ds : List (Zp 2)) = .ok (Fq.mk (ctor (unbit ds)) (canon_ctor _) : Fq f).1 :=
      (mod_eq_red f (canon_ctor _)).1
    refine ⟨ds, _, h1, h2.trans h3, (Fq.mk (ctor (unbit ds)) (canon_ctor _) : Fq f).2.1, ?_, ?_⟩
    · have := (Fq.mk (ctor (unbit ds)) (canon_ctor _) : Fq f).2.2
      unfold degree pabs; omega
    · have := Fq.mk_val (f := f) (ctor (unbit ds)) (canon_ctor _)
      rw [toPoly_ctor] at this
      exact this
  · intro h
    rw [natDegree_toPoly hf] at h
    exact rba_small zp_two f a b h

example : regularBinaryAddition ([1, 1, 0, 1] : List (Zp 2)) [1, 1] [1, 0, 1] = .ok [1, 1] ∧
    regularBinaryAddition ([1, 1, 0, 1] : List (Zp 2)) [1, 1] [0, 1] = .ok [1, 0, 1] ∧
    encoded [1, 1] + encoded [0, 1] = 5 := by decide +kernel

/-- **C56**, part. `a.two_pow()` is `x^k` for the encoded integer `k` when `a` has degree at most 1 (encodes 0 to 3).
Missing: all other elements, where it is false (`C56_two_pow_refuted`). -/
theorem C56_two_pow_partial (f : List (Zp 2)) (hf : Canon f) (hirr : Irreducible (toPoly f)) (a : List (Zp 2))
    (hd : degree a ≤ 1) :
    ∃ r, twoPow f a = .ok r ∧ Canon r ∧ degree r < degree f ∧
      AdjoinRoot.mk (toPoly f) (toPoly r) = AdjoinRoot.mk (toPoly f) (X ^ encoded a) := by
  have : IsModulus f := ⟨hf, hirr⟩
  obtain ⟨r, h1, h2⟩ := twoPow_spec f a
  refine ⟨r.1, h1, r.2.1, by have := r.2.2; unfold degree pabs; omega, ?_⟩
  have e : twoPowExp 0 (enc a) = encoded a := by
    have hl : a.length ≤ 2 := by unfold degree pabs at hd; omega
    have : encoded a = bitsVal (enc a) := rfl
    rw [this]
    generalize hg : enc a = bs
    have hl : bs.length ≤ 2 := by rw [← hg, enc, List.length_map]; exact hl
    match bs, hl with
    | [], _ => rfl
    | [b], _ => cases b <;> rfl
    | [b, c], _ => cases b <;> cases c <;> rfl
  show r.val = _
  rw [h2, e, map_pow, AdjoinRoot.mk_X]

/-- **C56**, what the code computes for every element: `x` to the sum of `i + 1` over the set bits `i`. -/
theorem C56_two_pow_actual (f : List (Zp 2)) (hf : Canon f) (hirr : Irreducible (toPoly f)) (a : List (Zp 2)) :
    ∃ r, twoPow f a = .ok r ∧ AdjoinRoot.mk (toPoly f) (toPoly r) =
      AdjoinRoot.mk (toPoly f) (X ^ (∑ i ∈ Finset.range a.length, if a.getD i 0 = 1 then i + 1 else 0)) := by
  have : IsModulus f := ⟨hf, hirr⟩
  obtain ⟨r, h1, h2⟩ := twoPow_spec f a
  refine ⟨r.1, h1, ?_⟩
  have key : ∀ (a : List (Zp 2)) (j : Nat), twoPowExp j (enc a) =
      ∑ i ∈ Finset.range a.length, if a.getD i 0 = 1 then j + i + 1 else 0 := by
    intro a
    induction a with
    | nil => intro j; rfl
    | cons c cs ih =>
      intro j
      rw [List.length_cons, Finset.sum_range_succ']
      simp only [enc, List.map_cons, twoPowExp, List.getD_cons_succ, List.getD_cons_zero, Nat.add_zero]
      have := ih (j + 1)
      simp only [enc] at this
      rw [this, Nat.add_comm]
      congr 1
      · apply Finset.sum_congr rfl; intro i _; congr 1; omega
      · simp [bit]
  show r.val = _
  rw [h2, key, map_pow, AdjoinRoot.mk_X]
  congr 1
  apply Finset.sum_congr rfl; intro i _; congr 1; omega

/-- **C56** fails in every binary field with at least 8 elements: the element `x²` encodes 4, and its `two_pow()` is `x³`,
which is not `x⁴`. -/
theorem C56_two_pow_refuted (f : List (Zp 2)) (hf : Canon f) (hirr : Irreducible (toPoly f)) (hd : 3 ≤ degree f) :
    encoded [0, 0, 1] = 4 ∧ ∃ r, twoPow f [0, 0, 1] = .ok r ∧
      AdjoinRoot.mk (toPoly f) (toPoly r) ≠ AdjoinRoot.mk (toPoly f) (X ^ encoded [0, 0, 1]) := by
  have : IsModulus f := ⟨hf, hirr⟩
  have h4 : encoded [0, 0, 1] = 4 := by decide +kernel
  refine ⟨h4, ?_⟩
  obtain ⟨r, h1, h2⟩ := twoPow_spec f ([0, 0, 1] : List (Zp 2))
  refine ⟨r.1, h1, ?_⟩
  have e : twoPowExp 0 (enc ([0, 0, 1] : List (Zp 2))) = 3 := by decide +kernel
  rw [h4]
  change r.val ≠ _
  rw [h2, e, map_pow, AdjoinRoot.mk_X]
  intro h
  have : Fact (Irreducible (toPoly f)) := ⟨hirr⟩
  have hne : f ≠ [] := by rintro rfl; simp [degree, pabs] at hd
  have hdeg : 3 ≤ (toPoly f).natDegree := by
    rw [natDegree_toPoly hf]; unfold degree pabs at hd; omega
  have hx : AdjoinRoot.root (toPoly f) ≠ 0 := by
    intro h0
    rw [← AdjoinRoot.mk_X, AdjoinRoot.mk_eq_zero] at h0
    have := Polynomial.natDegree_le_of_dvd h0 Polynomial.X_ne_zero
    rw [Polynomial.natDegree_X] at this; omega
  have h5 : AdjoinRoot.root (toPoly f) = 1 := by
    have : AdjoinRoot.root (toPoly f) ^ 3 * AdjoinRoot.root (toPoly f) = AdjoinRoot.root (toPoly f) ^ 3 * 1 := by
      rw [← pow_succ, mul_one]; exact h.symm
    exact mul_left_cancel₀ (pow_ne_zero 3 hx) this
  rw [← AdjoinRoot.mk_X, ← map_one (AdjoinRoot.mk (toPoly f)), AdjoinRoot.mk_eq_mk] at h5
  have hn : (X - 1 : (Zp 2)[X]) ≠ 0 := by
    rw [← Polynomial.C_1]; exact Polynomial.X_sub_C_ne_zero 1
  have := Polynomial.natDegree_le_of_dvd h5 hn
  rw [← Polynomial.C_1, Polynomial.natDegree_X_sub_C] at this
  omega

/-- This meets the hypotheses of `C56_two_pow_partial`. -/
example : twoPow ([1, 1, 0, 1] : List (Zp 2)) [0, 0, 1] = .ok [1, 1] ∧
    ofList ([1, 1, 0, 1] : List (Zp 2)) [0, 0, 0, 0, 1] = .ok [0, 1, 1] ∧
    twoPow ([1, 1, 0, 1] : List (Zp 2)) [1, 1] = .ok [1, 1] := by decide +kernel

example : 3 ≤ degree ([1, 1, 0, 1] : List (Zp 2)) := by decide

end Verif.Props
