import Verif.Proofs.Words
import Verif.Proofs.FloatingPoint
import Verif.Props.BinaryField
/-!
# C148: the arithmetic of binary fields on words

`encoded a` (in `Verif.Props.BinaryField`) is the word of an element: bit `i` is the coefficient of `x^i`.  `clmul` and `reduce` (in
`Verif.Spec.Words`) are multiplication without carries and reduction, by shifts and exclusive or only.
-/

namespace Verif.Props
open Poly FF Spec Words

/-- **C148** (words). The elements of `FiniteField(2, m, f)` are the words of `m` bits: each has one, different elements have different
ones, and every word belongs to an element. -/
theorem C148_words (f : List (Zp 2)) (m : Nat) (hm : degree f = m) :
    (∀ a : List (Zp 2), Canon a → degree a < m → encoded a < 2 ^ m) ∧
    (∀ a b : List (Zp 2), Canon a → Canon b → encoded a = encoded b → a = b) ∧
    ∀ n : Nat, n < 2 ^ m → ∃ a : List (Zp 2), Canon a ∧ degree a < m ∧ encoded a = n := by
  have hl : f.length = m + 1 := by unfold degree pabs at hm; omega
  have h0 : f ≠ [] := by rintro rfl; simp at hl
  refine ⟨fun a _ hd => ?_, fun a b ha hb h => word_inj ha hb h, fun n hn => ?_⟩
  · have := word_lt_of (f := f) (a := a) (by unfold degree pabs at hd; omega)
    rwa [hl] at this
  · obtain ⟨a, h1, h2, h3⟩ := word_surj h0 (n := n) (by rwa [hl])
    exact ⟨a, h1, by unfold degree pabs; omega, h3⟩

/-- **C148** (addition and multiplication). Whatever the modulus `f` of degree `m` is, `+`, `-` and unary `-` are the exclusive or of
words, and `*` is the product without carries, reduced by the word of `f`. -/
theorem C148_operators (f : List (Zp 2)) (m : Nat) (hf : Canon f) (hm : degree f = m) (a b : List (Zp 2)) (ha : Canon a)
    (hda : degree a < m) (hdb : degree b < m) :
    (∃ r, fqAdd f a b = .ok r ∧ Canon r ∧ degree r < m ∧ encoded r = encoded a ^^^ encoded b) ∧
    (∃ r, fqSub f a b = .ok r ∧ Canon r ∧ degree r < m ∧ encoded r = encoded a ^^^ encoded b) ∧
    fqNeg f a = .ok a ∧
    ∃ r, fqMul f a b = .ok r ∧ Canon r ∧ degree r < m ∧ encoded r = reduce (encoded f) (clmul (encoded a) (encoded b)) := by
  have hl : f.length = m + 1 := by unfold degree pabs at hm; omega
  have h0 : f ≠ [] := by rintro rfl; simp at hl
  obtain ⟨hw0, hlog⟩ := log2_word hf h0
  have hla : a.length < f.length := by unfold degree pabs at hda; omega
  have hlb : b.length < f.length := by unfold degree pabs at hdb; omega
  have hdeg : ∀ {r : List (Zp 2)}, r.length < f.length → degree r < m := by intro r h; unfold degree pabs; omega
  have hadd : word (add a b) = word a ^^^ word b := wp_inj (by rw [wp_word, toPoly_add, wp_xor, wp_word, wp_word])
  have hsub : word (sub a b) = word a ^^^ word b := wp_inj (by
    rw [wp_word, toPoly_sub, wp_xor, wp_word, wp_word, sub_eq_add_neg, Words.neg_eq])
  have hneg : word (neg a) = word a := wp_inj (by rw [wp_word, toPoly_neg, wp_word, Words.neg_eq])
  have hmul : word (mul a b) = clmul (word a) (word b) := wp_inj (by rw [wp_word, toPoly_mul, wp_clmul, wp_word, wp_word])
  have hx : word a ^^^ word b < 2 ^ (word f).log2 := by rw [hlog]; exact Nat.xor_lt_two_pow (word_lt_of hla) (word_lt_of hlb)
  refine ⟨?_, ?_, ?_, ?_⟩
  · obtain ⟨r, h1, h2, h3, h4⟩ := ofPoly_word hf h0 (canon_add a b)
    exact ⟨r, h1, h2, hdeg h3, by rw [hadd, reduce_small hw0 hx] at h4; exact h4⟩
  · obtain ⟨r, h1, h2, h3, h4⟩ := ofPoly_word hf h0 (canon_sub a b)
    exact ⟨r, h1, h2, hdeg h3, by rw [hsub, reduce_small hw0 hx] at h4; exact h4⟩
  · obtain ⟨r, h1, h2, h3, h4⟩ := ofPoly_word hf h0 (canon_neg a)
    rw [hneg, reduce_small hw0 (by rw [hlog]; exact word_lt_of hla)] at h4
    rw [fqNeg, h1, word_inj h2 ha h4]
  · obtain ⟨r, h1, h2, h3, h4⟩ := ofPoly_word hf h0 (canon_mul a b)
    exact ⟨r, h1, h2, hdeg h3, by rw [hmul] at h4; exact h4⟩

/-- **C148** (division). For an irreducible modulus and `b` not zero, the word of `a / b` is the only word of `m` bits whose product
with the word of `b`, without carries and reduced, is the word of `a`. -/
theorem C148_division (f : List (Zp 2)) (m : Nat) (hf : Canon f) (hirr : Irreducible (toPoly f)) (hm : degree f = m)
    (a b : List (Zp 2)) (ha : Canon a) (hb : Canon b) (hda : degree a < m) (hdb : degree b < m) (hb0 : encoded b ≠ 0) :
    ∃ q, fqTruediv f a b = .ok q ∧ Canon q ∧ degree q < m ∧ reduce (encoded f) (clmul (encoded q) (encoded b)) = encoded a ∧
      ∀ w : Nat, w < 2 ^ m → reduce (encoded f) (clmul w (encoded b)) = encoded a → w = encoded q := by
  have : IsModulus f := ⟨hf, hirr⟩
  have hl : f.length = m + 1 := by unfold degree pabs at hm; omega
  let A : Fq f := ⟨a, ha, by unfold degree pabs at hda; omega⟩
  let B : Fq f := ⟨b, hb, by unfold degree pabs at hdb; omega⟩
  have hB : B ≠ 0 := by
    intro h
    have h00 : (0 : Fq f).1 = [] := (toPoly_eq_zero (canon_ctor _)).1 (by rw [toPoly_ctor]; simp [toPoly_cons, toPoly_nil])
    have : b = [] := (congrArg Subtype.val h).trans h00
    rw [this] at hb0
    exact hb0 rfl
  have hdeg : ∀ x : Fq f, degree x.1 < m := by intro x; have := x.2.2; unfold degree pabs; omega
  have hprod : ∀ x : Fq f, encoded (x * B).1 = reduce (encoded f) (clmul (encoded x.1) (encoded b)) := by
    intro x
    obtain ⟨-, -, -, r, h1, -, -, h2⟩ := C148_operators f m hf hm x.1 b x.2.1 (hdeg x) hdb
    have h3 : fqMul f x.1 B.1 = .ok (x * B).1 := (mod_eq_red f (canon_mul _ _)).1
    rw [show fqMul f x.1 B.1 = .ok r from h1] at h3
    rw [← Except.ok.inj h3]; exact h2
  refine ⟨(A / B).1, Float.truediv_eq f A B hB, (A / B).2.1, hdeg _, ?_, fun w hw hwa => ?_⟩
  · rw [← hprod, div_mul_cancel₀ A hB]
  · obtain ⟨x, hx1, hx2, rfl⟩ := (C148_words f m hm).2.2 w hw
    let Y : Fq f := ⟨x, hx1, by unfold degree pabs at hx2; omega⟩
    have h1 : Y * B = A := by
      apply Subtype.ext
      exact (C148_words f m hm).2.1 _ _ (Y * B).2.1 ha ((hprod Y).trans hwa)
    have : Y = A / B := by rw [← h1, mul_div_cancel_right₀ _ hB]
    rw [← this]

/-- The tutorial's example in `GF(2^4)`: `A = x^2+x+1` is `0111`, `B = x^3+x^2+1` is `1101`, the modulus `x^4+x+1` is `10011`. This
meets the hypotheses of `C148_words` and `C148_operators`, and, with the modulus `x^3+x+1` of `irr_two`, those of `C148_division`. -/
example :
    let f : List (Zp 2) := [1, 1, 0, 0, 1]
    let a : List (Zp 2) := [1, 1, 1]
    let b : List (Zp 2) := [1, 0, 1, 1]
    Canon f ∧ degree f = 4 ∧ Canon a ∧ Canon b ∧ degree a < 4 ∧ degree b < 4 ∧
    encoded f = 0b10011 ∧ encoded a = 0b0111 ∧ encoded b = 0b1101 ∧ clmul 0b0111 0b1101 = 0b100011 ∧ reduce 0b10011 0b100011 = 0b0101 ∧
    fqAdd f a b = .ok [0, 1, 0, 1] ∧ fqMul f a b = .ok [1, 0, 1] ∧ fqTruediv f a b = .ok [1, 1, 1, 1] := by
  refine ⟨?_, by decide, ?_, ?_, by decide, by decide, by decide +kernel, by decide +kernel, by decide +kernel, by decide +kernel,
    by decide +kernel, by decide +kernel, by decide +kernel, by decide +kernel⟩ <;>
  · intro c h; simp at h; subst h; decide +kernel

example : ∃ (f a b : List (Zp 2)), Canon f ∧ Irreducible (toPoly f) ∧ degree f = (3 : Nat) ∧ Canon a ∧ Canon b ∧ degree a < (3 : Nat) ∧
    degree b < (3 : Nat) ∧ encoded b ≠ 0 :=
  ⟨_, [1, 1], [0, 1, 1], irr_two.1, irr_two.2, by decide, by intro c h; simp at h; subst h; decide +kernel,
    by intro c h; simp at h; subst h; decide +kernel, by decide, by decide, by decide +kernel⟩

end Verif.Props
