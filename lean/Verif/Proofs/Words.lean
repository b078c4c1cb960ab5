import Verif.Spec.Words
import Verif.Spec.Bits
import Verif.Proofs.BinaryField
/-!
# Words and polynomials over Z/2
-/

namespace Verif.Words
open Poly FF Spec
open scoped Polynomial
open Polynomial (C X)

variable [Fact (Nat.Prime 2)]

/-- The polynomial of a word. -/
noncomputable def wp (n : Nat) : (Zp 2)[X] := ∑ i ∈ Finset.range (n.log2 + 1), if n.testBit i then X ^ i else 0

theorem coeff_wp (n i : Nat) : (wp n).coeff i = if n.testBit i then 1 else 0 := by
  unfold wp
  rw [Polynomial.finsetSum_coeff]
  have : ∀ j ∈ Finset.range (n.log2 + 1), ((if n.testBit j then X ^ j else 0 : (Zp 2)[X])).coeff i =
      if j = i then (if n.testBit i then 1 else 0) else 0 := by
    intro j _
    split
    · next h =>
      rw [Polynomial.coeff_X_pow]
      by_cases hij : i = j
      · subst hij; simp [h]
      · simp [hij, Ne.symm hij]
    · next h =>
      by_cases hij : j = i
      · subst hij; simp [h]
      · simp [hij]
  rw [Finset.sum_congr rfl this, Finset.sum_ite_eq']
  split
  · rfl
  · next h =>
    rw [Finset.mem_range, not_lt] at h
    rw [Nat.testBit_lt_two_pow (lt_of_lt_of_le Nat.lt_log2_self (Nat.pow_le_pow_right (by norm_num) h))]
    simp

theorem one_add_one : (1 : Zp 2) + 1 = 0 := Subtype.ext rfl

theorem wp_inj {a b : Nat} (h : wp a = wp b) : a = b := by
  apply Nat.eq_of_testBit_eq
  intro i
  have := congrArg (fun P => P.coeff i) h
  simp only [coeff_wp] at this
  have h01 : (1 : Zp 2) ≠ 0 := one_ne_zero
  revert this
  cases a.testBit i <;> cases b.testBit i <;> simp

theorem wp_zero : wp 0 = 0 := by
  ext i; simp [coeff_wp]

theorem wp_xor (a b : Nat) : wp (a ^^^ b) = wp a + wp b := by
  ext i
  rw [Polynomial.coeff_add, coeff_wp, coeff_wp, coeff_wp, Nat.testBit_xor]
  cases a.testBit i <;> cases b.testBit i <;> simp [one_add_one]

theorem wp_shift (a i : Nat) : wp (a <<< i) = X ^ i * wp a := by
  ext j
  rw [coeff_wp, Polynomial.coeff_X_pow_mul', coeff_wp, Nat.testBit_shiftLeft]
  by_cases h : i ≤ j <;> simp [h]

theorem two_eq_zero (P : (Zp 2)[X]) : P + P = 0 := by
  ext i
  rw [Polynomial.coeff_add]
  rcases zp_two (P.coeff i) with h | h <;> simp [h, one_add_one]

theorem neg_eq (P : (Zp 2)[X]) : -P = P := neg_eq_of_add_eq_zero_left (two_eq_zero P)

theorem clmul_loop (a b : Nat) : ∀ k, wp ((List.range k).foldl (fun r i => if b.testBit i then r ^^^ (a <<< i) else r) 0) =
    wp a * ∑ i ∈ Finset.range k, if b.testBit i then X ^ i else 0
  | 0 => by simp [wp_zero]
  | k + 1 => by
    rw [List.range_succ, List.foldl_append, List.foldl_cons, List.foldl_nil, Finset.sum_range_succ, mul_add, ← clmul_loop a b k]
    split
    · rw [wp_xor, wp_shift, mul_comm (X ^ k)]
    · simp

theorem wp_clmul (a b : Nat) : wp (clmul a b) = wp a * wp b := clmul_loop a b _

theorem reduce_loop (f : Nat) (hf : f ≠ 0) : ∀ (k r : Nat), r < 2 ^ (k + f.log2) →
    let s := (List.range k).reverse.foldl (fun r i => if r.testBit (i + f.log2) then r ^^^ (f <<< i) else r) r
    s < 2 ^ f.log2 ∧ wp f ∣ wp r - wp s
  | 0, r, h => by simpa using h
  | k + 1, r, h => by
    rw [List.range_succ, List.reverse_append, List.reverse_singleton, List.singleton_append]
    simp only [List.foldl_cons]
    have key : ∀ {x : Nat}, x < 2 ^ (k + 1 + f.log2) → x.testBit (k + f.log2) = false → x < 2 ^ (k + f.log2) := by
      intro x hx hb
      apply Nat.lt_pow_two_of_testBit
      intro i hi
      rcases Nat.eq_or_lt_of_le hi with rfl | hi
      · exact hb
      · exact Nat.testBit_lt_two_pow (lt_of_lt_of_le hx (Nat.pow_le_pow_right (by norm_num) (by omega)))
    split
    · next hb =>
      have hfs : f <<< k < 2 ^ (k + 1 + f.log2) := by
        rw [Nat.shiftLeft_eq, show k + 1 + f.log2 = (f.log2 + 1) + k by omega, pow_add]
        exact Nat.mul_lt_mul_of_pos_right Nat.lt_log2_self (by positivity)
      have hft : (f <<< k).testBit (k + f.log2) = true := by
        rw [Nat.testBit_shiftLeft]
        simp [Nat.testBit_log2 hf]
      have hlt : r ^^^ f <<< k < 2 ^ (k + f.log2) := key (Nat.xor_lt_two_pow h hfs) (by rw [Nat.testBit_xor, hb, hft]; rfl)
      obtain ⟨h1, c, h2⟩ := reduce_loop f hf k _ hlt
      refine ⟨h1, X ^ k + c, ?_⟩
      rw [wp_xor, wp_shift] at h2
      rw [mul_add, ← h2]
      linear_combination - two_eq_zero (X ^ k * wp f)
    · next hb =>
      exact reduce_loop f hf k r (key h (by simpa using hb))

theorem reduce_spec (f g : Nat) (hf : f ≠ 0) : reduce f g < 2 ^ f.log2 ∧ wp f ∣ wp g - wp (reduce f g) :=
  reduce_loop f hf (g.log2 + 1) g (lt_of_lt_of_le Nat.lt_log2_self (Nat.pow_le_pow_right (by norm_num) (by omega)))

theorem wp_ne_zero {f : Nat} (hf : f ≠ 0) : wp f ≠ 0 := fun h => hf (wp_inj (h.trans wp_zero.symm))

theorem degree_wp_lt {n k : Nat} (h : n < 2 ^ k) : (wp n).degree < k := by
  rw [Polynomial.degree_lt_iff_coeff_zero]
  intro i hi
  rw [coeff_wp, Nat.testBit_lt_two_pow (lt_of_lt_of_le h (Nat.pow_le_pow_right (by norm_num) hi))]
  simp

theorem le_degree_wp {f : Nat} (hf : f ≠ 0) : (f.log2 : WithBot ℕ) ≤ (wp f).degree := by
  apply Polynomial.le_degree_of_ne_zero
  rw [coeff_wp, Nat.testBit_log2 hf]
  simp

theorem wp_reduce (f g : Nat) (hf : f ≠ 0) : wp (reduce f g) = wp g % wp f := by
  obtain ⟨h1, c, h2⟩ := reduce_spec f g hf
  exact (div_mod_unique (wp_ne_zero hf) (Q := c) (by linear_combination h2)
    (lt_of_lt_of_le (degree_wp_lt h1) (le_degree_wp hf))).2

/-- The word of a coefficient list. -/
def word (a : List (Zp 2)) : Nat := bitsVal (a.map fun c => decide (c = 1))

theorem testBit_word : ∀ (a : List (Zp 2)) (i : Nat), (word a).testBit i = decide (a.getD i 0 = 1)
  | [], i => by
    have h01 : (0 : Zp 2) ≠ 1 := zero_ne_one
    simp [word, bitsVal, h01]
  | c :: a, 0 => by
    rw [word, List.map_cons, bitsVal, Nat.testBit_zero]
    by_cases h : c = 1 <;> simp [h]
  | c :: a, i + 1 => by
    have ih := testBit_word a i
    rw [word] at ih
    rw [word, List.map_cons, bitsVal, Nat.testBit_succ, List.getD_cons_succ, ← ih]
    congr 1
    have : (decide (c = 1)).toNat ≤ 1 := Bool.toNat_le _
    omega

theorem wp_word (a : List (Zp 2)) : wp (word a) = toPoly a := by
  ext i
  rw [coeff_wp, coeff_toPoly, testBit_word]
  rcases zp_two (a.getD i 0) with h | h <;> rw [h] <;> simp

theorem word_lt {a : List (Zp 2)} : word a < 2 ^ a.length := by
  apply Nat.lt_pow_two_of_testBit
  intro i hi
  have h01 : (0 : Zp 2) ≠ 1 := zero_ne_one
  rw [testBit_word, List.getD_eq_default _ _ hi]
  simp [h01]

theorem log2_word {f : List (Zp 2)} (hf : Canon f) (h0 : f ≠ []) : word f ≠ 0 ∧ (word f).log2 = f.length - 1 := by
  have hl : 0 < f.length := List.length_pos_of_ne_nil h0
  have ht : (word f).testBit (f.length - 1) = true := by
    rw [testBit_word, decide_eq_true_eq]
    have hlast := hf (f.getLast h0) (List.getLast?_eq_getLast_of_ne_nil h0)
    have : f.getD (f.length - 1) 0 = f.getLast h0 := by
      rw [List.getD_eq_getElem _ _ (by omega), List.getLast_eq_getElem]
    rw [this]
    exact (zp_two _).resolve_left hlast
  have hne : word f ≠ 0 := by rintro h; simp [h] at ht
  refine ⟨hne, le_antisymm ?_ ?_⟩
  · have := (Nat.log2_lt hne).2 (word_lt (a := f)); omega
  · rw [Nat.le_log2 hne]
    by_contra h
    rw [not_le] at h
    rw [Nat.testBit_lt_two_pow h] at ht
    exact absurd ht (by simp)

theorem word_inj {a b : List (Zp 2)} (ha : Canon a) (hb : Canon b) (h : word a = word b) : a = b :=
  toPoly_inj ha hb (by rw [← wp_word, ← wp_word, h])

theorem word_lt_of {f a : List (Zp 2)} (h : a.length < f.length) : word a < 2 ^ (f.length - 1) :=
  lt_of_lt_of_le word_lt (Nat.pow_le_pow_right (by norm_num) (by omega))

/-- Every word below `2^m` is that of an element. -/
theorem word_surj {f : List (Zp 2)} (h0 : f ≠ []) {n : Nat} (hn : n < 2 ^ (f.length - 1)) :
    ∃ a : List (Zp 2), Canon a ∧ a.length < f.length ∧ word a = n := by
  have hl : 0 < f.length := List.length_pos_of_ne_nil h0
  obtain ⟨g, hg⟩ := CPoly.val_surj (wp n)
  have hg' : toPoly g.1 = wp n := hg
  refine ⟨g.1, g.2, ?_, wp_inj (by rw [wp_word, hg'])⟩
  have : g.1.length ≤ f.length - 1 := by
    apply length_le_of_canon g.2
    intro i hi
    rw [hg', coeff_wp, Nat.testBit_lt_two_pow (lt_of_lt_of_le hn (Nat.pow_le_pow_right (by norm_num) hi))]
    simp
  omega

theorem ofPoly_word {f g : List (Zp 2)} (hf : Canon f) (h0 : f ≠ []) (hg : Canon g) :
    ∃ r, ofPoly f g = .ok r ∧ Canon r ∧ r.length < f.length ∧ word r = reduce (word f) (word g) := by
  obtain ⟨r, h1, h2, h3, h4⟩ := mod_eq hg hf h0
  refine ⟨r, h1, h2, h4, wp_inj ?_⟩
  rw [wp_word, h3, wp_reduce _ _ (log2_word hf h0).1, wp_word, wp_word]

/-- Reduction leaves short words alone. -/
theorem reduce_small {f g : Nat} (hf : f ≠ 0) (h : g < 2 ^ f.log2) : reduce f g = g := by
  apply wp_inj
  rw [wp_reduce f g hf]
  exact (Polynomial.mod_eq_self_iff (wp_ne_zero hf)).2 (lt_of_lt_of_le (degree_wp_lt h) (le_degree_wp hf))

end Verif.Words
