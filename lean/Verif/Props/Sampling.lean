import Verif.Proofs.Sampling
import Mathlib.Data.Nat.Cast.Field
/-!
# C132: spot checks hit bad positions with the expected probability

The probability is over a 32-byte string and a function on 32-byte strings, both uniform (`Spec/RandomHash`): blake as a random function.
`B` is the set of bad positions.
-/

namespace Verif.Props
open Finset Utils Sampling

/-- **C132**, without an excluded factor: the probability that `count` sampled positions all miss `B` is at most what it is for independent
positions, each word of four bytes giving a position, plus the probability that the chain of hashes repeats a value. -/
theorem C132_spot_checks (m count : Nat) (hm : 0 < m) (hm2 : m < 2 ^ 24) (hc : 0 < count) (B : Finset Nat) (hB : ∀ b ∈ B, b < m) :
    fraction (fun ω : Digest × (Digest → Digest) =>
      ∃ o, getPseudorandomIndices (hashOf ω.2) ω.1.1 m count 0 = .ok o ∧ ∀ b ∈ B, (b : Int) ∉ o) ≤
    (1 - #B * ((2 ^ 32 / m : ℕ) : ℚ) / 2 ^ 32) ^ count + (((count - 1) / 8 : ℕ) * (((count - 1) / 8 : ℕ) + 1) / 2 : ℚ) / 2 ^ 256 := by
  classical
  have h2 := below _ _ (card_words m hm B hB) count
  rw [Nat.cast_mul] at h2
  refine (miss_le count hc ({w : Fin (2 ^ 32) | w.1 % m ∈ B} : Finset _) _ ?_).trans (add_le_add h2 le_rfl)
  rintro ω ⟨o, ho, h⟩ j hj hw
  rw [indices_plain ω m count hc (by exact_mod_cast hm) (by exact_mod_cast hm2)] at ho
  cases ho
  simp only [mem_filter, mem_univ, true_and] at hw
  refine h _ hw (List.mem_map.2 ⟨j.1, List.mem_range.2 hj, ?_⟩)
  simp [wordsOf]

/-- **C132** for the domains the library uses, whose size is a power of two: the words are split evenly. -/
theorem C132_power_of_two (j count : Nat) (hj : j < 24) (hc : 0 < count) (B : Finset Nat) (hB : ∀ b ∈ B, b < 2 ^ j) :
    fraction (fun ω : Digest × (Digest → Digest) =>
      ∃ o, getPseudorandomIndices (hashOf ω.2) ω.1.1 (2 ^ j : ℕ) count 0 = .ok o ∧ ∀ b ∈ B, (b : Int) ∉ o) ≤
    (1 - (#B : ℚ) / 2 ^ j) ^ count + (((count - 1) / 8 : ℕ) * (((count - 1) / 8 : ℕ) + 1) / 2 : ℚ) / 2 ^ 256 := by
  have h := C132_spot_checks (2 ^ j) count (by positivity) (Nat.pow_lt_pow_right (by omega) hj) hc B hB
  have e : (#B * ((2 ^ 32 / 2 ^ j : ℕ) : ℚ) / 2 ^ 32 : ℚ) = #B / 2 ^ j := by
    rw [Nat.cast_div (pow_dvd_pow 2 (by omega)) (by positivity), Nat.cast_pow, Nat.cast_pow, Nat.cast_ofNat]
    have : (0 : ℚ) < 2 ^ 32 := by positivity
    generalize (2 : ℚ) ^ 32 = Q at this
    field_simp
  rwa [e] at h

/-- **C132** with an excluded factor `e` dividing the size: the positions that are not multiples of `e` are sampled, and `B` consists of
such. -/
theorem C132_excluded (m count e : Nat) (hm : 2 ≤ m) (hm2 : m < 2 ^ 24) (he : 2 ≤ e) (hem : e ∣ m) (hc : 0 < count) (B : Finset Nat)
    (hB : ∀ b ∈ B, b < m ∧ ¬ e ∣ b) :
    fraction (fun ω : Digest × (Digest → Digest) =>
      ∃ o, getPseudorandomIndices (hashOf ω.2) ω.1.1 m count e = .ok o ∧ ∀ b ∈ B, (b : Int) ∉ o) ≤
    (1 - #B * ((2 ^ 32 / (m * (e - 1) / e) : ℕ) : ℚ) / 2 ^ 32) ^ count +
      (((count - 1) / 8 : ℕ) * (((count - 1) / 8 : ℕ) + 1) / 2 : ℚ) / 2 ^ 256 := by
  classical
  obtain ⟨f, hf⟩ := preimages m e he hem B hB
  have hR : 0 < m * (e - 1) / e := by
    have := real_modulus_pos (m := m) (e := e) (by omega) (by omega)
    rw [cast_modulus he] at this
    exact_mod_cast this
  have hcard : #(B.image f) = #B := card_image_of_injOn fun a ha b hb hab => by
    have h1 := (hf a ha).2
    have h2 := (hf b hb).2
    have hab : f a = f b := hab
    rw [hab, h2] at h1
    exact_mod_cast h1.symm
  have hcw := card_words (m * (e - 1) / e) hR (B.image f) fun x hx => by
    obtain ⟨b, hb, rfl⟩ := mem_image.1 hx
    exact (hf b hb).1
  rw [hcard] at hcw
  have h2 := below _ _ hcw count
  rw [Nat.cast_mul] at h2
  refine (miss_le count hc ({w : Fin (2 ^ 32) | w.1 % (m * (e - 1) / e) ∈ B.image f} : Finset _) _ ?_).trans (add_le_add h2 le_rfl)
  rintro ω ⟨o, ho, h⟩ j hj hw
  rw [indices_excl ω m e count hc (by exact_mod_cast hm) (by exact_mod_cast hm2) (by exact_mod_cast he)] at ho
  cases ho
  simp only [mem_filter, mem_univ, true_and] at hw
  obtain ⟨b, hb, hfb⟩ := mem_image.1 hw
  refine h b hb (List.mem_map.2 ⟨j.1, List.mem_range.2 hj, ?_⟩)
  have hx : (word (concat (chain ((count - 1) / 8) ω)) j.1 : Int) % ((m : Int) * (e - 1) / e) = f b := by
    rw [cast_modulus he, hfb]
    simp [wordsOf]
  simp only [hx]
  exact (hf b hb).2

/-- This meets the hypotheses of `C132_spot_checks`, `C132_power_of_two`, `C132_excluded`: 80 positions out of 512, 256 of them bad; and 40 out of
the 496 that are not multiples of 32, 248 of them bad. -/
example : (∀ b ∈ range 256, b < 2 ^ 9) ∧ ((1 - ((#(range 256) : ℕ) : ℚ) / 2 ^ 9) ^ 80 = 1 / 2 ^ 80) ∧ (80 - 1) / 8 * ((80 - 1) / 8 + 1) / 2 = 45 ∧
    (∀ b ∈ (range 256).filter (¬ 32 ∣ ·), b < 512 ∧ ¬ 32 ∣ b) ∧ #((range 256).filter (¬ 32 ∣ ·)) = 248 ∧ 512 * (32 - 1) / 32 = 496 := by
  refine ⟨by simp; omega, by simp; norm_num, by norm_num, ?_, by decide +kernel, by norm_num⟩
  intro b hb
  simp only [mem_filter, mem_range] at hb
  exact ⟨by omega, hb.2⟩

end Verif.Props
