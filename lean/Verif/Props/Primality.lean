import Verif.Proofs.MillerRabin
import Mathlib.Tactic.NormNum.Prime
import Mathlib.Data.Nat.Prime.Int
import Mathlib.Tactic.IntervalCases
/-! # C65, C80: the primality test -/

namespace Verif.Props
open Verif.Primality

/-- **C65.** Every prime is accepted, whatever bases are drawn (from `[2, p-2]`; none are drawn for `p ≤ 4`) and whatever the
accuracy. -/
theorem C65_prime_accepted (p : Int) (hp : Nat.Prime p.toNat) (accuracy : Nat) (draw : Nat → Int)
    (hd : 4 < p → ∀ i, 2 ≤ draw i ∧ draw i ≤ p - 2) : probablyPrime p accuracy draw = .ok true := by
  have h2 := hp.two_le
  by_cases h3 : p = 2 ∨ p = 3
  · unfold probablyPrime; rw [if_pos h3]
  have hodd : p % 2 = 1 := by
    rcases hp.eq_two_or_odd with h | h <;> omega
  obtain ⟨e, r, h, -, -, hpp⟩ := probablyPrime_odd p (by omega) hodd
  rw [hpp]
  congr 1
  rw [witnessLoop_true_iff]
  intro j _ _
  have hpc : (p.toNat : Int) = p := Int.toNat_of_nonneg (by omega)
  have := prime_not_witness p.toNat hp (by omega) e r (by
    have : ((p.toNat - 1 : Nat) : Int) = ((2 ^ e * r : Nat) : Int) := by push_cast; omega
    exact_mod_cast this) (draw j) (by
    rw [hpc]
    intro hdvd
    have := Int.le_of_dvd (by have := hd (by omega) j; omega) hdvd
    have := hd (by omega) j
    omega)
  rwa [hpc] at this

example : Nat.Prime (13 : Int).toNat ∧ ∀ i : Nat, (2 : Int) ≤ 2 + i % 9 ∧ (2 : Int) + i % 9 ≤ 13 - 2 :=
  ⟨by show Nat.Prime 13; norm_num, fun i => by omega⟩

/-- **C65.** The test always returns, and a number it rejects is not prime. -/
theorem C65_rejects_composite (p : Int) (accuracy : Nat) (draw : Nat → Int) (hd : 4 < p → ∀ i, 2 ≤ draw i ∧ draw i ≤ p - 2) :
    (∃ b, probablyPrime p accuracy draw = .ok b) ∧
    (probablyPrime p accuracy draw = .ok false → ¬ Nat.Prime p.toNat) := by
  constructor
  · by_cases h3 : p = 2 ∨ p = 3
    · exact ⟨true, by unfold probablyPrime; rw [if_pos h3]⟩
    by_cases h4 : p < 2 ∨ p % 2 = 0
    · exact ⟨false, by unfold probablyPrime; rw [if_neg h3, if_pos h4]⟩
    · obtain ⟨e, r, -, -, -, hpp⟩ := probablyPrime_odd p (by omega) (by omega)
      exact ⟨_, hpp _ _⟩
  · intro h hp
    rw [C65_prime_accepted p hp accuracy draw hd] at h
    simp at h

example : probablyPrime 15 1 (fun _ => 2) = .ok false := by decide
/-- 2047 = 23 · 89 passes the test to the base 2. -/
example : probablyPrime 2047 1 (fun _ => 2) = .ok true := by decide +kernel

/-- **C65.** `decompose` returns the odd part and its exponent for every non-zero integer and loops for ever on 0. -/
theorem C65_decompose (n : Int) :
    (n ≠ 0 → ∃ k m, decompose n = .ok (k, m) ∧ n = 2 ^ k * m ∧ m % 2 = 1) ∧ ∀ fuel e, decomposeLoop fuel e 0 = .error .diverge :=
  ⟨decompose_spec n, decomposeLoop_zero⟩

example : decompose (-24) = .ok (3, -3) := by decide

/-- **C65.** A base drawn in any round that shares a factor with `p ≥ 4` makes the test answer False. -/
theorem C65_factor_exposes (p : Int) (accuracy : Nat) (draw : Nat → Int) (i : Nat) (hi : i < accuracy)
    (hp : 4 ≤ p) (d : Int) (hd : 2 ≤ d) (h1 : d ∣ draw i) (h2 : d ∣ p) :
    probablyPrime p accuracy draw = .ok false := by
  by_cases ho : p % 2 = 0
  · unfold probablyPrime; rw [if_neg (by omega), if_pos (by omega)]
  have h5 : 5 ≤ p := by omega
  obtain ⟨e, r, -, hr, -, hpp⟩ := probablyPrime_odd p h5 (by omega)
  rw [hpp]
  congr 1
  by_contra hc
  have hc : witnessLoop p e r draw accuracy 0 = true := by simpa using hc
  rw [witnessLoop_true_iff] at hc
  have := hc i (by omega) (by omega)
  rw [not_coprime_witness (draw i) p (by omega) e r (by omega) d hd h1 h2] at this
  simp at this

example : probablyPrime 2047 2 (fun i => if i = 0 then 2 else 46) = .ok false := by decide +kernel

/-- The draws of `accuracy` rounds, from a vector. -/
def drawsOf {k : Nat} (d : Fin k → Int) : Nat → Int := fun i => if h : i < k then d ⟨i, h⟩ else 2

open Classical in
/-- **C80.** For every composite number `p ≥ 4` and accuracy `k`, of all the vectors of `k` bases in `[2, p-2]` at most the
fraction `4^-k` makes the test answer True. -/
theorem C80_error_probability (p : Int) (hp : 4 ≤ p) (hc : ¬ Nat.Prime p.toNat) (k : Nat) :
    ((Fintype.piFinset fun _ : Fin k => Finset.Icc (2 : Int) (p - 2)).filter
      fun d => probablyPrime p k (drawsOf d) = .ok true).card * 4 ^ k ≤
    (Fintype.piFinset fun _ : Fin k => Finset.Icc (2 : Int) (p - 2)).card := by
  by_cases ho : p % 2 = 0
  · rw [Finset.filter_false_of_mem]
    · simp
    · intro d _
      unfold probablyPrime; rw [if_neg (by omega), if_pos (by omega)]
      simp
  obtain ⟨e, r, h, hr, he, hpp⟩ := probablyPrime_odd p (by omega) (by omega)
  have hpc : (p.toNat : Int) = p := Int.toNat_of_nonneg (by omega)
  have hn : p.toNat - 1 = 2 ^ e * r := by
    have : ((p.toNat - 1 : Nat) : Int) = ((2 ^ e * r : Nat) : Int) := by push_cast; omega
    exact_mod_cast this
  have hl : ((liars p e r).card : Int) * 4 ≤ p - 3 := by
    by_cases h9 : p = 9
    · subst h9
      rw [liars_nine e r hr (by simpa using hn)]
      norm_num
    · have hl := liars_card p.toNat e r (by omega) (by omega) (by omega) hc he hr hn
      rw [hpc] at hl
      omega
  have hset : ((Fintype.piFinset fun _ : Fin k => Finset.Icc (2 : Int) (p - 2)).filter
      fun d => probablyPrime p k (drawsOf d) = .ok true) = Fintype.piFinset fun _ : Fin k => liars p e r := by
    ext d
    rw [Finset.mem_filter, Fintype.mem_piFinset, Fintype.mem_piFinset, hpp, Except.ok.injEq, witnessLoop_true_iff]
    unfold liars
    simp only [Finset.mem_filter]
    constructor
    · rintro ⟨h1, h2⟩ i
      refine ⟨h1 i, ?_⟩
      have := h2 i (by omega) (by omega)
      simpa [drawsOf] using this
    · intro h1
      refine ⟨fun i => (h1 i).1, fun j _ hj => ?_⟩
      have hj : j < k := by omega
      simpa [drawsOf, hj] using (h1 ⟨j, hj⟩).2
  rw [hset, Fintype.card_piFinset, Fintype.card_piFinset]
  simp only [Finset.prod_const, Finset.card_univ, Fintype.card_fin, ← mul_pow]
  apply Nat.pow_le_pow_left
  rw [Int.card_Icc]
  omega

example : ¬ Nat.Prime (2047 : Int).toNat := by show ¬ Nat.Prime 2047; norm_num

end Verif.Props
