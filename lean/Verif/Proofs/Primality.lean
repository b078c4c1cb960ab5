import Verif.Model.Primality
import Mathlib.FieldTheory.Finite.Basic
import Mathlib.Tactic.Ring
import Mathlib.Tactic.Linarith
import Mathlib.Tactic.LinearCombination
/-! # The Miller–Rabin test -/

namespace Verif.Primality

theorem decomposeLoop_spec (fuel : Nat) : ∀ (e : Nat) (n : Int), n ≠ 0 → n.natAbs < fuel →
    ∃ k m, decomposeLoop fuel e n = .ok (e + k, m) ∧ n = 2 ^ k * m ∧ m % 2 = 1 := by
  induction fuel with
  | zero => intro e n _ h; omega
  | succ fuel ih =>
    intro e n hn hf
    unfold decomposeLoop
    by_cases h : n % 2 = 0
    · rw [if_pos h]
      obtain ⟨k, m, h1, h2, h3⟩ := ih (e + 1) (n / 2) (by omega) (by omega)
      refine ⟨k + 1, m, by rw [h1]; congr 2; omega, ?_, h3⟩
      rw [pow_succ]
      have : n = 2 * (n / 2) := by omega
      rw [this, h2]; ring
    · rw [if_neg h]
      exact ⟨0, n, rfl, by ring, by omega⟩

theorem decompose_spec (n : Int) (hn : n ≠ 0) : ∃ k m, decompose n = .ok (k, m) ∧ n = 2 ^ k * m ∧ m % 2 = 1 := by
  obtain ⟨k, m, h⟩ := decomposeLoop_spec (n.natAbs + 1) 0 n hn (by omega)
  exact ⟨k, m, by simpa [decompose] using h⟩

theorem decomposeLoop_zero (fuel e : Nat) : decomposeLoop fuel e 0 = .error .diverge := by
  induction fuel generalizing e with
  | zero => rfl
  | succ fuel ih => simpa [decomposeLoop] using ih (e + 1)

theorem isWitness_false_iff (a p : Int) (e r : Nat) : isWitness a p e r = false ↔
    powMod a r p = 1 ∨ ∃ i < e, powMod a (2 ^ i * r) p = p - 1 := by
  unfold isWitness
  by_cases h : powMod a r p = 1
  · simp [h]
  · rw [if_neg h]
    by_cases h2 : (List.range e).any fun i => powMod a (2 ^ i * r) p == p - 1
    · rw [if_pos h2]
      simp only [List.any_eq_true, List.mem_range, beq_iff_eq] at h2
      simp [h2]
    · rw [if_neg h2]
      simp only [List.any_eq_true, List.mem_range, beq_iff_eq] at h2
      simp only [Bool.true_eq_false, h, false_or, h2]

theorem powMod_eq_one (a p : Int) (e : Nat) (hp : 2 ≤ p) : powMod a e p = 1 ↔ p ∣ a ^ e - 1 := by
  unfold powMod
  rw [← Int.emod_emod_of_dvd (a ^ e) (dvd_refl p)]
  constructor
  · intro h
    have := Int.emod_add_mul_ediv (a ^ e) p
    rw [Int.emod_emod_of_dvd _ (dvd_refl p)] at h
    exact ⟨a ^ e / p, by linarith⟩
  · rintro ⟨c, hc⟩
    rw [Int.emod_emod_of_dvd _ (dvd_refl p), show a ^ e = 1 + p * c by linarith, Int.add_mul_emod_self_left]
    exact Int.emod_eq_of_lt (by omega) (by omega)

theorem powMod_eq_neg_one (a p : Int) (e : Nat) (hp : 2 ≤ p) : powMod a e p = p - 1 ↔ p ∣ a ^ e + 1 := by
  unfold powMod
  constructor
  · intro h
    have := Int.emod_add_mul_ediv (a ^ e) p
    exact ⟨a ^ e / p + 1, by linear_combination h - this⟩
  · rintro ⟨c, hc⟩
    rw [show a ^ e = (p - 1) + p * (c - 1) by linear_combination hc, Int.add_mul_emod_self_left]
    exact Int.emod_eq_of_lt (by omega) (by omega)

theorem prime_not_witness (p : Nat) (hp : p.Prime) (hp2 : 2 < p) (e r : Nat) (h : p - 1 = 2 ^ e * r) (a : Int)
    (ha : ¬ (p : Int) ∣ a) : isWitness a p e r = false := by
  rw [isWitness_false_iff]
  have hp' : (2 : Int) ≤ p := by omega
  simp only [powMod_eq_one _ _ _ hp', powMod_eq_neg_one _ _ _ hp']
  have hpr : Prime (p : Int) := Nat.prime_iff_prime_int.mp hp
  have fermat : (p : Int) ∣ a ^ (2 ^ e * r) - 1 := by
    have := Fact.mk hp
    have h0 : (a : ZMod p) ≠ 0 := fun h0 => ha ((ZMod.intCast_zmod_eq_zero_iff_dvd a p).mp h0)
    have := ZMod.pow_card_sub_one_eq_one h0
    rw [← h, ← ZMod.intCast_zmod_eq_zero_iff_dvd]
    push_cast
    rw [this, sub_self]
  clear h
  induction e with
  | zero => left; simpa using fermat
  | succ e ih =>
    have e2 : a ^ (2 ^ (e + 1) * r) - 1 = (a ^ (2 ^ e * r) - 1) * (a ^ (2 ^ e * r) + 1) := by
      rw [show 2 ^ (e + 1) * r = (2 ^ e * r) * 2 by ring, pow_mul]; ring
    rw [e2] at fermat
    rcases hpr.dvd_or_dvd fermat with h | h
    · rcases ih h with h | ⟨i, hi, h⟩
      · exact Or.inl h
      · exact Or.inr ⟨i, by omega, h⟩
    · exact Or.inr ⟨e, by omega, h⟩

theorem witnessLoop_true_iff (p : Int) (e r : Nat) (draw : Nat → Int) (k i : Nat) : witnessLoop p e r draw k i = true ↔
    ∀ j, i ≤ j → j < i + k → isWitness (draw j) p e r = false := by
  induction k generalizing i with
  | zero => simp [witnessLoop]; intro j h1 h2; omega
  | succ k ih =>
    unfold witnessLoop
    cases h : isWitness (draw i) p e r with
    | true =>
      simp only [if_true, Bool.false_eq_true, false_iff, not_forall]
      exact ⟨i, le_refl _, by omega, by simp [h]⟩
    | false =>
      simp only [Bool.false_eq_true, if_false, ih]
      constructor
      · intro h2 j h3 h4
        rcases Nat.eq_or_lt_of_le h3 with rfl | h3
        · exact h
        · exact h2 j h3 (by omega)
      · intro h2 j h3 h4
        exact h2 j (by omega) (by omega)

/-- A base sharing a factor with `p` is always a witness. -/
theorem not_coprime_witness (a p : Int) (hp : 2 ≤ p) (e r : Nat) (hr : 0 < r) (d : Int) (hd : 2 ≤ d) (h1 : d ∣ a) (h2 : d ∣ p) :
    isWitness a p e r = true := by
  by_contra hc
  have hc : isWitness a p e r = false := by simpa using hc
  rw [isWitness_false_iff] at hc
  simp only [powMod_eq_one _ _ _ hp, powMod_eq_neg_one _ _ _ hp] at hc
  have key : ∀ m : Nat, 0 < m → ∀ s : Int, (s = 1 ∨ s = -1) → d ∣ a ^ m - s → False := by
    intro m hm s hs h
    have hd' : d ∣ a ^ m := dvd_pow h1 (by omega)
    have : d ∣ s := by have := dvd_sub hd' h; simpa using this
    have : d ∣ 1 := by
      rcases hs with rfl | rfl
      · exact this
      · simpa using this
    have := Int.le_of_dvd (by norm_num) this
    omega
  rcases hc with h | ⟨i, -, h⟩
  · exact key r hr 1 (Or.inl rfl) (h2.trans h)
  · exact key (2 ^ i * r) (by positivity) (-1) (Or.inr rfl) (by simpa using h2.trans h)

/-- Unfolding for odd `p ≥ 5`. -/
theorem probablyPrime_odd (p : Int) (hp : 5 ≤ p) (ho : p % 2 = 1) : ∃ e r : Nat, p - 1 = 2 ^ e * r ∧ r % 2 = 1 ∧ 0 < e ∧ ∀ k draw,
    probablyPrime p k draw = .ok (witnessLoop p e r draw k 0) := by
  obtain ⟨e, m, h1, h2, h3⟩ := decompose_spec (p - 1) (by omega)
  have hm : 0 ≤ m := by
    by_contra h
    have : (2 : Int) ^ e * m < 0 := mul_neg_of_pos_of_neg (by positivity) (by omega)
    omega
  refine ⟨e, m.toNat, by rw [Int.toNat_of_nonneg hm]; exact h2, by omega, ?_, fun k draw => ?_⟩
  · rcases Nat.eq_zero_or_pos e with rfl | h
    · simp at h2; omega
    · exact h
  · unfold probablyPrime
    rw [if_neg (by omega), if_neg (by omega), h1]
    rfl

end Verif.Primality
