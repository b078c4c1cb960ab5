import Mathlib.NumberTheory.LucasPrimality
import Mathlib.Tactic.NormNum.Prime
/-! # The modulus the library is used with, `2^256 - 351 * 2^32 + 1`, is prime -/

namespace Verif.Modulus

/-- `a ^ e % n`, by squaring; `k` bounds the number of bits of `e`. -/
def powMod (a n : Nat) : Nat → Nat → Nat
  | 0, _ => 1 % n
  | k + 1, e => if e % 2 = 1 then powMod a n k (e / 2) ^ 2 * a % n else powMod a n k (e / 2) ^ 2 % n

theorem powMod_eq (a n : Nat) : ∀ k e, e < 2 ^ k → powMod a n k e = a ^ e % n := by
  intro k
  induction k with
  | zero => intro e he; have : e = 0 := by omega
            subst this; simp [powMod]
  | succ k ih =>
    intro e he
    have h := ih (e / 2) (by omega)
    unfold powMod
    rw [h]
    split
    · rename_i h1
      conv_rhs => rw [show e = e / 2 * 2 + 1 by omega, pow_succ, pow_mul]
      simp [Nat.mul_mod, Nat.pow_mod]
    · rename_i h1
      conv_rhs => rw [show e = e / 2 * 2 by omega, pow_mul]
      simp [Nat.pow_mod]

/-- A Lucas certificate: a factorisation of `p - 1` into primes and an element of order `p - 1`. -/
theorem lucas (p a k : Nat) (L : List Nat) (hL : L.prod + 1 = p) (hk : p < 2 ^ k) (hprime : ∀ q ∈ L, q.Prime)
    (h1 : powMod a p k (p - 1) = 1 % p) (h2 : ∀ q ∈ L, powMod a p k ((p - 1) / q) ≠ 1 % p) : p.Prime := by
  have hz : ∀ n : Nat, n < 2 ^ k → (((a : ZMod p) ^ n = 1) ↔ powMod a p k n = 1 % p) := by
    intro n hn
    have := ZMod.natCast_eq_natCast_iff (a ^ n) 1 p
    push_cast at this
    rw [powMod_eq a p k n hn]
    exact this
  refine lucas_primality p a ((hz _ (by omega)).mpr h1) (fun q hq hd => ?_)
  rw [Ne, hz _ (lt_of_le_of_lt (Nat.div_le_self _ _) (by omega))]
  have hd' : q ∣ L.prod := by rw [← hL, Nat.add_sub_cancel] at hd; exact hd
  obtain ⟨r, hr, hqr⟩ := (hq.prime.dvd_prod_iff).mp hd'
  have : q = r := (Nat.prime_dvd_prime_iff_eq hq (hprime r hr)).mp hqr
  subst this
  exact h2 _ hr

theorem prime_b : Nat.Prime 238470320578611241 := by
  refine lucas _ 11 58 [2, 2, 2, 3, 3, 3, 5, 7, 2389, 5153, 2562337] (by decide +kernel) (by decide +kernel) ?_ (by decide +kernel) (by decide +kernel)
  simp only [List.forall_mem_cons]
  exact ⟨by norm_num, by norm_num, by norm_num, by norm_num, by norm_num, by norm_num, by norm_num, by norm_num, by norm_num, by norm_num, by norm_num, by simp⟩

theorem prime_c : Nat.Prime 958173748084859966339 := by
  refine lucas _ 2 70 [2, 7, 7, 41, 238470320578611241] (by decide +kernel) (by decide +kernel) ?_ (by decide +kernel) (by decide +kernel)
  simp only [List.forall_mem_cons]
  exact ⟨by norm_num, by norm_num, by norm_num, by norm_num, prime_b, by simp⟩

theorem prime_d : Nat.Prime 494933341829 := by
  refine lucas _ 2 39 [2, 2, 103, 5279, 227561] (by decide +kernel) (by decide +kernel) ?_ (by decide +kernel) (by decide +kernel)
  simp only [List.forall_mem_cons]
  exact ⟨by norm_num, by norm_num, by norm_num, by norm_num, by norm_num, by simp⟩

theorem prime_e : Nat.Prime 56221458031723427 := by
  refine lucas _ 2 56 [2, 13, 17, 257, 494933341829] (by decide +kernel) (by decide +kernel) ?_ (by decide +kernel) (by decide +kernel)
  simp only [List.forall_mem_cons]
  exact ⟨by norm_num, by norm_num, by norm_num, by norm_num, prime_d, by simp⟩

theorem prime_f : Nat.Prime 2865134424244852517 := by
  refine lucas _ 2 62 [2, 2, 1427, 1433, 17599, 19903381] (by decide +kernel) (by decide +kernel) ?_ (by decide +kernel) (by decide +kernel)
  simp only [List.forall_mem_cons]
  exact ⟨by norm_num, by norm_num, by norm_num, by norm_num, by norm_num, by norm_num, by simp⟩

theorem prime_g : Nat.Prime 2768008234834258951084553497114048089766079 := by
  refine lucas _ 17 141 [2, 13, 660917, 56221458031723427, 2865134424244852517] (by decide +kernel) (by decide +kernel) ?_ (by decide +kernel) (by decide +kernel)
  simp only [List.forall_mem_cons]
  exact ⟨by norm_num, by norm_num, by norm_num, prime_e, prime_f, by simp⟩

/-- The modulus used throughout the library's STARK tests (`modulus = 2**256 - 2**32 * 351 + 1`). -/
def starkPrime : Nat := 2 ^ 256 - 2 ^ 32 * 351 + 1

theorem starkPrime_prime : Nat.Prime starkPrime := by
  refine lucas _ 3 256 (List.replicate 32 2 ++ [5, 19, 107, 958173748084859966339, 2768008234834258951084553497114048089766079])
    (by decide +kernel) (by decide +kernel) ?_ (by decide +kernel) (by decide +kernel)
  intro q hq
  rw [List.mem_append] at hq
  rcases hq with hq | hq
  · rw [List.eq_of_mem_replicate hq]; norm_num
  · revert q
    simp only [List.forall_mem_cons]
    exact ⟨by norm_num, by norm_num, by norm_num, prime_c, prime_g, by simp⟩

instance starkPrime_fact : Fact starkPrime.Prime := ⟨starkPrime_prime⟩

theorem starkPrime_mod_three : starkPrime % 3 = 2 := by decide +kernel

end Verif.Modulus
