import Verif.Proofs.Modulus
import Verif.Proofs.Mimc
import Verif.Props.StarkProtocol
/-!
# C70, C73, C74, C86: the modulus the library is used with

`utils.py:22` fixes the modulus of `mimc`, `2^256 - 2^32 * 351 + 1`, and the STARK tests use the same one.
-/

namespace Verif.Props
open Stark Modulus
open Mv (Dict toMv)

/-- The modulus of `mimc` is that number. -/
theorem C86_mimc_modulus : Utils.mimcModulus = (starkPrime : Int) := by decide +kernel

/-- **C86.** It is prime, it fits into 32 bytes, and cubing modulo it is invertible. -/
theorem C86_modulus : Nat.Prime (2 ^ 256 - 2 ^ 32 * 351 + 1) ∧ 2 ^ 256 - 2 ^ 32 * 351 + 1 < 2 ^ 256 ∧ (2 ^ 256 - 2 ^ 32 * 351 + 1) % 3 = 2 :=
  ⟨starkPrime_prime, by decide +kernel, by decide +kernel⟩

/-- **C70**, for the function as it is: with any non-empty round constants and any number of steps, `mimc` returns, and two different
inputs in `[0, modulus)` give different results, again in `[0, modulus)`. -/
theorem C70_mimc (steps : Int) (rc : List Int) (hrc : rc ≠ []) :
    ∃ f : Int → Int, (∀ x, Utils.mimc x steps rc = .ok (f x)) ∧
      (∀ x : Int, 0 ≤ x ∧ x < 2 ^ 256 - 2 ^ 32 * 351 + 1 → 0 ≤ f x ∧ f x < 2 ^ 256 - 2 ^ 32 * 351 + 1) ∧
      (∀ x y : Int, 0 ≤ x ∧ x < 2 ^ 256 - 2 ^ 32 * 351 + 1 → 0 ≤ y ∧ y < 2 ^ 256 - 2 ^ 32 * 351 + 1 → f x = f y → x = y) := by
  have h := Utils.mimcLoop_spec starkPrime_mod_three rc hrc (steps - 1).toNat 0
  rw [← C86_mimc_modulus] at h
  exact h

example : Utils.mimc 3 3 [1, 2] = .ok 21954 := by decide +kernel

/-- **C86.** For every power of two up to `2^32`, the element `7^((p-1)/2^k)` that the STARK constructor uses has exactly that order. -/
theorem C86_root (k : Nat) (hk : k ≤ 32) :
    HasOrder ((7 : Zp starkPrime) ^ ((starkPrime - 1) / 2 ^ k)) (2 ^ k) := by
  have h7 : ((7 : Zp starkPrime) ^ (starkPrime - 1) = 1) ∧ ((7 : Zp starkPrime) ^ ((starkPrime - 1) / 2) ≠ 1) := by
    have hz : ∀ n : Nat, n < 2 ^ 256 → ((7 : Zp starkPrime) ^ n = 1 ↔ powMod 7 starkPrime 256 n = 1 % starkPrime) := by
      intro n hn
      rw [powMod_eq 7 _ 256 n hn, ← (Zp.equivZMod (p := starkPrime)).injective.eq_iff, map_pow, map_one, map_ofNat]
      have := ZMod.natCast_eq_natCast_iff (7 ^ n) 1 starkPrime
      push_cast at this
      exact this
    exact ⟨(hz _ (by decide +kernel)).mpr (by decide +kernel), by rw [Ne, hz _ (by decide +kernel)]; decide +kernel⟩
  obtain ⟨c, hc⟩ : 2 ^ k ∣ starkPrime - 1 := (pow_dvd_pow 2 hk).trans (by decide +kernel)
  have hpos : 0 < 2 ^ k := by positivity
  have hdiv : (starkPrime - 1) / 2 ^ k = c := by rw [hc, Nat.mul_div_cancel_left _ hpos]
  rw [hdiv]
  have hone : ((7 : Zp starkPrime) ^ c) ^ 2 ^ k = 1 := by rw [← pow_mul, mul_comm, ← hc]; exact h7.1
  have hord : orderOf ((7 : Zp starkPrime) ^ c) = 2 ^ k := by
    cases k with
    | zero => simpa using hone
    | succ k =>
      refine orderOf_eq_prime_pow ?_ hone
      rw [← pow_mul]
      have : c * 2 ^ k = (starkPrime - 1) / 2 := by
        rw [hc, pow_succ]
        rw [show 2 ^ k * 2 * c = c * 2 ^ k * 2 by ring, Nat.mul_div_cancel _ (by norm_num)]
      rw [this]
      exact h7.2
  refine ⟨hpos, hone, fun j h1 h2 h3 => ?_⟩
  have := Nat.le_of_dvd h1 (orderOf_dvd_of_pow_eq_one h3)
  omega

example : HasOrder ((7 : Zp starkPrime) ^ ((starkPrime - 1) / 2 ^ 10)) 1024 := C86_root 10 (by norm_num)

/-- **C73** with that modulus: for all powers of two with `steps ≥ 2`, `extension_factor ≥ 1` and `steps * extension_factor ≤ 2^32` the
constructor returns, with roots of unity of exactly the orders needed. -/
theorem C73_default_modulus (a b : Nat) (ha : 1 ≤ a) (hab : a + b ≤ 32) (width n : Nat)
    (polys : List (Dict (Zp starkPrime))) (factor : Nat) :
    ∃ N, ∀ fuel ≥ N, ∃ S, mkStark fuel starkPrime (2 ^ a) (2 ^ b) width n polys factor = .ok S ∧
      HasOrder S.G2 (2 ^ a * 2 ^ b) ∧ HasOrder S.G1 (2 ^ a) ∧ S.last = S.G1 ^ (2 ^ a - 1) := by
  have h2a : 2 ≤ 2 ^ a := by
    calc 2 = 2 ^ 1 := rfl
      _ ≤ 2 ^ a := Nat.pow_le_pow_right (by omega) ha
  have hr := C86_root (a + b) hab
  rw [pow_add] at hr
  obtain ⟨N, hN⟩ := (C73_parameters_partial starkPrime (by decide +kernel) (C73_modp starkPrime) (by decide +kernel) (2 ^ a) (2 ^ b) h2a
    Nat.one_le_two_pow (by rw [← pow_add]; exact (pow_dvd_pow 2 hab).trans (by decide +kernel)) width n polys factor).1 hr
  refine ⟨N, fun fuel hf => ?_⟩
  obtain ⟨S, h1, -, -, -, -, -, -, -, -, -, -, h2, h3, h4⟩ := hN fuel hf
  exact ⟨S, h1, h2, h3, h4⟩

/-- Nine steps' worth of two powers: 512 steps and an extension of 8, as in the tests. -/
example : 1 ≤ 9 ∧ 9 + 3 ≤ 32 := by decide

/-- The side conditions of C50 and C74 on the modulus hold for it: only conditions on the computation are left. -/
theorem C86_computation (a b width : Nat) (polys : List (Dict (Zp starkPrime))) (ha : 1 ≤ a) (hb : 1 ≤ b)
    (hab : a + b < 24) (hw : 0 < width) (hw' : width < 10) (hc : width ≤ polys.length) (hwf : ∀ f ∈ polys, Mv.WF width f) :
    Computation starkPrime a b width polys where
  modulus := by decide +kernel
  steps := ha
  ext := hb
  size := hab
  root := by rw [← pow_add]; exact C86_root (a + b) (by omega)
  width_pos := hw
  width_lt := hw'
  count := hc
  wf := hwf

/-- One MiMC round with a constant, `x ↦ x³ + c`, over the default modulus is such a computation, for all sizes. -/
example : Computation starkPrime 9 2 1 [[([0], (42 : Zp starkPrime)), ([3], 1)]] := by
  refine C86_computation 9 2 1 _ (by omega) (by omega) (by omega) (by omega) (by omega) (by simp) ?_
  simp only [List.mem_singleton, forall_eq]
  refine ⟨by simp; decide, by simp, ?_⟩
  simp only [List.mem_cons, List.not_mem_nil, or_false, forall_eq_or_imp, forall_eq]
  refine ⟨?_, one_ne_zero⟩
  intro h
  have := congrArg (Zp.equivZMod (p := starkPrime)) h
  rw [map_ofNat, map_zero] at this
  have h42 := (ZMod.natCast_eq_zero_iff 42 starkPrime).mp (by exact_mod_cast this)
  exact absurd (Nat.le_of_dvd (by norm_num) h42) (by decide +kernel)

end Verif.Props
