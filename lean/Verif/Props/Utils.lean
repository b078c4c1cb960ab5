import Verif.Proofs.Utils
import Verif.Proofs.Mimc
import Verif.Proofs.Modp
import Mathlib.Tactic.NormNum.Prime
/-! # C27, C36–C38, C70: utilities -/

namespace Verif.Props
open Verif.Utils

/-- C27: for an element of finite multiplicative order `k`, `get_power_cycle` returns `[1, r, …, r^(k-1)]`, without
repetitions; for an element of infinite order, and for `0`, the loop never ends.  Holds in every field (indeed monoid). -/
theorem C27_power_cycle {K : Type} [Field K] [DecidableEq K] (r : K) :
    (∀ k : Nat, 0 < k → r ^ k = 1 → (∀ j : Nat, 0 < j → j < k → r ^ j ≠ 1) →
      (∃ N, ∀ fuel ≥ N, getPowerCycle fuel r = .ok ((List.range k).map fun i => r ^ i)) ∧
        ((List.range k).map fun i => r ^ i).Nodup) ∧
    ((∀ k : Nat, 0 < k → r ^ k ≠ 1) → ∀ fuel, getPowerCycle fuel r = .error .diverge) := by
  constructor
  · intro k hk h1 hmin
    have hord : orderOf r = k := (orderOf_eq_iff hk).2 ⟨h1, fun m h2 h3 => hmin m h3 h2⟩
    subst hord
    exact ⟨⟨orderOf r, fun fuel hf => getPowerCycle_ok r hk.ne' fuel (by omega)⟩, nodup_powers r⟩
  · intro h fuel
    refine getPowerCycle_div r ?_ fuel
    rw [orderOf_eq_zero_iff']
    exact fun n hn => h n hn

/-- C27 on the code's own prime field: every non-zero element is handled, zero loops forever. -/
theorem C27_power_cycle_modp {p : Nat} [Fact p.Prime] (r : Zp p) :
    (r ≠ 0 → ∃ k : Nat, 0 < k ∧ r ^ k = 1 ∧ ∃ N, ∀ fuel ≥ N, ∃ l, getPowerCycle fuel r = .ok l ∧ l.length = k ∧ l.Nodup ∧
      ∀ x, x ∈ l ↔ ∃ i : Nat, x = r ^ i) ∧
    (r = 0 → ∀ fuel, getPowerCycle fuel r = .error .diverge) := by
  constructor
  · intro hr
    have : Finite (Zp p) := Finite.of_equiv _ (Zp.equivZMod (p := p)).toEquiv.symm
    have hfin : 0 < orderOf r := by
      have := (isOfFinOrder_of_finite (Units.mk0 r hr)).orderOf_pos
      rwa [← orderOf_units, Units.val_mk0] at this
    refine ⟨orderOf r, hfin, pow_orderOf_eq_one r, orderOf r, fun fuel hf =>
      ⟨_, getPowerCycle_ok r hfin.ne' fuel (by omega), by simp, nodup_powers r, fun x => ?_⟩⟩
    simp only [List.mem_map, List.mem_range]
    constructor
    · rintro ⟨i, -, rfl⟩; exact ⟨i, rfl⟩
    · rintro ⟨i, rfl⟩; exact ⟨i % orderOf r, Nat.mod_lt _ hfin, pow_mod_orderOf r i⟩
  · rintro rfl fuel
    exact (C27_power_cycle (0 : Zp p)).2 (fun k hk => by simp [zero_pow hk.ne']) fuel

/-- The hypotheses are met in a concrete field: 2 has order 3 in `ℤ/7`. -/
example : haveI : Fact (Nat.Prime 7) := ⟨by norm_num⟩
    getPowerCycle 10 (Zp.ofInt 2 : Zp 7) = .ok [Zp.ofInt 1, Zp.ofInt 2, Zp.ofInt 4] := by
  decide +kernel

/-- C36, no exclusion: exactly `count` indices, all in `[0, modulus)`; index `i` is the `i`-th 4-byte word of a stream that
extends the entropy, reduced modulo `modulus`. -/
theorem C36_indices (blake : Bytes → Bytes) (hb : ∀ x, (blake x).length = 32) (entropy : Bytes) (modulus : Int) (count : Nat)
    (hm : 0 < modulus) (hm2 : modulus < 2 ^ 24) :
    ∃ o, getPseudorandomIndices blake entropy modulus count 0 = .ok o ∧ o.length = count ∧ (∀ x ∈ o, 0 ≤ x ∧ x < modulus) ∧
      ∃ stream : Bytes, entropy <+: stream ∧ 4 * count ≤ stream.length ∧
        ∀ (i : Nat) (h : i < o.length), o[i] = (fromBytes ((stream.drop (4 * i)).take 4) : Int) % modulus := by
  have hb' : ∀ x, blake x ≠ [] := fun x h => by have := hb x; simp [h] at this
  obtain ⟨data, h1, h2, h3⟩ := getIndices_plain blake hb' entropy modulus count hm hm2
  refine ⟨_, h3, by simp, ?_, data, h1, by omega, ?_⟩
  · intro x hx
    simp only [List.mem_map] at hx
    obtain ⟨i, -, rfl⟩ := hx
    exact ⟨Int.emod_nonneg _ hm.ne', Int.emod_lt_of_pos _ hm⟩
  · intro i h
    simp [word]

/-- C36 with an excluded factor `e ≥ 2`: exactly `count` indices in `[0, modulus)`, none a multiple of `e`. -/
theorem C36_indices_exclude (blake : Bytes → Bytes) (hb : ∀ x, (blake x).length = 32) (entropy : Bytes) (modulus : Int)
    (count : Nat) (e : Int) (hm : 2 ≤ modulus) (hm2 : modulus < 2 ^ 24) (he : 2 ≤ e) :
    ∃ o, getPseudorandomIndices blake entropy modulus count e = .ok o ∧ o.length = count ∧
      ∀ x ∈ o, 0 ≤ x ∧ x < modulus ∧ ¬ e ∣ x := by
  have hb' : ∀ x, blake x ≠ [] := fun x h => by have := hb x; simp [h] at this
  obtain ⟨data, h1, h2, h3⟩ := getIndices_excl blake hb' entropy modulus count e hm hm2 he
  refine ⟨_, h3, by simp, ?_⟩
  intro x hx
  simp only [List.mem_map] at hx
  obtain ⟨i, -, rfl⟩ := hx
  exact index_good he (Int.emod_nonneg _ (real_modulus_pos hm he).ne') (Int.emod_lt_of_pos _ (real_modulus_pos hm he))

/-- C36, no bias: when `e` divides `modulus`, every admissible index is produced by exactly one residue class of the drawn
word: index `i` is `φ (w_i mod R)` for a bijection `φ` from `[0, R)` onto the non-multiples of `e` in `[0, modulus)`, where
`w_i` is the `i`-th word of a stream extending the entropy. -/
theorem C36_indices_unbiased (blake : Bytes → Bytes) (hb : ∀ x, (blake x).length = 32) (entropy : Bytes) (modulus : Int)
    (count : Nat) (e : Int) (hm : 2 ≤ modulus) (hm2 : modulus < 2 ^ 24) (he : 2 ≤ e) (hdvd : e ∣ modulus) :
    ∃ (φ : Int → Int) (R : Int) (o : List Int) (stream : Bytes),
      (∀ j, 0 ≤ j → j < modulus → ¬ e ∣ j → ∃! x, (0 ≤ x ∧ x < R) ∧ φ x = j) ∧
      (∀ x, 0 ≤ x → x < R → 0 ≤ φ x ∧ φ x < modulus ∧ ¬ e ∣ φ x) ∧
      getPseudorandomIndices blake entropy modulus count e = .ok o ∧ entropy <+: stream ∧ 4 * count ≤ stream.length ∧
        ∀ (i : Nat) (h : i < o.length), o[i] = φ ((fromBytes ((stream.drop (4 * i)).take 4) : Int) % R) := by
  have hb' : ∀ x, blake x ≠ [] := fun x h => by have := hb x; simp [h] at this
  obtain ⟨data, h1, h2, h3⟩ := getIndices_excl blake hb' entropy modulus count e hm hm2 he
  refine ⟨fun x => x + 1 + x / (e - 1), modulus * (e - 1) / e, _, data, ?_, ?_, h3, h1, by omega, ?_⟩
  · intro j h1 h2 h3; exact index_onto he hdvd h1 h2 h3
  · intro x h1 h2; exact index_good he h1 h2
  · intro i h; simp [word]

/-- C36: asking for fewer indices gives the first of them, so a verifier that checks fewer positions than the prover opened checks
positions the prover opened. -/
theorem C36_indices_prefix (blake : Bytes → Bytes) (hb : ∀ x, (blake x).length = 32) (entropy : Bytes) (modulus e : Int)
    (c c' : Nat) (hm : 2 ≤ modulus) (hm2 : modulus < 2 ^ 24) (he : e = 0 ∨ 2 ≤ e) (hc : c ≤ c') :
    ∃ o, getPseudorandomIndices blake entropy modulus c' e = .ok o ∧ getPseudorandomIndices blake entropy modulus c e = .ok (o.take c) :=
  getIndices_prefix blake (fun x h => by have := hb x; simp [h] at this) entropy modulus e c c' hm hm2 he hc

/-- C36: too large a modulus is rejected. -/
theorem C36_modulus_too_large (blake : Bytes → Bytes) (entropy : Bytes) (modulus count e : Int) (hm : 2 ^ 24 ≤ modulus) :
    getPseudorandomIndices blake entropy modulus count e = .error .assertion := by
  have : decide (modulus < 2 ^ 24) = false := by simpa using hm
  simp only [getPseudorandomIndices, pyAssert, this, bind, Except.bind, Bool.false_eq_true, if_false]

example : getPseudorandomIndices id [] (2 ^ 24) 80 0 = .error .assertion := C36_modulus_too_large id [] (2 ^ 24) 80 0 le_rfl

/-- C36: where no index is left to draw (`modulus` 0; `modulus` 1 with an excluded factor; every number excluded, `e = 1`), asking for one
raises `ZeroDivisionError`. -/
theorem C36_no_index_left (blake : Bytes → Bytes) (hb : ∀ x, (blake x).length = 32) (entropy : Bytes) (modulus : Int) (count : Nat)
    (e : Int) (hc : 0 < count) (hm2 : modulus < 2 ^ 24) (h : (modulus = 0 ∧ 0 ≤ e) ∨ (modulus = 1 ∧ 1 ≤ e) ∨ e = 1) :
    getPseudorandomIndices blake entropy modulus count e = .error .zeroDivision := by
  have hb' : ∀ x, blake x ≠ [] := fun x h => by have := hb x; simp [h] at this
  obtain ⟨data, h1, -, -⟩ := extendData_ok blake hb' (4 * count) ((4 * (count : Int)).toNat + 1) entropy (by omega) (by omega)
  obtain ⟨c, rfl⟩ : ∃ c, count = c + 1 := ⟨count - 1, by omega⟩
  have hw : drawWords data 0 (c + 1) 0 = .error .zeroDivision := by simp [drawWords, pyMod, bind, Except.bind]
  simp only [getPseudorandomIndices, pyAssert, hm2, decide_true, if_true, h1, bind, Except.bind, Int.toNat_natCast]
  by_cases he : e = 0
  · have : modulus = 0 := by omega
    rw [if_pos he, this, hw]
  · have hq : (modulus * (e - 1)).fdiv e = 0 := by
      rcases h with ⟨rfl, -⟩ | ⟨rfl, h2⟩ | rfl
      · simp
      · rw [Int.fdiv_eq_ediv_of_nonneg _ (by omega)]
        exact Int.ediv_eq_zero_of_lt (by omega) (by omega)
      · simp
    simp only [if_neg he, pyDivmod, hq, hw]

example : getPseudorandomIndices (fun _ => List.replicate 32 200) [1, 2, 3, 4] 512 1 1 = .error .zeroDivision := by decide +kernel

/-- This meets the hypotheses of `C36_indices`, `C36_indices_exclude`, `C36_indices_unbiased`, `C36_indices_prefix`. -/
example : getPseudorandomIndices (fun _ => List.replicate 32 200) [1, 2, 3, 4, 5, 6, 7, 8] 512 3 32
    = .ok [434, 290, 455] := by decide +kernel

/-- C37: among positive integers `True` exactly for the powers of two, `False` for negative ones, no return for zero (in
Python: `RecursionError`). -/
theorem C37_is_a_power_of_2 (x : Int) :
    (0 < x → ∃ N, ∀ fuel ≥ N, ∃ b, isAPowerOf2 fuel x = .ok b ∧ (b = true ↔ ∃ k : Nat, x = 2 ^ k)) ∧
    (x < 0 → ∃ N, ∀ fuel ≥ N, isAPowerOf2 fuel x = .ok false) ∧
    (x = 0 → ∀ fuel, isAPowerOf2 fuel x = .error .diverge) := by
  refine ⟨fun hx => ?_, fun hx => ?_, fun hx => ?_⟩
  · obtain ⟨n, rfl⟩ : ∃ n : Nat, x = n := ⟨x.toNat, by omega⟩
    refine ⟨n, fun fuel hf => ?_⟩
    obtain ⟨b, h1, h2⟩ := isAPowerOf2_pos fuel n (by omega) hf
    exact ⟨b, h1, h2.trans ⟨fun ⟨k, hk⟩ => ⟨k, by exact_mod_cast hk⟩, fun ⟨k, hk⟩ => ⟨k, by exact_mod_cast hk⟩⟩⟩
  · obtain ⟨n, rfl⟩ : ∃ n : Nat, x = -(n : Int) := ⟨(-x).toNat, by omega⟩
    exact ⟨n, fun fuel hf => isAPowerOf2_neg fuel n (by omega) hf⟩
  · subst hx; exact isAPowerOf2_zero

example : isAPowerOf2 20 1024 = .ok true ∧ isAPowerOf2 20 1536 = .ok false ∧ isAPowerOf2 20 (-4) = .ok false := by decide

/-- C38: for `0 ≤ num < 10` there are `num` values in `[0, 2^256)`, the `i`-th being the hash of the root followed by the
`i`-th of `num` pairwise different labels, which are `0x01`, `0x02`, … for `num ≤ 4` and `0x00`, `0x01`, … above; for `num ≥ 10` the
result is `None`. -/
theorem C38_pseudorandom_ks (blake : Bytes → Bytes) (hb : ∀ x, (blake x).length = 32) (root : Bytes) (num : Int) :
    (0 ≤ num → num < 10 → ∃ ks, getPseudorandomKs blake root num = some ks ∧ (ks.length : Int) = num ∧
      (∀ k ∈ ks, k < 2 ^ 256) ∧
      (∃ labels : List Bytes, labels.Nodup ∧ ks = labels.map fun l => fromBytes (blake (root ++ l))) ∧
      ∀ i : Nat, i < num.toNat → ks[i]? = some (fromBytes (blake (root ++ [48, 120, 48, UInt8.ofNat (48 + (if num ≤ 4 then i + 1 else i))])))) ∧
    (10 ≤ num → getPseudorandomKs blake root num = none) := by
  have hlt : ∀ y, fromBytes (blake y) < 2 ^ 256 := by
    intro y
    have := fromBytes_lt (blake y)
    rw [hb y] at this
    calc _ < _ := this
      _ = 2 ^ 256 := by norm_num
  constructor
  · intro h0 h10
    unfold getPseudorandomKs
    by_cases h4 : num ≤ 4
    · rw [if_pos ⟨h0, h4⟩]
      refine ⟨_, rfl, by simpa using h0, ?_, ⟨_, ?_, rfl⟩, fun i hi => by simp [hi, h4, label]⟩
      · intro k hk; simp only [List.mem_map] at hk; obtain ⟨l, -, rfl⟩ := hk; exact hlt _
      · rw [List.nodup_map_iff_inj_on List.nodup_range]
        intro a ha b hb hab
        simp only [List.mem_range] at ha hb
        have := label_inj (by omega) (by omega) hab
        omega
    · rw [if_neg (by omega), if_pos h10]
      refine ⟨_, rfl, by simpa using h0, ?_, ⟨_, ?_, rfl⟩, fun i hi => by simp [hi, h4, label]⟩
      · intro k hk; simp only [List.mem_map] at hk; obtain ⟨l, -, rfl⟩ := hk; exact hlt _
      · rw [List.nodup_map_iff_inj_on List.nodup_range]
        intro a ha b hb hab
        simp only [List.mem_range] at ha hb
        exact label_inj (by omega) (by omega) hab
  · intro h
    simp only [getPseudorandomKs, if_neg (by omega : ¬ (0 ≤ num ∧ num ≤ 4)), if_neg (by omega : ¬ num < 10)]

example : getPseudorandomKs (fun x => x.drop 1) [9, 9] 2 = some [0x0930783031, 0x0930783032] := by decide +kernel

/-- C70: with a prime modulus `p ≡ 2 (mod 3)` and any non-empty list of round constants, any number of MiMC rounds is a
total, injective map of `[0, p)` into itself, so the computed trace determines the input. -/
theorem C70_mimc_rounds_permute (p : Nat) (hp : p.Prime) (h3 : p % 3 = 2) (rc : List Int) (hrc : rc ≠ []) (n : Nat) :
    ∃ f : Int → Int, (∀ x, mimcLoop p rc n 0 x = .ok (f x)) ∧ (∀ x : Int, 0 ≤ x ∧ x < p → 0 ≤ f x ∧ f x < p) ∧
      (∀ x y : Int, 0 ≤ x ∧ x < p → 0 ≤ y ∧ y < p → f x = f y → x = y) :=
  haveI : Fact p.Prime := ⟨hp⟩
  mimcLoop_spec h3 rc hrc n 0

example : Nat.Prime 5 ∧ 5 % 3 = 2 ∧ mimcLoop 5 [1, 3] 4 0 2 = .ok 2 := by
  refine ⟨by norm_num, by norm_num, by decide⟩

end Verif.Props
