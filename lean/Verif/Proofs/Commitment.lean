import Verif.Model.Commitment
import Mathlib.Data.Nat.Digits.Lemmas
import Mathlib.Data.Nat.Bitwise
import Mathlib.NumberTheory.LegendreSymbol.Basic
import Mathlib.Tactic.Ring
import Mathlib.Tactic.Linarith
import Mathlib.Tactic.LinearCombination
/-! # Commitments and Blum–Blum–Shub -/

namespace Verif.Bbs

/-- The value of a list of binary digits, most significant first. -/
def val (l : List Nat) : Nat := l.foldl (fun a d => 2 * a + d) 0

theorem val_snoc (l : List Nat) (d : Nat) : val (l ++ [d]) = 2 * val l + d := by simp [val]

theorem foldl_shift (l : List Nat) (a : Nat) : l.foldl (fun a d => 2 * a + d) a = a * 2 ^ l.length + val l := by
  induction l generalizing a with
  | nil => simp [val]
  | cons d l ih =>
    unfold val
    rw [List.foldl_cons, List.foldl_cons, ih, ih, List.length_cons, pow_succ]; ring

theorem val_append (l m : List Nat) : val (l ++ m) = val l * 2 ^ m.length + val m := by
  unfold val
  rw [List.foldl_append, foldl_shift]; rfl

theorem val_replicate (n : Nat) : val (List.replicate n 0) = 0 := by
  induction n with
  | zero => rfl
  | succ n ih => rw [List.replicate_succ', val_snoc, ih]

theorem val_lt (l : List Nat) (h : ∀ d ∈ l, d ≤ 1) : val l < 2 ^ l.length := by
  induction l using List.reverseRecOn with
  | nil => simp [val]
  | append_singleton l d ih =>
    have := ih (fun x hx => h x (by simp [hx]))
    have := h d (by simp)
    rw [val_snoc, List.length_append, List.length_singleton, pow_succ]; omega

theorem binAux_spec (fuel : Nat) : ∀ n, n < fuel → val (binAux fuel n) = n ∧ (∀ d ∈ binAux fuel n, d ≤ 1) ∧
    binAux fuel n ≠ [] ∧ (0 < n → 2 ^ ((binAux fuel n).length - 1) ≤ n) ∧ (n = 0 → (binAux fuel n).length = 1) ∧
    (binAux fuel n).sum = (Nat.digits 2 n).sum := by
  induction fuel with
  | zero => intro n h; omega
  | succ fuel ih =>
    intro n hf
    unfold binAux
    by_cases h : n < 2
    · rw [if_pos h]
      refine ⟨by simp [val], by simp; omega, by simp, fun h0 => by simp; omega, fun _ => rfl, ?_⟩
      have : n = 0 ∨ n = 1 := by omega
      rcases this with rfl | rfl <;> rfl
    · rw [if_neg h]
      obtain ⟨h1, h2, h3, h4, h5, h6⟩ := ih (n / 2) (by omega)
      refine ⟨by rw [val_snoc, h1]; omega, ?_, by simp, fun _ => ?_, fun h0 => by omega, ?_⟩
      · intro d hd
        rcases List.mem_append.mp hd with hd | hd
        · exact h2 d hd
        · simp at hd; omega
      · rw [List.length_append, List.length_singleton, Nat.add_sub_cancel]
        have hl : 0 < (binAux fuel (n / 2)).length := List.length_pos_of_ne_nil h3
        have := h4 (by omega)
        have e : 2 ^ (binAux fuel (n / 2)).length = 2 * 2 ^ ((binAux fuel (n / 2)).length - 1) := by
          rw [← pow_succ']; congr 1; omega
        omega
      · rw [List.sum_append, h6, Nat.digits_def' (by norm_num) (by omega : 0 < n)]
        simp [add_comm]

theorem binDigits_nat (x : Nat) : binDigits x = .ok (binAux (x + 1) x) := by
  unfold binDigits
  rw [if_neg (by omega)]; rfl

/-- The number of ones among the binary digits of `n`. -/
def ones (n : Nat) : Nat := (Nat.digits 2 n).sum

theorem parityNat_eq (n : Nat) : parityNat n = ones n % 2 := by
  unfold parityNat ones
  rw [(binAux_spec (n + 1) n (by omega)).2.2.2.2.2]

theorem ones_bit (n b : Nat) (hb : b < 2) : ones (2 * n + b) = ones n + b := by
  rcases Nat.eq_zero_or_pos (2 * n + b) with h | h
  · have h1 : n = 0 := by omega
    have h2 : b = 0 := by omega
    subst h1 h2; rfl
  · unfold ones
    rw [Nat.digits_def' (by norm_num) h, show (2 * n + b) % 2 = b by omega, show (2 * n + b) / 2 = n by omega]
    simp [add_comm]

theorem ones_add_shift (a k : Nat) : ∀ b, b < 2 ^ k → ones (a * 2 ^ k + b) = ones a + ones b := by
  induction k with
  | zero =>
    intro b hb
    have : b = 0 := by simpa using hb
    subst this; simp [ones]
  | succ k ih =>
    intro b hb
    have := ih (b / 2) (by rw [pow_succ] at hb; omega)
    rw [show a * 2 ^ (k + 1) + b = 2 * (a * 2 ^ k + b / 2) + b % 2 by rw [pow_succ, ← mul_assoc]; omega,
      ones_bit _ _ (by omega), this]
    conv_rhs => rw [show b = 2 * (b / 2) + b % 2 by omega, ones_bit _ _ (by omega : b % 2 < 2)]
    omega

theorem ones_complement (k : Nat) : ∀ b, b < 2 ^ k → ones (2 ^ k - 1 - b) + ones b = k := by
  induction k with
  | zero =>
    intro b hb
    have : b = 0 := by simpa using hb
    subst this; rfl
  | succ k ih =>
    intro b hb
    have h := ih (b / 2) (by rw [pow_succ] at hb; omega)
    have e1 : 2 ^ (k + 1) - 1 - b = 2 * (2 ^ k - 1 - b / 2) + (1 - b % 2) := by rw [pow_succ] at hb ⊢; omega
    have e2 : ones b = ones (b / 2) + b % 2 := by
      conv_lhs => rw [show b = 2 * (b / 2) + b % 2 by omega, ones_bit _ _ (by omega : b % 2 < 2)]
    rw [e1, ones_bit _ _ (by omega), e2]
    omega

/-- Multiples of every modulus with an odd number of ones. -/
theorem ones_mul_mersenne (M j : Nat) (hM : 1 ≤ M) (hj : M ≤ 2 ^ j) : ones (M * (2 ^ j - 1)) = j := by
  have e : M * (2 ^ j - 1) = (M - 1) * 2 ^ j + (2 ^ j - 1 - (M - 1)) := by
    obtain ⟨m, rfl⟩ := Nat.exists_eq_add_of_le hM
    obtain ⟨c, hc⟩ := Nat.exists_eq_add_of_le hj
    rw [hc, show 1 + m - 1 = m by omega, show 1 + m + c - 1 = m + c by omega, show m + c - m = c by omega]; ring
  rw [e, ones_add_shift _ _ _ (by omega)]
  have := ones_complement j (M - 1) (by omega)
  omega

theorem exists_flip (M s : Nat) (hM : 1 ≤ M) : ∃ s', s' % M = s % M ∧ s' ≠ s ∧ parityNat s' = 1 - parityNat s := by
  obtain ⟨j, hj, hodd⟩ : ∃ j, M ≤ 2 ^ j ∧ j % 2 = 1 := by
    refine ⟨2 * M + 1, ?_, by omega⟩
    have := Nat.lt_two_pow_self (n := 2 * M + 1)
    omega
  have hs := Nat.lt_two_pow_self (n := s)
  have hpar : parityNat (M * (2 ^ j - 1) * 2 ^ s + s) = 1 - parityNat s := by
    rw [parityNat_eq, parityNat_eq, ones_add_shift _ _ _ hs, ones_mul_mersenne M j hM hj]; omega
  refine ⟨M * (2 ^ j - 1) * 2 ^ s + s, ?_, ?_, hpar⟩
  · rw [mul_assoc, Nat.mul_add_mod]
  · intro h
    rw [h] at hpar
    have : parityNat s < 2 := by unfold parityNat; omega
    omega

theorem bbs_congr (M : Nat) (s t : Nat) (h : s % M = t % M) : bbs M s = bbs M t := by
  unfold bbs Primality.powMod
  have : (s : Int) % M = t % M := by exact_mod_cast h
  exact Int.ModEq.pow 2 this

/-- Modulo a prime `p = 3 mod 4`, a sum of two squares vanishes only if both do. -/
theorem dvd_of_sum_sq (p : Nat) (hp : p.Prime) (h3 : p % 4 = 3) (a b : Int) (h : (p : Int) ∣ a ^ 2 + b ^ 2) :
    (p : Int) ∣ a ∧ (p : Int) ∣ b := by
  have := Fact.mk hp
  have h0 : (a : ZMod p) ^ 2 + (b : ZMod p) ^ 2 = 0 := by
    have := (ZMod.intCast_zmod_eq_zero_iff_dvd _ p).mpr h
    push_cast at this; exact this
  have hb : (b : ZMod p) = 0 := by
    by_contra hb
    have hsq : IsSquare (-1 : ZMod p) := by
      refine ⟨(a : ZMod p) / b, ?_⟩
      field_simp
      linear_combination -h0
    have := ZMod.mod_four_ne_three_of_sq_eq_neg_one (p := p) (y := (a : ZMod p) / b) (by
      field_simp
      linear_combination h0)
    exact this h3
  have ha : (a : ZMod p) = 0 := by
    rw [hb] at h0
    have : (a : ZMod p) ^ 2 = 0 := by linear_combination h0
    exact pow_eq_zero_iff (two_ne_zero) |>.mp this
  exact ⟨(ZMod.intCast_zmod_eq_zero_iff_dvd _ p).mp ha, (ZMod.intCast_zmod_eq_zero_iff_dvd _ p).mp hb⟩

/-- Modulo a product of two primes `3 mod 4` (equal or not), squares with the same square are equal. -/
theorem sq_sq_inj (p q : Nat) (hp : p.Prime) (hq : q.Prime) (hp3 : p % 4 = 3) (hq3 : q % 4 = 3) (a b : Int)
    (h : ((p * q : Nat) : Int) ∣ (a ^ 2) ^ 2 - (b ^ 2) ^ 2) : ((p * q : Nat) : Int) ∣ a ^ 2 - b ^ 2 := by
  have hf : (a ^ 2) ^ 2 - (b ^ 2) ^ 2 = (a ^ 2 - b ^ 2) * (a ^ 2 + b ^ 2) := by ring
  have key : ∀ r : Nat, r.Prime → r % 4 = 3 → (r : Int) ∣ (a ^ 2 - b ^ 2) * (a ^ 2 + b ^ 2) → (r : Int) ∣ a ^ 2 - b ^ 2 := by
    intro r hr hr3 h
    rcases (Nat.prime_iff_prime_int.mp hr).dvd_or_dvd h with h | h
    · exact h
    · obtain ⟨h1, h2⟩ := dvd_of_sum_sq r hr hr3 a b h
      exact dvd_sub (dvd_pow h1 two_ne_zero) (dvd_pow h2 two_ne_zero)
  rw [hf] at h
  push_cast at h ⊢
  by_cases hpq : p = q
  · subst hpq
    by_cases hs : (p : Int) ∣ a ^ 2 + b ^ 2
    · obtain ⟨⟨x, hx⟩, ⟨y, hy⟩⟩ := dvd_of_sum_sq p hp hp3 a b hs
      exact ⟨x ^ 2 - y ^ 2, by rw [hx, hy]; ring⟩
    · have hpr := Nat.prime_iff_prime_int.mp hp
      have hco : IsCoprime ((p : Int) * p) (a ^ 2 + b ^ 2) := by
        have : IsCoprime (p : Int) (a ^ 2 + b ^ 2) := (Prime.coprime_iff_not_dvd hpr).mpr hs
        exact IsCoprime.mul_left this this
      exact hco.dvd_of_dvd_mul_right h
  · have hco : IsCoprime (p : Int) q := Nat.isCoprime_iff_coprime.mpr ((Nat.coprime_primes hp hq).mpr hpq)
    exact hco.mul_dvd (key p hp hp3 ((Dvd.intro _ rfl).trans h)) (key q hq hq3 ((Dvd.intro_left _ rfl).trans h))

theorem bbs_eq_iff (M : Nat) (a b : Int) : bbs M a = bbs M b ↔ (M : Int) ∣ a ^ 2 - b ^ 2 := by
  unfold bbs Primality.powMod
  rw [Int.emod_emod_of_dvd _ (dvd_refl _) |>.symm]
  constructor
  · intro h
    have h : a ^ 2 % (M : Int) = b ^ 2 % M := by rw [← h, Int.emod_emod_of_dvd _ (dvd_refl _)]
    exact Int.ModEq.dvd h.symm
  · intro h
    rw [Int.emod_emod_of_dvd _ (dvd_refl _)]
    exact ((Int.modEq_iff_dvd).mpr h).symm

theorem bbs_bbs_inj (p q : Nat) (hp : p.Prime) (hq : q.Prime) (hp3 : p % 4 = 3) (hq3 : q % 4 = 3) (x y : Int)
    (h : bbs (p * q : Nat) (bbs (p * q : Nat) x) = bbs (p * q : Nat) (bbs (p * q : Nat) y)) :
    bbs (p * q : Nat) x = bbs (p * q : Nat) y := by
  rw [bbs_eq_iff] at h ⊢
  apply sq_sq_inj p q hp hq hp3 hq3
  have red : ∀ z : Int, ((p * q : Nat) : Int) ∣ (bbs (p * q : Nat) z) ^ 2 - (z ^ 2) ^ 2 := by
    intro z
    have h1 : ((p * q : Nat) : Int) ∣ bbs (p * q : Nat) z - z ^ 2 := by
      unfold bbs Primality.powMod
      exact Int.ModEq.dvd (Int.mod_modEq _ _).symm
    obtain ⟨c, hc⟩ := h1
    exact ⟨c * (bbs (p * q : Nat) z + z ^ 2), by linear_combination (bbs (p * q : Nat) z + z ^ 2) * hc⟩
  have := dvd_add (dvd_sub h (red x)) (red y)
  have e : bbs (p * q : Nat) x ^ 2 - bbs (p * q : Nat) y ^ 2 - (bbs (p * q : Nat) x ^ 2 - (x ^ 2) ^ 2) +
    (bbs (p * q : Nat) y ^ 2 - (y ^ 2) ^ 2) = (x ^ 2) ^ 2 - (y ^ 2) ^ 2 := by ring
  rwa [e] at this

end Verif.Bbs

namespace Verif.Commit
open Bbs

variable {S T : Type} [DecidableEq T]

omit [DecidableEq T] in
theorem decode_commit (owp : S → T) (hp : S → Nat) (s : S) (b : Nat) : decodeBit hp s (commitBit owp hp s b) = b := by
  show (hp s ^^^ b) ^^^ hp s = b
  rw [Nat.xor_comm (hp s) b, Nat.xor_assoc, Nat.xor_self, Nat.xor_zero]

theorem verifyBit_iff (owp : S → T) (hp : S → Nat) (s : S) (c : T × Nat) : verifyBit owp hp s c = true ↔ c.1 = owp s := by
  obtain ⟨a, b⟩ := c
  have : hp s ^^^ (b ^^^ hp s) = b := by rw [Nat.xor_comm b, ← Nat.xor_assoc, Nat.xor_self, Nat.zero_xor]
  simp [verifyBit, decodeBit, this]

omit [DecidableEq T] in
theorem decodeBits_commit (owp : S → T) (hp : S → Nat) (secrets : List S) (bits : List Nat) :
    List.zipWith (decodeBit hp) secrets (List.zipWith (commitBit owp hp) secrets bits) = bits.take secrets.length := by
  induction secrets generalizing bits with
  | nil => simp
  | cons s ss ih =>
    cases bits with
    | nil => simp
    | cons b bs => simp [decode_commit, ih]

theorem verify_commit (owp : S → T) (hp : S → Nat) (secrets : List S) (bits : List Nat) :
    (List.zipWith (verifyBit owp hp) secrets (List.zipWith (commitBit owp hp) secrets bits)).all id = true := by
  induction secrets generalizing bits with
  | nil => simp
  | cons s ss ih =>
    cases bits with
    | nil => simp
    | cons b bs =>
      have := ih bs
      simp only [List.zipWith_cons_cons, List.all_cons, this, Bool.and_true, id]
      rw [verifyBit_iff]; rfl

theorem strDigits_bit (l : List Nat) (h : ∀ d ∈ l, d ≤ 1) : l.flatMap strDigits = l := by
  induction l with
  | nil => rfl
  | cons d l ih =>
    have := h d (by simp)
    rw [List.flatMap_cons, ih (fun x hx => h x (by simp [hx]))]
    simp [strDigits, show d < 10 by omega]

theorem parseBin_bits (l : List Nat) (hl : l ≠ []) (h : ∀ d ∈ l, d ≤ 1) : parseBin l = .ok (val l) := by
  unfold parseBin
  rw [if_neg]
  · rfl
  · simp only [hl, List.any_eq_true, decide_eq_true_eq, false_or, not_exists, not_and, not_lt]
    exact h

/-- The digits an integer is committed to. -/
theorem zfill_spec (n : Nat) (x : Nat) : ∃ bits : List Nat, bits = zfill n (binAux (x + 1) x) ∧ n ≤ bits.length ∧ bits ≠ [] ∧
    (∀ d ∈ bits, d ≤ 1) ∧ val bits = x ∧ bits.length = max n (Nat.log 2 x + 1) := by
  obtain ⟨h1, h2, h3, h4, h5, -⟩ := binAux_spec (x + 1) x (by omega)
  have hl : 0 < (binAux (x + 1) x).length := List.length_pos_of_ne_nil h3
  have hlen : (binAux (x + 1) x).length = Nat.log 2 x + 1 := by
    rcases Nat.eq_zero_or_pos x with h0 | h0
    · rw [h5 h0, h0]; simp
    · have hlt := val_lt _ h2
      rw [h1] at hlt
      have : Nat.log 2 x = (binAux (x + 1) x).length - 1 := by
        rw [Nat.log_eq_iff (Or.inr ⟨by norm_num, by omega⟩)]
        exact ⟨h4 h0, by rw [Nat.sub_add_cancel hl]; exact hlt⟩
      omega
  refine ⟨_, rfl, ?_, ?_, ?_, ?_, ?_⟩
  · unfold zfill; rw [List.length_append, List.length_replicate]; omega
  · unfold zfill; simp [h3]
  · unfold zfill
    intro d hd
    rcases List.mem_append.mp hd with hd | hd
    · have := List.eq_of_mem_replicate hd; omega
    · exact h2 d hd
  · unfold zfill; rw [val_append, val_replicate, h1]; simp
  · unfold zfill; rw [List.length_append, List.length_replicate, hlen]; omega

theorem val_take (l : List Nat) (h : ∀ d ∈ l, d ≤ 1) (n : Nat) :
    val (l.take n) = val l / 2 ^ (l.length - n) := by
  have e := val_append (l.take n) (l.drop n)
  rw [List.take_append_drop, List.length_drop] at e
  have hlt := val_lt (l.drop n) (fun d hd => h d (List.mem_of_mem_drop hd))
  rw [List.length_drop] at hlt
  rw [e, Nat.add_comm, Nat.add_mul_div_right _ _ (by positivity), Nat.div_eq_of_lt hlt, zero_add]

end Verif.Commit
