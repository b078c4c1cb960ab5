import Verif.Proofs.Commitment
import Mathlib.Tactic.NormNum.Prime
import Mathlib.Data.Set.Finite.Lattice
import Mathlib.Order.Interval.Finset.Nat
import Mathlib.Data.Int.Interval
import Verif.Props.Primality
/-! # C62, C63, C81: commitments and the Blum–Blum–Shub permutation -/

namespace Verif.Props
open Verif.Commit Verif.Bbs

variable {S T : Type} [DecidableEq T]

/-- **C62.** For any two functions, decoding a bit commitment with its secret gives the bit back and verification succeeds. -/
theorem C62_bit (owp : S → T) (hp : S → Nat) (secret : S) (bit : Nat) :
    decodeBit hp secret (commitBit owp hp secret bit) = bit ∧
    verifyBit owp hp secret (commitBit owp hp secret bit) = true :=
  ⟨decode_commit owp hp secret bit, (verifyBit_iff owp hp secret _).mpr rfl⟩

example : decodeBit parityNat 7 (commitBit (fun s : Nat => bbs 77 s) parityNat 7 1) = 1 := by decide

/-- **C62.** For any two functions, an integer below `2^numBits`, `numBits ≥ 1`, is committed to without error; decoding with the
revealed secrets gives it back and verification succeeds. -/
theorem C62_int (owp : S → T) (hp : S → Nat) (numBits : Nat) (hn : 1 ≤ numBits) (secrets : List S)
    (hs : secrets.length = numBits) (x : Nat) (hx : x < 2 ^ numBits) :
    ∃ c, commitInt owp hp secrets x = .ok c ∧ c.length = numBits ∧ decodeInt hp numBits secrets c = .ok x ∧
      verifyInt owp hp numBits secrets c = true := by
  obtain ⟨bits, hb, h1, h2, h3, h4, h5⟩ := zfill_spec secrets.length x
  have hlen : bits.length = numBits := by
    rw [h5, hs]
    have : Nat.log 2 x < numBits := by
      rcases Nat.eq_zero_or_pos x with rfl | h0
      · simp; omega
      · exact Nat.log_lt_of_lt_pow (by omega) hx
    omega
  refine ⟨List.zipWith (commitBit owp hp) secrets bits, ?_, ?_, ?_, ?_⟩
  · simp [commitInt, binDigits_nat, bind, Except.bind, hb]
  · rw [List.length_zipWith, hs, hlen]; simp
  · unfold decodeInt decodeBits
    rw [decodeBits_commit, List.take_take, List.take_of_length_le (by omega), strDigits_bit _ h3, parseBin_bits _ h2 h3, h4]
  · unfold verifyInt
    have := verify_commit owp hp secrets bits
    rw [List.take_of_length_le (by rw [List.length_zipWith]; omega)]
    exact this

example : commitInt (fun s : Nat => bbs 77 s) parityNat [4, 9, 71] 6 = .ok [(16, 0), (4, 1), (36, 0)] ∧
    decodeInt (T := Int) parityNat 3 [4, 9, 71] [(16, 0), (4, 1), (36, 0)] = .ok 6 := by decide

/-- What happens outside the range of C62: an integer of more bits than the scheme has is silently cut to its leading bits
(and verification succeeds), a negative one raises, and with no bits at all decoding raises. -/
theorem C62_out_of_range (owp : S → T) (hp : S → Nat) (numBits : Nat) (secrets : List S) (hs : secrets.length = numBits) :
    (∀ x : Nat, 1 ≤ numBits → 2 ^ numBits ≤ x → ∃ c, commitInt owp hp secrets x = .ok c ∧
      decodeInt hp numBits secrets c = .ok (x / 2 ^ (Nat.log 2 x + 1 - numBits)) ∧ verifyInt owp hp numBits secrets c = true) ∧
    (∀ x : Int, x < 0 → commitInt owp hp secrets x = .error .valueError) ∧
    (numBits = 0 → ∀ c, decodeInt (T := T) hp numBits secrets c = .error .valueError) := by
  refine ⟨fun x hn hx => ?_, fun x hx => ?_, fun h0 c => ?_⟩
  · obtain ⟨bits, hb, h1, h2, h3, h4, h5⟩ := zfill_spec secrets.length x
    have hlog : numBits ≤ Nat.log 2 x := Nat.le_log_of_pow_le (by norm_num) hx
    have hlen : bits.length = Nat.log 2 x + 1 := by rw [h5, hs]; omega
    have hne : bits.take numBits ≠ [] := by
      intro h
      have := congrArg List.length h
      rw [List.length_take, hlen] at this
      simp at this; omega
    have ht : ∀ d ∈ bits.take numBits, d ≤ 1 := fun d hd => h3 d (List.mem_of_mem_take hd)
    refine ⟨List.zipWith (commitBit owp hp) secrets bits, ?_, ?_, ?_⟩
    · simp [commitInt, binDigits_nat, bind, Except.bind, hb]
    · unfold decodeInt decodeBits
      rw [decodeBits_commit, List.take_take, hs, Nat.min_self, strDigits_bit _ ht, parseBin_bits _ hne ht, val_take _ h3, h4, hlen]
    · unfold verifyInt
      have := verify_commit owp hp secrets bits
      rw [List.take_of_length_le (by rw [List.length_zipWith]; omega)]
      exact this
  · simp [commitInt, binDigits, hx, bind, Except.bind]
  · subst h0
    simp [decodeInt, decodeBits, parseBin]

example : decodeInt (T := Int) parityNat 2 [4, 9] (List.zipWith (commitBit (fun s : Nat => bbs 77 s) parityNat) [4, 9] (zfill 2 [1, 1, 0])) =
    .ok 3 := by decide

/-- **C63 is false** for the scheme the code builds, for every modulus and every commitment and opening: there is a second
opening the verifier accepts that decodes to the opposite bit (the secret is not checked to be reduced). -/
theorem C63_binding_refuted (M : Nat) (hM : 1 ≤ M) (s : Nat) (c : Int × Nat)
    (h : verifyBit (fun s : Nat => bbs M s) parityNat s c = true) :
    ∃ s', verifyBit (fun s : Nat => bbs M s) parityNat s' c = true ∧ decodeBit parityNat s' c = 1 ^^^ decodeBit parityNat s c := by
  obtain ⟨s', h1, -, h2⟩ := exists_flip M s hM
  rw [verifyBit_iff] at h
  refine ⟨s', ?_, ?_⟩
  · rw [verifyBit_iff, h]
    exact bbs_congr M s s' h1.symm
  · unfold decodeBit
    have hs : parityNat s = 0 ∨ parityNat s = 1 := by unfold parityNat; omega
    rw [h2]
    rcases hs with hs | hs <;> rw [hs]
    · simp [Nat.xor_comm]
    · rw [Nat.xor_comm c.2 1, ← Nat.xor_assoc]; simp

/-- Both openings of one commitment modulo 77. -/
example : verifyBit (fun s : Nat => bbs 77 s) parityNat 9 (4, 1) = true ∧ decodeBit (T := Int) parityNat 9 (4, 1) = 1 ∧
    verifyBit (fun s : Nat => bbs 77 s) parityNat 471 (4, 1) = true ∧ decodeBit (T := Int) parityNat 471 (4, 1) = 0 := by decide

/-- **C63.** If the one-way function is injective, all accepted openings of a commitment decode to the same bit. -/
theorem C63_binding_injective_partial (owp : S → T) (hi : Function.Injective owp) (hp : S → Nat) (s s' : S) (c : T × Nat)
    (h : verifyBit owp hp s c = true) (h' : verifyBit owp hp s' c = true) : decodeBit hp s c = decodeBit hp s' c := by
  rw [verifyBit_iff] at h h'
  rw [hi (h.symm.trans h')]

example : Function.Injective fun s : Nat => 2 * s + 5 := fun a b h => by simpa using h

/-- **C63.** For a modulus that is the product of two primes `3 mod 4` (equal or not): all accepted openings that are secrets
the scheme itself can generate decode to the same bit. The verifier does not check this. -/
theorem C63_binding_residue_partial (p q : Nat) (hp : p.Prime) (hq : q.Prime) (hp3 : p % 4 = 3) (hq3 : q % 4 = 3)
    (r r' : Nat) (c : Int × Nat)
    (h : verifyBit (fun s : Nat => bbs (p * q : Nat) s) parityNat (bbs (p * q : Nat) r).toNat c = true)
    (h' : verifyBit (fun s : Nat => bbs (p * q : Nat) s) parityNat (bbs (p * q : Nat) r').toNat c = true) :
    decodeBit parityNat (bbs (p * q : Nat) r).toNat c = decodeBit parityNat (bbs (p * q : Nat) r').toNat c := by
  rw [verifyBit_iff] at h h'
  have hM : (0 : Int) < (p * q : Nat) := by exact_mod_cast Nat.mul_pos hp.pos hq.pos
  have hnn : ∀ x : Int, 0 ≤ bbs (p * q : Nat) x := fun x => Int.emod_nonneg _ (by omega)
  rw [Int.toNat_of_nonneg (hnn _)] at h h'
  rw [bbs_bbs_inj p q hp hq hp3 hq3 r r' (h.symm.trans h')]

/-- This meets the hypotheses of `C81_permutation`. -/
example : Nat.Prime 7 ∧ Nat.Prime 11 ∧ 7 % 4 = 3 ∧ 11 % 4 = 3 := by norm_num

/-- **C63**, integers: if the one-way function is injective, accepted openings of equal length of one list of commitments decode to
the same integer (or raise the same error). The length is not checked by the verifier, see the next theorem. -/
theorem C63_int_binding_partial (owp : S → T) (hi : Function.Injective owp) (hp : S → Nat) (numBits : Nat) (s s' : List S)
    (cs : List (T × Nat)) (hl : s.length = s'.length) (h : verifyInt owp hp numBits s cs = true)
    (h' : verifyInt owp hp numBits s' cs = true) : decodeInt hp numBits s cs = decodeInt hp numBits s' cs := by
  have key : decodeBits hp numBits s cs = decodeBits hp numBits s' cs := by
    unfold decodeBits
    unfold verifyInt at h h'
    induction numBits generalizing s s' cs with
    | zero => simp
    | succ n ih =>
      match s, s', cs, hl, h, h' with
      | [], [], _, _, _, _ => rfl
      | _ :: _, _ :: _, [], _, _, _ => rfl
      | a :: s, b :: s', c :: cs, hl, h, h' =>
        simp only [List.zipWith_cons_cons, List.take_succ_cons, List.all_cons, id, Bool.and_eq_true] at h h' ⊢
        rw [C63_binding_injective_partial owp hi hp a b c h.1 h'.1, ih s s' cs (by simpa using hl) h.2 h'.2]
  unfold decodeInt
  rw [key]

example : verifyInt (fun s : Nat => 2 * s + 5) parityNat 2 [3, 4] [(11, 1), (13, 1)] = true ∧
    verifyInt (fun s : Nat => 2 * s + 5) parityNat 2 [3, 6] [(11, 1), (13, 1)] = false := by decide

/-- **C63 is false** for integers whatever the one-way function: `zip` stops at the shortest argument, so the first `k` of the secrets
are an accepted opening too, and it decodes to the leading `k` bits. -/
theorem C63_int_truncation_refuted (owp : S → T) (hp : S → Nat) (numBits : Nat) (secrets : List S)
    (hs : secrets.length = numBits) (x : Nat) (hx : x < 2 ^ numBits) (k : Nat) (hk : 1 ≤ k) (hkn : k ≤ numBits) :
    ∃ c, commitInt owp hp secrets x = .ok c ∧ verifyInt owp hp numBits (secrets.take k) c = true ∧
      decodeInt hp numBits (secrets.take k) c = .ok (x / 2 ^ (numBits - k)) := by
  obtain ⟨bits, hb, h1, h2, h3, h4, h5⟩ := zfill_spec secrets.length x
  have hlen : bits.length = numBits := by
    rw [h5, hs]
    have : Nat.log 2 x < numBits := by
      rcases Nat.eq_zero_or_pos x with rfl | h0
      · simp; omega
      · exact Nat.log_lt_of_lt_pow (by omega) hx
    omega
  have hz : ∀ {A B C D : Type} (f : A → B → C) (g : A → C → D) (l : List A) (m : List B),
      List.zipWith g (l.take k) (List.zipWith f l m) = (List.zipWith g l (List.zipWith f l m)).take k := by
    intro A B C D f g l
    generalize k = k
    induction l generalizing k with
    | nil => intro m; simp
    | cons a l ih =>
      intro m
      cases m with
      | nil => cases k <;> simp
      | cons b m => cases k <;> simp [ih]
  refine ⟨List.zipWith (commitBit owp hp) secrets bits, ?_, ?_, ?_⟩
  · simp [commitInt, binDigits_nat, bind, Except.bind, hb]
  · unfold verifyInt
    have := verify_commit owp hp secrets bits
    rw [hz, List.take_take]
    rw [List.all_eq_true] at this ⊢
    exact fun b hb => this b (List.mem_of_mem_take hb)
  · unfold decodeInt decodeBits
    have hne : bits.take k ≠ [] := by
      intro h
      have := congrArg List.length h
      rw [List.length_take, hlen] at this
      simp at this; omega
    have ht : ∀ d ∈ bits.take k, d ≤ 1 := fun d hd => h3 d (List.mem_of_mem_take hd)
    rw [hz, decodeBits_commit, List.take_take, List.take_take, hs, show min (min numBits k) numBits = k by omega, strDigits_bit _ ht,
      parseBin_bits _ hne ht, val_take _ h3, h4, hlen]

/-- 6 is committed to with three secrets; the first two of them open the commitment as 3. -/
example : commitInt (fun s : Nat => 2 * s + 5) parityNat [3, 4, 5] 6 = .ok [(11, 1), (13, 0), (15, 0)] ∧
    verifyInt (fun s : Nat => 2 * s + 5) parityNat 3 [3, 4] [(11, 1), (13, 0), (15, 0)] = true ∧
    decodeInt parityNat 3 [3, 4, 5] [(11, 1), (13, 0), (15, 0)] = .ok 6 ∧
    decodeInt parityNat 3 [3, 4] [(11, 1), (13, 0), (15, 0)] = .ok 3 := by decide

/-- **C81.** For a modulus that is a product of two primes `3 mod 4`, the function `blum_blum_shub` returns is a permutation of
the quadratic residues (the squares modulo the modulus). -/
theorem C81_permutation (p q : Nat) (hp : p.Prime) (hq : q.Prime) (hp3 : p % 4 = 3) (hq3 : q % 4 = 3) :
    Set.BijOn (bbs (p * q : Nat)) {y | ∃ x : Int, y = x ^ 2 % (p * q : Nat)} {y | ∃ x : Int, y = x ^ 2 % (p * q : Nat)} := by
  have hM : (0 : Int) < (p * q : Nat) := by exact_mod_cast Nat.mul_pos hp.pos hq.pos
  have hmaps : Set.MapsTo (bbs (p * q : Nat)) {y | ∃ x : Int, y = x ^ 2 % (p * q : Nat)} {y | ∃ x : Int, y = x ^ 2 % (p * q : Nat)} :=
    fun y _ => ⟨y, rfl⟩
  have hinj : Set.InjOn (bbs (p * q : Nat)) {y | ∃ x : Int, y = x ^ 2 % (p * q : Nat)} := by
    rintro a ⟨x, rfl⟩ b ⟨y, rfl⟩ h
    exact bbs_bbs_inj p q hp hq hp3 hq3 x y h
  have hfin : Set.Finite {y | ∃ x : Int, y = x ^ 2 % (p * q : Nat)} := by
    refine Set.Finite.subset (Set.finite_Ico (0 : Int) (p * q : Nat)) ?_
    rintro y ⟨x, rfl⟩
    exact ⟨Int.emod_nonneg _ (by omega), Int.emod_lt_of_pos _ hM⟩
  exact ⟨hmaps, hinj, (hfin.injOn_iff_bijOn_of_mapsTo hmaps).mp hinj |>.surjOn⟩

/-- **C81.** A prime is a good prime for the code exactly when it is `3 mod 4`, whatever bases are drawn; nothing that is not
`3 mod 4` is. -/
theorem C81_good_prime (p : Int) (draw : Nat → Int) (hd : 4 < p → ∀ i, 2 ≤ draw i ∧ draw i ≤ p - 2) :
    (Nat.Prime p.toNat → goodPrime p draw = .ok (decide (p % 4 = 3))) ∧ (p % 4 ≠ 3 → goodPrime p draw = .ok false) := by
  constructor
  · intro hp
    unfold goodPrime
    by_cases h : p % 4 = 3
    · rw [if_pos h, C65_prime_accepted p hp 100 draw hd]; simp [h]
    · rw [if_neg h]; simp [h]
  · intro h
    unfold goodPrime
    rw [if_neg h]

example : goodPrime 7 (fun i => 2 + i % 4) = .ok true := (C81_good_prime 7 _ (by intro _ i; push_cast; omega)).1 (by decide +kernel)

/-- **C81.** The hardcore predicate is the number of binary ones modulo 2; it raises on negative ints. -/
theorem C81_parity (n : Int) : (0 ≤ n → parity n = .ok ((Nat.digits 2 n.toNat).sum % 2)) ∧ (n < 0 → parity n = .error .valueError) := by
  constructor
  · intro h
    have := (binAux_spec (n.toNat + 1) n.toNat (by omega)).2.2.2.2.2
    simp [parity, binDigits, not_lt.mpr h, bind, Except.bind, this]
  · intro h
    simp [parity, binDigits, h, bind, Except.bind]

example : parity 4 = .ok 1 ∧ parity 3 = .ok 0 := by decide

end Verif.Props
