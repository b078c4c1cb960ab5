import Verif.Model.BbsModulus
import Verif.Props.Commitment
/-!
# C114: the modulus of the Blum-Blum-Shub generator
-/

namespace Verif.Props
open Bbs

/-- What the random functions may return when `num_bits` bits are asked for: candidates of at most `n` bits, and for each of them bases
between 2 and `candidate - 2`. -/
def Draws (n : Nat) (rnd : Nat → Int) (bases : Nat → Nat → Int) : Prop :=
  (∀ i, 0 ≤ rnd i ∧ rnd i < 2 ^ n) ∧ ∀ i, 4 < rnd i → ∀ j, 2 ≤ bases i j ∧ bases i j ≤ rnd i - 2

theorem findGoodPrime_succ (fuel : Nat) (rnd : Nat → Int) (bases : Nat → Nat → Int) :
    findGoodPrime (fuel + 1) rnd bases = findLoop rnd bases fuel 1 (rnd 0) (bases 0) := by
  simp [findGoodPrime, findLoop, goodPrime, bind, Except.bind]

theorem goodPrime_total (p : Int) (draw : Nat → Int) : ∃ b, goodPrime p draw = .ok b := by
  unfold goodPrime
  split
  · next h =>
    unfold Primality.probablyPrime
    split
    · exact ⟨_, rfl⟩
    · split
      · exact ⟨_, rfl⟩
      · next h1 h2 =>
        obtain ⟨e, r, h3, -⟩ := (C65_decompose (p - 1)).1 (by omega)
        exact ⟨_, by rw [h3]; rfl⟩
  · exact ⟨_, rfl⟩

theorem findLoop_ok (rnd : Nat → Int) (bases : Nat → Nat → Int) : ∀ (fuel i : Nat) (c : Int),
    findLoop rnd bases fuel (i + 1) (rnd i) (bases i) = .ok c ↔
      ∃ k, k < fuel ∧ c = rnd (i + k) ∧ goodPrime (rnd (i + k)) (bases (i + k)) = .ok true ∧
        ∀ j, j < k → goodPrime (rnd (i + j)) (bases (i + j)) = .ok false
  | 0, i, c => by simp [findLoop]
  | fuel + 1, i, c => by
    obtain ⟨b, hb⟩ := goodPrime_total (rnd i) (bases i)
    rw [findLoop, hb]
    simp only [bind, Except.bind]
    cases b with
    | true =>
      simp only [if_true, Except.ok.injEq]
      constructor
      · rintro rfl
        exact ⟨0, by omega, rfl, hb, fun j hj => absurd hj (by omega)⟩
      · rintro ⟨k, -, rfl, -, h⟩
        cases k with
        | zero => rfl
        | succ k =>
          have := h 0 (by omega)
          rw [Nat.add_zero, hb] at this
          cases this
    | false =>
      rw [if_neg (by simp), findLoop_ok rnd bases fuel (i + 1) c]
      constructor
      · rintro ⟨k, h1, h2, h3, h4⟩
        have e : ∀ k, i + 1 + k = i + (k + 1) := fun k => by omega
        rw [e] at h2 h3
        refine ⟨k + 1, by omega, h2, h3, ?_⟩
        intro j hj
        cases j with
        | zero => exact hb
        | succ j => rw [← e]; exact h4 j (by omega)
      · rintro ⟨k, h1, h2, h3, h4⟩
        cases k with
        | zero => rw [Nat.add_zero, hb] at h3; cases h3
        | succ k =>
          have e : ∀ k, i + (k + 1) = i + 1 + k := fun k => by omega
          rw [e] at h2 h3
          exact ⟨k, by omega, h2, h3, fun j hj => by rw [← e]; exact h4 (j + 1) (by omega)⟩

/-- **C114** (what the search returns).  `find_good_prime(n)` returns a value of at most `n` bits that is 3 modulo 4 and that it drew; no
value drawn before it was a prime that is 3 modulo 4, and it returns as soon as one is drawn.  MISSING: that the value is prime
(`C114_composite_refuted`) and large (`C114_tiny_refuted`). -/
theorem C114_search_partial (n : Nat) (rnd : Nat → Int) (bases : Nat → Nat → Int) (hd : Draws n rnd bases) :
    (∀ fuel c, findGoodPrime fuel rnd bases = .ok c → c % 4 = 3 ∧ 0 ≤ c ∧ c < 2 ^ n ∧
      ∃ i, c = rnd i ∧ ∀ j, j < i → ¬ (Nat.Prime (rnd j).toNat ∧ rnd j % 4 = 3)) ∧
    ∀ i, Nat.Prime (rnd i).toNat → rnd i % 4 = 3 → ∃ k, k ≤ i ∧ ∀ fuel, i + 2 ≤ fuel → findGoodPrime fuel rnd bases = .ok (rnd k) := by
  constructor
  · intro fuel c h
    cases fuel with
    | zero => simp [findGoodPrime, findLoop] at h
    | succ fuel =>
      rw [findGoodPrime_succ, show (1 : Nat) = 0 + 1 from rfl, findLoop_ok] at h
      obtain ⟨k, -, rfl, h1, h2⟩ := h
      simp only [Nat.zero_add] at h1 h2 ⊢
      refine ⟨?_, (hd.1 k).1, (hd.1 k).2, k, rfl, ?_⟩
      · by_contra h3
        rw [(C81_good_prime (rnd k) (bases k) (hd.2 k)).2 h3] at h1
        cases h1
      · rintro j hj ⟨h3, h4⟩
        have := h2 j hj
        rw [(C81_good_prime (rnd j) (bases j) (hd.2 j)).1 h3, h4] at this
        simp at this
  · intro i hp h3
    have hi : goodPrime (rnd i) (bases i) = .ok true := by rw [(C81_good_prime _ _ (hd.2 i)).1 hp, h3]; rfl
    have hex : ∃ k, goodPrime (rnd k) (bases k) = .ok true := ⟨i, hi⟩
    classical
    refine ⟨Nat.find hex, Nat.find_min' hex hi, ?_⟩
    intro fuel hf
    obtain ⟨fuel, rfl⟩ : ∃ f, fuel = f + 1 := ⟨fuel - 1, by omega⟩
    rw [findGoodPrime_succ, show (1 : Nat) = 0 + 1 from rfl, findLoop_ok]
    have hle := Nat.find_min' hex hi
    refine ⟨Nat.find hex, by omega, by simp, by simpa using Nat.find_spec hex, ?_⟩
    intro j hj
    rw [Nat.zero_add]
    obtain ⟨b, hb⟩ := goodPrime_total (rnd j) (bases j)
    cases b with
    | false => exact hb
    | true => exact absurd hb (Nat.find_min hex hj)

/-- Draws of five bits: 9, 13, 21, then 23, with base 2 throughout. -/
example : Draws 5 (fun i => [9, 13, 21].getD i 23) (fun _ _ => 2) ∧ (fun i => ([9, 13, 21] : List Int).getD i 23) 3 % 4 = 3 ∧
    Nat.Prime ((fun i => ([9, 13, 21] : List Int).getD i 23) 3).toNat := by
  refine ⟨⟨?_, ?_⟩, by decide, by decide⟩ <;> intro i <;>
    rcases i with _ | _ | _ | i <;> simp

/-- **C114** fails for short candidates: asked for fewer than two bits, the search never ends. -/
theorem C114_diverges_refuted (n : Nat) (hn : n < 2) (rnd : Nat → Int) (bases : Nat → Nat → Int) (hd : Draws n rnd bases) (fuel : Nat) :
    findGoodPrime fuel rnd bases = .error .diverge := by
  have hb : ∀ i, rnd i % 4 ≠ 3 := by
    intro i
    obtain ⟨h1, h2⟩ := hd.1 i
    have : (2 : Int) ^ n ≤ 2 := by
      rcases (by omega : n = 0 ∨ n = 1) with rfl | rfl <;> norm_num
    omega
  have : ∀ (fuel i : Nat), findLoop rnd bases fuel (i + 1) (rnd i) (bases i) = .error .diverge := by
    intro fuel
    induction fuel with
    | zero => intro i; rfl
    | succ fuel ih =>
      intro i
      rw [findLoop, (C81_good_prime _ _ (hd.2 i)).2 (hb i)]
      simpa [bind, Except.bind] using ih (i + 1)
  cases fuel with
  | zero => rfl
  | succ fuel => rw [findGoodPrime_succ]; exact this fuel 0

example : Draws 1 (fun i => (i : Int) % 2) (fun _ _ => 2) := by
  constructor <;> intro i
  · constructor <;> norm_num <;> omega
  · intro h
    simp only at h
    omega

/-- **C114** fails: the two primes need be neither large nor distinct.  Whatever number of bits is asked for, some draws give the
modulus 9, and every prime `p` with 3 modulo 4 in range can give the modulus `p * p`. -/
theorem C114_tiny_refuted (n p : Nat) (hp : p.Prime) (h3 : p % 4 = 3) (hn : p < 2 ^ n) (bases : Nat → Nat → Int)
    (hb : ∀ i j, 4 < p → 2 ≤ bases i j ∧ bases i j ≤ p - 2) :
    Draws n (fun _ => p) bases ∧ makeModulus 2 (fun _ => p) (fun _ => p) bases bases = .ok (p * p) := by
  have hd : Draws n (fun _ => p) bases := ⟨fun _ => ⟨Int.natCast_nonneg p, show (p : Int) < 2 ^ n by exact_mod_cast hn⟩,
    fun i (h : (4 : Int) < p) j => hb i j (by exact_mod_cast h)⟩
  refine ⟨hd, ?_⟩
  obtain ⟨k, hk, h⟩ := (C114_search_partial n (fun _ => p) bases hd).2 0 (by simpa using hp) (by omega)
  have := h 2 (by omega)
  simp [makeModulus, this, bind, Except.bind]

/-- 512 bits and the modulus 9. -/
example : makeModulus 2 (fun _ => 3) (fun _ => 3) (fun _ _ => 2) (fun _ _ => 2) = .ok 9 ∧ Draws 512 (fun _ => 3) (fun _ _ => 2) := by
  obtain ⟨h1, h2⟩ := C114_tiny_refuted 512 3 Nat.prime_three rfl (by decide +kernel) (fun _ _ => 2) (by intro i j h; omega)
  exact ⟨h2, h1⟩

/-- **C114** fails: a modulus need not be a product of two primes.  703 = 19 * 37 is 3 modulo 4 and a hundred tests with base 3 take it
for a prime. -/
theorem C114_composite_refuted (n : Nat) (hn : 10 ≤ n) :
    Draws n (fun _ => 703) (fun _ _ => 3) ∧ makeModulus 2 (fun _ => 703) (fun _ => 703) (fun _ _ => 3) (fun _ _ => 3) = .ok (703 * 703) ∧
      ¬ Nat.Prime 703 := by
  refine ⟨⟨fun _ => ⟨by norm_num, ?_⟩, fun _ _ _ => by norm_num⟩, by decide +kernel, by norm_num⟩
  calc (703 : Int) < 2 ^ 10 := by norm_num
    _ ≤ 2 ^ n := pow_le_pow_right₀ (by norm_num) hn

example : Draws 512 (fun _ => 703) (fun _ _ => 3) := (C114_composite_refuted 512 (by omega)).1

/-- **C114** (the generator).  When both values found are prime, the function returned permutes the squares modulo the modulus, and its
values lie between 0 and the modulus. -/
theorem C114_generator_partial (n : Nat) (fuel : Nat) (rnd rnd' : Nat → Int) (bases bases' : Nat → Nat → Int) (hd : Draws n rnd bases)
    (hd' : Draws n rnd' bases') (p q : Nat) (hp : p.Prime) (hq : q.Prime) (h : findGoodPrime fuel rnd bases = .ok p)
    (h' : findGoodPrime fuel rnd' bases' = .ok q) :
    ∃ f, blumBlumShub fuel rnd rnd' bases bases' = .ok f ∧ (∀ x, f x = x ^ 2 % (p * q : Nat)) ∧ (∀ x, 0 ≤ f x ∧ f x < (p * q : Nat)) ∧
      Set.BijOn f {y | ∃ x : Int, y = x ^ 2 % (p * q : Nat)} {y | ∃ x : Int, y = x ^ 2 % (p * q : Nat)} := by
  have h1 := ((C114_search_partial n rnd bases hd).1 fuel p h).1
  have h2 := ((C114_search_partial n rnd' bases' hd').1 fuel q h').1
  have hM : (0 : Int) < (p * q : Nat) := by exact_mod_cast Nat.mul_pos hp.pos hq.pos
  refine ⟨bbs (p * q : Nat), by simp [blumBlumShub, makeModulus, h, h', bind, Except.bind], fun x => rfl,
    fun x => ⟨Int.emod_nonneg _ (by omega), Int.emod_lt_of_pos _ hM⟩, C81_permutation p q hp hq (by omega) (by omega)⟩

example : findGoodPrime 2 (fun _ => 7) (fun _ _ => 2) = .ok ((7 : Nat) : Int) ∧ findGoodPrime 2 (fun _ => 11) (fun _ _ => 2) = .ok ((11 : Nat) : Int) := by
  decide +kernel

end Verif.Props
