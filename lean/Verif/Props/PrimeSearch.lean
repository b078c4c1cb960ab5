import Verif.Proofs.PrimeSearch
import Verif.Proofs.Mining
/-!
# C155: the search for a modulus ends and finds primes, up to a small probability
-/

namespace Verif.Props
open Spec Bbs

/-- **C155** (primes).  Whatever the first `t` candidates are: with random bases, the probability that `find_good_prime` returns one of
them that is not a prime is at most `t / 2^100`. -/
theorem C155_prime (t : Nat) (rnd : Nat → Int) :
    fraction (fun ω : Bases t rnd => ∃ c, findGoodPrime (t + 1) rnd ω.draw = .ok c ∧ ¬ Nat.Prime c.toNat) ≤ t * (1 / 4 ^ 100) := by
  refine (Sampling.fraction_mono' (Q := fun ω : Bases t rnd => ∃ i : Fin t, ¬ Nat.Prime (rnd i).toNat ∧
      goodPrime (rnd i) (drawsOf fun j => (ω i j).1) = .ok true) ?_).trans (Bases.fraction_exists t _ _ ?_)
  · rintro ω ⟨c, h, hc⟩
    rw [findGoodPrime_succ, show (1 : Nat) = 0 + 1 from rfl, findLoop_ok] at h
    obtain ⟨k, hk, rfl, h1, -⟩ := h
    rw [Nat.zero_add] at h1 hc
    refine ⟨⟨k, hk⟩, hc, ?_⟩
    have e : ω.draw k = drawsOf fun j => (ω ⟨k, hk⟩ j).1 := by
      funext j
      unfold Bases.draw drawsOf
      by_cases hj : j < 100
      · rw [dif_pos ⟨hk, hj⟩, dif_pos hj]
      · rw [dif_neg (fun h => hj h.2), dif_neg hj]
    rw [← e]
    exact h1
  · intro i
    by_cases hc : Nat.Prime (rnd i).toNat
    · rw [Bases.fraction_never fun _ h => h.1 hc]
      positivity
    · rw [Bases.fraction_coord (X := fun i : Fin t => Fin 100 → Base (rnd i)) i (fun d => ¬ Nat.Prime (rnd i).toNat ∧ goodPrime (rnd i) (drawsOf fun j => (d j).1) = .ok true)]
      refine (Sampling.fraction_mono' ?_).trans (Bases.fraction_passes (rnd i) hc)
      exact fun d h => h.2

/-- The event is possible: 703 = 19 * 37 passes with base 3, see `C114_composite_refuted`; and 15 does not with base 2. -/
example : ∃ ω : Bases 1 fun _ => 703, findGoodPrime 2 (fun _ => 703) ω.draw = .ok 703 :=
  ⟨fun _ _ => ⟨3, by show (2 : Int) ≤ 3 ∧ (3 : Int) ≤ max 2 (703 - 2); decide⟩, by decide +kernel⟩

example : ∃ ω : Bases 2 fun i => [15].getD i 19, findGoodPrime 3 (fun i => ([15] : List Int).getD i 19) ω.draw = .ok 19 :=
  ⟨fun i _ => ⟨2, by refine ⟨le_refl _, le_max_left _ _⟩⟩, by decide +kernel⟩

/-- **C155** (the modulus).  Whatever the candidates for both factors are: with random bases, the probability that `make_modulus`, looking at
most at `t` candidates for each, returns anything but the product of two primes that are 3 modulo 4 is at most `2 t / 2^100`. -/
theorem C155_modulus (t : Nat) (rnd rnd' : Nat → Int) :
    fraction (fun ω : Bases t rnd × Bases t rnd' => ∃ M, makeModulus (t + 1) rnd rnd' ω.1.draw ω.2.draw = .ok M ∧
      ¬ ∃ p q : Nat, p.Prime ∧ q.Prime ∧ p % 4 = 3 ∧ q % 4 = 3 ∧ M = p * q) ≤ 2 * t * (1 / 4 ^ 100) := by
  have hP := C155_prime t rnd
  have hQ := C155_prime t rnd'
  set P : Bases t rnd → Prop := fun ω => ∃ c, findGoodPrime (t + 1) rnd ω.draw = .ok c ∧ ¬ Nat.Prime c.toNat with hPd
  set Q : Bases t rnd' → Prop := fun ω => ∃ c, findGoodPrime (t + 1) rnd' ω.draw = .ok c ∧ ¬ Nat.Prime c.toNat with hQd
  have := Fintype.ofFinite (Bases t rnd × Bases t rnd')
  have e1 : fraction (fun ω : Bases t rnd × Bases t rnd' => P ω.1) = fraction P := Bases.fraction_fst P
  have e2 : fraction (fun ω : Bases t rnd × Bases t rnd' => Q ω.2) = fraction Q := Bases.fraction_snd Q
  refine (Sampling.fraction_mono (Q := fun ω : Bases t rnd × Bases t rnd' => P ω.1 ∨ Q ω.2) ?_).trans
    ((ChainHash.fraction_or _ _).trans ?_)
  · rintro ⟨ω, ω'⟩ ⟨M, h, hM⟩
    by_contra hn
    rw [not_or] at hn
    apply hM
    unfold makeModulus at h
    have inv : ∀ {α β : Type} {x : Py α} {f : α → Py β} {y : β}, (x >>= f) = .ok y → ∃ a, x = .ok a ∧ f a = .ok y := by
      intro α β x f y h
      cases x with
      | error e => cases h
      | ok a => exact ⟨a, rfl, h⟩
    obtain ⟨p, hp, h⟩ := inv h
    obtain ⟨q, hq, h⟩ := inv h
    cases h
    have good : ∀ (rnd : Nat → Int) (b : Nat → Nat → Int) (c : Int), findGoodPrime (t + 1) rnd b = .ok c → c % 4 = 3 := by
      intro rnd b c hc
      rw [findGoodPrime_succ, show (1 : Nat) = 0 + 1 from rfl, findLoop_ok] at hc
      obtain ⟨k, -, rfl, h1, -⟩ := hc
      by_contra h3
      unfold goodPrime at h1
      rw [if_neg h3] at h1
      simp at h1
    have pp : p.toNat.Prime := by
      by_contra hc
      exact hn.1 ⟨p, hp, hc⟩
    have qp : q.toNat.Prime := by
      by_contra hc
      exact hn.2 ⟨q, hq, hc⟩
    have hp3 := good _ _ _ hp
    have hq3 := good _ _ _ hq
    have p0 := pp.pos
    have q0 := qp.pos
    refine ⟨p.toNat, q.toNat, pp, qp, by omega, by omega, ?_⟩
    rw [Int.toNat_of_nonneg (by omega), Int.toNat_of_nonneg (by omega)]
  · rw [e1, e2]
    calc _ ≤ (t * (1 / 4 ^ 100) + t * (1 / 4 ^ 100) : ℚ) := add_le_add hP hQ
      _ = _ := by ring

/-- **C155** (the end).  Whatever the bases are: with random candidates of `n` bits, the probability that `find_good_prime` has not
returned after `t` of them is at most `(1 - d)^t`, where `d` is the proportion of primes that are 3 modulo 4. -/
theorem C155_ends (t n : Nat) (bases : Candidates t n → Nat → Nat → Int) (hb : ∀ r, Draws n r.draw (bases r)) :
    fraction (fun r : Candidates t n => ¬ ∃ c, findGoodPrime (t + 1) r.draw (bases r) = .ok c) ≤ (1 - density n) ^ t := by
  classical
  refine (Sampling.fraction_mono' (Q := fun r : Candidates t n => ∀ i, ¬ (Nat.Prime (r i) ∧ (r i : Nat) % 4 = 3)) ?_).trans_eq ?_
  · rintro r h i ⟨hp, h3⟩
    have e : r.draw i = (r i : Nat) := by
      unfold Candidates.draw
      rw [dif_pos i.2]
    obtain ⟨k, -, hk⟩ := (C114_search_partial n r.draw (bases r) (hb r)).2 i (by rw [e]; exact hp) (by rw [e]; omega)
    exact h ⟨_, hk (t + 1) (by have := i.2; omega)⟩
  · exact Bases.fraction_all t fun c : Fin (2 ^ n) => Nat.Prime c ∧ (c : Nat) % 4 = 3

/-- This meets the hypotheses of `C155_ends`: the base is always 2. -/
example : ∀ r : Candidates 10 5, Draws 5 r.draw ((fun _ _ _ => 2 : Candidates 10 5 → Nat → Nat → Int) r) := by
  intro r
  refine ⟨fun i => ?_, fun i h j => ⟨le_refl _, by show (2 : Int) ≤ _; omega⟩⟩
  unfold Candidates.draw
  split
  · have := (r ⟨i, by assumption⟩).2
    omega
  · norm_num

/-- Six of the 32 numbers of five bits are such primes: 3, 7, 11, 19, 23, 31. -/
example : density 5 = 6 / 32 := by
  rw [density, Sampling.fraction_eq, Fintype.card_fin]
  have : (Finset.univ.filter fun c : Fin (2 ^ 5) => Nat.Prime c ∧ (c : Nat) % 4 = 3).card = 6 := by decide +kernel
  rw [this]
  norm_num

/-- **C155** (the end).  For two bits and more the proportion is positive, so that the probability tends to zero with the number of candidates. -/
theorem C155_density (n : Nat) (hn : 2 ≤ n) : 0 < density n ∧ density n ≤ 1 := by
  refine ⟨?_, Sampling.fraction_le_one _⟩
  unfold density fraction
  have h4 : 4 ≤ 2 ^ n := by
    calc 4 = 2 ^ 2 := by norm_num
      _ ≤ 2 ^ n := Nat.pow_le_pow_right (by norm_num) hn
  have : Nonempty {c : Fin (2 ^ n) // Nat.Prime c ∧ (c : Nat) % 4 = 3} := ⟨⟨⟨3, by omega⟩, Nat.prime_three, rfl⟩⟩
  have h1 : 0 < Nat.card {c : Fin (2 ^ n) // Nat.Prime c ∧ (c : Nat) % 4 = 3} := Nat.card_pos
  have : Nonempty (Fin (2 ^ n)) := ⟨⟨3, by omega⟩⟩
  have h2 : 0 < Nat.card (Fin (2 ^ n)) := Nat.card_pos
  positivity

/-- This meets the hypothesis of `C155_density`. -/
example : 2 ≤ 512 := by norm_num

end Verif.Props
