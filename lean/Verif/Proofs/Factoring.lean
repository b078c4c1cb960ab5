import Verif.Spec.Factoring
import Verif.Proofs.Commitment
import Mathlib.Data.Int.NatPrime
import Mathlib.RingTheory.Int.Basic
import Mathlib.Tactic.LinearCombination
import Mathlib.Algebra.Order.BigOperators.Group.Finset
/-!
# Square roots modulo a product of two primes factor it
-/

namespace Verif.Bbs
open Spec

theorem mem_coprimes {M : Nat} {x : Int} : x ∈ coprimes M ↔ (0 ≤ x ∧ x < M) ∧ Int.gcd x M = 1 := by
  unfold coprimes
  rw [Finset.mem_filter, Finset.mem_Ico]

theorem int_gcd (x : Int) (M : Nat) : Int.gcd x M = Nat.gcd x.natAbs M := rfl

theorem coprime_iff {p q : Nat} (hp : p.Prime) (hq : q.Prime) (x : Int) :
    Int.gcd x (p * q : Nat) = 1 ↔ ¬ (p : Int) ∣ x ∧ ¬ (q : Int) ∣ x := by
  rw [int_gcd, Int.natCast_dvd, Int.natCast_dvd, ← hp.coprime_iff_not_dvd, ← hq.coprime_iff_not_dvd]
  show Nat.Coprime _ _ ↔ _
  rw [Nat.coprime_comm, Nat.coprime_mul_iff_left]

theorem splits_iff {p q : Nat} (hp : p.Prime) (hq : q.Prime) (hne : p ≠ q) (x : Int) :
    Splits (p * q) (Int.gcd x (p * q : Nat)) ↔ ¬ ((p : Int) ∣ x ↔ (q : Int) ∣ x) := by
  have hpos : 0 < p * q := Nat.mul_pos hp.pos hq.pos
  have hd : Int.gcd x (p * q : Nat) ∣ p * q := by rw [int_gcd]; exact Nat.gcd_dvd_right _ _
  have hg : 0 < Int.gcd x (p * q : Nat) := Nat.pos_of_dvd_of_pos hd hpos
  have hle := Nat.le_of_dvd hpos hd
  have h1 := coprime_iff hp hq x
  have h2 : Int.gcd x (p * q : Nat) = p * q ↔ (p : Int) ∣ x ∧ (q : Int) ∣ x := by
    rw [int_gcd, Nat.gcd_eq_right_iff_dvd, Int.natCast_dvd, Int.natCast_dvd]
    exact ⟨fun h => ⟨(Nat.dvd_mul_right _ _).trans h, (Nat.dvd_mul_left _ _).trans h⟩,
      fun h => Nat.Coprime.mul_dvd_of_dvd_of_dvd ((Nat.coprime_primes hp hq).mpr hne) h.1 h.2⟩
  unfold Splits
  constructor
  · rintro ⟨-, a, b⟩ h
    by_cases hx : (p : Int) ∣ x
    · exact absurd (h2.mpr ⟨hx, h.mp hx⟩) (by omega)
    · exact absurd (h1.mpr ⟨hx, fun hy => hx (h.mpr hy)⟩) (by omega)
  · intro h
    refine ⟨hd, ?_, ?_⟩
    · have : Int.gcd x (p * q : Nat) ≠ 1 := fun he => h ⟨fun a => absurd a (h1.mp he).1, fun a => absurd a (h1.mp he).2⟩
      omega
    · have : Int.gcd x (p * q : Nat) ≠ p * q := fun he => h ⟨fun _ => (h2.mp he).2, fun _ => (h2.mp he).1⟩
      omega

/-- Modulo an odd prime a number has at most the two square roots `a` and `-a`, which differ. -/
theorem root_iff {p : Nat} (hp : p.Prime) (h2 : p ≠ 2) {x a : Int} (hx : ¬ (p : Int) ∣ x) (h : (p : Int) ∣ a ^ 2 - x ^ 2) :
    (p : Int) ∣ -x - a ↔ ¬ (p : Int) ∣ x - a := by
  have hpi : Prime (p : Int) := Nat.prime_iff_prime_int.mp hp
  have hor : (p : Int) ∣ x - a ∨ (p : Int) ∣ -x - a := by
    apply hpi.dvd_or_dvd
    have e : (x - a) * (-x - a) = a ^ 2 - x ^ 2 := by ring
    rwa [e]
  constructor
  · intro h1 h3
    have h4 : (p : Int) ∣ 2 * x := by
      have := dvd_sub h3 h1
      have e : x - a - (-x - a) = 2 * x := by ring
      rwa [e] at this
    rcases hpi.dvd_or_dvd h4 with h5 | h5
    · have h6 : p ∣ 2 := by exact_mod_cast h5
      exact h2 ((Nat.prime_dvd_prime_iff_eq hp Nat.prime_two).mp h6)
    · exact hx h5
  · intro h1
    exact hor.resolve_left h1

/-- The root of 1 that is 1 modulo `p` and -1 modulo `q`. -/
theorem exists_turn {p q : Nat} (hp : p.Prime) (hq : q.Prime) (hne : p ≠ q) :
    ∃ u : Int, (p : Int) ∣ u - 1 ∧ (q : Int) ∣ u + 1 := by
  obtain ⟨k, h1, h2⟩ := Nat.chineseRemainder ((Nat.coprime_primes hp hq).mpr hne) 1 (q - 1)
  refine ⟨k, ?_, ?_⟩
  · have := h1.symm.dvd
    simpa using this
  · have := h2.symm.dvd
    have e : ((q - 1 : Nat) : Int) = q - 1 := by have := hq.pos; omega
    rw [e] at this
    have := dvd_add this (dvd_refl (q : Int))
    have e : (k : Int) - (q - 1) + q = k + 1 := by ring
    rwa [e] at this

section
variable {p q : Nat} (hp : p.Prime) (hq : q.Prime) (hq2 : q ≠ 2) (hne : p ≠ q)
/-- Multiplying by the root of 1 and reducing. -/
theorem turn_facts {u : Int} (hu : (p : Int) ∣ u - 1 ∧ (q : Int) ∣ u + 1) (x : Int) :
    (p : Int) ∣ x * u % (p * q : Nat) - x ∧ (q : Int) ∣ x * u % (p * q : Nat) + x := by
  have hM : ((p * q : Nat) : Int) ∣ x * u % (p * q : Nat) - x * u := by
    rw [← dvd_neg, neg_sub]
    exact Int.dvd_self_sub_emod
  push_cast at hM ⊢
  constructor
  · have h1 : (p : Int) ∣ x * u % (p * q) - x * u := (Dvd.intro _ rfl).trans hM
    have := dvd_add h1 (hu.1.mul_left x)
    have e : x * u % (p * q : Int) - x * u + x * (u - 1) = x * u % (p * q) - x := by ring
    rwa [e] at this
  · have h1 : (q : Int) ∣ x * u % (p * q) - x * u := (Dvd.intro_left _ rfl).trans hM
    have := dvd_add h1 (hu.2.mul_left x)
    have e : x * u % (p * q : Int) - x * u + x * (u + 1) = x * u % (p * q) + x := by ring
    rwa [e] at this

include hp hq hne

theorem eq_of_dvd {x y : Int} (hx : 0 ≤ x ∧ x < (p * q : Nat)) (hy : 0 ≤ y ∧ y < (p * q : Nat)) (h1 : (p : Int) ∣ x - y)
    (h2 : (q : Int) ∣ x - y) : x = y := by
  have hco : IsCoprime (p : Int) q := Nat.isCoprime_iff_coprime.mpr ((Nat.coprime_primes hp hq).mpr hne)
  have h : ((p * q : Nat) : Int) ∣ x - y := by push_cast; exact hco.mul_dvd h1 h2
  have := Int.eq_zero_of_abs_lt_dvd h (by rw [abs_lt]; omega)
  omega

include hq2

theorem rabin (inv : Int → Int) :
    2 * ((coprimes (p * q)).filter fun x => bbs (p * q : Nat) (inv (bbs (p * q : Nat) x)) = bbs (p * q : Nat) x ∧
        Splits (p * q) (Int.gcd (x - inv (bbs (p * q : Nat) x)) (p * q : Nat))).card =
      ((coprimes (p * q)).filter fun x => bbs (p * q : Nat) (inv (bbs (p * q : Nat) x)) = bbs (p * q : Nat) x).card := by
  obtain ⟨u, hu⟩ := exists_turn hp hq hne
  have hpos : (0 : Int) < (p * q : Nat) := by exact_mod_cast Nat.mul_pos hp.pos hq.pos
  set M : Nat := p * q with hMdef
  let t : Int → Int := fun x => x * u % (M : Int)
  let good : Int → Prop := fun x => Splits M (Int.gcd (x - inv (bbs M x)) M)
  let S := (coprimes M).filter fun x => bbs M (inv (bbs M x)) = bbs M x
  have tf : ∀ x, (p : Int) ∣ t x - x ∧ (q : Int) ∣ t x + x := fun x => turn_facts hu x
  have trange : ∀ x, 0 ≤ t x ∧ t x < M := fun x => ⟨Int.emod_nonneg _ (by omega), Int.emod_lt_of_pos _ hpos⟩
  have tt : ∀ x, 0 ≤ x ∧ x < (M : Int) → t (t x) = x := by
    intro x hx
    apply eq_of_dvd hp hq hne (trange _) hx
    · have := dvd_add (tf (t x)).1 (tf x).1
      have e : t (t x) - t x + (t x - x) = t (t x) - x := by ring
      rwa [e] at this
    · have := dvd_sub (tf (t x)).2 (tf x).2
      have e : t (t x) + t x - (t x + x) = t (t x) - x := by ring
      rwa [e] at this
  have hco : IsCoprime (p : Int) q := Nat.isCoprime_iff_coprime.mpr ((Nat.coprime_primes hp hq).mpr hne)
  have tsq : ∀ x, bbs M (t x) = bbs M x := by
    intro x
    rw [bbs_eq_iff]
    have e : t x ^ 2 - x ^ 2 = (t x - x) * (t x + x) := by ring
    rw [e, hMdef]
    push_cast
    exact mul_dvd_mul (tf x).1 (tf x).2
  have hgood : ∀ x ∈ S, good (t x) ↔ ¬ good x := by
    intro x hx
    obtain ⟨hx, hs⟩ := Finset.mem_filter.mp hx
    obtain ⟨-, hc⟩ := mem_coprimes.mp hx
    obtain ⟨c1, c2⟩ := (coprime_iff hp hq x).mp hc
    rw [bbs_eq_iff] at hs
    have hs1 : (p : Int) ∣ inv (bbs M x) ^ 2 - x ^ 2 := by
      rw [hMdef] at hs ⊢; push_cast at hs; exact (Dvd.intro _ rfl).trans hs
    have hs2 : (q : Int) ∣ inv (bbs M x) ^ 2 - x ^ 2 := by
      rw [hMdef] at hs ⊢; push_cast at hs; exact (Dvd.intro_left _ rfl).trans hs
    show Splits _ (Int.gcd (t x - inv (bbs M (t x))) M) ↔ ¬ Splits _ (Int.gcd (x - inv (bbs M x)) M)
    rw [tsq x, hMdef, splits_iff hp hq hne, splits_iff hp hq hne, ← hMdef]
    generalize inv (bbs M x) = a at hs1 hs2
    have g1 : (p : Int) ∣ t x - a ↔ (p : Int) ∣ x - a := by
      have e : t x - a = (t x - x) + (x - a) := by ring
      rw [e]
      exact dvd_add_right (tf x).1
    have g2 : (q : Int) ∣ t x - a ↔ ¬ (q : Int) ∣ x - a := by
      rw [← root_iff hq hq2 c2 hs2]
      have e : t x - a = (t x + x) + (-x - a) := by ring
      rw [e]
      exact dvd_add_right (tf x).2
    rw [g1, g2]
    tauto
  have hmem : ∀ x ∈ S, t x ∈ S := by
    intro x hx
    obtain ⟨hx, hs⟩ := Finset.mem_filter.mp hx
    obtain ⟨-, hc⟩ := mem_coprimes.mp hx
    obtain ⟨c1, c2⟩ := (coprime_iff hp hq x).mp hc
    refine Finset.mem_filter.mpr ⟨mem_coprimes.mpr ⟨trange x, (coprime_iff hp hq _).mpr ⟨?_, ?_⟩⟩, ?_⟩
    · intro h
      have := dvd_sub h (tf x).1
      have e : t x - (t x - x) = x := by ring
      rw [e] at this
      exact c1 this
    · intro h
      have := dvd_sub (tf x).2 h
      have e : t x + x - t x = x := by ring
      rw [e] at this
      exact c2 this
    · rw [tsq x, hs]
  have hflip : (S.filter fun x => good x).card = (S.filter fun x => ¬ good x).card := by
    apply Finset.card_bij' (fun x _ => t x) (fun x _ => t x)
    · intro x hx
      obtain ⟨hx, hg⟩ := Finset.mem_filter.mp hx
      exact Finset.mem_filter.mpr ⟨hmem x hx, fun h => (hgood x hx).mp h hg⟩
    · intro x hx
      obtain ⟨hx, hg⟩ := Finset.mem_filter.mp hx
      exact Finset.mem_filter.mpr ⟨hmem x hx, (hgood x hx).mpr hg⟩
    · intro x hx
      exact tt x (mem_coprimes.mp (Finset.mem_filter.mp (Finset.mem_filter.mp hx).1).1).1
    · intro x hx
      exact tt x (mem_coprimes.mp (Finset.mem_filter.mp (Finset.mem_filter.mp hx).1).1).1
  have hsum := Finset.card_filter_add_card_filter_not (s := S) (fun x => good x)
  have hff : (coprimes M).filter (fun x => bbs M (inv (bbs M x)) = bbs M x ∧ good x) = S.filter fun x => good x := by
    rw [Finset.filter_filter]
  show 2 * ((coprimes M).filter (fun x => bbs M (inv (bbs M x)) = bbs M x ∧ good x)).card = S.card
  rw [hff]
  omega

end

/-- Finding the secrets of commitments factors. -/
theorem secret_factors {p q : Nat} (hp : p.Prime) (hq : q.Prime) (hp3 : p % 4 = 3) (hq3 : q % 4 = 3) (hne : p ≠ q)
    (pred : Int → Nat) (A : Int × Nat → Int) (bit : Nat) :
    ((coprimes (p * q)).filter fun r => A (Commit.commitBit (bbs (p * q : Nat)) pred (bbs (p * q : Nat) r) bit) = bbs (p * q : Nat) r).card ≤
      2 * ((coprimes (p * q)).filter fun x => ∃ y ∈ coprimes (p * q), 
        Splits (p * q) (Int.gcd (x - A (bbs (p * q : Nat) x, pred (bbs (p * q : Nat) y) ^^^ bit)) (p * q : Nat))).card := by
  classical
  have hpos : (0 : Int) < (p * q : Nat) := by exact_mod_cast Nat.mul_pos hp.pos hq.pos
  have hinj := bbs_bbs_inj p q hp hq hp3 hq3
  have hq2 : q ≠ 2 := by omega
  set M : Nat := p * q with hMdef
  -- the inverter: it guesses the second component
  let inv : Int → Int := fun y =>
    if h : ∃ r ∈ coprimes M, bbs M (bbs M r) = y then A (y, pred (bbs M h.choose) ^^^ bit) else 0
  have hinv : ∀ r ∈ coprimes M, inv (bbs M (bbs M r)) = A (Commit.commitBit (bbs M) pred (bbs M r) bit) := by
    intro r hr
    have h : ∃ r' ∈ coprimes M, bbs M (bbs M r') = bbs M (bbs M r) := ⟨r, hr, rfl⟩
    show (if h : _ then _ else _) = _
    rw [dif_pos h, hinj _ _ h.choose_spec.2]
    rfl
  -- a root of each secret
  let root : Int → Int := fun s => if h : ∃ r ∈ coprimes M, bbs M r = s then h.choose else 0
  have hroot : ∀ r ∈ coprimes M, root (bbs M r) ∈ coprimes M ∧ bbs M (root (bbs M r)) = bbs M r := by
    intro r hr
    have h : ∃ r' ∈ coprimes M, bbs M r' = bbs M r := ⟨r, hr, rfl⟩
    have e : root (bbs M r) = h.choose := dif_pos h
    rw [e]
    exact h.choose_spec
  let m : Int → Int := fun r => r * root (bbs M r) % M
  have hm : ∀ r, (M : Int) ∣ m r - r * root (bbs M r) := by
    intro r
    rw [← dvd_neg, neg_sub]
    exact Int.dvd_self_sub_emod
  have hself : ∀ x, (M : Int) ∣ bbs M x - x ^ 2 := by
    intro x
    rw [← dvd_neg, neg_sub]
    exact Int.dvd_self_sub_emod
  have hsq : ∀ r ∈ coprimes M, bbs M (m r) = bbs M (bbs M r) := by
    intro r hr
    rw [bbs_eq_iff]
    have h1 := (hroot r hr).2
    rw [bbs_eq_iff] at h1
    obtain ⟨a, ha⟩ := hm r
    obtain ⟨b, hb⟩ := h1
    obtain ⟨c, hc⟩ := hself r
    refine ⟨a * (m r + r * root (bbs M r)) + r ^ 2 * b - (bbs M r + r ^ 2) * c, ?_⟩
    generalize m r = y at *
    generalize root (bbs M r) = z at *
    generalize bbs M r = s at *
    linear_combination (y + r * z) * ha + r ^ 2 * hb - (s + r ^ 2) * hc
  have hmem : ∀ r ∈ coprimes M, m r ∈ coprimes M := by
    intro r hr
    have h1 := (mem_coprimes.mp hr).2
    have h2 := (mem_coprimes.mp (hroot r hr).1).2
    rw [hMdef, coprime_iff hp hq] at h1 h2
    refine mem_coprimes.mpr ⟨⟨Int.emod_nonneg _ (by omega), Int.emod_lt_of_pos _ hpos⟩, (coprime_iff hp hq _).mpr ?_⟩
    have h3 := hm r
    have key : ∀ l : Nat, l.Prime → (l : Int) ∣ M → ¬ (l : Int) ∣ r → ¬ (l : Int) ∣ root (bbs M r) → ¬ (l : Int) ∣ m r := by
      intro l hl hlM a b c
      have := dvd_sub c (hlM.trans h3)
      rw [sub_sub_cancel] at this
      rcases (Nat.prime_iff_prime_int.mp hl).dvd_or_dvd this with h | h
      · exact a h
      · exact b h
    have d1 : (p : Int) ∣ M := by rw [hMdef]; push_cast; exact Dvd.intro _ rfl
    have d2 : (q : Int) ∣ M := by rw [hMdef]; push_cast; exact Dvd.intro_left _ rfl
    exact ⟨key p hp d1 h1.1 h2.1, key q hq d2 h1.2 h2.2⟩
  have hminj : ∀ r ∈ coprimes M, ∀ r' ∈ coprimes M, m r = m r' → r = r' := by
    intro r hr r' hr' h
    have e : bbs M r = bbs M r' := hinj _ _ (by rw [← hsq r hr, ← hsq r' hr', h])
    have h1 := hm r
    have h2 := hm r'
    have hz := (mem_coprimes.mp (hroot r hr).1).2
    rw [← h, ← e] at h2
    have h3 := dvd_sub h2 h1
    have e3 : m r - r' * root (bbs M r) - (m r - r * root (bbs M r)) = root (bbs M r) * (r - r') := by ring
    rw [e3] at h3
    have hco : IsCoprime (M : Int) (root (bbs M r)) := (Int.isCoprime_iff_gcd_eq_one.mpr hz).symm
    have h4 := hco.dvd_of_dvd_mul_left h3
    have a := (mem_coprimes.mp hr).1
    have b := (mem_coprimes.mp hr').1
    have := Int.eq_zero_of_abs_lt_dvd h4 (by rw [abs_lt]; omega)
    omega
  have hrab := rabin hp hq hq2 hne inv
  rw [← hMdef] at hrab
  calc _ ≤ ((coprimes M).filter fun x => bbs M (inv (bbs M x)) = bbs M x).card := by
        apply Finset.card_le_card_of_injOn m
        · intro r hr
          obtain ⟨hr, hA⟩ := Finset.mem_filter.mp hr
          refine Finset.mem_filter.mpr ⟨hmem r hr, ?_⟩
          rw [hsq r hr, hinv r hr, hA]
        · intro r hr r' hr' h
          exact hminj r (Finset.mem_filter.mp hr).1 r' (Finset.mem_filter.mp hr').1 h
    _ ≤ _ := by
        rw [← hrab]
        apply Nat.mul_le_mul_left
        apply Finset.card_le_card
        intro x hx
        obtain ⟨hx, hb, hs⟩ := Finset.mem_filter.mp hx
        refine Finset.mem_filter.mpr ⟨hx, ?_⟩
        by_cases h : ∃ r ∈ coprimes M, bbs M (bbs M r) = bbs M x
        · have e : inv (bbs M x) = A (bbs M x, pred (bbs M h.choose) ^^^ bit) := dif_pos h
          rw [e] at hs
          exact ⟨h.choose, h.choose_spec.1, hs⟩
        · have e : inv (bbs M x) = 0 := dif_neg h
          exfalso
          rw [e] at hs
          obtain ⟨-, h1, -⟩ := hs
          rw [sub_zero, (mem_coprimes.mp hx).2] at h1
          omega

end Verif.Bbs
