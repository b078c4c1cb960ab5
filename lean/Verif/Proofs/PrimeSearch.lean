import Verif.Spec.PrimeSearch
import Verif.Proofs.Sampling
import Verif.Props.BbsModulus
import Mathlib.Algebra.BigOperators.Field
/-!
# Probabilities of the search for a prime
-/

namespace Verif.Spec.Bases

/-- An event about one of several independent draws. -/
theorem fraction_coord {ι : Type} [DecidableEq ι] {X : ι → Type} [∀ i, Finite (X i)] [∀ i, Nonempty (X i)] [Finite ι] (i : ι)
    (P : X i → Prop) : fraction (fun ω : (i : ι) → X i => P (ω i)) = fraction P := by
  let e := Equiv.piSplitAt i X
  have h1 : Nat.card ((i : ι) → X i) = Nat.card (X i) * Nat.card ((j : {j // j ≠ i}) → X j) := by
    rw [Nat.card_congr e, Nat.card_prod]
  have h2 : Nat.card {ω : (i : ι) → X i // P (ω i)} = Nat.card {x : X i // P x} * Nat.card ((j : {j // j ≠ i}) → X j) := by
    rw [← Nat.card_prod]
    refine Nat.card_congr ((e.subtypeEquiv (q := fun y => P y.1) fun ω => Iff.rfl).trans ?_)
    exact {
      toFun := fun y => (⟨y.1.1, y.2⟩, y.1.2)
      invFun := fun y => ⟨(y.1.1, y.2), y.1.2⟩
      left_inv := fun _ => rfl
      right_inv := fun _ => rfl }
  unfold fraction
  rw [h1, h2]
  push_cast
  have : (Nat.card ((j : {j // j ≠ i}) → X j) : ℚ) ≠ 0 := by
    have : 0 < Nat.card ((j : {j // j ≠ i}) → X j) := Nat.card_pos
    positivity
  rw [mul_div_mul_right _ _ this]

theorem fraction_fst {A B : Type} [Finite A] [Finite B] [Nonempty B] (P : A → Prop) :
    fraction (fun ω : A × B => P ω.1) = fraction P := by
  have h2 : Nat.card {ω : A × B // P ω.1} = Nat.card {x : A // P x} * Nat.card B := by
    rw [← Nat.card_prod]
    exact Nat.card_congr {
      toFun := fun y => (⟨y.1.1, y.2⟩, y.1.2)
      invFun := fun y => ⟨(y.1.1, y.2), y.1.2⟩
      left_inv := fun _ => rfl
      right_inv := fun _ => rfl }
  unfold fraction
  rw [h2, Nat.card_prod]
  push_cast
  have : (Nat.card B : ℚ) ≠ 0 := by
    have : 0 < Nat.card B := Nat.card_pos
    positivity
  rw [mul_div_mul_right _ _ this]

theorem fraction_snd {A B : Type} [Finite A] [Finite B] [Nonempty A] (P : B → Prop) :
    fraction (fun ω : A × B => P ω.2) = fraction P := by
  rw [← fraction_fst (A := B) (B := A) P]
  unfold fraction
  rw [Nat.card_congr (Equiv.prodComm A B),
    Nat.card_congr ((Equiv.prodComm A B).subtypeEquiv (p := fun ω : A × B => P ω.2) (q := fun ω : B × A => P ω.1) fun ω => Iff.rfl)]

/-- Independent draws that all fail. -/
theorem fraction_all {X : Type} [Finite X] [Nonempty X] (t : Nat) (P : X → Prop) :
    fraction (fun r : Fin t → X => ∀ i, ¬ P (r i)) = (1 - fraction P) ^ t := by
  classical
  have := Fintype.ofFinite X
  have e : Nat.card {r : Fin t → X // ∀ i, ¬ P (r i)} = Nat.card {x // ¬ P x} ^ t := by
    rw [Nat.card_congr (Equiv.subtypePiEquivPi (p := fun _ x => ¬ P x)), Nat.card_fun, Nat.card_fin]
  have hpos : (0 : ℚ) < Nat.card X := by
    have : 0 < Nat.card X := Nat.card_pos
    positivity
  have hs : (Nat.card {x // ¬ P x} : ℚ) = Nat.card X - Nat.card {x // P x} := by
    rw [Nat.card_eq_fintype_card, Nat.card_eq_fintype_card, Nat.card_eq_fintype_card, Fintype.card_subtype_compl,
      Nat.cast_sub (Fintype.card_subtype_le _)]
  unfold fraction
  rw [e, Nat.card_fun, Nat.card_fin]
  push_cast
  rw [hs, ← div_pow, sub_div, div_self hpos.ne']

theorem fraction_exists {Ω : Type} [Finite Ω] : ∀ (t : Nat) (P : Fin t → Ω → Prop) (ε : ℚ), (∀ i, fraction (P i) ≤ ε) →
    fraction (fun ω => ∃ i, P i ω) ≤ t * ε := by
  classical
  intro t P ε h
  have := Fintype.ofFinite Ω
  have e : (fraction fun ω => ∃ i, P i ω) ≤ ∑ i, fraction (P i) := by
    simp only [Sampling.fraction_eq]
    rw [← Finset.sum_div]
    refine div_le_div_of_nonneg_right ?_ (Nat.cast_nonneg _)
    have : (Finset.univ.filter fun ω => ∃ i, P i ω) = Finset.univ.biUnion fun i => Finset.univ.filter (P i) := by
      ext ω; simp
    rw [this]
    exact_mod_cast Finset.card_biUnion_le
  refine e.trans ((Finset.sum_le_card_nsmul _ _ ε fun i _ => h i).trans_eq ?_)
  rw [Finset.card_univ, Fintype.card_fin, nsmul_eq_mul]

theorem fraction_never {Ω : Type} {P : Ω → Prop} (h : ∀ ω, ¬ P ω) : fraction P = 0 := by
  have e : Nat.card {ω // P ω} = 0 := by
    rw [Nat.card_eq_zero]
    exact Or.inl ⟨fun d => h d.1 d.2⟩
  unfold fraction
  rw [e, Nat.cast_zero, zero_div]

/-- Monotonicity, for finite types. -/
theorem _root_.Verif.Sampling.fraction_mono' {Ω : Type} [Finite Ω] {P Q : Ω → Prop} (h : ∀ ω, P ω → Q ω) : fraction P ≤ fraction Q := by
  have := Fintype.ofFinite Ω
  exact Sampling.fraction_mono h

instance (c : Int) : Finite (Base c) := (Set.finite_Icc (2 : Int) (max 2 (c - 2))).to_subtype
instance (c : Int) : Nonempty (Base c) := ⟨⟨2, le_refl _, le_max_left _ _⟩⟩

open Primality Props in
/-- A composite number passes the test of `find_good_prime` with small probability. -/
theorem fraction_passes (c : Int) (hc : ¬ Nat.Prime c.toNat) :
    fraction (fun d : Fin 100 → Base c => Bbs.goodPrime c (drawsOf fun j => (d j).1) = .ok true) ≤ 1 / 4 ^ 100 := by
  classical
  by_cases h4 : 4 ≤ c
  · have hcard := C80_error_probability c h4 hc 100
    have e1 : Nat.card (Fin 100 → Base c) = (Fintype.piFinset fun _ : Fin 100 => Finset.Icc (2 : Int) (c - 2)).card := by
      rw [Nat.card_fun, Fintype.card_piFinset_const, Nat.card_fin, Nat.subtype_card (Finset.Icc (2 : Int) (c - 2))]
      intro b
      rw [Finset.mem_Icc, max_eq_right (show (2 : Int) ≤ c - 2 by omega)]
    have e2 : Nat.card {d : Fin 100 → Base c // Bbs.goodPrime c (drawsOf fun j => (d j).1) = .ok true} ≤
        ((Fintype.piFinset fun _ : Fin 100 => Finset.Icc (2 : Int) (c - 2)).filter
          fun d => probablyPrime c 100 (drawsOf d) = .ok true).card := by
      rw [← Fintype.card_coe, ← Nat.card_eq_fintype_card]
      refine Nat.card_le_card_of_injective (fun d => ⟨fun j => (d.1 j).1, ?_⟩) ?_
      · obtain ⟨d, hd⟩ := d
        refine Finset.mem_filter.mpr ⟨Fintype.mem_piFinset.mpr fun j => ?_, ?_⟩
        · have h1 := (d j).2.1
          have h2 := (d j).2.2
          exact Finset.mem_Icc.mpr ⟨h1, by show (d j).1 ≤ c - 2; omega⟩
        · unfold Bbs.goodPrime at hd
          split at hd
          · exact hd
          · simp at hd
      · intro d d' h
        have h := congrArg Subtype.val h
        exact Subtype.ext (funext fun j => Subtype.ext (congrFun h j))
    have hpos : 0 < Nat.card (Fin 100 → Base c) := Nat.card_pos
    unfold fraction
    rw [← e1] at hcard
    have hle := (Nat.mul_le_mul_right (4 ^ 100) e2).trans hcard
    generalize Nat.card (Fin 100 → Base c) = v at hle hpos
    generalize Nat.card {d : Fin 100 → Base c // Bbs.goodPrime c (drawsOf fun j => (d j).1) = .ok true} = u at hle
    rw [div_le_div_iff₀ (by exact_mod_cast hpos) (by positivity), one_mul]
    exact_mod_cast hle
  · have : ∀ d : Fin 100 → Base c, ¬ Bbs.goodPrime c (drawsOf fun j => (d j).1) = .ok true := by
      intro d hd
      unfold Bbs.goodPrime at hd
      split at hd
      · unfold probablyPrime at hd
        by_cases h3 : c = 2 ∨ c = 3
        · rcases h3 with rfl | rfl
          · exact hc Nat.prime_two
          · exact hc Nat.prime_three
        · rw [if_neg h3, if_pos (by omega)] at hd
          simp at hd
      · simp at hd
    rw [fraction_never this]
    positivity

end Verif.Spec.Bases
