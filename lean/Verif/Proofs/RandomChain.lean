import Mathlib.Data.Fintype.CardEmbedding
import Mathlib.Data.Fintype.BigOperators
import Mathlib.Data.Rat.Cast.Order
import Mathlib.Algebra.Order.Field.Basic
import Mathlib.Tactic.Linarith
import Mathlib.Tactic.FieldSimp
import Mathlib.Tactic.Ring
/-!
# The orbit of a random point under a random function

The first `k + 1` points of the orbit are distributed like independent points, up to the probability of a repetition.
-/

namespace Verif.Sampling
open Finset

variable {X : Type _} [Fintype X] [DecidableEq X]

/-- `x, H x, H (H x), …`: the first `k + 1` points. -/
def chain (k : Nat) (ω : X × (X → X)) : Fin (k + 1) → X := fun i => ω.2^[i] ω.1

omit [Fintype X] [DecidableEq X] in
theorem chain_eq_iff {k : Nat} {ω : X × (X → X)} {t : Fin (k + 1) → X} :
    chain k ω = t ↔ ω.1 = t 0 ∧ ∀ i : Fin k, ω.2 (t i.castSucc) = t i.succ := by
  constructor
  · rintro rfl
    refine ⟨rfl, fun i => ?_⟩
    show ω.2 (ω.2^[i] ω.1) = ω.2^[i + 1] ω.1
    rw [Function.iterate_succ_apply']
  · rintro ⟨h0, h⟩
    funext ⟨i, hi⟩
    show ω.2^[i] ω.1 = _
    induction i with
    | zero => exact h0
    | succ i ih =>
      rw [Function.iterate_succ_apply', ih (by omega)]
      exact h ⟨i, by omega⟩

theorem card_fibre (k : Nat) (t : Fin (k + 1) → X) (ht : Function.Injective t) :
    #{ω : X × (X → X) | chain k ω = t} = Fintype.card X ^ (Fintype.card X - k) := by
  classical
  let S : X → Finset X := fun x => univ.filter fun y => ∀ i : Fin k, t i.castSucc = x → y = t i.succ
  have hset : (univ.filter fun ω : X × (X → X) => chain k ω = t) = ({t 0} : Finset X) ×ˢ Fintype.piFinset S := by
    ext ω
    simp only [mem_filter, mem_univ, true_and, chain_eq_iff, mem_product, mem_singleton, Fintype.mem_piFinset, S]
    refine and_congr_right fun _ => ⟨fun h x i hi => by rw [← hi]; exact h i, fun h i => h _ i rfl⟩
  rw [hset, card_product, card_singleton, one_mul, Fintype.card_piFinset]
  let I : Finset X := univ.image fun i : Fin k => t i.castSucc
  have hI : #I = k := by
    show #(univ.image (t ∘ Fin.castSucc)) = k
    rw [card_image_of_injective _ (ht.comp (Fin.castSucc_injective k)), card_univ, Fintype.card_fin]
  have hS : ∀ x, #(S x) = if x ∈ I then 1 else Fintype.card X := by
    intro x
    by_cases h : x ∈ I
    · rw [if_pos h]
      obtain ⟨i, -, hi⟩ := mem_image.1 h
      rw [card_eq_one]
      refine ⟨t i.succ, ?_⟩
      ext y
      simp only [S, mem_filter, mem_univ, true_and, mem_singleton]
      refine ⟨fun h => h i hi, fun h j hj => ?_⟩
      have : j = i := by
        have := ht (hj.trans hi.symm)
        exact Fin.castSucc_injective k this
      rw [h, this]
    · rw [if_neg h, ← card_univ]
      congr 1
      refine filter_true_of_mem fun y _ i hi => ?_
      exact absurd (mem_image.2 ⟨i, mem_univ i, hi⟩) h
  rw [prod_congr rfl fun x _ => hS x, prod_ite, prod_const_one, one_mul, prod_const]
  congr 1
  rw [filter_not, card_sdiff_of_subset (filter_subset _ _), filter_mem_eq_inter, univ_inter, hI, card_univ]

omit [DecidableEq X] in
theorem card_injective (k : Nat) [DecidablePred fun t : Fin k → X => Function.Injective t] :
    #{t : Fin k → X | Function.Injective t} = (Fintype.card X).descFactorial k := by
  classical
  rw [← Fintype.card_subtype, Fintype.card_congr (Equiv.subtypeInjectiveEquivEmbedding (Fin k) X), Fintype.card_embedding_eq,
    Fintype.card_fin]

theorem descFactorial_ge (N : Nat) (hN : 0 < N) : ∀ k : Nat, (N : ℚ) ^ (k + 1) - (k * (k + 1) / 2 : ℚ) * N ^ k ≤ N.descFactorial (k + 1) := by
  intro k
  induction k with
  | zero => simp
  | succ k ih =>
    rw [Nat.descFactorial_succ]
    have hNq : (1 : ℚ) ≤ N := by exact_mod_cast hN
    have hP : (0 : ℚ) < (N : ℚ) ^ k := by positivity
    by_cases h : k + 1 ≤ N
    · rw [Nat.cast_mul, Nat.cast_sub h]
      have h2 : (0 : ℚ) ≤ (N : ℚ) - (k + 1 : ℕ) := by
        have : ((k + 1 : ℕ) : ℚ) ≤ N := by exact_mod_cast h
        linarith
      refine le_trans ?_ (mul_le_mul_of_nonneg_left ih h2)
      push_cast
      have e : ((N : ℚ) - (k + 1)) * (N ^ (k + 1) - (k * (k + 1) / 2) * N ^ k) - ((N : ℚ) ^ (k + 1 + 1) - ((k + 1) * (k + 1 + 1) / 2) * N ^ (k + 1)) =
          (k + 1) * (k * (k + 1) / 2) * N ^ k := by ring
      have : (0 : ℚ) ≤ (k + 1) * (k * (k + 1) / 2) * N ^ k := by positivity
      linarith
    · have h2 : (N : ℚ) ≤ k := by exact_mod_cast (by omega : N ≤ k)
      refine le_trans ?_ (Nat.cast_nonneg _)
      have e : (N : ℚ) ^ (k + 1 + 1) - (((k + 1 : ℕ) : ℚ) * ((k + 1 : ℕ) + 1) / 2) * N ^ (k + 1) =
        (N : ℚ) ^ (k + 1) * (N - (k + 1) * (k + 2) / 2) := by push_cast; ring
      rw [e]
      refine mul_nonpos_of_nonneg_of_nonpos (by positivity) ?_
      have hk : (0 : ℚ) ≤ k := Nat.cast_nonneg k
      nlinarith

/-- **The random chain.**  A property of the first `k + 1` points holds at most as often as for independent points, plus the probability of
a repetition. -/
theorem chain_le (k : Nat) (hk : k ≤ Fintype.card X) (hX : 0 < Fintype.card X) (P : (Fin (k + 1) → X) → Prop) [DecidablePred P] :
    (#{ω : X × (X → X) | P (chain k ω)} : ℚ) / (Fintype.card X * Fintype.card X ^ Fintype.card X) ≤
      (#{t : Fin (k + 1) → X | P t} : ℚ) / Fintype.card X ^ (k + 1) + (k * (k + 1) / 2 : ℚ) / Fintype.card X := by
  classical
  set N := Fintype.card X with hNdef
  have hN : (0 : ℚ) < N := by exact_mod_cast hX
  -- the runs without a repetition
  have count : ∀ (Q : (Fin (k + 1) → X) → Prop) [DecidablePred Q], #{ω : X × (X → X) | Function.Injective (chain k ω) ∧ Q (chain k ω)} =
      #{t : Fin (k + 1) → X | Function.Injective t ∧ Q t} * N ^ (N - k) := by
    intro Q _
    rw [card_eq_sum_card_fiberwise (f := chain k) (t := {t : Fin (k + 1) → X | Function.Injective t ∧ Q t})
      (fun ω hω => by simpa using hω)]
    rw [sum_const_nat (m := N ^ (N - k))]
    intro t ht
    simp only [mem_filter, mem_univ, true_and] at ht
    rw [filter_filter, ← card_fibre k t ht.1]
    congr 1
    ext ω
    simp only [mem_filter, mem_univ, true_and]
    refine ⟨fun h => h.2, fun h => ⟨by rw [h]; exact ht, h⟩⟩
  have total : Fintype.card (X × (X → X)) = N * N ^ N := by rw [Fintype.card_prod, Fintype.card_fun]
  -- split
  have split : #{ω : X × (X → X) | P (chain k ω)} ≤
      #{ω : X × (X → X) | Function.Injective (chain k ω) ∧ P (chain k ω)} + #{ω : X × (X → X) | ¬ Function.Injective (chain k ω)} := by
    refine le_trans (card_le_card ?_) (card_union_le _ _)
    intro ω hω
    simp only [mem_filter, mem_univ, true_and, mem_union] at hω ⊢
    by_cases h : Function.Injective (chain k ω)
    · exact .inl ⟨h, hω⟩
    · exact .inr h
  have hinj : #{ω : X × (X → X) | Function.Injective (chain k ω)} = N.descFactorial (k + 1) * N ^ (N - k) := by
    have := count (fun _ => True)
    simp only [and_true] at this
    rw [this, card_injective]
  have hadd : #{ω : X × (X → X) | Function.Injective (chain k ω)} + #{ω : X × (X → X) | ¬ Function.Injective (chain k ω)} = N * N ^ N := by
    rw [← total, ← card_univ (α := X × (X → X)), card_filter_add_card_filter_not]
  have hle : #{t : Fin (k + 1) → X | Function.Injective t ∧ P t} ≤ #{t : Fin (k + 1) → X | P t} :=
    card_le_card fun t ht => by simp only [mem_filter, mem_univ, true_and] at ht ⊢; exact ht.2
  rw [count P] at split
  rw [hinj] at hadd
  have hpow : (N : ℚ) ^ (k + 1) * (N : ℚ) ^ (N - k) = N * N ^ N := by
    rw [← pow_add, ← pow_succ']; congr 1; omega
  have hdf := descFactorial_ge N hX k
  have hM : (0 : ℚ) < (N : ℚ) ^ (N - k) := by positivity
  have hmul : ((N ^ (N - k) : ℕ) : ℚ) = (N : ℚ) ^ (N - k) := by push_cast; rfl
  have hT : ((N * N ^ N : ℕ) : ℚ) = N * (N : ℚ) ^ N := by push_cast; rfl
  generalize #{ω : X × (X → X) | P (chain k ω)} = A at *
  generalize #{ω : X × (X → X) | ¬ Function.Injective (chain k ω)} = U at *
  generalize #{t : Fin (k + 1) → X | Function.Injective t ∧ P t} = G at *
  generalize #{t : Fin (k + 1) → X | P t} = B at *
  generalize N.descFactorial (k + 1) = D at *
  have h1 : (A : ℚ) ≤ G * (N : ℚ) ^ (N - k) + U := by rw [← hmul]; exact_mod_cast split
  have h2 : (D : ℚ) * (N : ℚ) ^ (N - k) + U = N * (N : ℚ) ^ N := by rw [← hmul, ← hT]; exact_mod_cast hadd
  have h3 : (G : ℚ) ≤ B := by exact_mod_cast hle
  rw [← hpow] at h2 ⊢
  generalize (N : ℚ) ^ (N - k) = M at *
  have h4 : (A : ℚ) ≤ B * M + (k * (k + 1) / 2 : ℚ) * N ^ k * M := by nlinarith
  rw [div_le_iff₀ (by positivity)]
  have h5 : ((B : ℚ) / N ^ (k + 1) + (k * (k + 1) / 2 : ℚ) / N) * (N ^ (k + 1) * M) = B * M + (k * (k + 1) / 2 : ℚ) * N ^ k * M := by
    field_simp
    ring
  linarith

end Verif.Sampling
