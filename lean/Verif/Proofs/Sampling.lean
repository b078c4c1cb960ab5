import Verif.Spec.RandomHash
import Verif.Proofs.RandomChain
import Verif.Proofs.Utils
import Verif.Proofs.Bytes
import Mathlib.Data.FinEnum
import Mathlib.Data.Fintype.Fin
import Mathlib.Tactic.NormNum
/-!
# The positions drawn from a random hash function
-/

namespace Verif.Sampling
open Finset Utils

/-! ### Digests and words -/

noncomputable instance : Fintype UInt8 := Fintype.ofEquiv (Fin 256) ⟨UInt8.ofFin, UInt8.toFin, by intro x; simp, by intro x; simp⟩

noncomputable instance : Fintype Digest := inferInstanceAs (Fintype (List.Vector UInt8 32))

theorem card_digest : Fintype.card Digest = 2 ^ 256 := by
  have h : Fintype.card (List.Vector UInt8 32) = Fintype.card UInt8 ^ 32 := card_vector 32
  have h8 : Fintype.card UInt8 = 256 := by
    rw [Fintype.card_congr (⟨UInt8.toFin, UInt8.ofFin, by intro x; simp, by intro x; simp⟩ : UInt8 ≃ Fin 256), Fintype.card_fin]
  have e : Fintype.card Digest = Fintype.card (List.Vector UInt8 32) := Fintype.card_congr (Equiv.refl _)
  rw [e, h, h8]; norm_num

/-- The concatenation of digests. -/
def concat {k : Nat} (t : Fin (k + 1) → Digest) : Bytes := (List.ofFn fun i => (t i).1).flatten

theorem concat_length {k : Nat} (t : Fin (k + 1) → Digest) : (concat t).length = 32 * (k + 1) := by
  have h : (List.ofFn fun i => (t i).1).map List.length = List.replicate (k + 1) 32 := by
    rw [List.map_ofFn, ← List.ofFn_const]
    congr 1; funext i; exact (t i).2
  rw [concat, List.length_flatten, h, List.sum_replicate, smul_eq_mul, mul_comm]

theorem concat_injective {k : Nat} : Function.Injective (concat (k := k)) := by
  intro t t' h
  have hl : ∀ t : Fin (k + 1) → Digest, (List.ofFn fun i => (t i).1).map List.length = List.replicate (k + 1) 32 := by
    intro t
    rw [List.map_ofFn, ← List.ofFn_const]
    congr 1; funext i; exact (t i).2
  have := (List.eq_iff_flatten_eq (L := List.ofFn fun i => (t i).1) (L' := List.ofFn fun i => (t' i).1)).2 ⟨h, by rw [hl, hl]⟩
  have := List.ofFn_injective this
  funext i
  exact Subtype.ext (congrFun this i)

theorem word_lt (data : Bytes) (j : Nat) : word data j < 2 ^ 32 := by
  refine lt_of_lt_of_le (fromBytes_lt _) ?_
  calc 256 ^ ((data.drop (4 * j)).take 4).length ≤ 256 ^ 4 := Nat.pow_le_pow_right (by norm_num) (by simp)
    _ = 2 ^ 32 := by norm_num

theorem eq_of_words : ∀ (n : Nat) (a b : Bytes), a.length = 4 * n → b.length = 4 * n → (∀ j < n, word a j = word b j) → a = b := by
  intro n
  induction n with
  | zero => intro a b ha hb _; rw [List.length_eq_zero_iff.1 ha, List.length_eq_zero_iff.1 hb]
  | succ n ih =>
    intro a b ha hb h
    have h0 := fromBytes_inj (a.take 4) (b.take 4) (by simp; omega) (by simpa [word] using h 0 (by omega))
    have h1 := ih (a.drop 4) (b.drop 4) (by simp; omega) (by simp; omega) fun j hj => by
      have := h (j + 1) (by omega)
      simp only [word] at this ⊢
      rwa [List.drop_drop, List.drop_drop, show 4 + 4 * j = 4 * (j + 1) by ring]
    rw [← List.take_append_drop 4 a, ← List.take_append_drop 4 b, h0, h1]

/-- The words of `k + 1` digests. -/
def wordsOf {k : Nat} (t : Fin (k + 1) → Digest) : Fin (8 * (k + 1)) → Fin (2 ^ 32) := fun j => ⟨word (concat t) j, word_lt _ _⟩

theorem wordsOf_bijective (k : Nat) : Function.Bijective (wordsOf (k := k)) := by
  rw [Fintype.bijective_iff_injective_and_card]
  constructor
  · intro t t' h
    refine concat_injective (eq_of_words (8 * (k + 1)) _ _ (by rw [concat_length]; ring) (by rw [concat_length]; ring) fun j hj => ?_)
    have := congrFun h ⟨j, hj⟩
    exact congrArg Fin.val this
  · rw [Fintype.card_fun, Fintype.card_fun, card_digest, Fintype.card_fin, Fintype.card_fin, Fintype.card_fin, ← pow_mul, ← pow_mul]
    congr 1; ring

theorem card_miss (k c : Nat) (hc : c ≤ 8 * (k + 1)) (W : Finset (Fin (2 ^ 32))) [DecidablePred fun t : Fin (k + 1) → Digest => ∀ j : Fin (8 * (k + 1)), j.1 < c → wordsOf t j ∉ W] :
    #{t : Fin (k + 1) → Digest | ∀ j : Fin (8 * (k + 1)), j.1 < c → wordsOf t j ∉ W} =
      (2 ^ 32 - #W) ^ c * (2 ^ 32) ^ (8 * (k + 1) - c) := by
  classical
  let S : Fin (8 * (k + 1)) → Finset (Fin (2 ^ 32)) := fun j => if j.1 < c then Wᶜ else univ
  have h1 : #{t : Fin (k + 1) → Digest | ∀ j : Fin (8 * (k + 1)), j.1 < c → wordsOf t j ∉ W} = #(Fintype.piFinset S) := by
    refine card_bij (fun t _ => wordsOf t) ?_ ?_ ?_
    · intro t ht
      simp only [mem_filter, mem_univ, true_and] at ht
      simp only [Fintype.mem_piFinset, S]
      intro j
      split_ifs with h
      · simpa using ht j h
      · exact mem_univ _
    · intro t _ t' _ h; exact (wordsOf_bijective k).1 h
    · intro f hf
      obtain ⟨t, rfl⟩ := (wordsOf_bijective k).2 f
      refine ⟨t, ?_, rfl⟩
      simp only [Fintype.mem_piFinset, S] at hf
      simp only [mem_filter, mem_univ, true_and]
      intro j hj
      have := hf j
      rw [if_pos hj] at this
      simpa using this
  rw [h1, Fintype.card_piFinset]
  have hS : ∀ j, #(S j) = if j.1 < c then 2 ^ 32 - #W else 2 ^ 32 := by
    intro j
    simp only [S]
    split_ifs
    · rw [card_compl, Fintype.card_fin]
    · rw [card_univ, Fintype.card_fin]
  have hf : #{j : Fin (8 * (k + 1)) | j.1 < c} = c := by
    rw [Fin.card_filter_val_lt]; omega
  rw [prod_congr rfl fun j _ => hS j, prod_ite, prod_const, prod_const, filter_not, card_sdiff_of_subset (filter_subset _ _), hf,
    card_univ, Fintype.card_fin]

/-! ### The stream of `get_pseudorandom_indices` -/

theorem hashOf_digest (H : Digest → Digest) (d : Digest) : hashOf H d.1 = (H d).1 := by
  rw [hashOf, dif_pos d.2]

theorem concat_succ (k : Nat) (ω : Digest × (Digest → Digest)) :
    concat (chain (k + 1) ω) = concat (chain k ω) ++ (ω.2^[k + 1] ω.1).1 := by
  unfold concat
  rw [List.ofFn_succ_last, List.flatten_append]
  simp [chain]

theorem concat_zero (ω : Digest × (Digest → Digest)) : concat (chain 0 ω) = ω.1.1 := by
  simp [concat, chain]

theorem concat_last (k : Nat) (ω : Digest × (Digest → Digest)) :
    (concat (chain k ω)).drop ((concat (chain k ω)).length - 32) = (ω.2^[k] ω.1).1 := by
  cases k with
  | zero => rw [concat_zero, ω.1.2]; rfl
  | succ k =>
    rw [concat_succ]
    have h1 := (ω.2^[k + 1] ω.1).2
    rw [List.length_append, h1, Nat.add_sub_cancel, List.drop_left]

theorem stream (ω : Digest × (Digest → Digest)) (c k : Nat) (hk : 4 * c ≤ 32 * (k + 1)) (hk2 : 32 * k < 4 * c) : ∀ (n i fuel : Nat), i + n = k → n < fuel →
    extendData (hashOf ω.2) (4 * (c : Int)) fuel (concat (chain i ω)) = .ok (concat (chain k ω)) := by
  intro n
  induction n with
  | zero =>
    intro i fuel hi hf
    obtain ⟨f, rfl⟩ : ∃ f, fuel = f + 1 := ⟨fuel - 1, by omega⟩
    have : i = k := by omega
    subst this
    rw [extendData, if_neg (by rw [concat_length]; push_cast; omega)]
  | succ n ih =>
    intro i fuel hi hf
    obtain ⟨f, rfl⟩ : ∃ f, fuel = f + 1 := ⟨fuel - 1, by omega⟩
    rw [extendData, if_pos (by rw [concat_length]; push_cast; omega), concat_last, hashOf_digest, ← Function.iterate_succ_apply' ω.2 i ω.1,
      ← concat_succ]
    exact ih (i + 1) f (by omega) (by omega)

theorem indices_plain (ω : Digest × (Digest → Digest)) (m : Int) (c : Nat) (hc : 0 < c) (hm : 0 < m) (hm2 : m < 2 ^ 24) :
    getPseudorandomIndices (hashOf ω.2) ω.1.1 m c 0 = .ok ((List.range c).map fun i => (word (concat (chain ((c - 1) / 8) ω)) i : Int) % m) := by
  have h1 := stream ω c ((c - 1) / 8) (by omega) (by omega) ((c - 1) / 8) 0 ((4 * (c : Int)).toNat + 1) (by omega) (by omega)
  rw [concat_zero] at h1
  simp only [getPseudorandomIndices, pyAssert, hm2, decide_true, if_true, h1, bind, Except.bind,
    drawWords_ok _ m hm, List.range_eq_range', Int.toNat_natCast]

theorem indices_excl (ω : Digest × (Digest → Digest)) (m e : Int) (c : Nat) (hc : 0 < c) (hm : 2 ≤ m) (hm2 : m < 2 ^ 24) (he : 2 ≤ e) :
    getPseudorandomIndices (hashOf ω.2) ω.1.1 m c e = .ok ((List.range c).map fun i =>
      let x := (word (concat (chain ((c - 1) / 8) ω)) i : Int) % (m * (e - 1) / e)
      x + 1 + x / (e - 1)) := by
  have h1 := stream ω c ((c - 1) / 8) (by omega) (by omega) ((c - 1) / 8) 0 ((4 * (c : Int)).toNat + 1) (by omega) (by omega)
  rw [concat_zero] at h1
  have hd : pyDivmod (m * (e - 1)) e = .ok (m * (e - 1) / e, (m * (e - 1)).fmod e) := by
    rw [pyDivmod, if_neg (by omega), Int.fdiv_eq_ediv_of_nonneg _ (by omega)]
  simp only [getPseudorandomIndices, pyAssert, hm2, decide_true, if_true, h1, bind, Except.bind, hd, Int.toNat_natCast,
    drawWords_ok _ _ (real_modulus_pos hm he), List.range_eq_range', if_neg (by omega : ¬ e = 0), spread_ok e he, List.map_map]
  rfl

/-! ### Probabilities -/

theorem fraction_eq {Ω : Type _} [Fintype Ω] (P : Ω → Prop) [DecidablePred P] : fraction P = (#{ω : Ω | P ω} : ℚ) / Fintype.card Ω := by
  rw [fraction, Nat.card_eq_fintype_card, Nat.card_eq_fintype_card, Fintype.card_subtype]

theorem fraction_le_one {Ω : Type _} [Fintype Ω] (P : Ω → Prop) : fraction P ≤ 1 := by
  classical
  rw [fraction_eq]
  refine div_le_one_of_le₀ ?_ (Nat.cast_nonneg _)
  exact_mod_cast (card_filter_le _ _).trans_eq card_univ

theorem fraction_mono {Ω : Type _} [Fintype Ω] {P Q : Ω → Prop} (h : ∀ ω, P ω → Q ω) : fraction P ≤ fraction Q := by
  classical
  rw [fraction_eq, fraction_eq]
  refine div_le_div_of_nonneg_right ?_ (Nat.cast_nonneg _)
  exact_mod_cast card_le_card fun ω hω => by simp only [mem_filter, mem_univ, true_and] at hω ⊢; exact h ω hω

theorem miss_le (c : Nat) (hc : 0 < c) (W : Finset (Fin (2 ^ 32))) (E : Digest × (Digest → Digest) → Prop)
    (hE : ∀ ω, E ω → ∀ j : Fin (8 * ((c - 1) / 8 + 1)), j.1 < c → wordsOf (chain ((c - 1) / 8) ω) j ∉ W) :
    fraction E ≤ (1 - (#W : ℚ) / 2 ^ 32) ^ c + (((c - 1) / 8 : ℕ) * (((c - 1) / 8 : ℕ) + 1) / 2 : ℚ) / 2 ^ 256 := by
  classical
  generalize hk : (c - 1) / 8 = k at *
  have hck : c ≤ 8 * (k + 1) := by omega
  have h0 : Fintype.card Digest = 2 ^ 256 := card_digest
  have hW : (#W : ℚ) ≤ 2 ^ 32 := by
    have : #W ≤ 2 ^ 32 := (card_le_univ W).trans_eq (Fintype.card_fin _)
    exact_mod_cast this
  have hnn : (0 : ℚ) ≤ (1 - (#W : ℚ) / 2 ^ 32) ^ c := by
    refine pow_nonneg ?_ c
    have : (#W : ℚ) / 2 ^ 32 ≤ 1 := div_le_one_of_le₀ hW (by positivity)
    linarith
  by_cases hkN : k ≤ 2 ^ 256
  · have key := chain_le (X := Digest) k (by rw [h0]; exact hkN) (by rw [h0]; positivity)
      (fun t => ∀ j : Fin (8 * (k + 1)), j.1 < c → wordsOf t j ∉ W)
    refine (fraction_mono hE).trans ?_
    rw [fraction_eq, Fintype.card_prod, Fintype.card_fun]
    have hWn : #W ≤ 2 ^ 32 := (card_le_univ W).trans_eq (Fintype.card_fin _)
    have hcast : (((2 ^ 32 - #W) ^ c * (2 ^ 32) ^ (8 * (k + 1) - c) : ℕ) : ℚ) = (2 ^ 32 - (#W : ℚ)) ^ c * (2 ^ 32) ^ (8 * (k + 1) - c) := by
      rw [Nat.cast_mul, Nat.cast_pow, Nat.cast_pow, Nat.cast_sub hWn, Nat.cast_pow, Nat.cast_ofNat]
    rw [card_miss k c hck W, hcast] at key
    rw [Nat.cast_mul, Nat.cast_pow]
    refine key.trans (add_le_add (le_of_eq ?_) (le_of_eq ?_))
    · have hp : (Fintype.card Digest : ℚ) = (2 ^ 32) ^ 8 := by rw [h0]; norm_num
      rw [hp]
      have hQ : (0 : ℚ) < 2 ^ 32 := by positivity
      generalize (2 : ℚ) ^ 32 = Q at hQ
      have e : (Q ^ 8) ^ (k + 1) = Q ^ c * Q ^ (8 * (k + 1) - c) := by
        rw [← pow_add, ← pow_mul, Nat.add_sub_cancel' hck]
      rw [e, mul_div_mul_right _ _ (by positivity), ← div_pow, sub_div, div_self hQ.ne']
    · rw [h0]; push_cast; rfl
  · have h1 := fraction_le_one E
    have hk2 : (2 : ℚ) ^ 256 ≤ k := by
      have : 2 ^ 256 ≤ k := Nat.le_of_not_le hkN
      exact_mod_cast this
    have h3 : (1 : ℚ) ≤ 2 ^ 256 := one_le_pow₀ (by norm_num)
    clear hkN h0
    generalize (2 : ℚ) ^ 256 = P at *
    have h2 : (1 : ℚ) ≤ (k * (k + 1) / 2 : ℚ) / P := by
      rw [le_div_iff₀ (by linarith)]
      nlinarith
    linarith

/-! ### How many words give a position -/

theorem card_words (R : Nat) (hR : 0 < R) (B : Finset Nat) (hB : ∀ b ∈ B, b < R) :
    #B * (2 ^ 32 / R) ≤ #{w : Fin (2 ^ 32) | w.1 % R ∈ B} := by
  classical
  rw [← card_range (2 ^ 32 / R), ← card_product]
  have hlt : ∀ x ∈ B ×ˢ range (2 ^ 32 / R), x.1 + R * x.2 < 2 ^ 32 := by
    intro x hx
    obtain ⟨h1, h2⟩ := mem_product.1 hx
    have h3 := hB _ h1
    have h4 := mem_range.1 h2
    calc x.1 + R * x.2 < R + R * x.2 := by omega
      _ = R * (x.2 + 1) := by ring
      _ ≤ R * (2 ^ 32 / R) := Nat.mul_le_mul_left _ (by omega)
      _ ≤ 2 ^ 32 := Nat.mul_div_le _ _
  refine card_le_card_of_injOn (fun x => Fin.ofNat (2 ^ 32) (x.1 + R * x.2)) ?_ ?_
  · intro x hx
    have h1 := hlt x hx
    have h2 := hB _ (mem_product.1 hx).1
    simp only [mem_univ, true_and, Fin.ofNat, Nat.mod_eq_of_lt h1, coe_filter, Set.mem_ofPred_eq]
    rw [Nat.add_mul_mod_self_left, Nat.mod_eq_of_lt h2]
    exact (mem_product.1 hx).1
  · intro x hx y hy h
    have h1 := hlt x hx
    have h2 := hlt y hy
    have hx1 := hB _ (mem_product.1 hx).1
    have hy1 := hB _ (mem_product.1 hy).1
    have h3 : x.1 + R * x.2 = y.1 + R * y.2 := by
      have := congrArg Fin.val h
      simpa only [Fin.ofNat, Nat.mod_eq_of_lt h1, Nat.mod_eq_of_lt h2] using this
    have h4 : x.1 = y.1 := by
      have := congrArg (· % R) h3
      simpa [Nat.add_mul_mod_self_left, Nat.mod_eq_of_lt hx1, Nat.mod_eq_of_lt hy1] using this
    have h5 : x.2 = y.2 := by
      rw [h4] at h3
      exact Nat.eq_of_mul_eq_mul_left hR (by omega)
    exact Prod.ext h4 h5

theorem below (W : Finset (Fin (2 ^ 32))) (n : Nat) (h : n ≤ #W) (c : Nat) :
    (1 - (#W : ℚ) / 2 ^ 32) ^ c ≤ (1 - (n : ℚ) / 2 ^ 32) ^ c := by
  have hW : (#W : ℚ) ≤ 2 ^ 32 := by
    have : #W ≤ 2 ^ 32 := (card_le_univ W).trans_eq (Fintype.card_fin _)
    exact_mod_cast this
  have hn : (n : ℚ) ≤ #W := by exact_mod_cast h
  have hQ : (0 : ℚ) < 2 ^ 32 := by positivity
  generalize (2 : ℚ) ^ 32 = Q at *
  refine pow_le_pow_left₀ ?_ ?_ c
  · have : (#W : ℚ) / Q ≤ 1 := div_le_one_of_le₀ hW hQ.le
    linarith
  · have := div_le_div_of_nonneg_right hn hQ.le
    linarith

theorem cast_modulus {m e : Nat} (he : 2 ≤ e) : (m : Int) * ((e : Int) - 1) / e = ((m * (e - 1) / e : ℕ) : Int) := by
  push_cast [Nat.cast_sub (by omega : 1 ≤ e)]; rfl

theorem preimages (m e : Nat) (he : 2 ≤ e) (hem : e ∣ m) (B : Finset Nat) (hB : ∀ b ∈ B, b < m ∧ ¬ e ∣ b) :
    ∃ f : Nat → Nat, ∀ b ∈ B, f b < m * (e - 1) / e ∧ (f b : Int) + 1 + (f b : Int) / ((e : Int) - 1) = b := by
  have : ∀ b, ∃ x : Nat, b ∈ B → x < m * (e - 1) / e ∧ (x : Int) + 1 + (x : Int) / ((e : Int) - 1) = b := by
    intro b
    by_cases hb : b ∈ B
    · obtain ⟨h1, h2⟩ := hB b hb
      obtain ⟨x, ⟨⟨hx0, hx1⟩, hx2⟩, -⟩ := index_onto (m := m) (e := e) (j := b) (by omega) (by exact_mod_cast hem) (by omega) (by omega)
        (by exact_mod_cast h2)
      rw [cast_modulus he] at hx1
      obtain ⟨n, rfl⟩ := Int.eq_ofNat_of_zero_le hx0
      exact ⟨n, fun _ => ⟨by exact_mod_cast hx1, hx2⟩⟩
    · exact ⟨0, fun h => absurd h hb⟩
  choose f hf using this
  exact ⟨f, hf⟩

end Verif.Sampling
