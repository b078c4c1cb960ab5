import Verif.Proofs.ForgeOrder
import Verif.Props.Proximity
import Verif.Props.GeneratedProofs
/-!
# C128: proofs of the right shape

The positions at which a layer is checked are drawn from the root of the folded vector alone, and the challenge from the root of the vector that
is folded alone.  So a prover may choose the folded vector first, look at the positions, and then choose the vector that is to be folded.
-/

namespace Verif.Props
open Verif.Poly Verif.Stark Verif.Compression Verif.SmoothFri
open Polynomial

variable {p : Nat} [Fact p.Prime]

/-- A proof has the shape of one the prover makes about a vector of `2^k` values: its roots are those of the vectors `U 1`, `U 2`, …, each a quarter as
long as the one before; the branches have the lengths of paths in their trees, with leaves of 32 bytes; and the last component
has an entry of 32 bytes for each value of the last vector. -/
structure WellFormed (blake : Bytes → Bytes) (k : Nat) (root : Bytes) (items : List Item) (last : List Bytes) (U : Nat → List (Zp p)) : Prop where
  layers : 0 < items.length ∧ 2 * items.length + 2 ≤ k
  sizes : ∀ i ≤ items.length, (U i).length = 2 ^ (k - 2 * i)
  first : IsRootOf blake root (U 0)
  roots : ∀ (i : Nat) (it : Item), items[i]? = some it → IsRootOf blake it.1 (U (i + 1))
  branches : ∀ (i : Nat) (it : Item), items[i]? = some it → ∀ opened ∈ it.2, ∀ (j : Nat) (br : List Bytes), opened[j]? = some br →
    br.length = (if j = 0 then k - 2 * i - 2 else k - 2 * i) + 1 ∧ ∀ b, br.head? = some b → b.length = 32
  last_length : last.length = 2 ^ (k - 2 * items.length)
  last_bytes : ∀ b ∈ last, b.length = 32

/-- **C128**, the converse of `C128_acceptance_partial`: vectors that fold into each other at the drawn positions, the last of which is of low degree,
have a proof of the right shape, which is accepted. -/
theorem C128_converse (hp : p ≤ 2 ^ 256) (blake : Bytes → Bytes) (hbl : ∀ x, (blake x).length = 32) (w : Zp p) (k : Nat)
    (hk2 : k < 26) (hw : HasOrder w (2 ^ k)) (d e F m : Nat) (he : e = 0 ∨ 2 ≤ e) (hm : 0 < m) (hk : 2 * m + 2 ≤ k) (R : Nat → Bytes)
    (U : Nat → List (Zp p)) (hU : ∀ i ≤ m, (U i).length = 2 ^ (k - 2 * i)) (hR : ∀ i ≤ m, IsRootOf blake (R i) (U i))
    (hfold : ∀ i < m, ∀ ys, Utils.getPseudorandomIndices blake (R (i + 1)) (2 ^ (k - 2 * (i + 1)) : Nat) F e = .ok ys →
      ∀ y ∈ ys, FoldedAt (w ^ 4 ^ i) (2 ^ (k - 2 * (i + 1))) (U i) (U (i + 1)) (dec (R i)) y.toNat)
    (hd : d / 4 ^ m ≤ 16) (P : (Zp p)[X]) (hP : P.degree < (d / 4 ^ m : Nat))
    (hlow : ∀ x < 2 ^ (k - 2 * m), e = 0 ∨ ¬ e ∣ x → (U m)[x]? = some (P.eval ((w ^ 4 ^ m) ^ x))) :
    ∃ items last, items.length = m ∧ WellFormed blake k (R 0) items last U ∧
      ∀ fuel ≥ 2 ^ k, verify fuel blake (items, last) (R 0) w d e F = .ok true := by
  obtain ⟨items, h1, h2, h3⟩ := accept_of hp blake hbl e he F m w d k R U hk hk2 hw.eq (fun i hi => ⟨hU i hi, hR i hi⟩) hfold hd P hP hlow
  refine ⟨items, (U m).map encB, h1, ⟨by omega, by rw [h1]; exact hU, hR 0 (by omega), fun i it hi => ?_, fun i it hi => (h2 i it hi).2, ?_, ?_⟩, h3⟩
  · rw [(h2 i it hi).1]
    exact hR (i + 1) (by have := (List.getElem?_eq_some_iff.1 hi).1; omega)
  · rw [List.length_map, h1]
    exact hU m le_rfl
  · intro b hb
    obtain ⟨a, -, rfl⟩ := List.mem_map.1 hb
    exact encB_length a

/-- **C128** fails for proofs of the right shape as well. There are `F` positions, known in advance, such that every vector that is zero in their
fibres, whatever its other values, has a proof of the right shape, with any number `m` of layers that brings the degree bound down to 16, and the
verifier accepts it.  (The later vectors are zero.) -/
theorem C128_order_refuted (hp : p ≤ 2 ^ 256) (blake : Bytes → Bytes) (hbl : ∀ x, (blake x).length = 32) (w : Zp p) (k : Nat)
    (hk2 : k < 26) (hw : HasOrder w (2 ^ k)) (d e F m : Nat) (he : e = 0 ∨ 2 ≤ e) (hm : 0 < m) (hk : 2 * m + 2 ≤ k) (hd : d / 4 ^ m ≤ 16) :
    ∃ ys : List Nat, ys.length = F ∧ (∀ y ∈ ys, y < 2 ^ (k - 2)) ∧ ∀ V : List (Zp p), V.length = 2 ^ k →
      (∀ y ∈ ys, ∀ j < 4, V[y + 2 ^ (k - 2) * j]? = some 0) → ∀ root, IsRootOf blake root V →
      ∃ items last U, items.length = m ∧ U 0 = V ∧ WellFormed blake k root items last U ∧
        ∀ fuel ≥ 2 ^ k, verify fuel blake (items, last) root w d e F = .ok true := by
  have hroot : ∀ i, ∃ r, 2 ≤ k - 2 * i → IsRootOf blake r (List.replicate (2 ^ (k - 2 * i)) (0 : Zp p)) := by
    intro i
    by_cases h : 2 ≤ k - 2 * i
    · obtain ⟨tree, r, h1, h2, -⟩ := tree_of hp blake (List.replicate (2 ^ (k - 2 * i)) (0 : Zp p)) (k - 2 * i) h (by simp)
      exact ⟨r, fun _ => ⟨tree, h1, h2⟩⟩
    · exact ⟨[], fun h' => absurd h' h⟩
  choose R hR using hroot
  have h2k : ∀ i, 2 ≤ k - 2 * i → 2 ≤ 2 ^ (k - 2 * i) := fun i h => by
    calc 2 = 2 ^ 1 := rfl
      _ ≤ _ := Nat.pow_le_pow_right (by omega) (by omega)
  have h24 : ∀ i, 1 ≤ i → 2 ^ (k - 2 * i) < 2 ^ 24 := fun i h => Nat.pow_lt_pow_right (by omega) (by omega)
  obtain ⟨ys, y1, y2, y3⟩ := indices_ok blake hbl (R 1) (2 ^ (k - 2 * 1)) e F (h2k 1 (by omega)) (h24 1 le_rfl) he
  refine ⟨ys.map Int.toNat, by simpa using y2, fun y hy => ?_, fun V hV hz root hr => ?_⟩
  · obtain ⟨z, hz, rfl⟩ := List.mem_map.1 hy
    simpa using (y3 z hz).2
  have hzero : ∀ n x : Nat, x < n → (List.replicate n (0 : Zp p))[x]? = some ((0 : (Zp p)[X]).eval 0) := fun n x h => by simp [h]
  obtain ⟨items, last, h1, h2, h3⟩ := C128_converse hp blake hbl w k hk2 hw d e F m he hm hk (fun i => if i = 0 then root else R i)
    (fun i => if i = 0 then V else List.replicate (2 ^ (k - 2 * i)) 0)
    (fun i hi => by
      by_cases h : i = 0
      · simpa [h] using hV
      · simp [h])
    (fun i hi => by
      by_cases h : i = 0
      · simpa [h] using hr
      · simpa [h] using hR i (by omega))
    (fun i hi zs hzs y hy => by
      refine ⟨0, by rw [degree_zero]; exact WithBot.bot_lt_coe 4, fun j hj => ?_, ?_⟩
      · by_cases h : i = 0
        · subst h
          simp only [zero_add, one_ne_zero, if_false] at hzs
          rw [y1] at hzs
          cases hzs
          simpa using hz y.toNat (List.mem_map_of_mem hy) j hj
        · simp only [Nat.add_eq_zero_iff, one_ne_zero, and_false, if_false] at hzs
          obtain ⟨o, o1, -, o3⟩ := indices_ok blake hbl (R (i + 1)) (2 ^ (k - 2 * (i + 1))) e F (h2k _ (by omega)) (h24 _ (by omega)) he
          rw [o1] at hzs
          cases hzs
          have := (o3 y hy).2
          have h4 : 2 ^ (k - 2 * i) = 2 ^ (k - 2 * (i + 1)) * 4 := by
            rw [show k - 2 * i = k - 2 * (i + 1) + 2 by omega, pow_add]
            rfl
          have h5 : 2 ^ (k - 2 * (i + 1)) * j ≤ 2 ^ (k - 2 * (i + 1)) * 3 := Nat.mul_le_mul_left _ (by omega)
          simp only [if_neg h, eval_zero]
          rw [List.getElem?_replicate, if_pos (by omega)]
      · simp only [Nat.add_eq_zero_iff, one_ne_zero, and_false, if_false] at hzs ⊢
        obtain ⟨o, o1, -, o3⟩ := indices_ok blake hbl (R (i + 1)) (2 ^ (k - 2 * (i + 1))) e F (h2k _ (by omega)) (h24 _ (by omega)) he
        rw [o1] at hzs
        cases hzs
        rw [List.getElem?_replicate, if_pos (o3 y hy).2, eval_zero])
    hd 0 (by simp) (fun x hx _ => by
      simp only [if_neg hm.ne', eval_zero]
      rw [List.getElem?_replicate, if_pos hx])
  exact ⟨items, last, _, h1, rfl, by simpa using h2, by simpa using h3⟩

/-- **C128** fails for proofs of the right shape, the distance: with a bound of at most half the number of points, such a vector exists that agrees with no
polynomial of degree below the bound at more than half of the points and `4 F` more. -/
theorem C128_distance_refuted (hp : p ≤ 2 ^ 256) (blake : Bytes → Bytes) (hbl : ∀ x, (blake x).length = 32) (w : Zp p) (k : Nat)
    (hk2 : k < 26) (hw : HasOrder w (2 ^ k)) (d e F m : Nat) (hdk : d ≤ 2 ^ (k - 1)) (he : e = 0 ∨ 2 ≤ e) (hm : 0 < m) (hk : 2 * m + 2 ≤ k)
    (hd : d / 4 ^ m ≤ 16) :
    ∃ V : List (Zp p), V.length = 2 ^ k ∧
      (∀ P : (Zp p)[X], P.degree < d → count (2 ^ k) (fun i => V[i]? = some (P.eval (w ^ i))) ≤ 2 ^ (k - 1) + 4 * F) ∧
      ∀ root, IsRootOf blake root V → ∃ items last U, items.length = m ∧ U 0 = V ∧ WellFormed blake k root items last U ∧
        ∀ fuel ≥ 2 ^ k, verify fuel blake (items, last) root w d e F = .ok true := by
  classical
  obtain ⟨ys, y1, y2, y3⟩ := C128_order_refuted hp blake hbl w k hk2 hw d e F m he hm hk hd
  have h4 : 2 ^ k = 2 ^ (k - 2) * 4 := by
    conv_lhs => rw [show k = k - 2 + 2 by omega, pow_add]
    rfl
  have hval : ∀ i < 2 ^ k, ((List.range (2 ^ k)).map fun i => if i % 2 ^ (k - 2) ∈ ys then 0 else (w ^ i) ^ 2 ^ (k - 1) : List (Zp p))[i]? =
      some (if i % 2 ^ (k - 2) ∈ ys then 0 else (w ^ i) ^ 2 ^ (k - 1)) := fun i hi => by
    rw [List.getElem?_map, List.getElem?_range hi]
    rfl
  refine ⟨(List.range (2 ^ k)).map fun i => if i % 2 ^ (k - 2) ∈ ys then 0 else (w ^ i) ^ 2 ^ (k - 1), by simp, fun P hP => ?_,
    y3 _ (by simp) fun y hy j hj => ?_⟩
  · have hfar := C128_far w k hw P (lt_of_lt_of_le hP (by exact_mod_cast hdk))
    have hys : ((Finset.range (2 ^ k)).filter fun i => i % 2 ^ (k - 2) ∈ ys).card ≤ 4 * F := by
      have : ((Finset.range (2 ^ k)).filter fun i => i % 2 ^ (k - 2) ∈ ys) ⊆
          (ys.toFinset ×ˢ Finset.range 4).image fun a => a.1 + 2 ^ (k - 2) * a.2 := by
        intro i hi
        obtain ⟨hi, h⟩ := Finset.mem_filter.1 hi
        rw [Finset.mem_range, h4] at hi
        refine Finset.mem_image.2 ⟨(i % 2 ^ (k - 2), i / 2 ^ (k - 2)), Finset.mem_product.2 ⟨List.mem_toFinset.2 h, Finset.mem_range.2 ?_⟩,
          Nat.mod_add_div _ _⟩
        exact Nat.div_lt_of_lt_mul hi
      refine (Finset.card_le_card this).trans (Finset.card_image_le.trans ?_)
      rw [Finset.card_product, Finset.card_range]
      have := List.toFinset_card_le ys
      omega
    refine le_trans ?_ (Nat.add_le_add hfar hys)
    refine le_trans (Finset.card_le_card ?_) (Finset.card_union_le _ _)
    intro i hi
    obtain ⟨hi, h⟩ := (@Finset.mem_filter _ _ (_) _ _).1 hi
    rw [hval i (Finset.mem_range.1 hi), Option.some.injEq] at h
    by_cases hy : i % 2 ^ (k - 2) ∈ ys
    · exact Finset.mem_union_right _ (Finset.mem_filter.2 ⟨hi, hy⟩)
    · rw [if_neg hy] at h
      refine Finset.mem_union_left _ (Finset.mem_filter.2 ⟨hi, ?_⟩)
      rw [eval_pow, eval_X]
      exact h
  · have hy' := y2 y hy
    have h3 : 2 ^ (k - 2) * j ≤ 2 ^ (k - 2) * 3 := Nat.mul_le_mul_left _ (by omega)
    rw [hval _ (by omega), Nat.add_mul_mod_self_left, Nat.mod_eq_of_lt hy', if_pos hy]

/-! ## Instances -/

/-- Constant vectors of 32 and of 8 values, modulo 97: they fold into each other whatever the challenge. This meets the hypotheses of `C128_converse`. -/
example : HasOrder (28 : Zp 97) (2 ^ 5) ∧ 2 * 1 + 2 ≤ 5 ∧ 20 / 4 ^ 1 ≤ 16 ∧ (C 5 : (Zp 97)[X]).degree < (20 / 4 ^ 1 : Nat) ∧
    (∃ R : Nat → Bytes, ∀ i ≤ 1, IsRootOf sqHash (R i) (List.replicate (2 ^ (5 - 2 * i)) (5 : Zp 97))) ∧
    (∀ x, ∀ y < 8, FoldedAt (28 ^ 4 ^ 0 : Zp 97) (2 ^ (5 - 2 * (0 + 1))) (List.replicate (2 ^ (5 - 2 * 0)) 5) (List.replicate (2 ^ (5 - 2 * (0 + 1))) 5) x y) ∧
    ∀ x < 2 ^ (5 - 2 * 1), (List.replicate (2 ^ (5 - 2 * 1)) (5 : Zp 97))[x]? = some ((C 5 : (Zp 97)[X]).eval ((28 ^ 4 ^ 1) ^ x)) := by
  have hroot : ∀ i, ∃ r, i ≤ 1 → IsRootOf sqHash r (List.replicate (2 ^ (5 - 2 * i)) (5 : Zp 97)) := by
    intro i
    by_cases h : i ≤ 1
    · obtain ⟨tree, r, h1, h2, -⟩ := tree_of (by norm_num) sqHash (List.replicate (2 ^ (5 - 2 * i)) (5 : Zp 97)) (5 - 2 * i) (by omega) (by simp)
      exact ⟨r, fun _ => ⟨tree, h1, h2⟩⟩
    · exact ⟨[], fun h' => absurd h' h⟩
  choose R hR using hroot
  refine ⟨order_28, by norm_num, by norm_num, ?_, ⟨R, hR⟩, fun x y hy => ⟨C 5, ?_, fun j hj => ?_, ?_⟩, fun x hx => ?_⟩
  · exact degree_C_le.trans_lt (by norm_num)
  · exact degree_C_le.trans_lt (by norm_num)
  · rw [List.getElem?_replicate, if_pos (by norm_num; omega), eval_C]
  · rw [List.getElem?_replicate, if_pos (by norm_num; omega), eval_C]
  · rw [List.getElem?_replicate, if_pos hx, eval_C]

attribute [local instance] fact786433 in
/-- 1024 points modulo 786433, degree bound 256, 40 spot checks and three layers, as in a proof the prover makes: a vector that agrees with no polynomial of
degree below 256 at more than 672 points is accepted. This meets the hypotheses of `C128_order_refuted`, `C128_distance_refuted`. -/
example : ∃ V : List (Zp 786433), V.length = 1024 ∧
    (∀ P : (Zp 786433)[X], P.degree < (256 : Nat) → count 1024 (fun i => V[i]? = some (P.eval (368266 ^ i))) ≤ 672) ∧
    ∀ root, IsRootOf sqHash root V → ∃ items last U, items.length = 3 ∧ U 0 = V ∧ WellFormed sqHash 10 root items last U ∧
      ∀ fuel ≥ 1024, verify fuel sqHash (items, last) root (368266 : Zp 786433) 256 4 40 = .ok true := by
  have h : orderOf (368266 : Zp 786433) = 2 ^ 10 := by
    have : Fact (Nat.Prime 2) := ⟨Nat.prime_two⟩
    apply orderOf_eq_prime_pow
    · rw [pow_two_pow]; decide +kernel
    · rw [pow_two_pow]; decide +kernel
  exact C128_distance_refuted (by norm_num) sqHash sqHash_length (368266 : Zp 786433) 10 (by norm_num)
    ⟨by norm_num, by rw [← h, pow_orderOf_eq_one], fun j h1 h2 => pow_ne_one_of_lt_orderOf (by omega) (by rw [h]; exact h2)⟩ 256 4 40 3 (by norm_num)
    (.inr (by norm_num)) (by norm_num) (by norm_num) (by norm_num)

end Verif.Props
