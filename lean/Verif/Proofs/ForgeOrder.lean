import Verif.Proofs.SmoothFriSound
/-!
# `SmoothSubgroupFRI`: vectors that fold into each other at the drawn positions have an accepted proof

The converse of `layers_sound`.
-/

namespace Verif.SmoothFri
open Verif.Poly Verif.PolyUtils Verif.Stark Verif.Compression Verif.FFT
open Polynomial

variable {p : Nat} [hp : Fact p.Prime]

/-- Every value of a committed vector has an opening of the right shape. -/
theorem open_of (hp2 : p ≤ 2 ^ 256) (blake : Bytes → Bytes) {root : Bytes} {k : Nat} {V : List (Zp p)} (hk : 2 ≤ k) (hV : CommitsTo blake root k V)
    (x : Nat) (a : Zp p) (hx : V[x]? = some a) :
    ∃ br leaf, Merkle.verifyBranch blake root x br = .ok leaf ∧ dec leaf = a ∧ br.length = k + 1 ∧ ∀ b, br.head? = some b → b.length = 32 := by
  obtain ⟨hl, m, m1, m2⟩ := hV
  obtain ⟨tree, root', br, b, h1, h2, -, h4, h5, h6⟩ := Merkle.merkle_complete blake (V.map fun a => .elt (enc a)) (V.map encB) k hk (by simpa using hl)
    (by
      simp only [List.map_map]
      apply List.map_congr_left
      intro a _
      simpa [Merkle.Leaf.encode] using enc_eq hp2 a) x (by simpa using (List.getElem?_eq_some_iff.1 hx).1)
  rw [m1] at h1
  cases h1
  rw [m2] at h2
  cases h2
  rw [List.getElem?_map, hx, Option.map_some, Option.some.injEq] at h5
  subst h5
  refine ⟨br, _, h6, dec_encB hp2 a, h4, fun b hb => ?_⟩
  rw [branch_head h6, Option.some.injEq] at hb
  subst hb
  exact encB_length a

/-- A layer that is accepted, for two committed vectors that fold at the drawn positions. -/
theorem layer_of (hp2 : p ≤ 2 ^ 256) (blake : Bytes → Bytes) (hbl : ∀ x, (blake x).length = 32) (w : Zp p) (k : Nat) (hk : 2 ≤ k) (hk24 : k < 24)
    (hw : orderOf w = 4 * 2 ^ k) (e : Nat) (he : e = 0 ∨ 2 ≤ e) (F : Nat) {root root2 : Bytes} {V C : List (Zp p)}
    (hV : CommitsTo blake root (k + 2) V) (hC : CommitsTo blake root2 k C)
    (hfold : ∀ ys, Utils.getPseudorandomIndices blake root2 (2 ^ k : Nat) F e = .ok ys → ∀ y ∈ ys, FoldsAt w (2 ^ k) V (dec root) C y.toNat) :
    ∃ it : Item, it.1 = root2 ∧ Shaped (k + 2) it ∧
      verifyLayer blake ((List.range 4).map fun j => w ^ (2 ^ k * j)) root w (4 * 2 ^ k) e F it = .ok () := by
  have h2k : 2 ≤ 2 ^ k := by
    calc 2 = 2 ^ 1 := rfl
      _ ≤ _ := Nat.pow_le_pow_right (by omega) (by omega)
  have h24 : 2 ^ k < 2 ^ 24 := Nat.pow_lt_pow_right (by omega) hk24
  obtain ⟨ys, y1, y2, y3⟩ := indices_ok blake hbl root2 (2 ^ k) e F h2k h24 he
  have key : ∀ y : Int, ∃ opened : List (List Bytes), y ∈ ys → QueryHolds blake root root2 w (2 ^ k) y.toNat opened ∧
      ∀ (j : Nat) (br : List Bytes), opened[j]? = some br → br.length = (if j = 0 then k + 2 - 2 else k + 2) + 1 ∧
        ∀ b, br.head? = some b → b.length = 32 := by
    intro y
    by_cases hy : y ∈ ys
    swap
    · exact ⟨[], fun h => absurd h hy⟩
    obtain ⟨P, p1, p2, p3⟩ := hfold ys y1 y hy
    obtain ⟨b0, l0, a1, a2, a3, a4⟩ := open_of hp2 blake hk hC _ _ p3
    have hrow : ∀ j, ∃ br, j < 4 → ∃ leaf, Merkle.verifyBranch blake root (y.toNat + 2 ^ k * j) br = .ok leaf ∧
        dec leaf = P.eval (w ^ (y.toNat + 2 ^ k * j)) ∧ br.length = k + 2 + 1 ∧ ∀ b, br.head? = some b → b.length = 32 := by
      intro j
      by_cases hj : j < 4
      · obtain ⟨br, leaf, h⟩ := open_of hp2 blake (by omega) hV _ _ (p2 j hj)
        exact ⟨br, fun _ => ⟨leaf, h⟩⟩
      · exact ⟨[], fun h => absurd h hj⟩
    choose br hbr using hrow
    refine ⟨b0 :: (List.range 4).map br, fun _ => ⟨⟨P, p1, fun j hj => ?_, b0, l0, rfl, a1, a2.symm⟩, ?_⟩⟩
    · obtain ⟨leaf, c1, c2, -⟩ := hbr j hj
      refine ⟨br j, leaf, ?_, c1, c2.symm⟩
      rw [List.getElem?_cons_succ, List.getElem?_map, List.getElem?_range hj]
      rfl
    · intro j b hb
      cases j with
      | zero => cases hb; exact ⟨by simpa using a3, a4⟩
      | succ j =>
        rw [List.getElem?_cons_succ, List.getElem?_map] at hb
        by_cases hj : j < 4
        · rw [List.getElem?_range hj] at hb
          cases hb
          obtain ⟨leaf, -, -, c3, c4⟩ := hbr j hj
          exact ⟨by simpa using c3, c4⟩
        · rw [List.getElem?_eq_none (by simpa using hj)] at hb
          cases hb
  choose opened hop using key
  refine ⟨(root2, ys.map opened), rfl, ?_, (layer_iff blake hbl w (2 ^ k) h2k h24 hw root _ rfl e he F _).2 ⟨ys, y1, fun i y hi => ?_⟩⟩
  · intro o ho
    obtain ⟨y, hy, rfl⟩ := List.mem_map.1 ho
    exact (hop y hy).2
  · exact ⟨opened y, by simp [hi], (hop y (List.mem_of_getElem? hi)).1⟩

/-- Layers that are accepted, for committed vectors that fold into each other at the drawn positions. -/
theorem layers_of (hp2 : p ≤ 2 ^ 256) (blake : Bytes → Bytes) (hbl : ∀ x, (blake x).length = 32) (e : Nat) (he : e = 0 ∨ 2 ≤ e) (F : Nat) :
    ∀ (m : Nat) (w : Zp p) (d k : Nat) (R : Nat → Bytes) (U : Nat → List (Zp p)), 2 * m + 2 ≤ k → k < 26 → orderOf w = 2 ^ k →
    (∀ i ≤ m, CommitsTo blake (R i) (k - 2 * i) (U i)) →
    (∀ i < m, ∀ ys, Utils.getPseudorandomIndices blake (R (i + 1)) (2 ^ (k - 2 * (i + 1)) : Nat) F e = .ok ys →
      ∀ y ∈ ys, FoldsAt (w ^ 4 ^ i) (2 ^ (k - 2 * (i + 1))) (U i) (dec (R i)) (U (i + 1)) y.toNat) →
    ∃ items : List Item, items.length = m ∧ (∀ (i : Nat) (it : Item), items[i]? = some it → it.1 = R (i + 1) ∧ Shaped (k - 2 * i) it) ∧
      verifyLayers blake ((List.range 4).map fun j => w ^ (2 ^ k / 4 * j)) e F items (R 0) w d (2 ^ k) = .ok (R m, w ^ 4 ^ m, d / 4 ^ m) := by
  intro m
  induction m with
  | zero =>
    intro w d k R U _ _ _ _ _
    exact ⟨[], rfl, by simp, by simp [verifyLayers]⟩
  | succ m ih =>
    intro w d k R U hk hk26 hw hR hf
    obtain ⟨k0, rfl⟩ : ∃ k0, k = k0 + 2 := ⟨k - 2, by omega⟩
    have h4 : 2 ^ (k0 + 2) = 4 * 2 ^ k0 := by rw [pow_add]; ring
    rw [h4] at hw
    obtain ⟨it, i1, i2, i3⟩ := layer_of hp2 blake hbl w k0 (by omega) (by omega) hw e he F (by simpa using hR 0 (by omega))
      (by simpa using hR 1 (by omega)) (by simpa using hf 0 (by omega))
    obtain ⟨items, j1, j2, j3⟩ := ih (w ^ 4) (d / 4) k0 (fun i => R (i + 1)) (fun i => U (i + 1)) (by omega) (by omega) (order_four hw)
      (fun i hi => by
        have := hR (i + 1) (by omega)
        rwa [show k0 + 2 - 2 * (i + 1) = k0 - 2 * i by omega] at this)
      (fun i hi => by
        have := hf (i + 1) (by omega)
        rwa [show k0 + 2 - 2 * (i + 1 + 1) = k0 - 2 * (i + 1) by omega, show w ^ 4 ^ (i + 1) = (w ^ 4) ^ 4 ^ i by rw [← pow_mul]; ring_nf] at this)
    refine ⟨it :: items, by simp [j1], fun i it' hi => ?_, ?_⟩
    · cases i with
      | zero => cases hi; exact ⟨i1, by simpa using i2⟩
      | succ i =>
        have := j2 i it' (by simpa using hi)
        rwa [show k0 + 2 - 2 * (i + 1) = k0 - 2 * i by omega]
    · have hqr : (List.range 4).map (fun j => w ^ (2 ^ k0 * j)) = (List.range 4).map (fun j => (w ^ 4) ^ (2 ^ k0 / 4 * j)) := by
        apply List.map_congr_left
        intro j _
        obtain ⟨k1, rfl⟩ : ∃ k1, k0 = k1 + 2 := ⟨k0 - 2, by omega⟩
        have e4 : 2 ^ (k1 + 2) = 4 * 2 ^ k1 := by rw [pow_add]; ring
        rw [e4, Nat.mul_div_cancel_left _ (by norm_num), ← pow_mul, mul_assoc]
      rw [verifyLayers, h4, Nat.mul_div_cancel_left _ (by norm_num)]
      refine bind_to i3 ?_
      rw [hqr, i1]
      refine j3.trans ?_
      rw [← pow_mul, show 4 * 4 ^ m = 4 ^ (m + 1) by ring, Nat.div_div_eq_div_mul, show 4 * 4 ^ m = 4 ^ (m + 1) by ring]

/-- A proof of the right shape that is accepted, for committed vectors that fold into each other at the drawn positions and the last of which is
of low degree. -/
theorem accept_of (hp2 : p ≤ 2 ^ 256) (blake : Bytes → Bytes) (hbl : ∀ x, (blake x).length = 32) (e : Nat) (he : e = 0 ∨ 2 ≤ e) (F : Nat)
    (m : Nat) (w : Zp p) (d k : Nat) (R : Nat → Bytes) (U : Nat → List (Zp p)) (hk : 2 * m + 2 ≤ k) (hk26 : k < 26) (hw : orderOf w = 2 ^ k)
    (hR : ∀ i ≤ m, CommitsTo blake (R i) (k - 2 * i) (U i))
    (hf : ∀ i < m, ∀ ys, Utils.getPseudorandomIndices blake (R (i + 1)) (2 ^ (k - 2 * (i + 1)) : Nat) F e = .ok ys →
      ∀ y ∈ ys, FoldsAt (w ^ 4 ^ i) (2 ^ (k - 2 * (i + 1))) (U i) (dec (R i)) (U (i + 1)) y.toNat)
    (hd : d / 4 ^ m ≤ 16) (P : (Zp p)[X]) (hP : P.degree < (d / 4 ^ m : Nat))
    (hlow : ∀ x < 2 ^ (k - 2 * m), e = 0 ∨ ¬ e ∣ x → (U m)[x]? = some (P.eval ((w ^ 4 ^ m) ^ x))) :
    ∃ items : List Item, items.length = m ∧ (∀ (i : Nat) (it : Item), items[i]? = some it → it.1 = R (i + 1) ∧ Shaped (k - 2 * i) it) ∧
      ∀ fuel ≥ 2 ^ k, verify fuel blake (items, (U m).map encB) (R 0) w d e F = .ok true := by
  obtain ⟨items, j1, j2, j3⟩ := layers_of hp2 blake hbl e he F m w d k R U hk hk26 hw hR hf
  refine ⟨items, j1, j2, fun fuel hfuel => verify_of blake fuel w k (by omega) hw hfuel items _ _ _ _ d _ e F j3 ?_⟩
  have hpow : 2 ^ k = 2 ^ (k - 2 * m) * 4 ^ m := by
    rw [show (4 : Nat) = 2 ^ 2 from rfl, ← pow_mul, ← pow_add]
    congr 1
    omega
  have hord : orderOf (w ^ 4 ^ m) = 2 ^ (k - 2 * m) := by
    rw [orderOf_pow_of_dvd (by positivity) (by rw [hw, hpow]; exact dvd_mul_left _ _), hw, hpow, Nat.mul_div_cancel _ (by positivity)]
  have hle : 2 ^ (k - 2 * m) ≤ 2 ^ k := Nat.pow_le_pow_right (by omega) (by omega)
  obtain ⟨hl, tree, t1, t2⟩ := hR m le_rfl
  rw [last_iff blake fuel _ _ (2 ^ (k - 2 * m)) (by positivity) hord (by omega)]
  have hlen : ((U m).map encB).length = 2 ^ (k - 2 * m) := by simpa using hl
  refine ⟨hd, ⟨tree, ?_, t2⟩, fun x hx => by have := pts_lt hx; omega, P, hP, fun x hx b hb => ?_⟩
  · rw [← t1]
    apply merkelize_congr
    rw [List.map_map, List.map_map, List.map_map]
    apply List.map_congr_left
    intro a _
    simp only [Function.comp_apply]
    rw [int_leaf _ (encB_length a)]
    simpa [Merkle.Leaf.encode] using (enc_eq hp2 a).symm
  · rw [List.getElem?_map] at hb
    have hx' := pts_lt hx
    have he' : e = 0 ∨ ¬ e ∣ x := by
      by_cases h0 : e = 0
      · exact .inl h0
      · right
        simp only [pts, if_pos h0, List.mem_filter] at hx
        intro hdvd
        have := hx.2
        simp [Nat.mod_eq_zero_of_dvd hdvd] at this
    rw [hlow x (by omega) he', Option.map_some, Option.some.injEq] at hb
    rw [← hb, dec_encB hp2]

end Verif.SmoothFri
