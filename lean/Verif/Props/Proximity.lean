import Verif.Proofs.SmoothFriFold
import Verif.Props.SmoothFri
/-!
# C128: how far folding can bring a vector to low degree, and what an accepted proof means for the committed vector

`FoldedAt w q U V x y`: at the position `y` the vector `V` is the fold of `U` with the challenge `x`.  `OffFibre w q U P y`: at one of the four points
of `y` the value of `U` is not that of the polynomial `P`.  `OffAt w V Q y`: at `y` the value of `V` is not that of `Q`.  `count q R`: the number of
`y < q` with `R y`.  All four are in `Spec/Proximity`.
-/

namespace Verif.Props
open Verif.Poly Verif.SmoothFri Verif.Compression Verif.Stark
open Polynomial

variable {p : Nat} [Fact p.Prime]

/-- **C128**, one round. Let `U` have `4 q` values, and let every polynomial of degree below `4 d` be wrong in more than `4 t` of its `q` fibres.  Then
for all challenges `x` but three, whatever vector `V` is sent: for every polynomial `Q` of degree below `d`, the positions at which `V` is not `Q` and
those at which `V` is not the fold of `U` are more than `t` together. -/
theorem C128_round (w : Zp p) (q : Nat) (hw : HasOrder w (4 * q)) (U : List (Zp p)) (d t : Nat)
    (hfar : ∀ P : (Zp p)[X], P.degree < (4 * d : Nat) → 4 * t < count q (OffFibre w q U P)) :
    ∃ B : Finset (Zp p), B.card ≤ 3 ∧ ∀ x ∉ B, ∀ (V : List (Zp p)) (Q : (Zp p)[X]), Q.degree < (d : Nat) →
      t < count q (OffAt (w ^ 4) V Q) + count q (fun y => ¬ FoldedAt w q U V x y) :=
  round w q hw.eq U d t hfar

/-- **C128**, what an accepted proof means. Fix the parameters, the number `m` of layers, a number `c` and thresholds `t 0, …, t (m-1)`.  For every layer and every
vector there is a set of at most three challenges (`B`) with the following property.  Let a proof be accepted, with the side conditions of
`C128_acceptance_partial`.  Then one of these holds:
* two different strings with the same hash are among those hashed for the proof and the vectors (`HashedFor`);
* a polynomial of degree below `d` is right in all but `4 * t 0` fibres of the committed vector `U 0`;
* the challenge of some layer `i` is one of the three that belong to `U i`;
* in some layer `i`, more than `c` of the positions are wrong, and all `F` positions drawn from the root of `U (i + 1)` are right.

Missing: that the last two cases are improbable.  For the last one that is false (`C128_order_refuted`): the positions depend on the root of `U (i + 1)`
alone, so a prover can choose `U i` after them.  (`C128_positions` counts the draws, for a prover that chooses `U i` before.)  And without the side
conditions the verifier accepts everything (`C128_soundness_refuted`). -/
theorem C128_soundness_partial (hp : p ≤ 2 ^ 256) (blake : Bytes → Bytes) (hbl : ∀ x, (blake x).length = 32) (w : Zp p) (k : Nat)
    (hk2 : k < 26) (hw : HasOrder w (2 ^ k)) (d e F m : Nat) (he : e = 0 ∨ 2 ≤ e) (hm : 0 < m) (hk : 2 * m + 2 ≤ k) (c : Nat) (t : Nat → Nat)
    (ht : ∀ i, i + 1 < m → 16 * t (i + 1) + c ≤ t i)
    (htm : count (2 ^ (k - 2 * m)) (fun x => e ≠ 0 ∧ e ∣ x) + c ≤ t (m - 1)) (fuel : Nat) (hfuel : 2 ^ k ≤ fuel) :
    ∃ B : Nat → List (Zp p) → Finset (Zp p), (∀ i V, (B i V).card ≤ 3) ∧
      ∀ (root : Bytes) (items : List Item) (last : List Bytes) (U : Nat → List (Zp p)), items.length = m →
      (∀ i ≤ m, (U i).length = 2 ^ (k - 2 * i)) → IsRootOf blake root (U 0) →
      (∀ (i : Nat) (it : Item), items[i]? = some it → IsRootOf blake it.1 (U (i + 1))) →
      (∀ (i : Nat) (it : Item), items[i]? = some it → ∀ opened ∈ it.2, ∀ (j : Nat) (br : List Bytes), opened[j]? = some br →
        br.length = (if j = 0 then k - 2 * i - 2 else k - 2 * i) + 1 ∧ ∀ b, br.head? = some b → b.length = 32) →
      last.length = 2 ^ (k - 2 * m) → (∀ b ∈ last, b.length = 32) →
      verify fuel blake (items, last) root w d e F = .ok true →
      (∃ a b, HashedFor blake items last U a ∧ HashedFor blake items last U b ∧ a ≠ b ∧ blake a = blake b) ∨
      (∃ P : (Zp p)[X], P.degree < (d : Nat) ∧ count (2 ^ (k - 2)) (OffFibre w (2 ^ (k - 2)) (U 0) P) ≤ 4 * t 0) ∨
      ∃ (i : Nat) (it : Item) (x : Zp p), items[i]? = some it ∧ x = dec (if i = 0 then root else (items.getD (i - 1) it).1) ∧
        (x ∈ B i (U i) ∨
          c < count (2 ^ (k - 2 * (i + 1))) (fun y => ¬ FoldedAt (w ^ 4 ^ i) (2 ^ (k - 2 * (i + 1))) (U i) (U (i + 1)) x y) ∧
          ∃ ys, ys.length = F ∧ Utils.getPseudorandomIndices blake it.1 (2 ^ (k - 2 * (i + 1)) : Nat) F e = .ok ys ∧
            ∀ y ∈ ys, FoldedAt (w ^ 4 ^ i) (2 ^ (k - 2 * (i + 1))) (U i) (U (i + 1)) x y.toNat) := by
  have hpow : ∀ i ≤ m, 2 ^ (k - 2 * m) * 4 ^ (m - i) = 2 ^ (k - 2 * i) := by
    intro i hi
    rw [show (4 : Nat) = 2 ^ 2 from rfl, ← pow_mul, ← pow_add]
    congr 1
    omega
  have hpow' : ∀ i < m, 2 ^ (k - 2 * m) * 4 ^ (m - 1 - i) = 2 ^ (k - 2 * (i + 1)) := by
    intro i hi
    rw [← hpow (i + 1) hi, show m - (i + 1) = m - 1 - i by omega]
  obtain ⟨B, hB1, hB2⟩ := chain w (2 ^ (k - 2 * m)) m (by rw [hw.eq]; simpa using (hpow 0 (by omega)).symm) (d / 4 ^ m) c
    (count (2 ^ (k - 2 * m)) (fun x => e ≠ 0 ∧ e ∣ x)) t ht htm hm
  refine ⟨B, hB1, fun root items last U hlen hU h0 hi hshape hlast hlast32 hv => ?_⟩
  rcases C128_acceptance_partial hp blake hbl w k hk2 hw d e F he root items last (by omega) U (by rw [hlen]; exact hU) h0 hi hshape
    (by rw [hlen]; exact hlast) hlast32 fuel hfuel hv with hcol | ⟨⟨-, P, hP, hPU⟩, hlay⟩
  · exact .inl hcol
  right
  rw [or_iff_not_imp_left]
  intro hnear
  simp only [not_exists, not_and, not_le] at hnear
  rw [hlen] at hP hPU
  have hget : ∀ i < m, ∃ it, items[i]? = some it := fun i h => ⟨_, List.getElem?_eq_getElem (by omega)⟩
  let x : Nat → Zp p := fun i => dec (if i = 0 then root else (items.getD (i - 1) ([], [])).1)
  have hxi : ∀ (i : Nat) (it : Item), items[i]? = some it → x i = dec (if i = 0 then root else (items.getD (i - 1) it).1) := by
    intro i it h
    have := (List.getElem?_eq_some_iff.1 h).1
    show dec _ = dec _
    by_cases h0 : i = 0
    · rw [if_pos h0, if_pos h0]
    · rw [if_neg h0, if_neg h0, List.getD_eq_getElem?_getD, List.getD_eq_getElem?_getD, List.getElem?_eq_getElem (by omega)]
      rfl
  by_cases hbad : ∃ i < m, x i ∈ B i (U i)
  · obtain ⟨i, him, hx⟩ := hbad
    obtain ⟨it, hit⟩ := hget i him
    exact ⟨i, it, x i, hit, hxi i it hit, .inl hx⟩
  simp only [not_exists, not_and] at hbad
  obtain ⟨i, him, hc⟩ := hB2 U x hbad (fun P' hP' => by
      have h2 := hpow' 0 hm
      rw [Nat.sub_zero] at h2
      rw [h2]
      exact hnear P' (lt_of_lt_of_le hP' (by exact_mod_cast Nat.div_mul_le_self d (4 ^ m))))
    ⟨P, hP, by
      unfold count
      refine Finset.card_le_card fun y hy => ?_
      obtain ⟨h1, h2⟩ := (@Finset.mem_filter _ _ (_) _ _).1 hy
      refine (@Finset.mem_filter _ _ (_) _ _).2 ⟨h1, ?_⟩
      by_contra h3
      refine h2 (hPU y (Finset.mem_range.1 h1) ?_)
      by_cases h4 : e = 0
      · exact .inl h4
      · exact .inr fun h5 => h3 ⟨h4, h5⟩⟩
  rw [hpow' i him] at hc
  obtain ⟨it, hit⟩ := hget i him
  obtain ⟨ys, y1, y2, y3⟩ := hlay i it hit
  refine ⟨i, it, x i, hit, hxi i it hit, .inr ⟨hc, ys, y1, y2, fun y hy => ?_⟩⟩
  rw [hxi i it hit]
  exact y3 y hy

/-- **C128**, the draws of the last case: of the `q^F` ways to draw `F` positions, `(q - c)^F` avoid a given set of `c` wrong ones. -/
theorem C128_positions (q F : Nat) (R : Nat → Prop) :
    Nat.card {ys : Fin F → Fin q // ∀ i, ¬ R (ys i)} = (q - count q R) ^ F := by
  classical
  have h1 : Nat.card {y : Fin q // ¬ R y} = q - count q R := by
    rw [Nat.card_eq_fintype_card, Fintype.card_subtype_compl, Fintype.card_fin, Fintype.card_subtype]
    congr 1
    unfold count
    refine Finset.card_bij (fun y _ => (y : Nat)) (fun y hy => ?_) (fun a _ b _ h => Fin.ext h) (fun y hy => ?_)
    · exact (@Finset.mem_filter _ _ (_) _ _).2 ⟨Finset.mem_range.2 y.2, (Finset.mem_filter.1 hy).2⟩
    · obtain ⟨h1, h2⟩ := (@Finset.mem_filter _ _ (_) _ _).1 hy
      exact ⟨⟨y, Finset.mem_range.1 h1⟩, by simp [h2], rfl⟩
  rw [Nat.card_congr (Equiv.subtypePiEquivPi (p := fun (_ : Fin F) (y : Fin q) => ¬ R y)), Nat.card_fun, h1, Nat.card_fin]

/-! ### A vector far from low degree: the inverses of the 32 powers of 28 modulo 97 -/

attribute [local instance] fact97

/-- The inverses of the powers of 28. -/
def inverses : List (Zp 97) := (List.range 32).map fun i => (28 : Zp 97) ^ (32 - i)

theorem inverses_far (P : (Zp 97)[X]) (hP : P.degree < 4) : 7 ≤ count 8 (OffFibre 28 8 inverses P) := by
  classical
  have hpts := count_points (28 : Zp 97) 8 inverses P
  have hdeg : (X * P - 1 : (Zp 97)[X]).natDegree ≤ 4 := by
    refine (natDegree_sub_le _ _).trans (max_le ?_ (by simp))
    have h1 : P.natDegree < 4 := by
      by_cases h0 : P = 0
      · rw [h0]; simp
      · rw [degree_eq_natDegree h0] at hP
        exact_mod_cast hP
    refine natDegree_mul_le.trans ?_
    rw [natDegree_X]
    omega
  have hne : (X * P - 1 : (Zp 97)[X]) ≠ 0 := by
    intro h
    have := congrArg (fun f => f.eval 0) h
    simp at this
  have hagree : ((Finset.range 32).filter fun y => ¬ OffAt (28 : Zp 97) inverses P y).card ≤ 4 := by
    rw [← Finset.card_image_of_injOn (f := fun y => (28 : Zp 97) ^ y)]
    · refine le_trans (Finset.card_le_card (t := (X * P - 1 : (Zp 97)[X]).roots.toFinset) fun z hz => ?_)
        (le_trans (Multiset.toFinset_card_le _) ((card_roots' _).trans hdeg))
      obtain ⟨y, hy, rfl⟩ := Finset.mem_image.1 hz
      obtain ⟨h1, h2⟩ := Finset.mem_filter.1 hy
      have h1 := Finset.mem_range.1 h1
      simp only [OffAt, not_not, inverses, List.getElem?_map, List.getElem?_range h1, Option.map_some, Option.some.injEq] at h2
      rw [Multiset.mem_toFinset, mem_roots hne, IsRoot.def, eval_sub, eval_mul, eval_X, eval_one, ← h2, ← pow_add,
        show y + (32 - y) = 2 ^ 5 by omega, order_28.2.1, sub_self]
    · intro a ha b hb hab
      have ha := Finset.mem_range.1 (Finset.mem_filter.1 ha).1
      have hb := Finset.mem_range.1 (Finset.mem_filter.1 hb).1
      exact pow_inj_of_order order_28.eq a b (by omega) (by omega) hab
  have hsum : count 32 (OffAt (28 : Zp 97) inverses P) + ((Finset.range 32).filter fun y => ¬ OffAt (28 : Zp 97) inverses P y).card = 32 := by
    have := Finset.card_filter_add_card_filter_not (s := Finset.range 32) (OffAt (28 : Zp 97) inverses P)
    rw [Finset.card_range] at this
    rw [← this]
    unfold count
    congr
  have e : 4 * 8 = 32 := rfl
  rw [e] at hpts
  omega

/-- This meets the hypotheses of `C128_round`, with `t = 1` and `d = 1`. -/
example : HasOrder (28 : Zp 97) (4 * 8) ∧ ∀ P : (Zp 97)[X], P.degree < (4 * 1 : Nat) → 4 * 1 < count 8 (OffFibre 28 8 inverses P) :=
  ⟨order_28, fun P hP => lt_of_lt_of_le (by norm_num) (inverses_far P (by simpa using hP))⟩

/-- The thresholds for two layers, no excluded positions and `c = 3`. This meets the hypotheses of `C128_soundness_partial`, whose conditions on the proof
are those of `C128_acceptance_partial`. -/
example : HasOrder (9 : Zp 257) (2 ^ 7) ∧ 2 * 2 + 2 ≤ 7 ∧ (∀ i, i + 1 < 2 → 16 * (fun i => if i = 0 then 51 else 3) (i + 1) + 3 ≤ (fun i => if i = 0 then 51 else 3) i) ∧
    count (2 ^ (7 - 2 * 2)) (fun x => 0 ≠ 0 ∧ 0 ∣ x) + 3 ≤ (fun i => if i = 0 then 51 else 3) (2 - 1) := by
  refine ⟨order_9, by norm_num, fun i hi => ?_, ?_⟩
  · have : i = 0 := by omega
    subst this
    norm_num
  · simp [count]

end Verif.Props
