import Verif.Proofs.SmoothFriSound
import Verif.Spec.Proximity
import Mathlib.LinearAlgebra.Lagrange
/-! # Folding a vector over a multiplicative subgroup brings it no nearer to low degree, for all but three challenges -/

namespace Verif.SmoothFri
open Verif.Poly Polynomial

variable {K : Type} [Field K] [DecidableEq K]

/-- The polynomial with the four interpolated pieces has low degree. -/
theorem unfold_degree (S : Finset K) (hS : S.card = 4) (Q : K → K[X]) (d : Nat) (hQ : ∀ t ∈ S, (Q t).degree < d) :
    (∑ t ∈ S, Lagrange.basis S id t * (Q t).comp (X ^ 4)).degree < (4 * d : Nat) := by
  rcases Nat.eq_zero_or_pos d with rfl | hd
  · rw [Finset.sum_eq_zero]
    · simp
    · intro t ht
      have h := hQ t ht
      simp only [Nat.cast_zero, ← not_le, Polynomial.zero_le_degree_iff, not_not] at h
      rw [h]
      simp
  · refine lt_of_le_of_lt (Polynomial.degree_sum_le _ _) ((Finset.sup_lt_iff (by simp; exact WithBot.bot_lt_coe _)).2 fun t ht => ?_)
    have h1 : (Lagrange.basis S id t).natDegree ≤ 3 := by
      rw [Polynomial.natDegree_le_iff_degree_le, Lagrange.degree_basis (Function.injective_id.injOn) ht, hS]
    have h2 : (Q t).natDegree ≤ d - 1 := by
      have h := hQ t ht
      by_cases h0 : Q t = 0
      · rw [h0]; simp
      · rw [Polynomial.degree_eq_natDegree h0] at h
        have : (Q t).natDegree < d := by exact_mod_cast h
        omega
    have h3 : ((Q t).comp (X ^ 4)).natDegree ≤ (d - 1) * 4 := by
      rw [Polynomial.natDegree_comp, Polynomial.natDegree_X_pow]
      exact Nat.mul_le_mul_right 4 h2
    have h4 : (Lagrange.basis S id t * (Q t).comp (X ^ 4)).natDegree < 4 * d := by
      have := Polynomial.natDegree_mul_le (p := Lagrange.basis S id t) (q := (Q t).comp (X ^ 4))
      omega
    exact lt_of_le_of_lt Polynomial.degree_le_natDegree (by exact_mod_cast h4)

/-- Four folds of the same values give them back. -/
theorem unfold_eval (S : Finset K) (hS : S.card = 4) (Q : K → K[X]) (y z : K) (hz : y ^ 4 = z) (C : K[X]) (hC : C.degree < 4)
    (h : ∀ t ∈ S, (Q t).eval z = C.eval t) : (∑ t ∈ S, Lagrange.basis S id t * (Q t).comp (X ^ 4)).eval y = C.eval y := by
  have hi : C = Lagrange.interpolate S id (fun t => C.eval t) :=
    Lagrange.eq_interpolate (Function.injective_id.injOn) (by rw [hS]; exact hC)
  rw [hi, Polynomial.eval_finsetSum, Lagrange.interpolate_apply, Polynomial.eval_finsetSum]
  refine Finset.sum_congr rfl fun t ht => ?_
  simp only [Polynomial.eval_mul, Polynomial.eval_comp, Polynomial.eval_pow, Polynomial.eval_X, Polynomial.eval_C, hz, h t ht]
  ring

theorem count_le_sum {ι : Type _} (S : Finset ι) (q : Nat) (R : Nat → Prop) (A : ι → Nat → Prop) (h : ∀ y < q, R y → ∃ x ∈ S, A x y) :
    count q R ≤ ∑ x ∈ S, count q (A x) := by
  classical
  unfold count
  refine le_trans (Finset.card_le_card (t := S.biUnion fun x => (Finset.range q).filter (A x)) fun y hy => ?_) ?_
  · rw [Finset.mem_filter, Finset.mem_range] at hy
    obtain ⟨x, hx, hA⟩ := h y hy.1 hy.2
    exact Finset.mem_biUnion.2 ⟨x, hx, by simp [hy.1, hA]⟩
  · refine le_trans Finset.card_biUnion_le (Finset.sum_le_sum fun x _ => le_of_eq ?_)
    congr

theorem count_or (q : Nat) (R R' : Nat → Prop) : count q (fun y => R y ∨ R' y) ≤ count q R + count q R' := by
  classical
  unfold count
  refine le_trans (Finset.card_le_card (t := (Finset.range q).filter R ∪ (Finset.range q).filter R') fun y hy => ?_) ?_
  · replace hy := (@Finset.mem_filter _ _ (_) _ _).1 hy
    simp only [Finset.mem_union, Finset.mem_filter, hy.1, true_and]
    exact hy.2
  · refine le_trans (Finset.card_union_le _ _) (le_of_eq ?_)
    congr

theorem round (w : K) (q : Nat) (hw : orderOf w = 4 * q) (U : List K) (d t : Nat)
    (hfar : ∀ P : K[X], P.degree < (4 * d : Nat) →
      4 * t < count q (OffFibre w q U P)) :
    ∃ B : Finset K, B.card ≤ 3 ∧ ∀ x ∉ B, ∀ (V : List K) (Q : K[X]), Q.degree < (d : Nat) →
      t < count q (OffAt (w ^ 4) V Q) +
        count q (fun y => ¬ FoldedAt w q U V x y) := by
  let bad : Set K := {x | ∃ (V : List K) (Q : K[X]), Q.degree < (d : Nat) ∧
    count q (OffAt (w ^ 4) V Q) +
        count q (fun y => ¬ FoldedAt w q U V x y) ≤ t}
  have key : ∀ S : Finset K, ↑S ⊆ bad → S.card ≠ 4 := by
    intro S hSb hS
    have hch : ∀ x : K, ∃ (V : List K) (Q : K[X]), x ∈ S → Q.degree < (d : Nat) ∧
        count q (OffAt (w ^ 4) V Q) +
        count q (fun y => ¬ FoldedAt w q U V x y) ≤ t := by
      intro x
      by_cases hx : x ∈ S
      · obtain ⟨V, Q, h⟩ := hSb hx
        exact ⟨V, Q, fun _ => h⟩
      · exact ⟨[], 0, fun h => absurd h hx⟩
    choose V Q hVQ using hch
    have h1 := hfar _ (unfold_degree S hS Q d fun x hx => (hVQ x hx).1)
    refine absurd h1 (not_lt.2 ?_)
    refine le_trans (count_le_sum S q _ (fun x y => OffAt (w ^ 4) (V x) (Q x) y ∨ ¬ FoldedAt w q U (V x) x y) ?_) (le_trans
      (Finset.sum_le_sum fun x hx => (count_or q _ _).trans (hVQ x hx).2) (by rw [Finset.sum_const, hS, smul_eq_mul]))
    rintro y hyq' ⟨j, hj, hne⟩
    by_contra hn
    simp only [not_exists, not_and, not_or, not_not, OffAt] at hn
    obtain ⟨x0, hx0⟩ : S.Nonempty := Finset.card_pos.1 (by omega)
    obtain ⟨C, hC, hCU, -⟩ := (hn x0 hx0).2
    refine hne ?_
    rw [hCU j hj, unfold_eval S hS Q (w ^ (y + q * j)) ((w ^ 4) ^ y) ?_ C hC]
    · intro x hx
      obtain ⟨e1, D, hD, hDU, hDV⟩ := hn x hx
      have hCD : C = D := by
        apply Polynomial.eq_of_degrees_lt_of_eval_finset_eq ((Finset.range 4).image fun j => w ^ (y + q * j))
        · rw [Finset.card_image_of_injOn, Finset.card_range]
          · exact hC
          · intro a ha b hb hab
            have ha := Finset.mem_range.1 ha
            have hb := Finset.mem_range.1 hb
            have := Stark.pow_inj_of_order hw _ _ (by nlinarith) (by nlinarith) hab
            have h0 : 0 < q := by omega
            exact Nat.eq_of_mul_eq_mul_left h0 (by omega)
        · rw [Finset.card_image_of_injOn, Finset.card_range]
          · exact hD
          · intro a ha b hb hab
            have ha := Finset.mem_range.1 ha
            have hb := Finset.mem_range.1 hb
            have := Stark.pow_inj_of_order hw _ _ (by nlinarith) (by nlinarith) hab
            have h0 : 0 < q := by omega
            exact Nat.eq_of_mul_eq_mul_left h0 (by omega)
        · intro z hz
          obtain ⟨i, hi, rfl⟩ := Finset.mem_image.1 hz
          have h2 := hCU i (Finset.mem_range.1 hi)
          rw [hDU i (Finset.mem_range.1 hi)] at h2
          exact (Option.some.inj h2).symm
      rw [e1] at hDV
      rw [Option.some.inj hDV, hCD]
    · have h4 : w ^ (4 * q) = 1 := by rw [← hw, pow_orderOf_eq_one]
      rw [← pow_mul, ← pow_mul, show (y + q * j) * 4 = 4 * y + 4 * q * j by ring, pow_add, pow_mul w (4 * q) j, h4, one_pow, mul_one]
  have hfin : bad.Finite := by
    by_contra hinf
    obtain ⟨S, hS, hc⟩ := Set.Infinite.exists_subset_card_eq hinf 4
    exact key S hS hc
  refine ⟨hfin.toFinset, ?_, fun x hx V Q hQ => ?_⟩
  · by_contra hlt
    obtain ⟨S, hS, hc⟩ := Finset.exists_subset_card_eq (show 4 ≤ hfin.toFinset.card by omega)
    exact key S (fun x hx => by simpa using hS hx) hc
  · by_contra hle
    exact hx (by rw [Set.Finite.mem_toFinset]; exact ⟨V, Q, hQ, not_lt.1 hle⟩)

omit [DecidableEq K] in
theorem count_points (w : K) (q : Nat) (V : List K) (P : K[X]) : count (4 * q) (OffAt w V P) ≤ 4 * count q (OffFibre w q V P) := by
  classical
  unfold count
  calc _ ≤ ((Finset.range 4).biUnion fun j => ((Finset.range q).filter (OffFibre w q V P)).image fun y => y + q * j).card :=
        Finset.card_le_card fun z hz => ?_
    _ ≤ ∑ j ∈ Finset.range 4, (((Finset.range q).filter (OffFibre w q V P)).image fun y => y + q * j).card := Finset.card_biUnion_le
    _ ≤ ∑ _j ∈ Finset.range 4, ((Finset.range q).filter (OffFibre w q V P)).card := Finset.sum_le_sum fun j _ => Finset.card_image_le
    _ = _ := by
      rw [Finset.sum_const, Finset.card_range, smul_eq_mul]
  obtain ⟨h1, h2⟩ := (@Finset.mem_filter _ _ (_) _ _).1 hz
  have h1 := Finset.mem_range.1 h1
  have hq : 0 < q := by omega
  have hj : z / q < 4 := (Nat.div_lt_iff_lt_mul hq).2 h1
  have hz : z % q + q * (z / q) = z := Nat.mod_add_div z q
  refine Finset.mem_biUnion.2 ⟨z / q, Finset.mem_range.2 hj, Finset.mem_image.2 ⟨z % q, ?_, hz⟩⟩
  refine (@Finset.mem_filter _ _ (_) _ _).2 ⟨Finset.mem_range.2 (Nat.mod_lt _ hq), z / q, hj, ?_⟩
  rw [hz]
  exact h2

/-- All layers together. -/
theorem chain (w : K) (Q m : Nat) (hw : orderOf w = Q * 4 ^ m) (d c s : Nat) (t : Nat → Nat)
    (ht : ∀ i, i + 1 < m → 16 * t (i + 1) + c ≤ t i) (htm : s + c ≤ t (m - 1)) (hm : 0 < m) :
    ∃ B : Nat → List K → Finset K, (∀ i V, (B i V).card ≤ 3) ∧ ∀ (U : Nat → List K) (x : Nat → K),
      (∀ i < m, x i ∉ B i (U i)) →
      (∀ P : K[X], P.degree < (d * 4 ^ m : Nat) → 4 * t 0 < count (Q * 4 ^ (m - 1)) (OffFibre w (Q * 4 ^ (m - 1)) (U 0) P)) →
      (∃ P : K[X], P.degree < (d : Nat) ∧ count Q (OffAt (w ^ 4 ^ m) (U m) P) ≤ s) →
      ∃ i < m, c < count (Q * 4 ^ (m - 1 - i)) fun y => ¬ FoldedAt (w ^ 4 ^ i) (Q * 4 ^ (m - 1 - i)) (U i) (U (i + 1)) (x i) y := by
  classical
  let far : Nat → List K → Prop := fun i V => ∀ P : K[X], P.degree < (4 * (d * 4 ^ (m - 1 - i)) : Nat) →
    4 * t i < count (Q * 4 ^ (m - 1 - i)) (OffFibre (w ^ 4 ^ i) (Q * 4 ^ (m - 1 - i)) V P)
  have hord : ∀ i < m, orderOf (w ^ 4 ^ i) = 4 * (Q * 4 ^ (m - 1 - i)) := by
    intro i hi
    have e : Q * 4 ^ m = 4 * (Q * 4 ^ (m - 1 - i)) * 4 ^ i := by
      conv_lhs => rw [show m = 1 + (m - 1 - i) + i by omega, pow_add, pow_add]
      ring
    rw [orderOf_pow_of_dvd (by positivity) (by rw [hw, e]; exact dvd_mul_left _ _), hw, e, Nat.mul_div_cancel _ (by positivity)]
  have hB : ∀ (i : Nat) (V : List K), ∃ B : Finset K, B.card ≤ 3 ∧ (i < m → far i V → ∀ x ∉ B, ∀ (V' : List K) (R : K[X]),
      R.degree < (d * 4 ^ (m - 1 - i) : Nat) → t i < count (Q * 4 ^ (m - 1 - i)) (OffAt ((w ^ 4 ^ i) ^ 4) V' R) +
        count (Q * 4 ^ (m - 1 - i)) (fun y => ¬ FoldedAt (w ^ 4 ^ i) (Q * 4 ^ (m - 1 - i)) V V' x y)) := by
    intro i V
    by_cases h : i < m ∧ far i V
    · obtain ⟨B, h1, h2⟩ := round (w ^ 4 ^ i) (Q * 4 ^ (m - 1 - i)) (hord i h.1) V (d * 4 ^ (m - 1 - i)) (t i) h.2
      exact ⟨B, h1, fun _ _ => h2⟩
    · exact ⟨∅, by simp, fun h1 h2 => absurd ⟨h1, h2⟩ h⟩
  choose B hB1 hB2 using hB
  refine ⟨B, hB1, fun U x hx hfar hlow => ?_⟩
  by_contra hcon
  simp only [not_exists, not_and, not_lt] at hcon
  have hstep : ∀ i < m, far i (U i) → ∀ R : K[X], R.degree < (d * 4 ^ (m - 1 - i) : Nat) →
      t i < count (Q * 4 ^ (m - 1 - i)) (OffAt (w ^ 4 ^ (i + 1)) (U (i + 1)) R) + c := by
    intro i hi hf R hR
    have h1 := hB2 i (U i) hi hf (x i) (hx i hi) (U (i + 1)) R hR
    rw [← pow_mul, ← pow_succ] at h1
    exact lt_of_lt_of_le h1 (Nat.add_le_add_left (hcon i hi) _)
  have hall : ∀ i, i < m → far i (U i) := by
    intro i
    induction i with
    | zero =>
      intro _ P hP
      have e : 4 * (d * 4 ^ (m - 1 - 0)) = d * 4 ^ m := by
        conv_rhs => rw [show m = (m - 1 - 0) + 1 by omega, pow_succ]
        ring
      rw [e] at hP
      have := hfar P hP
      simpa using this
    | succ i ih =>
      intro hi P hP
      have e : m - 1 - i = (m - 1 - (i + 1)) + 1 := by omega
      have h1 := hstep i (by omega) (ih (by omega)) P (by rw [e, pow_succ, mul_comm (4 ^ _) 4, mul_left_comm]; exact hP)
      rw [show Q * 4 ^ (m - 1 - i) = 4 * (Q * 4 ^ (m - 1 - (i + 1))) by rw [e, pow_succ]; ring] at h1
      have h2 := count_points (w ^ 4 ^ (i + 1)) (Q * 4 ^ (m - 1 - (i + 1))) (U (i + 1)) P
      have h3 := ht i hi
      omega
  obtain ⟨P, hP, hs⟩ := hlow
  have h1 := hstep (m - 1) (by omega) (hall _ (by omega)) P (by simpa using hP)
  rw [show m - 1 - (m - 1) = 0 by omega, show m - 1 + 1 = m by omega, pow_zero, mul_one] at h1
  omega

end Verif.SmoothFri
