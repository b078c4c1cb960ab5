import Verif.Spec.SpotChecks
import Verif.Proofs.StarkProtocol
import Verif.Proofs.Sampling
/-!
# Spot checks of committed polynomials
-/

set_option linter.unusedSectionVars false

namespace Verif.Stark
open Poly PolyUtils Air Props
open scoped Polynomial
open Polynomial (C X)
open Mv (Dict toMv)

section
variable {p : Nat} [Fact p.Prime] {φ : Type}

/-- The check at `pos` passes if the leaves hold the values of `P`, `D`, `B`. -/
structure PassesAt (S : Params (Zp p)) (W : List (List (Zp p))) (boundary : List (Nat × Nat × Zp p)) (P D B : List (List (Zp p)))
    (pos : Nat) : Prop where
  notLast : S.G2 ^ pos ≠ S.last
  transition : ∃ v, IsStep S.n S.width S.polys (P.map fun q => (toPoly q).eval (S.G2 ^ pos)) v ∧ ∀ (d : Nat) (Pd Dd : List (Zp p)),
    P[d]? = some Pd → D[d]? = some Dd → ∃ vd, v[d]? = some vd ∧ (toPoly Pd).eval (S.G2 ^ ((pos + S.ext) % S.precision)) =
      vd + ((S.G2 ^ pos) ^ S.steps - 1) / (S.G2 ^ pos - S.last) * (toPoly Dd).eval (S.G2 ^ pos)
  ends : ∀ (d : Nat) (Pd Bd : List (Zp p)), P[d]? = some Pd → B[d]? = some Bd → ∃ i j inp col out, boundary[d]? = some (i, j, inp) ∧
    W[d]? = some col ∧ col.getLast? = some out ∧ ∃ I : (Zp p)[X], I.degree ≤ 1 ∧ I.eval 1 = inp ∧ I.eval S.last = out ∧
      (toPoly Pd).eval (S.G2 ^ pos) = I.eval (S.G2 ^ pos) + (S.G2 ^ pos - 1) * (S.G2 ^ pos - S.last) * (toPoly Bd).eval (S.G2 ^ pos)

theorem executes_of_passes (S : Params (Zp p)) (hs : 2 ≤ S.steps) (he : 1 ≤ S.ext)
    (hG2 : HasOrder S.G2 (S.steps * S.ext)) (hG1 : S.G1 = S.G2 ^ S.ext) (hlast : S.last = S.G1 ^ (S.steps - 1)) (hn : S.n = S.width)
    (hw : ∀ f ∈ S.polys, Mv.WF S.width f) (hpl : S.width ≤ S.polys.length) (m : Nat)
    (hm : ∀ f ∈ S.polys, (toMv S.width f).totalDegree ≤ m)
    (W : List (List (Zp p))) (boundary : List (Nat × Nat × Zp p))
    (P D B : List (List (Zp p))) (hP : P.length = S.width) (hD : D.length = S.width) (hB : B.length = S.width) (k k' k'' : Nat)
    (hPk : ∀ q ∈ P, q.length ≤ k) (hDk : ∀ q ∈ D, q.length ≤ k') (hBk : ∀ q ∈ B, q.length ≤ k'')
    (T : Finset Nat) (hT : ∀ pos ∈ T, pos < S.steps * S.ext) (hk1 : max 1 m * (k - 1) < T.card) (hk2 : S.steps - 1 + k' ≤ T.card)
    (hk3 : k'' + 2 ≤ T.card) (hk4 : k ≤ T.card) (hacc : ∀ pos ∈ T, PassesAt S W boundary P D B pos) : Executes S W boundary P := by
  have h0 : 0 < S.steps * S.ext := Nat.mul_pos (by omega) (by omega)
  have hg1 : orderOf S.G1 = S.steps := by
    rw [hG1, orderOf_pow' _ (by omega), hG2.eq, Nat.gcd_eq_right (Nat.dvd_mul_left _ _), Nat.mul_div_cancel _ (by omega)]
  have hl1 : S.last ≠ 1 := by
    rw [hlast]
    intro h
    have := Nat.le_of_dvd (by omega) (orderOf_dvd_of_pow_eq_one h)
    omega
  have hcard : (T.image fun pos => S.G2 ^ pos).card = T.card := by
    apply Finset.card_image_of_injOn
    intro x hx y hy h
    exact pow_inj_of_order hG2.eq x y (hT x hx) (hT y hy) h
  have hTne : T.Nonempty := by
    rw [← Finset.card_pos]; omega
  have hzx : ∀ x : Zp p, x ≠ S.last → (zprod S.G1 (S.steps - 1)).eval x = (x ^ S.steps - 1) / (x - S.last) := by
    intro x hx
    rw [eq_div_iff (sub_ne_zero.2 hx)]
    have h5 := zprod_full (by omega) hg1
    have h6 : zprod S.G1 S.steps = zprod S.G1 (S.steps - 1) * (X - C S.last) := by
      conv_lhs => rw [show S.steps = S.steps - 1 + 1 by omega]
      rw [zprod, Finset.prod_range_succ, hlast]
      rfl
    rw [h6] at h5
    have := congrArg (Polynomial.eval x) h5
    simpa using this
  constructor
  · have key : ∀ d, d < S.width → zprod S.G1 (S.steps - 1) ∣ cpoly S.width S.G1 P (S.polys.getD d []) (P.getD d []) := by
      intro d hd
      have hdP : d < P.length := by omega
      have hdD : d < D.length := by omega
      have hdB : d < B.length := by omega
      have hdp : d < S.polys.length := by omega
      refine ⟨toPoly D[d], ?_⟩
      refine Polynomial.eq_of_degree_sub_lt_of_eval_finset_eq (T.image fun pos => S.G2 ^ pos) ?_ ?_
      · rw [hcard]
        refine lt_of_le_of_lt (Polynomial.degree_sub_le _ _) (max_lt ?_ ?_)
        · have hpd : (P.getD d []).length ≤ k := by
            rw [List.getD_eq_getElem?_getD, List.getElem?_eq_getElem hdP]
            exact hPk _ (List.getElem_mem hdP)
          have hpm : (toMv S.width (S.polys.getD d [])).totalDegree ≤ m := by
            rw [List.getD_eq_getElem?_getD, List.getElem?_eq_getElem hdp]
            exact hm _ (List.getElem_mem hdp)
          exact lt_of_le_of_lt (Polynomial.degree_le_of_natDegree_le (natDegree_cpoly (steps := k) hpm hpd hPk))
            (by exact_mod_cast hk1)
        · by_cases hz : toPoly D[d] = 0
          · rw [hz, mul_zero, Polynomial.degree_zero]
            exact WithBot.bot_lt_coe _
          · have hlen := hDk _ (List.getElem_mem hdD)
            have hlen0 : D[d].length ≠ 0 := by
              intro h
              exact hz (by rw [List.length_eq_zero_iff.1 h]; rfl)
            have h7 : (toPoly D[d]).natDegree ≤ k' - 1 := natDegree_toPoly_le (by omega)
            have h8 : (zprod S.G1 (S.steps - 1) * toPoly D[d]).natDegree ≤ S.steps - 1 + (k' - 1) :=
              (Polynomial.natDegree_mul_le).trans (by rw [zprod_natDegree]; omega)
            exact lt_of_le_of_lt (Polynomial.degree_le_of_natDegree_le h8) (by exact_mod_cast (by omega))
      · intro x hx
        obtain ⟨pos, hpos, rfl⟩ := Finset.mem_image.1 hx
        obtain ⟨a7, ⟨v, a8, a9⟩, -⟩ := hacc pos hpos
        obtain ⟨vd, b1, b2⟩ := a9 d P[d] D[d] (by simp) (by simp)
        have hgx : S.G2 ^ ((pos + S.ext) % S.precision) = S.G1 * S.G2 ^ pos := by
          rw [show S.precision = orderOf S.G2 from hG2.eq.symm, pow_mod_orderOf, pow_add, hG1, mul_comm]
        rw [hgx, ← hzx _ a7] at b2
        obtain ⟨f, c1, w, c2, c3⟩ := a8.2 d hd
        rw [b1] at c2
        cases c2
        rw [List.getElem?_eq_getElem hdp] at c1
        cases c1
        rw [hn, Mv.call_spec (hw _ (List.getElem_mem hdp)).len _ (by simp [hP]), Except.ok.injEq] at c3
        have hrow : (fun j : Fin S.width => (P.map fun q => (toPoly q).eval (S.G2 ^ pos)).getD j 0) =
            fun j : Fin S.width => (toPoly (P.getD j [])).eval (S.G2 ^ pos) := by
          funext j
          have hj : (j : Nat) < P.length := by rw [hP]; exact j.2
          simp [List.getD_eq_getElem?_getD, List.getElem?_eq_getElem hj]
        rw [hrow] at c3
        rw [cpoly_eval, Polynomial.eval_mul, sub_eq_iff_eq_add]
        simp only [List.getD_eq_getElem?_getD, List.getElem?_eq_getElem hdP, List.getElem?_eq_getElem hdp, Option.getD_some] at c3 ⊢
        rw [c3, b2, add_comm]
    exact (zprod_dvd_exec hw P hP hpl hg1).1 key
  · intro d hd
    have hdP : d < P.length := by omega
    have hdD : d < D.length := by omega
    have hdB : d < B.length := by omega
    obtain ⟨pos0, hpos0⟩ := hTne
    obtain ⟨-, -, e⟩ := hacc pos0 hpos0
    obtain ⟨i, j, inp, col, out, e1, e2, e3, I, e4, e5, e6, -⟩ := e d P[d] B[d] (by simp) (by simp)
    have hid : toPoly P[d] = I + (X - C 1) * (X - C S.last) * toPoly B[d] := by
      refine Polynomial.eq_of_degree_sub_lt_of_eval_finset_eq (T.image fun pos => S.G2 ^ pos) ?_ ?_
      · rw [hcard]
        refine lt_of_le_of_lt (Polynomial.degree_sub_le _ _) (max_lt ?_ (lt_of_le_of_lt (Polynomial.degree_add_le _ _) (max_lt ?_ ?_)))
        · refine lt_of_lt_of_le (b := ((k : Nat) : WithBot ℕ)) ?_ (by exact_mod_cast hk4)
          exact Polynomial.degree_lt_iff_coeff_zero _ _ |>.2 fun m hm =>
            coeff_eq_zero_of_length_le (by have := hPk _ (List.getElem_mem hdP); omega)
        · refine lt_of_le_of_lt e4 ?_
          exact_mod_cast (by omega : 1 < T.card)
        · by_cases hz : toPoly B[d] = 0
          · rw [hz, mul_zero, Polynomial.degree_zero]
            exact WithBot.bot_lt_coe _
          · have hlen := hBk _ (List.getElem_mem hdB)
            have hlen0 : B[d].length ≠ 0 := by
              intro h
              exact hz (by rw [List.length_eq_zero_iff.1 h]; rfl)
            have h7 : (toPoly B[d]).natDegree ≤ k'' - 1 := natDegree_toPoly_le (by omega)
            have h9 : ((X - C 1) * (X - C S.last) : (Zp p)[X]).natDegree ≤ 2 :=
              (Polynomial.natDegree_mul_le).trans (by rw [Polynomial.natDegree_X_sub_C, Polynomial.natDegree_X_sub_C])
            have h8 : ((X - C 1) * (X - C S.last) * toPoly B[d]).natDegree ≤ 2 + (k'' - 1) :=
              (Polynomial.natDegree_mul_le).trans (by omega)
            exact lt_of_le_of_lt (Polynomial.degree_le_of_natDegree_le h8) (by exact_mod_cast (by omega))
      · intro x hx
        obtain ⟨pos, hpos, rfl⟩ := Finset.mem_image.1 hx
        obtain ⟨-, -, a9⟩ := hacc pos hpos
        obtain ⟨i2, j2, inp', col', out', f1, f2, f3, I', f4, f5, f6, f7⟩ := a9 d P[d] B[d] (by simp) (by simp)
        rw [e1] at f1
        cases f1
        rw [e2] at f2
        cases f2
        rw [e3] at f3
        cases f3
        have hII : I' = I := by
          refine Polynomial.eq_of_degree_sub_lt_of_eval_finset_eq {1, S.last} ?_ ?_
          · rw [Finset.card_pair hl1.symm]
            exact lt_of_le_of_lt (Polynomial.degree_sub_le _ _) (max_lt (lt_of_le_of_lt f4 (by decide)) (lt_of_le_of_lt e4 (by decide)))
          · intro y hy
            simp only [Finset.mem_insert, Finset.mem_singleton] at hy
            rcases hy with rfl | rfl
            · rw [f5, e5]
            · rw [f6, e6]
        rw [hII] at f7
        rw [f7]
        simp
    refine ⟨P[d], i, j, inp, col, out, by simp, e1, ?_, e2, e3, ?_⟩
    · rw [hid]; simp [e5]
    · rw [hid, ← hlast]; simp [e6]

theorem passesAt_of_verifyAt (blake : Bytes → Bytes) (S : Params (Zp p)) (h1 : S.last ≠ 1)
    (W : List (List (Zp p))) (boundary : List (Nat × Nat × Zp p)) (P D B : List (List (Zp p))) (hP : P.length = S.width)
    (hD : D.length = S.width) (hB : B.length = S.width) (pr : Proof φ) (i pos : Nat) (h : verifyAt blake S W boundary pr i pos = .ok ())
    (hop : ∀ br1 br2 leaf1 leaf2, pr.branches[i * 3]? = some br1 → pr.branches[i * 3 + 1]? = some br2 →
      Merkle.verifyBranch blake pr.mRoot pos br1 = .ok leaf1 →
      Merkle.verifyBranch blake pr.mRoot ((pos + S.ext) % S.precision) br2 = .ok leaf2 →
      ∀ (d : Nat) (Pd Dd Bd : List (Zp p)), P[d]? = some Pd → D[d]? = some Dd → B[d]? = some Bd →
        blk leaf1 d = (toPoly Pd).eval (S.G2 ^ pos) ∧ blk leaf1 (S.width + d) = (toPoly Dd).eval (S.G2 ^ pos) ∧
        blk leaf1 (2 * S.width + d) = (toPoly Bd).eval (S.G2 ^ pos) ∧
        blk leaf2 d = (toPoly Pd).eval (S.G2 ^ ((pos + S.ext) % S.precision))) : PassesAt S W boundary P D B pos := by
  obtain ⟨br1, br2, br3, leaf1, leaf2, leaf3, a1, a2, a3, a4, a5, a6, a7, ⟨v, a8, a9⟩, a10⟩ := (verifyAt_iff _ _ _ _ _ _ _ h1).1 h
  have c1 := hop br1 br2 leaf1 leaf2 a1 a2 a4 a5
  have hrow : (List.range S.width).map (blk leaf1) = P.map fun q => (toPoly q).eval (S.G2 ^ pos) := by
    refine List.ext_getElem (by simp [hP]) fun d hd1 hd2 => ?_
    simp only [List.length_map, List.length_range] at hd1
    simpa using (c1 d (P[d]'(by omega)) (D[d]'(by omega)) (B[d]'(by omega)) (by simp) (by simp) (by simp)).1
  refine ⟨a7, ⟨v, by rw [← hrow]; exact a8, fun d Pd Dd e1 e2 => ?_⟩, fun d Pd Bd e1 e2 => ?_⟩
  · have hd : d < S.width := by rw [← hP]; exact (List.getElem?_eq_some_iff.1 e1).1
    obtain ⟨vd, b1, b2⟩ := a9 d hd
    have e3 : B[d]? = some (B[d]'(by omega)) := by simp
    obtain ⟨-, g1, -, g2⟩ := c1 d Pd Dd _ e1 e2 e3
    exact ⟨vd, b1, by rw [← g1, ← g2]; exact b2⟩
  · have hd : d < S.width := by rw [← hP]; exact (List.getElem?_eq_some_iff.1 e1).1
    obtain ⟨i, j, inp, col, out, b1, b2, b3, I, b4, b5, b6, b7⟩ := a10 d hd
    have e3 : D[d]? = some (D[d]'(by omega)) := by simp
    obtain ⟨g1, -, g2, -⟩ := c1 d Pd _ Bd e1 e3 e2
    exact ⟨i, j, inp, col, out, b1, b2, b3, I, b4, b5, b6, by rw [← g1, ← g2]; exact b7⟩

/-! ### The positions depend on the hashes of 32-byte strings only -/

theorem extendData_hashWith (H : Digest → Digest) (other : Bytes → Bytes) (size : Int) : ∀ (fuel : Nat) (data : Bytes), 32 ≤ data.length →
    Utils.extendData (hashWith H other) size fuel data = Utils.extendData (hashOf H) size fuel data := by
  intro fuel
  induction fuel with
  | zero => intro data _; rfl
  | succ fuel ih =>
    intro data hd
    have hl : (data.drop (data.length - 32)).length = 32 := by simp; omega
    have e : hashWith H other (data.drop (data.length - 32)) = hashOf H (data.drop (data.length - 32)) := by
      rw [hashWith, hashOf, dif_pos hl, dif_pos hl]
    rw [Utils.extendData, Utils.extendData, e]
    split_ifs
    · exact ih _ (by simp; omega)
    · rfl

theorem indices_hashWith (H : Digest → Digest) (other : Bytes → Bytes) (root : Digest) (m c e : Int) :
    Utils.getPseudorandomIndices (hashWith H other) root.1 m c e = Utils.getPseudorandomIndices (hashOf H) root.1 m c e := by
  unfold Utils.getPseudorandomIndices
  rw [extendData_hashWith H other _ _ _ (by rw [root.2])]

end

end Verif.Stark
