import Verif.Proofs.Boundary
/-!
# C161: boundary constraints mean what they say

A boundary constraint is a triple of a step, a register and a value.  `Holds` says that it holds of a witness, `firstValues width` are
the values in the first `width` places of a list of constraints, whatever steps and registers they name (both in `Spec/Boundary`).
-/

namespace Verif.Props
open Poly Stark Air
open Mv (Dict toMv)

variable {p : Nat} [Fact p.Prime] {φ : Type}

/-- **C161**, what is read: `mk_proof` and `verify_proof` read nothing of the constraints but the values in the first `width` places.
Two lists with the same values there, whatever steps and registers they name and whatever follows, give the same proof and the same
answer for every proof. -/
theorem C161_read (fuel : Nat) (blake : Bytes → Bytes) (friProve : List (Zp p) → Zp p → Nat → Nat → Py φ)
    (friVerify : φ → Bytes → Zp p → Nat → Nat → Py Bool) (S : Params (Zp p)) (W : List (List (Zp p)))
    (boundary boundary' : List (Nat × Nat × Zp p)) (h : firstValues S.width boundary = firstValues S.width boundary') :
    mkProof fuel blake friProve S W boundary = mkProof fuel blake friProve S W boundary' ∧
    ∀ pr, verifyProof blake friVerify S W boundary pr = verifyProof blake friVerify S W boundary' pr :=
  ⟨mkProof_congr fuel blake friProve S W h, verifyProof_congr blake friVerify S W h⟩

/-- **C161**, and all of these are enforced: a proof accepted with one list is accepted with another exactly if the values in the first
`width` places are the same. -/
theorem C161_values_partial (blake : Bytes → Bytes) (hbl : ∀ x, (blake x).length = 32)
    (friVerify : φ → Bytes → Zp p → Nat → Nat → Py Bool) (S : Params (Zp p)) (hl : S.last ≠ 1) (h2 : 2 ≤ S.precision)
    (h24 : S.precision < 2 ^ 24) (he : 2 ≤ S.ext) (hf : 1 ≤ S.factor) (W : List (List (Zp p)))
    (boundary boundary' : List (Nat × Nat × Zp p)) (pr : Proof φ) (h : verifyProof blake friVerify S W boundary pr = .ok true) :
    verifyProof blake friVerify S W boundary' pr = .ok true ↔ firstValues S.width boundary = firstValues S.width boundary' := by
  refine ⟨fun h' => ?_, fun h' => by rw [← verifyProof_congr blake friVerify S W h', h]⟩
  obtain ⟨-, deg, positions, -, -, v3, v4⟩ := (verifyProof_iff _ _ _ _ _ _ _).1 h
  obtain ⟨-, deg', positions', -, -, w3, w4⟩ := (verifyProof_iff _ _ _ _ _ _ _).1 h'
  rw [v3] at w3
  cases w3
  obtain ⟨o, o1, o2, -⟩ := C36_indices_exclude blake hbl pr.lRoot S.precision S.factor S.ext (by exact_mod_cast h2) (by exact_mod_cast h24)
    (by exact_mod_cast he)
  rw [v3] at o1
  cases o1
  have hpos : positions[0]? = some (positions[0]'(by omega)) := List.getElem?_eq_getElem _
  exact verifyAt_values blake S W pr 0 _ hl (v4 0 _ hpos) (w4 0 _ hpos)

/-- **C161** fails: a constraint that does not hold is not enforced.  Take a valid execution and its proof as in C74, and add to the
list any constraint that does not hold of the execution: the proof is made and accepted with the longer list. -/
theorem C161_enforced_refuted (blake : Bytes → Bytes) (hbl : ∀ x, (blake x).length = 32) (a b width : Nat)
    (polys : List (Dict (Zp p))) (c : Computation p a b width polys) (deg : Nat) (hdeg : IsDegree width polys deg) (hdeg1 : 1 ≤ deg)
    (hdeg2 : deg ≤ 2 ^ b + 1)
    (boundary : List (Nat × Nat × Zp p)) (W : List (List (Zp p))) (hW : IsExecution width (2 ^ a) polys boundary W)
    (hout : ∀ col ∈ W, ∀ out, col.getLast? = some out → out ≠ 0) (factor : Nat) (hfac : factor ≤ 80)
    (con : Nat × Nat × Zp p) (_hcon : ¬ Holds W con) :
    ∃ N, ∀ fuel ≥ N, ∀ (friProve : List (Zp p) → Zp p → Nat → Nat → Py φ) (friVerify : φ → Bytes → Zp p → Nat → Nat → Py Bool),
      FriComplete blake (2 ^ a * 2 ^ b) (2 ^ a * deg) (2 ^ b) friProve friVerify →
      ∃ S pr, mkStark fuel p (2 ^ a) (2 ^ b) width width polys factor = .ok S ∧
        mkProof fuel blake friProve S W (boundary ++ [con]) = .ok pr ∧
        verifyProof blake friVerify S W (boundary ++ [con]) pr = .ok true := by
  refine C74_completeness_partial blake hbl a b width polys c deg hdeg hdeg1 hdeg2 (boundary ++ [con]) W
    ⟨hW.columns, hW.entries, hW.step, fun d col h => ?_⟩ hout factor hfac
  obtain ⟨i, j, inp, e1, e2⟩ := hW.start d col h
  exact ⟨i, j, inp, by rw [List.getElem?_append_left (List.getElem?_eq_some_iff.1 e1).1]; exact e1, e2⟩

/-- **C161** fails: constraints that hold are refused if they come in another order.  Take a valid execution as in C50 and any list
whose value in some place is not the input of the register of that number: whether or not the constraints hold, a proof that `mk_proof`
makes with the list is not accepted with it, whatever the proximity test. -/
theorem C161_order_refuted (blake : Bytes → Bytes) (hbl : ∀ x, (blake x).length = 32) (a b width : Nat)
    (polys : List (Dict (Zp p))) (c : Computation p a b width polys) (hdeg : ∀ f ∈ polys, (toMv width f).totalDegree ≤ 2 ^ b + 1)
    (boundary : List (Nat × Nat × Zp p)) (W : List (List (Zp p))) (hW : IsExecution width (2 ^ a) polys boundary W)
    (hout : ∀ col ∈ W, ∀ out, col.getLast? = some out → out ≠ 0) (factor : Nat) (hf1 : 1 ≤ factor) (hfac : factor ≤ 80)
    (boundary' : List (Nat × Nat × Zp p)) (d : Nat) (hd : d < width) (con : Nat × Nat × Zp p) (hcon : boundary'[d]? = some con)
    (hne : ¬ Holds W (0, d, con.2.2)) :
    ∃ N, ∀ fuel ≥ N, ∀ (friProve : List (Zp p) → Zp p → Nat → Nat → Py φ) (friVerify : φ → Bytes → Zp p → Nat → Nat → Py Bool),
      ∃ S, mkStark fuel p (2 ^ a) (2 ^ b) width width polys factor = .ok S ∧
        ∀ pr, mkProof fuel blake friProve S W boundary' = .ok pr → verifyProof blake friVerify S W boundary' pr ≠ .ok true := by
  obtain ⟨N, hN⟩ := c.params factor
  refine ⟨max N (2 ^ a * 2 ^ b), fun fuel hf friProve friVerify => ?_⟩
  obtain ⟨S, h1, hs, h3, rfl, h5, rfl, rfl, h8, h9, h11, h12, h13, h14⟩ := hN fuel (le_trans (le_max_left _ _) hf)
  refine ⟨S, h1, fun pr hpr hv => ?_⟩
  have hdiff : firstValues S.width boundary' ≠ firstValues S.width boundary := by
    intro h
    have h' := firstValues_iff.1 h d hd
    obtain ⟨col, hcol⟩ : ∃ col, W[d]? = some col := ⟨W[d]'(by rw [hW.columns]; exact hd), by simp⟩
    obtain ⟨i, j, inp, e1, e2⟩ := hW.start d col hcol
    rw [hcon, e1] at h'
    simp only [Option.map_some, Option.some.injEq] at h'
    exact hne ⟨col, hcol, by rw [h', ← e2, List.head?_eq_getElem?]⟩
  have hprec : S.precision = 2 ^ (a + b) := by rw [h9, pow_add]
  have h2 : 2 ≤ 2 ^ (a + b) := by
    calc 2 = 2 ^ 1 := rfl
      _ ≤ _ := Nat.pow_le_pow_right (by omega) (by have := c.steps; omega)
  have h24 : 2 ^ (a + b) < 2 ^ 24 := Nat.pow_lt_pow_right (by omega) c.size
  have h2b : 2 ≤ 2 ^ b := by
    calc 2 = 2 ^ 1 := rfl
      _ ≤ _ := Nat.pow_le_pow_right (by omega) c.ext
  obtain ⟨-, deg, positions, -, -, v3, v4⟩ := (verifyProof_iff _ _ _ _ _ _ _).1 hv
  obtain ⟨o, o1, o2⟩ := C36_indices_prefix blake hbl pr.lRoot S.precision S.ext S.factor 80 (by rw [hprec]; exact_mod_cast h2)
    (by rw [hprec]; exact_mod_cast h24) (.inr (by rw [h3]; exact_mod_cast h2b)) hfac
  obtain ⟨o', o1', ol, -⟩ := C36_indices_exclude blake hbl pr.lRoot S.precision 80 S.ext (by rw [hprec]; exact_mod_cast h2)
    (by rw [hprec]; exact_mod_cast h24) (by rw [h3]; exact_mod_cast h2b)
  have e := o1.symm.trans o1'
  cases e
  have v3' := o2.symm.trans v3
  cases v3'
  have hpos : o[0]? = some (o[0]'(by omega)) := List.getElem?_eq_getElem _
  exact wrong_input blake hbl c.modulus S h8 a b hs h3 c.steps c.ext c.size
    (by rw [h12.eq, hs, h3]) (by rw [h11, h3]) (by rw [h14, hs]) h5 c.width_pos c.wf c.count (by rw [h3]; exact hdeg)
    hW.columns (by rw [hs]; exact hW.entries) (by rw [hs]; exact hW.step) hW.start hout hdiff friProve fuel
    (by rw [hs, h3]; exact le_trans (le_max_right _ _) hf) pr hpr o o1 0 _ hpos (v4 0 _ (by rw [List.getElem?_take_of_lt hf1]; exact hpos))

/-! ### Cases -/

/-- Two registers modulo 17: `(x, y) ↦ (y, x y)` from `(2, 3)`. -/
def twoStep : List (Dict (Zp 17)) := [[([0, 1], 1)], [([1, 1], 1)]]
def twoW : List (List (Zp 17)) := [[2, 3, 6, 1], [3, 6, 1, 6]]
def twoB : List (Nat × Nat × Zp 17) := [(0, 0, 2), (0, 1, 3)]

theorem two_wf : ∀ f ∈ twoStep, Mv.WF 2 f := by
  simp only [twoStep, List.mem_cons, List.not_mem_nil, or_false, forall_eq_or_imp, forall_eq]
  exact ⟨⟨by decide, by decide +kernel, by decide⟩, ⟨by decide, by decide +kernel, by decide⟩⟩

theorem two_computation : Computation 17 2 1 2 twoStep := by
  refine ⟨by norm_num, by norm_num, by norm_num, by norm_num, ⟨by norm_num, by decide +kernel, ?_⟩, by norm_num, by norm_num,
    by decide, two_wf⟩
  intro j h1 h2
  norm_num at h2
  interval_cases j <;> decide +kernel

theorem two_isDegree : IsDegree 2 twoStep 2 := by
  have : ∀ f ∈ twoStep, (toMv 2 f).totalDegree = Mv.degree f := fun f hf => (Mv.degree_eq (two_wf f hf)).symm
  refine ⟨⟨[([1, 1], 1)], by simp [twoStep], ?_⟩, ?_⟩
  · rw [this _ (by simp [twoStep])]; rfl
  · intro f hf
    rw [this f hf]
    simp only [twoStep, List.mem_cons, List.not_mem_nil, or_false] at hf
    rcases hf with rfl | rfl <;> decide

theorem two_execution : IsExecution 2 (2 ^ 2) twoStep twoB twoW := by
  refine ⟨rfl, by simp [twoW], ?_, ?_⟩
  · intro i hi
    rw [← nextState_iff]
    have hi' : i < 3 := by omega
    interval_cases i <;> decide +kernel
  · intro d col h
    match d, h with
    | 0, h => simp [twoW] at h; subst h; exact ⟨0, 0, 2, rfl, rfl⟩
    | 1, h => simp [twoW] at h; subst h; exact ⟨0, 1, 3, rfl, rfl⟩

/-- The two constraints hold, in either order.  In the other order the value in the first place is not the input of the first register;
and that the first register is 5 at step 2 does not hold. This meets the hypotheses of `C161_enforced_refuted` and
`C161_order_refuted`. -/
example : Computation 17 2 1 2 twoStep ∧ IsDegree 2 twoStep 2 ∧ (∀ f ∈ twoStep, (toMv 2 f).totalDegree ≤ 2 ^ 1 + 1) ∧
    IsExecution 2 (2 ^ 2) twoStep twoB twoW ∧ (∀ col ∈ twoW, ∀ out, col.getLast? = some out → out ≠ 0) ∧
    (∀ con ∈ twoB.reverse, Holds twoW con) ∧ twoB.reverse[0]? = some (0, 1, 3) ∧ ¬ Holds twoW (0, 0, 3) ∧ ¬ Holds twoW (2, 0, 5) ∧
    FriComplete (p := 17) (φ := Unit) sqHash (2 ^ 2 * 2 ^ 1) (2 ^ 2 * 2) (2 ^ 1) (fun _ _ _ _ => .ok ()) fun _ _ _ _ _ => .ok true := by
  refine ⟨two_computation, two_isDegree, fun f hf => (two_isDegree.2 f hf).trans (by norm_num), two_execution, ?_, ?_, rfl, ?_, ?_,
    fun _ _ _ _ _ _ _ _ _ => ⟨(), rfl, rfl⟩⟩
  · simp only [twoW, List.mem_cons, List.not_mem_nil, or_false, forall_eq_or_imp, forall_eq]
    constructor <;>
    · intro out h
      simp at h
      subst h
      decide +kernel
  · simp only [twoB, List.reverse_cons, List.reverse_nil, List.nil_append, List.cons_append, List.mem_cons, List.not_mem_nil, or_false,
      forall_eq_or_imp, forall_eq]
    exact ⟨⟨_, rfl, rfl⟩, ⟨_, rfl, rfl⟩⟩
  · rintro ⟨col, h1, h2⟩
    simp only [twoW, List.getElem?_cons_zero, Option.some.injEq] at h1
    subst h1
    revert h2
    decide +kernel
  · rintro ⟨col, h1, h2⟩
    simp only [twoW, List.getElem?_cons_zero, Option.some.injEq] at h1
    subst h1
    revert h2
    decide +kernel

/-- The honest proof of this execution is accepted with its list and with any list that has the same values, here with other steps and
registers and a constraint that does not hold. This meets the hypotheses of `C161_read` and `C161_values_partial`. -/
example : (do
      let S ← mkStark (K := Zp 17) 100 17 4 2 2 2 twoStep 10
      let pr ← mkProof 100 sqHash (fun _ _ _ _ => .ok ()) S twoW twoB
      let r1 ← verifyProof sqHash (fun _ _ _ _ _ => .ok true) S twoW twoB pr
      let r2 ← verifyProof sqHash (fun _ _ _ _ _ => .ok true) S twoW [(3, 1, 2), (5, 7, 3), (2, 0, 5)] pr
      .ok (r1, r2) : Py (Bool × Bool)) = .ok (true, true) ∧
    firstValues 2 twoB = firstValues 2 [(3, 1, 2), (5, 7, 3), (2, 0, (5 : Zp 17))] ∧ ∀ x, (sqHash x).length = 32 :=
  ⟨by decide +kernel, by decide +kernel, sqHash_length⟩

/-- The proof made with the two constraints in the other order is refused with it. -/
example : (do
      let S ← mkStark (K := Zp 17) 100 17 4 2 2 2 twoStep 10
      let pr ← mkProof 100 sqHash (fun _ _ _ _ => .ok ()) S twoW twoB.reverse
      verifyProof sqHash (fun _ _ _ _ _ => .ok true) S twoW twoB.reverse pr : Py Bool) = .error .assertion := by decide +kernel

end Verif.Props
