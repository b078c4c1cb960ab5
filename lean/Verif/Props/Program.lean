import Verif.Props.Statement
import Verif.Spec.Program
/-!
# C166: a proof proves one computation

The step polynomials are not hashed into the proof; what ties a proof to them are the states it opens (`IsOpened` in `Spec/Program`).
-/

namespace Verif.Props
open Poly Stark Air Mv
open scoped Polynomial

variable {p : Nat} [Fact p.Prime] {φ : Type}

theorem isStep_unique {n width : Nat} {polys : List (Dict (Zp p))} {x y z : List (Zp p)} (h : IsStep n width polys x y)
    (h' : IsStep n width polys x z) : y = z := by
  rw [← nextState_iff] at h h'
  exact Except.ok.inj (h.symm.trans h')

/-- **C166**: if a proof is accepted for two lists of step polynomials, with whatever statements, they lead to the same next state from every
state the proof opens. -/
theorem C166_opened (blake : Bytes → Bytes) (friVerify : φ → Bytes → Zp p → Nat → Nat → Py Bool) (S : Params (Zp p)) (hl : S.last ≠ 1)
    (polys' : List (Dict (Zp p))) (W W' : List (List (Zp p))) (b b' : List (Nat × Nat × Zp p)) (pr : Proof φ)
    (h : verifyProof blake friVerify S W b pr = .ok true) (h' : verifyProof blake friVerify { S with polys := polys' } W' b' pr = .ok true) :
    ∀ state, IsOpened blake S pr state → SameStep S.n S.width S.polys polys' state := by
  obtain ⟨-, deg, positions, v1, v2, v3, v4⟩ := (verifyProof_iff _ _ _ _ _ _ _).1 h
  obtain ⟨-, deg', positions', w1, w2, w3, w4⟩ := (verifyProof_iff _ _ _ _ _ _ _).1 h'
  rintro _ ⟨positions'', i, pos, br, leaf, o1, o2, o3, o4, rfl⟩
  have w3' : Utils.getPseudorandomIndices blake pr.lRoot S.precision S.factor S.ext = .ok positions' := w3
  rw [o1] at v3 w3'
  cases v3
  cases w3'
  obtain ⟨br1, br2, br3, l1, l2, l3, a1, a2, a3, a4, a5, a6, a7, ⟨v, a8, a9⟩, -⟩ := (verifyAt_iff _ _ _ _ _ _ _ hl).1 (v4 _ _ o2)
  obtain ⟨br1', br2', br3', l1', l2', l3', b1, b2, b3, b4, b5, b6, b7, ⟨v', b8, b9⟩, -⟩ :=
    (verifyAt_iff _ { S with polys := polys' } _ _ _ _ _ hl).1 (w4 _ _ o2)
  rw [o3, Option.some.injEq] at a1 b1
  subst a1 b1
  rw [a2, Option.some.injEq] at b2
  subst b2
  rw [o4] at a4 b4
  cases a4
  cases b4
  have b5' : Merkle.verifyBranch blake pr.mRoot ((pos.toNat + S.ext) % S.precision) br2 = .ok l2' := b5
  rw [a5] at b5'
  cases b5'
  refine ⟨v, a8, ?_⟩
  have hvv : v = v' := by
    apply List.ext_getElem?
    intro d
    by_cases hd : d < S.width
    · obtain ⟨vd, c1, c2⟩ := a9 d hd
      obtain ⟨vd', c1', c2'⟩ := b9 d hd
      rw [c1, c1']
      dsimp only at c2'
      rw [c2] at c2'
      rw [add_right_cancel c2']
    · rw [List.getElem?_eq_none (by rw [a8.1]; omega), List.getElem?_eq_none (by rw [b8.1]; exact Nat.not_lt.1 hd)]
  rw [hvv]
  exact b8

/-- **C166**, exactly: a proof accepted for the step polynomials of `S` is accepted for others if and only if the proximity test accepts it
for their degree too and they lead to the same next state from every state the proof opens. -/
theorem C166_exact (blake : Bytes → Bytes) (friVerify : φ → Bytes → Zp p → Nat → Nat → Py Bool) (S : Params (Zp p)) (hl : S.last ≠ 1)
    (polys' : List (Dict (Zp p))) (W : List (List (Zp p))) (b : List (Nat × Nat × Zp p)) (pr : Proof φ)
    (h : verifyProof blake friVerify S W b pr = .ok true) :
    verifyProof blake friVerify { S with polys := polys' } W b pr = .ok true ↔
      (∃ deg, getDegree polys' = .ok deg ∧ friVerify pr.fri pr.lRoot S.G2 (S.steps * deg) S.ext = .ok true) ∧
      ∀ state, IsOpened blake S pr state → SameStep S.n S.width S.polys polys' state := by
  obtain ⟨-, deg, positions, v1, v2, v3, v4⟩ := (verifyProof_iff _ _ _ _ _ _ _).1 h
  constructor
  · intro h'
    obtain ⟨-, deg', positions', w1, w2, w3, w4⟩ := (verifyProof_iff _ _ _ _ _ _ _).1 h'
    exact ⟨⟨deg', w1, w2⟩, C166_opened blake friVerify S hl polys' W W b b pr h h'⟩
  · rintro ⟨⟨deg', w1, w2⟩, hs⟩
    refine (verifyProof_iff _ _ _ _ _ _ _).2 ⟨rfl, deg', positions, w1, w2, v3, fun i pos hi => ?_⟩
    obtain ⟨br1, br2, br3, l1, l2, l3, a1, a2, a3, a4, a5, a6, a7, ⟨v, a8, a9⟩, a10⟩ := (verifyAt_iff _ _ _ _ _ _ _ hl).1 (v4 _ _ hi)
    obtain ⟨u, u1, u2⟩ := hs _ ⟨positions, i, pos, br1, l1, v3, hi, a1, a4, rfl⟩
    refine (verifyAt_iff _ { S with polys := polys' } _ _ _ _ _ hl).2
      ⟨br1, br2, br3, l1, l2, l3, a1, a2, a3, a4, a5, a6, a7, ⟨v, ?_, a9⟩, a10⟩
    rw [isStep_unique a8 u1]
    exact u2

/-- **C166** for computations that never agree: if two lists of step polynomials lead to different next states from every state, no proof is
accepted for both, whatever the statements and the hash function. -/
theorem C166_apart_partial (blake : Bytes → Bytes) (hbl : ∀ x, (blake x).length = 32)
    (friVerify : φ → Bytes → Zp p → Nat → Nat → Py Bool) (S : Params (Zp p)) (hl : S.last ≠ 1) (ho : orderOf S.G2 = S.precision)
    (h2 : 2 ≤ S.precision) (h24 : S.precision < 2 ^ 24) (he : 2 ≤ S.ext) (hf : 1 ≤ S.factor) (polys' : List (Dict (Zp p)))
    (hne : ∀ state : List (Zp p), state.length = S.width → ¬ SameStep S.n S.width S.polys polys' state)
    (W W' : List (List (Zp p))) (b b' : List (Nat × Nat × Zp p)) (pr : Proof φ) :
    ¬ (verifyProof blake friVerify S W b pr = .ok true ∧ verifyProof blake friVerify { S with polys := polys' } W' b' pr = .ok true) := by
  rintro ⟨h, h'⟩
  obtain ⟨-, deg, positions, -, -, v3, v4⟩ := (verifyProof_iff _ _ _ _ _ _ _).1 h
  have hlen := (sampled blake hbl S ho h2 h24 he v3).1
  have h0 : positions[0]? = some (positions[0]'(by omega)) := List.getElem?_eq_getElem _
  obtain ⟨br1, br2, br3, l1, l2, l3, a1, a2, a3, a4, -⟩ := (verifyAt_iff _ _ _ _ _ _ _ hl).1 (v4 _ _ h0)
  exact hne _ (by simp) (C166_opened blake friVerify S hl polys' W W' b b' pr h h' _ ⟨positions, 0, _, br1, l1, v3, h0, a1, a4, rfl⟩)

/-- **C166** with a random root: let `table` be the states the first root of the proof commits to, and `B` positions at which the two lists
of step polynomials lead from them to different states. If the second root and the hash function on 32-byte strings are random, there is
hardly ever a proof accepted for both; `N` is the number of positions that can be sampled. -/
theorem C166_random_partial (S : Params (Zp p)) (hl : S.last ≠ 1) (hs : 2 ≤ S.steps) (h24 : S.precision < 2 ^ 24) (he : 2 ≤ S.ext)
    (hf : 1 ≤ S.factor) (N : Nat) (hN : N = S.steps * (S.ext - 1)) (polys' : List (Dict (Zp p))) (table : Nat → List (Zp p))
    (B : Finset Nat) (hB : ∀ y ∈ B, y < S.precision ∧ ¬ S.ext ∣ y ∧ ¬ SameStep S.n S.width S.polys polys' (table y)) :
    fraction (fun ω : Digest × (Digest → Digest) => ∃ (other : Bytes → Bytes) (friVerify : φ → Bytes → Zp p → Nat → Nat → Py Bool)
      (pr : Proof φ) (W W' : List (List (Zp p))) (b b' : List (Nat × Nat × Zp p)), pr.lRoot = ω.1.1 ∧
        (∀ br ∈ pr.branches, ∀ y leaf, Merkle.verifyBranch (hashWith ω.2 other) pr.mRoot y br = .ok leaf →
          (List.range S.width).map (blk leaf) = table y) ∧
        verifyProof (hashWith ω.2 other) friVerify S W b pr = .ok true ∧
        verifyProof (hashWith ω.2 other) friVerify { S with polys := polys' } W' b' pr = .ok true) ≤
    (1 - B.card * (2 ^ 32 / N : ℕ) / 2 ^ 32) ^ S.factor +
      (((S.factor - 1) / 8 : ℕ) * (((S.factor - 1) / 8 : ℕ) + 1) / 2 : ℚ) / 2 ^ 256 := by
  classical
  have hprec : S.precision = S.steps * S.ext := rfl
  have h2 : 2 ≤ S.precision := by rw [hprec]; nlinarith
  have hR : S.precision * (S.ext - 1) / S.ext = N := by
    rw [hN, hprec, Nat.mul_right_comm, Nat.mul_div_cancel _ (by omega)]
  have key := C132_excluded S.precision S.factor S.ext h2 h24 he (Dvd.intro_left _ rfl) hf B fun y hy => ⟨(hB y hy).1, (hB y hy).2.1⟩
  rw [hR] at key
  refine (Sampling.fraction_mono ?_).trans key
  rintro ω ⟨other, friVerify, pr, W, W', b, b', hroot, htab, h, h'⟩
  obtain ⟨-, deg, positions, -, -, v3, v4⟩ := (verifyProof_iff _ _ _ _ _ _ _).1 h
  refine ⟨positions, ?_, fun y hy hyo => ?_⟩
  · rw [← indices_hashWith ω.2 other, ← hroot]; exact v3
  · obtain ⟨i, hi, hiy⟩ := List.getElem_of_mem hyo
    have h0 : positions[i]? = some (y : Int) := by rw [List.getElem?_eq_getElem hi, hiy]
    obtain ⟨br1, br2, br3, l1, l2, l3, a1, a2, a3, a4, -⟩ := (verifyAt_iff _ _ _ _ _ _ _ hl).1 (v4 _ _ h0)
    have := C166_opened _ friVerify S hl polys' W W' b b' pr h h' _ ⟨positions, i, _, br1, l1, v3, h0, a1, a4, rfl⟩
    rw [htab br1 (List.mem_of_getElem? a1) _ _ a4] at this
    exact (hB y hy).2.2 (by simpa using this)

/-- **C166** fails with one spot check: the honest proof of four steps of `x ↦ x² + 1` from 1 to 9 modulo 17 is accepted as a proof that
four steps of `x ↦ x² + x + 6` lead from 1 to 9. They lead from 1 to 14. -/
theorem C166_program_refuted : ∃ (S : Params (Zp 17)) (pr : Proof Unit) (polys' : List (Dict (Zp 17))), 
    mkStark 100 17 4 4 1 1 sqStep 1 = .ok S ∧ mkProof 100 sqHash (fun _ _ _ _ => .ok ()) S sqW sqB = .ok pr ∧
    verifyProof sqHash (fun _ _ _ _ _ => .ok true) S sqW sqB pr = .ok true ∧
    verifyProof sqHash (fun _ _ _ _ _ => .ok true) { S with polys := polys' } sqW sqB pr = .ok true ∧
    getTrace 1 [1] 4 1 polys' = .ok ([[1], [8], [10], [14]], [14]) := by
  have h : (do
      let S ← mkStark (K := Zp 17) 100 17 4 4 1 1 sqStep 1
      let pr ← mkProof 100 sqHash (fun _ _ _ _ => .ok ()) S sqW sqB
      let a ← verifyProof sqHash (fun _ _ _ _ _ => .ok true) S sqW sqB pr
      let b ← verifyProof sqHash (fun _ _ _ _ _ => .ok true) { S with polys := [[([0], 6), ([1], 1), ([2], 1)]] } sqW sqB pr
      .ok (a && b) : Py Bool) = .ok true := by decide +kernel
  obtain ⟨S, h1, h⟩ := (bind_iff _ _ _).1 h
  obtain ⟨pr, h2, h⟩ := (bind_iff _ _ _).1 h
  obtain ⟨a, h3, h⟩ := (bind_iff _ _ _).1 h
  obtain ⟨b, h4, h⟩ := (bind_iff _ _ _).1 h
  have := Except.ok.inj h
  rw [Bool.and_eq_true] at this
  obtain ⟨rfl, rfl⟩ := this
  exact ⟨S, pr, _, h1, h2, h3, h4, by decide +kernel⟩

/-- **C166** fails for computations that agree on the trace, with any number of spot checks: the honest proof that `x ↦ x²` leads from 1 to 1
is accepted for `x ↦ 2x² - x`. Both statements are true. -/
theorem C166_agreeing_refuted : ∃ (S : Params (Zp 17)) (pr : Proof Unit),
    mkStark 100 17 4 4 1 1 [[([2], 1)]] 20 = .ok S ∧ mkProof 100 sqHash (fun _ _ _ _ => .ok ()) S [[1, 1, 1, 1]] [(0, 0, 1)] = .ok pr ∧
    verifyProof sqHash (fun _ _ _ _ _ => .ok true) S [[1, 1, 1, 1]] [(0, 0, 1)] pr = .ok true ∧
    verifyProof sqHash (fun _ _ _ _ _ => .ok true) { S with polys := [[([1], -1), ([2], 2)]] } [[1, 1, 1, 1]] [(0, 0, 1)] pr
      = .ok true := by
  have h : (do
      let S ← mkStark (K := Zp 17) 100 17 4 4 1 1 [[([2], 1)]] 20
      let pr ← mkProof 100 sqHash (fun _ _ _ _ => .ok ()) S [[1, 1, 1, 1]] [(0, 0, 1)]
      let a ← verifyProof sqHash (fun _ _ _ _ _ => .ok true) S [[1, 1, 1, 1]] [(0, 0, 1)] pr
      let b ← verifyProof sqHash (fun _ _ _ _ _ => .ok true) { S with polys := [[([1], -1), ([2], 2)]] } [[1, 1, 1, 1]] [(0, 0, 1)] pr
      .ok (a && b) : Py Bool) = .ok true := by decide +kernel
  obtain ⟨S, h1, h⟩ := (bind_iff _ _ _).1 h
  obtain ⟨pr, h2, h⟩ := (bind_iff _ _ _).1 h
  obtain ⟨a, h3, h⟩ := (bind_iff _ _ _).1 h
  obtain ⟨b, h4, h⟩ := (bind_iff _ _ _).1 h
  have := Except.ok.inj h
  rw [Bool.and_eq_true] at this
  obtain ⟨rfl, rfl⟩ := this
  exact ⟨S, pr, h1, h2, h3, h4⟩

/-- `x² + 2` and `x² + 1` modulo 17 never agree; `x² + x + 6` and `x² + 1` agree at 12 only. -/
theorem sq_steps : (∀ state : List (Zp 17), state.length = 1 → ¬ SameStep 1 1 sqStep [[([0], 2), ([2], 1)]] state) ∧
    ∀ v : Zp 17, v ≠ 12 → ¬ SameStep 1 1 sqStep [[([0], 6), ([1], 1), ([2], 1)]] [v] := by
  have key : ∀ v : Zp 17, (nextState 1 1 sqStep [v] ≠ nextState 1 1 [[([0], 2), ([2], 1)]] [v]) ∧
      (v ≠ 12 → nextState 1 1 sqStep [v] ≠ nextState 1 1 [[([0], 6), ([1], 1), ([2], 1)]] [v]) := by
    have all : ∀ k < 17, (nextState 1 1 sqStep [(Zp.ofInt (k : Nat) : Zp 17)] ≠ nextState 1 1 [[([0], 2), ([2], 1)]] [Zp.ofInt (k : Nat)]) ∧
        ((Zp.ofInt (k : Nat) : Zp 17) ≠ 12 → nextState 1 1 sqStep [(Zp.ofInt (k : Nat) : Zp 17)] ≠
          nextState 1 1 [[([0], 6), ([1], 1), ([2], 1)]] [Zp.ofInt (k : Nat)]) := by decide +kernel
    intro v
    have hv := all v.1.toNat (by have := v.2; omega)
    rwa [Int.toNat_of_nonneg v.2.1, Zp.ofInt_val] at hv
  constructor
  · rintro state hs ⟨next, h1, h2⟩
    obtain ⟨v, rfl⟩ := List.length_eq_one_iff.1 hs
    exact (key v).1 (((nextState_iff _ _ _ _ _).2 h1).trans ((nextState_iff _ _ _ _ _).2 h2).symm)
  · rintro v hv ⟨next, h1, h2⟩
    exact (key v).2 hv (((nextState_iff _ _ _ _ _).2 h1).trans ((nextState_iff _ _ _ _ _).2 h2).symm)

/-- The parameters of four steps of `x ↦ x² + 1` modulo 17 are as required, and the honest proof from 1 to 9 is accepted; `sq_steps` are two
computations that never agree and two that agree in one state. With the constant trace 1 as `table` and the positions 2 and 3 this meets the hypotheses of `C166_opened`, `C166_exact`, `C166_apart_partial` and `C166_random_partial`. -/
example : (∀ x, (sqHash x).length = 32) ∧
    (do
      let S ← mkStark (K := Zp 17) 100 17 4 4 1 1 sqStep 10
      let pr ← mkProof 100 sqHash (fun _ _ _ _ => .ok ()) S sqW sqB
      let r ← verifyProof sqHash (fun _ _ _ _ _ => .ok true) S sqW sqB pr
      .ok (decide (S.G2 = 7 ∧ S.last = 13 ∧ S.steps = 4 ∧ S.precision = 16 ∧ S.ext = 4 ∧ S.n = 1 ∧ S.width = 1 ∧ S.factor = 10 ∧
        S.polys = sqStep), r) : Py (Bool × Bool)) = .ok (true, true) ∧ orderOf (7 : Zp 17) = 16 ∧
    ∀ y ∈ ({2, 3} : Finset Nat), y < 16 ∧ ¬ 4 ∣ y ∧
      ¬ SameStep 1 1 sqStep [[([0], 6), ([1], 1), ([2], 1)]] [((fun _ => 1) : Nat → Zp 17) y] := by
  refine ⟨sqHash_length, by decide +kernel, (orderOf_eq_iff (by norm_num)).2 ⟨by decide +kernel, fun m h1 h2 => ?_⟩, fun y hy => ?_⟩
  · interval_cases m <;> decide +kernel
  · refine ⟨?_, ?_, sq_steps.2 1 (by decide +kernel)⟩
    all_goals
      simp only [Finset.mem_insert, Finset.mem_singleton] at hy
      omega

end Verif.Props
