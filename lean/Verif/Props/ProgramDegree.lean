import Verif.Props.Program
/-!
# C166, continued: a proof of a trace in which two computations differ

If two computations lead to different states from one state on the committed trace, they do so almost everywhere on it, so that
`C166_random_partial` applies with a bound that does not mention the positions.
-/

namespace Verif.Props
open Poly Stark Air Mv
open scoped Polynomial

variable {p : Nat} [Fact p.Prime] {φ : Type}

theorem isStep_iff {n : Nat} {polys : List (Dict (Zp p))} (hw : ∀ f ∈ polys, WF n f) (hp : n ≤ polys.length) {x : List (Zp p)}
    (hx : x.length = n) (y : List (Zp p)) :
    IsStep n n polys x y ↔
      y = (List.range n).map fun d => MvPolynomial.aeval (fun j : Fin n => x.getD j 0) (toMv n (polys.getD d [])) := by
  have hc : ∀ d, d < n → ∃ f, polys[d]? = some f ∧ polys.getD d [] = f ∧
      call n f x = .ok (MvPolynomial.aeval (fun j : Fin n => x.getD j 0) (toMv n f)) := fun d hd => by
    have hdp : d < polys.length := by omega
    exact ⟨polys[d], List.getElem?_eq_getElem hdp, by simp [hdp], Mv.call_spec (hw _ (List.getElem_mem hdp)).len _ hx⟩
  constructor
  · rintro ⟨h1, h2⟩
    apply List.ext_getElem?
    intro d
    by_cases hd : d < n
    · obtain ⟨f, f1, v, f2, f3⟩ := h2 d hd
      obtain ⟨f', g1, g2, g3⟩ := hc d hd
      rw [f1, Option.some.injEq] at g1
      subst g1
      rw [f3] at g3
      rw [f2, Except.ok.inj g3, List.getElem?_map, List.getElem?_range hd, Option.map_some, g2]
    · rw [List.getElem?_eq_none (by omega), List.getElem?_eq_none (by simpa using Nat.not_lt.1 hd)]
  · rintro rfl
    refine ⟨by simp, fun d hd => ?_⟩
    obtain ⟨f, g1, g2, g3⟩ := hc d hd
    exact ⟨f, g1, _, by rw [List.getElem?_map, List.getElem?_range hd, Option.map_some], by rw [g2, g3]⟩

theorem sameStep_iff {n : Nat} {polys polys' : List (Dict (Zp p))} (hw : ∀ f ∈ polys, WF n f) (hp : n ≤ polys.length)
    (hw' : ∀ f ∈ polys', WF n f) (hp' : n ≤ polys'.length) {x : List (Zp p)} (hx : x.length = n) :
    SameStep n n polys polys' x ↔ ∀ d < n, MvPolynomial.aeval (fun j : Fin n => x.getD j 0) (toMv n (polys.getD d [])) =
      MvPolynomial.aeval (fun j : Fin n => x.getD j 0) (toMv n (polys'.getD d [])) := by
  constructor
  · rintro ⟨y, h1, h2⟩ d hd
    rw [isStep_iff hw hp hx] at h1
    rw [isStep_iff hw' hp' hx, h1, List.map_inj_left] at h2
    exact h2 d (List.mem_range.2 hd)
  · intro h
    refine ⟨_, (isStep_iff hw hp hx _).2 rfl, (isStep_iff hw' hp' hx _).2 (List.map_inj_left.2 fun d hd => h d (List.mem_range.1 hd))⟩

/-- The states on a curve from which two computations of degree at most `m` lead to the same state are few, unless they are all. -/
theorem same_few {n m k N : Nat} {polys polys' : List (Dict (Zp p))} (hw : ∀ f ∈ polys, WF n f) (hp : n ≤ polys.length)
    (hw' : ∀ f ∈ polys', WF n f) (hp' : n ≤ polys'.length) (hm : ∀ f ∈ polys, (toMv n f).totalDegree ≤ m)
    (hm' : ∀ f ∈ polys', (toMv n f).totalDegree ≤ m) (P : Nat → (Zp p)[X]) (hP : ∀ j < n, (P j).natDegree ≤ k) {w : Zp p}
    (ho : orderOf w = N) (i : Nat) (hi : ¬ SameStep n n polys polys' ((List.range n).map fun j => (P j).eval (w ^ i)))
    (I : Finset Nat) (hI : ∀ y ∈ I, y < N ∧ SameStep n n polys polys' ((List.range n).map fun j => (P j).eval (w ^ y))) :
    I.card ≤ m * k := by
  classical
  have hst : ∀ x : Zp p, (fun j : Fin n => ((List.range n).map fun j => (P j).eval x).getD j 0) = fun j : Fin n => (P j).eval x := by
    intro x
    funext j
    simp
  have hlen : ∀ x : Zp p, ((List.range n).map fun j => (P j).eval x).length = n := by simp
  simp only [sameStep_iff hw hp hw' hp' (hlen _), hst] at hi hI
  push Not at hi
  obtain ⟨d, hd, hne⟩ := hi
  have hev : ∀ (f : Dict (Zp p)) (x : Zp p), (MvPolynomial.aeval (fun j : Fin n => P j) (toMv n f)).eval x =
      MvPolynomial.aeval (fun j : Fin n => (P j).eval x) (toMv n f) := by
    intro f x
    have := MvPolynomial.comp_aeval_apply (f := fun j : Fin n => P j) (Polynomial.aeval (R := Zp p) x) (toMv n f)
    simpa [Polynomial.coe_aeval_eq_eval] using this
  set A := MvPolynomial.aeval (fun j : Fin n => P j) (toMv n (polys.getD d [])) with hA
  set B := MvPolynomial.aeval (fun j : Fin n => P j) (toMv n (polys'.getD d [])) with hB
  have hmem : ∀ {l : List (Dict (Zp p))}, n ≤ l.length → l.getD d [] ∈ l := fun {l} hl => by
    have : d < l.length := by omega
    simp [this]
  have dA : A.natDegree ≤ m * k := MvPolynomial.aeval_natDegree_le _ (hm _ (hmem hp)) _ fun j => hP j j.2
  have dB : B.natDegree ≤ m * k := MvPolynomial.aeval_natDegree_le _ (hm' _ (hmem hp')) _ fun j => hP j j.2
  have hAB : A - B ≠ 0 := fun h => hne (by
    have := congrArg (fun Q => Polynomial.eval (w ^ i) Q) h
    simp only [Polynomial.eval_sub, Polynomial.eval_zero, sub_eq_zero, hA, hB, hev] at this
    exact this)
  have hinj : Set.InjOn (fun y => w ^ y) (I : Set Nat) := fun a ha b hb hab => pow_inj_of_order ho a b (hI a ha).1 (hI b hb).1 hab
  rw [← Finset.card_image_of_injOn hinj]
  refine (Polynomial.card_le_degree_of_subset_roots (p := A - B) ?_).trans ((Polynomial.natDegree_sub_le _ _).trans (max_le dA dB))
  intro x hx
  obtain ⟨y, hy, rfl⟩ := Finset.mem_image.1 (show x ∈ Finset.image _ I from hx)
  rw [Polynomial.mem_roots hAB, Polynomial.IsRoot, Polynomial.eval_sub, sub_eq_zero, hA, hB, hev, hev]
  exact (hI y hy).2 d hd

/-- **C166** for a committed trace: let the first root of the proof commit to the values of polynomials `P` with at most `steps` coefficients,
as that of an honest proof does, and let two computations of degree at most `m` lead to different states from one state on them, for
instance from one state of the trace. If the second root and the hash function on 32-byte strings are random, there is hardly ever a
proof accepted for both: up to rounding and collisions, `factor` positions drawn out of `N` would all have to be among `m * (steps - 1)`. -/
theorem C166_trace_partial (S : Params (Zp p)) (hl : S.last ≠ 1) (ho : orderOf S.G2 = S.precision) (hs : 2 ≤ S.steps)
    (h24 : S.precision < 2 ^ 24) (he : 2 ≤ S.ext) (hf : 1 ≤ S.factor) (N : Nat) (hN : N = S.steps * (S.ext - 1))
    (polys' : List (Dict (Zp p))) (hn : S.n = S.width) (hw : ∀ f ∈ S.polys, WF S.width f) (hw' : ∀ f ∈ polys', WF S.width f)
    (hp : S.width ≤ S.polys.length) (hp' : S.width ≤ polys'.length) (m : Nat) (hm : ∀ f ∈ S.polys, (toMv S.width f).totalDegree ≤ m)
    (hm' : ∀ f ∈ polys', (toMv S.width f).totalDegree ≤ m) (P : Nat → (Zp p)[X]) (hP : ∀ j < S.width, (P j).degree < S.steps)
    (i : Nat) (hi : ¬ SameStep S.n S.width S.polys polys' ((List.range S.width).map fun j => (P j).eval (S.G2 ^ i))) :
    fraction (fun ω : Digest × (Digest → Digest) => ∃ (other : Bytes → Bytes) (friVerify : φ → Bytes → Zp p → Nat → Nat → Py Bool)
      (pr : Proof φ) (W W' : List (List (Zp p))) (b b' : List (Nat × Nat × Zp p)), pr.lRoot = ω.1.1 ∧
        (∀ br ∈ pr.branches, ∀ y leaf, Merkle.verifyBranch (hashWith ω.2 other) pr.mRoot y br = .ok leaf →
          (List.range S.width).map (blk leaf) = (List.range S.width).map fun j => (P j).eval (S.G2 ^ y)) ∧
        verifyProof (hashWith ω.2 other) friVerify S W b pr = .ok true ∧
        verifyProof (hashWith ω.2 other) friVerify { S with polys := polys' } W' b' pr = .ok true) ≤
    (1 - (N - m * (S.steps - 1) : ℕ) * (2 ^ 32 / N : ℕ) / 2 ^ 32) ^ S.factor +
      (((S.factor - 1) / 8 : ℕ) * (((S.factor - 1) / 8 : ℕ) + 1) / 2 : ℚ) / 2 ^ 256 := by
  classical
  rw [hn] at hi
  let A : Finset Nat := (Finset.range S.precision).filter fun x => ¬ S.ext ∣ x
  have hA : A.card = N := by rw [hN]; exact nonmultiples S.steps S.ext (by omega)
  let table : Nat → List (Zp p) := fun y => (List.range S.width).map fun j => (P j).eval (S.G2 ^ y)
  let B := A.filter fun y => ¬ SameStep S.n S.width S.polys polys' (table y)
  have hPn : ∀ j < S.width, (P j).natDegree ≤ S.steps - 1 := fun j hj => by
    by_cases h0 : P j = 0
    · simp [h0]
    · have := (Polynomial.natDegree_lt_iff_degree_lt h0).2 (hP j hj)
      omega
  have hgood : (A.filter fun y => SameStep S.n S.width S.polys polys' (table y)).card ≤ m * (S.steps - 1) := by
    refine same_few hw hp hw' hp' hm hm' P hPn ho i hi _ fun y hy => ?_
    obtain ⟨h1, h2⟩ := Finset.mem_filter.1 hy
    rw [hn] at h2
    exact ⟨Finset.mem_range.1 (Finset.mem_filter.1 h1).1, h2⟩
  have hB : N - m * (S.steps - 1) ≤ B.card := by
    have := Finset.card_filter_add_card_filter_not (s := A) (fun y => SameStep S.n S.width S.polys polys' (table y))
    simp only [B]
    omega
  have hBN : B.card ≤ N := hA ▸ Finset.card_filter_le _ _
  have hBm : ∀ y ∈ B, y < S.precision ∧ ¬ S.ext ∣ y ∧ ¬ SameStep S.n S.width S.polys polys' (table y) := fun y hy => by
    obtain ⟨h1, h2⟩ := Finset.mem_filter.1 hy
    obtain ⟨h3, h4⟩ := Finset.mem_filter.1 h1
    exact ⟨Finset.mem_range.1 h3, h4, h2⟩
  refine (C166_random_partial S hl hs h24 he hf N hN polys' table B hBm).trans ?_
  gcongr
  have hq : (B.card : ℚ) * (2 ^ 32 / N : ℕ) ≤ 2 ^ 32 := by
    have : B.card * (2 ^ 32 / N) ≤ 2 ^ 32 := (Nat.mul_le_mul_right _ hBN).trans (Nat.mul_div_le _ _)
    exact_mod_cast this
  rw [sub_nonneg, div_le_one (by positivity)]
  exact hq

/-- **C166** for a committed trace and an extension factor above `3 * m`: each spot check finds out with probability at least a half. -/
theorem C166_half_partial (S : Params (Zp p)) (hl : S.last ≠ 1) (ho : orderOf S.G2 = S.precision) (hs : 2 ≤ S.steps)
    (h24 : S.precision < 2 ^ 24) (he : 2 ≤ S.ext) (hf : 1 ≤ S.factor)
    (polys' : List (Dict (Zp p))) (hn : S.n = S.width) (hw : ∀ f ∈ S.polys, WF S.width f) (hw' : ∀ f ∈ polys', WF S.width f)
    (hp : S.width ≤ S.polys.length) (hp' : S.width ≤ polys'.length) (m : Nat) (hm : ∀ f ∈ S.polys, (toMv S.width f).totalDegree ≤ m)
    (hm' : ∀ f ∈ polys', (toMv S.width f).totalDegree ≤ m) (hme : 3 * m < S.ext) (P : Nat → (Zp p)[X])
    (hP : ∀ j < S.width, (P j).degree < S.steps)
    (i : Nat) (hi : ¬ SameStep S.n S.width S.polys polys' ((List.range S.width).map fun j => (P j).eval (S.G2 ^ i))) :
    fraction (fun ω : Digest × (Digest → Digest) => ∃ (other : Bytes → Bytes) (friVerify : φ → Bytes → Zp p → Nat → Nat → Py Bool)
      (pr : Proof φ) (W W' : List (List (Zp p))) (b b' : List (Nat × Nat × Zp p)), pr.lRoot = ω.1.1 ∧
        (∀ br ∈ pr.branches, ∀ y leaf, Merkle.verifyBranch (hashWith ω.2 other) pr.mRoot y br = .ok leaf →
          (List.range S.width).map (blk leaf) = (List.range S.width).map fun j => (P j).eval (S.G2 ^ y)) ∧
        verifyProof (hashWith ω.2 other) friVerify S W b pr = .ok true ∧
        verifyProof (hashWith ω.2 other) friVerify { S with polys := polys' } W' b' pr = .ok true) ≤
    (1 / 2) ^ S.factor + (((S.factor - 1) / 8 : ℕ) * (((S.factor - 1) / 8 : ℕ) + 1) / 2 : ℚ) / 2 ^ 256 := by
  refine (C166_trace_partial S hl ho hs h24 he hf _ rfl polys' hn hw hw' hp hp' m hm hm' P hP i hi).trans (add_le_add ?_ le_rfl)
  have hprec : S.precision = S.steps * S.ext := rfl
  have hle : S.steps * (S.ext - 1) ≤ S.precision := hprec ▸ Nat.mul_le_mul_left _ (Nat.sub_le _ _)
  have h3 : 3 * (m * (S.steps - 1)) ≤ S.steps * (S.ext - 1) :=
    calc 3 * (m * (S.steps - 1)) ≤ 3 * (m * S.steps) := by gcongr; exact Nat.sub_le _ _
      _ = S.steps * (3 * m) := by ring
      _ ≤ _ := Nat.mul_le_mul_left _ (by omega)
  have hNpos : 0 < S.steps * (S.ext - 1) := Nat.mul_pos (by omega) (by omega)
  generalize S.steps * (S.ext - 1) = N at *
  generalize m * (S.steps - 1) = M at *
  have hdm := Nat.div_add_mod (2 ^ 32) N
  have hml := Nat.mod_lt (2 ^ 32) hNpos
  have hX : 2 * N ≤ 3 * (N - M) := by omega
  have hXN : N - M ≤ N := Nat.sub_le _ _
  generalize N - M = X at *
  generalize 2 ^ 32 / N = q at *
  have h9 : 2 * (N * q) ≤ 3 * (X * q) := by
    calc 2 * (N * q) = (2 * N) * q := by ring
      _ ≤ (3 * X) * q := Nat.mul_le_mul_right _ hX
      _ = _ := by ring
  have h10 : X * q ≤ N * q := Nat.mul_le_mul_right _ hXN
  have h11 : 2 ^ 31 ≤ X * q := by omega
  have h12 : X * q ≤ 2 ^ 32 := by omega
  have h11' : (2 : ℚ) ^ 31 ≤ X * q := by exact_mod_cast h11
  have h12' : (X * q : ℚ) ≤ 2 ^ 32 := by exact_mod_cast h12
  refine pow_le_pow_left₀ ?_ ?_ _
  · rw [sub_nonneg, div_le_one (by positivity)]
    exact h12'
  · rw [sub_le_comm, le_div_iff₀ (by positivity)]
    linarith

/-- The trace 1, 2, 5, 9 of `x ↦ x² + 1` modulo 17 is interpolated by `6x + 3x² + 9x³`, and `x ↦ x² + x + 6` leads from its first state to
another one. For the parameters of `C166_random_partial` the bound is that 10 positions drawn out of 12 are among 6. This meets the
hypotheses of `C166_trace_partial`. -/
example : (∀ f ∈ sqStep, WF 1 f) ∧ (∀ f ∈ ([[([0], 6), ([1], 1), ([2], 1)]] : List (Dict (Zp 17))), WF 1 f) ∧
    (∀ f ∈ sqStep, (toMv 1 f).totalDegree ≤ 2) ∧
    (∀ f ∈ ([[([0], 6), ([1], 1), ([2], 1)]] : List (Dict (Zp 17))), (toMv 1 f).totalDegree ≤ 2) ∧
    (toPoly ([0, 6, 3, 9] : List (Zp 17))).degree < 4 ∧
    ((List.range 4).map fun i => Poly.call ([0, 6, 3, 9] : List (Zp 17)) ((7 : Zp 17) ^ (4 * i))) = [1, 2, 5, 9] ∧
    ¬ SameStep 1 1 sqStep [[([0], 6), ([1], 1), ([2], 1)]]
      ((List.range 1).map fun _ => (toPoly ([0, 6, 3, 9] : List (Zp 17))).eval ((7 : Zp 17) ^ 0)) ∧
    4 * (4 - 1) - 2 * (4 - 1) = 6 := by
  have hw' : ∀ f ∈ ([[([0], 6), ([1], 1), ([2], 1)]] : List (Dict (Zp 17))), WF 1 f := by
    intro f hf
    rw [List.mem_singleton] at hf
    subst hf
    exact ⟨by decide +kernel, by decide +kernel, by decide +kernel⟩
  refine ⟨sq_wf, hw', fun f hf => (sq_degree f hf).le, fun f hf => ?_, ?_, by decide +kernel, ?_, rfl⟩
  · rw [← Mv.degree_eq (hw' f hf)]
    rw [List.mem_singleton] at hf
    subst hf
    decide +kernel
  · exact lt_of_le_of_lt (Polynomial.degree_le_of_natDegree_le (natDegree_toPoly_le (n := 3) le_rfl)) (by decide)
  · have h : (toPoly ([0, 6, 3, 9] : List (Zp 17))).eval ((7 : Zp 17) ^ 0) = 1 := by
      rw [← Polynomial.coe_aeval_eq_eval, ← Poly.call_spec]
      decide +kernel
    rw [h]
    exact sq_steps.2 1 (by decide +kernel)

/-- With steps of degree 1 and the extension factor 4, `x ↦ 2x` and `x ↦ 2x + 1` modulo 17 differ on the trace 1, 2, 4, 8, interpolated by
`8 + 1x + 3x² + 6x³`. This meets the hypotheses of `C166_half_partial`. -/
example : (∀ f ∈ ([[([1], 2)]] : List (Dict (Zp 17))), WF 1 f ∧ (toMv 1 f).totalDegree ≤ 1) ∧
    (∀ f ∈ ([[([0], 1), ([1], 2)]] : List (Dict (Zp 17))), WF 1 f ∧ (toMv 1 f).totalDegree ≤ 1) ∧
    (toPoly ([8, 1, 3, 6] : List (Zp 17))).degree < 4 ∧
    ((List.range 4).map fun i => Poly.call ([8, 1, 3, 6] : List (Zp 17)) ((7 : Zp 17) ^ (4 * i))) = [1, 2, 4, 8] ∧
    ¬ SameStep 1 1 [[([1], 2)]] [[([0], 1), ([1], 2)]]
      ((List.range 1).map fun _ => (toPoly ([8, 1, 3, 6] : List (Zp 17))).eval ((7 : Zp 17) ^ 0)) ∧ 3 * 1 < 4 ∧
    (do
      let S ← mkStark (K := Zp 17) 100 17 4 4 1 1 [[([1], 2)]] 10
      .ok (decide (S.G2 = 7 ∧ S.last = 13 ∧ S.steps = 4 ∧ S.precision = 16 ∧ S.ext = 4 ∧ S.n = 1 ∧ S.width = 1 ∧ S.factor = 10)) : Py Bool)
      = .ok true := by
  have hw : ∀ f ∈ ([[([1], 2)]] : List (Dict (Zp 17))), WF 1 f := by
    intro f hf
    rw [List.mem_singleton] at hf
    subst hf
    exact ⟨by decide +kernel, by decide +kernel, by decide +kernel⟩
  have hw' : ∀ f ∈ ([[([0], 1), ([1], 2)]] : List (Dict (Zp 17))), WF 1 f := by
    intro f hf
    rw [List.mem_singleton] at hf
    subst hf
    exact ⟨by decide +kernel, by decide +kernel, by decide +kernel⟩
  refine ⟨fun f hf => ⟨hw f hf, ?_⟩, fun f hf => ⟨hw' f hf, ?_⟩, ?_, by decide +kernel, ?_, by norm_num, by decide +kernel⟩
  · rw [← Mv.degree_eq (hw f hf)]
    rw [List.mem_singleton] at hf
    subst hf
    decide +kernel
  · rw [← Mv.degree_eq (hw' f hf)]
    rw [List.mem_singleton] at hf
    subst hf
    decide +kernel
  · exact lt_of_le_of_lt (Polynomial.degree_le_of_natDegree_le (natDegree_toPoly_le (n := 3) le_rfl)) (by decide)
  · have h : (toPoly ([8, 1, 3, 6] : List (Zp 17))).eval ((7 : Zp 17) ^ 0) = 1 := by
      rw [← Polynomial.coe_aeval_eq_eval, ← Poly.call_spec]
      decide +kernel
    rw [h]
    rintro ⟨next, h1, h2⟩
    have e1 := (nextState_iff _ _ _ _ _).2 h1
    have e2 := (nextState_iff _ _ _ _ _).2 h2
    have : nextState 1 1 [[([1], 2)]] [(1 : Zp 17)] ≠ nextState 1 1 [[([0], 1), ([1], 2)]] [(1 : Zp 17)] := by decide +kernel
    exact this (e1.trans e2.symm)

end Verif.Props
