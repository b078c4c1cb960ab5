import Verif.Props.StarkProtocol
/-!
# C50, C74: step polynomials of too high a degree

`STARK` accepts step polynomials of any degree, whatever the extension factor.  The remainder polynomial of a valid execution can then
have more coefficients than there are evaluation points, the transform of it is wrong, and the proof made of the execution is refused.
-/

namespace Verif.Props
open Poly Stark Air PolyUtils
open Mv (Dict toMv)

/-- One step of `x ↦ x⁸` from 3 modulo 17, with extension factor 2. -/
def eighthStep : List (Dict (Zp 17)) := [[([8], 1)]]
def eighthW : List (List (Zp 17)) := [[3, 16]]
def eighthB : List (Nat × Nat × Zp 17) := [(0, 0, 3)]

theorem eighth_wf : ∀ f ∈ eighthStep, Mv.WF 1 f := by
  simp only [eighthStep, List.mem_singleton, forall_eq]
  exact ⟨by decide, by decide +kernel, by decide⟩

theorem eighth_computation : Computation 17 1 1 1 eighthStep := by
  refine ⟨by norm_num, by norm_num, by norm_num, by norm_num, ⟨by norm_num, by decide +kernel, ?_⟩, by norm_num, by norm_num,
    by decide, eighth_wf⟩
  intro j h1 h2
  norm_num at h2
  interval_cases j <;> decide +kernel

theorem eighth_isDegree : IsDegree 1 eighthStep 8 := by
  have : ∀ f ∈ eighthStep, (toMv 1 f).totalDegree = 8 := by
    intro f hf
    rw [← Mv.degree_eq (eighth_wf f hf)]
    simp only [eighthStep, List.mem_singleton] at hf
    subst hf
    rfl
  exact ⟨⟨_, List.mem_singleton.2 rfl, this _ (List.mem_singleton.2 rfl)⟩, fun f hf => (this f hf).le⟩

theorem eighth_execution : IsExecution 1 (2 ^ 1) eighthStep eighthB eighthW := by
  refine ⟨rfl, by simp [eighthW], ?_, ?_⟩
  · intro i hi
    rw [← nextState_iff]
    have hi' : i < 1 := by omega
    interval_cases i
    decide +kernel
  · intro d col h
    match d, h with
    | 0, h => simp [eighthW] at h; subst h; exact ⟨0, 0, 3, rfl, rfl⟩

theorem order_four : orderOf (4 : Zp 17) = 4 := by
  refine (orderOf_eq_iff (by norm_num)).2 ⟨by decide +kernel, fun m h1 h2 => ?_⟩
  interval_cases m <;> decide +kernel

theorem order_sixteen : orderOf (16 : Zp 17) = 2 := by
  refine (orderOf_eq_iff (by norm_num)).2 ⟨by decide +kernel, fun m h1 h2 => ?_⟩
  interval_cases m
  decide +kernel

theorem eighth_stark (factor fuel : Nat) (hf : 4 ≤ fuel) :
    mkStark (K := Zp 17) fuel 17 (2 ^ 1) (2 ^ 1) 1 1 eighthStep factor =
      .ok { p := 17, steps := 2, ext := 2, width := 1, n := 1, polys := eighthStep, factor, G2 := 4, G1 := 16, last := 16 } := by
  have h7 : (7 : Zp 17) ^ ((17 - 1) / (2 ^ 1 * 2 ^ 1)) = 4 := by decide +kernel
  have h4 : (4 : Zp 17) ^ 2 = 16 := by decide +kernel
  simp only [mkStark, h7, Utils.getPowerCycle_ok (4 : Zp 17) (by rw [order_four]; norm_num) fuel (by rw [order_four]; omega), order_four]
  norm_num [bind, Except.bind, pyIdx, List.range_succ, h4]

theorem eighth_fft (fuel : Nat) (hf : 4 ≤ fuel) :
    tracePolys fuel 17 (16 : Zp 17) eighthW = .ok [[1, 2]] ∧
    pyMap (FFT.nbFft fuel 17 (4 : Zp 17)) [[1, 2], [0, 1, 11, 0, 15, 5, 12, 16], []] =
      .ok [[3, 9, 16, 10], [12, 10, 10, 2, 0, 0, 0, 0], [0, 0, 0, 0]] := by
  have h1 := FFT.rootz_ok (16 : Zp 17) 2 (by norm_num) order_sixteen fuel (by omega)
  have h2 := FFT.rootz_ok (4 : Zp 17) 4 (by norm_num) order_four fuel (by omega)
  have g1 := FFT.rootz_ok (16 : Zp 17) 2 (by norm_num) order_sixteen 4 (by omega)
  have g2 := FFT.rootz_ok (4 : Zp 17) 4 (by norm_num) order_four 4 (by omega)
  have e1 : FFT.nbInvFft fuel 17 (16 : Zp 17) = FFT.nbInvFft 4 17 (16 : Zp 17) := by
    funext f
    simp only [FFT.nbInvFft, FFT.fft1d, h1, g1]
  have e2 : FFT.nbFft fuel 17 (4 : Zp 17) = FFT.nbFft 4 17 (4 : Zp 17) := by
    funext f
    simp only [FFT.nbFft, FFT.fft1d, h2, g2]
  rw [tracePolys, e1, e2]
  constructor <;> decide +kernel

theorem eighth_polys :
    (∃ cps, constraintPolys 1 eighthStep [[1, 2]] (16 : Zp 17) = .ok cps ∧
      remainderPolys cps 2 16 = .ok [[0, 1, 11, 0, 15, 5, 12, 16]]) ∧
    boundaryPolys [[1, 2]] eighthW eighthB (16 : Zp 17) 1 = .ok [[]] := by
  have h : (do let cps ← constraintPolys 1 eighthStep [[1, 2]] (16 : Zp 17); remainderPolys cps 2 16 : Py _) =
      .ok [[0, 1, 11, 0, 15, 5, 12, 16]] := by decide +kernel
  exact ⟨(bind_iff _ _ _).1 h, by decide +kernel⟩

/-- The parameters of this computation. -/
def eighthS (factor : Nat) : Params (Zp 17) :=
  { p := 17, steps := 2, ext := 2, width := 1, n := 1, polys := eighthStep, factor, G2 := 4, G1 := 16, last := 16 }

theorem eighth_refused {φ : Type} (blake : Bytes → Bytes) (hbl : ∀ x, (blake x).length = 32) (factor : Nat)
    (friProve : List (Zp 17) → Zp 17 → Nat → Nat → Py φ) (fuel : Nat) (hf : 4 ≤ fuel) (pr : Proof φ)
    (hpr : mkProof fuel blake friProve (eighthS factor) eighthW eighthB = .ok pr) (positions : List Int)
    (hps : Utils.getPseudorandomIndices blake pr.lRoot (2 ^ 1 * 2 ^ 1 : Nat) (80 : Nat) (2 ^ 1 : Nat) = .ok positions) (k : Nat) (pos : Int)
    (hpos : positions[k]? = some pos) : verifyAt blake (eighthS factor) eighthW eighthB pr k pos.toNat ≠ .ok () := by
  intro hat
  obtain ⟨⟨cps, c1, c2⟩, c3⟩ := eighth_polys
  obtain ⟨e1, e2⟩ := eighth_fft fuel hf
  set S := eighthS factor with hS
  have hprec : S.precision = 4 := rfl
  obtain ⟨mtree, mRoot, m1, m2, m3⟩ := commit_spec (p := 17) blake (by norm_num) [[1, 2], [0, 1, 11, 0], []] 4 1 2 (by norm_num)
    (by norm_num) rfl
  have hm : Merkle.merkelizePolynomialEvaluations blake
      (([[3, 9, 16, 10], [12, 10, 10, 2, 0, 0, 0, 0], [0, 0, 0, 0]] : List (List (Zp 17))).map fun row => row.map enc) = .ok mtree := by
    rw [← m1]
    have hz : Merkle.zipStar (([[3, 9, 16, 10], [12, 10, 10, 2, 0, 0, 0, 0], [0, 0, 0, 0]] : List (List (Zp 17))).map fun row => row.map enc) =
        Merkle.zipStar ((([[1, 2], [0, 1, 11, 0], []] : List (List (Zp 17))).map (FFT.dft 4 (2 ^ 2))).map fun row => row.map enc) := by
      have : ([[1, 2], [0, 1, 11, 0], []] : List (List (Zp 17))).map (FFT.dft 4 (2 ^ 2)) =
        [[3, 9, 16, 10], [12, 10, 10, 2], [0, 0, 0, 0]] := by
        simp only [List.map_cons, List.map_nil, FFT.dft, ← call_eq_eval]
        decide +kernel
      rw [this]
      rfl
    unfold Merkle.merkelizePolynomialEvaluations
    rw [hz]
  -- what the prover did
  simp only [mkProof] at hpr
  obtain ⟨P, p1, cps', p2, D, p3, B, p4, ev, p5, mt, p6, mR, p7, l, p8, hpr⟩ := by simpa only [bind_iff] using hpr
  rw [show S.G1 = 16 from rfl, show S.p = 17 from rfl, e1] at p1
  cases p1
  rw [show S.n = 1 from rfl, show S.polys = eighthStep from rfl, show S.G1 = 16 from rfl, c1] at p2
  cases p2
  rw [show S.steps = 2 from rfl, show S.last = 16 from rfl, c2] at p3
  cases p3
  rw [show S.last = 16 from rfl, show S.width = 1 from rfl, c3] at p4
  cases p4
  rw [show S.G2 = 4 from rfl, show S.p = 17 from rfl] at p5
  have p5' := e2.symm.trans p5
  cases p5'
  rw [hm] at p6
  cases p6
  rw [pyIdx_iff, m2] at p7
  cases p7
  cases l with
  | none => simp at hpr
  | some l =>
    obtain ⟨lev, q1, ltree, q2, brs, q3, lRoot, q4, deg, q5, fri, q6, q7⟩ := by simpa only [bind_iff] using hpr
    cases q7
    obtain ⟨root, r1, positions, r2, bs, r3, r4⟩ := by simpa only [spotChecks, bind_iff] using q3
    rw [q4] at r1
    cases r1
    cases r4
    obtain ⟨o', o1', ol, o3⟩ := C36_indices_exclude blake hbl lRoot S.precision 80 S.ext (by norm_num [hprec]) (by norm_num [hprec])
      (by norm_num [hS, eighthS])
    have r2' := o1'.symm.trans r2
    cases r2'
    have h3' := r2.symm.trans hps
    cases h3'
    obtain ⟨z1, z2, z3⟩ := o3 pos (List.mem_of_getElem? hpos)
    obtain ⟨bb, b1, b2⟩ := ((pyMap_iff _ _ _).1 r3).2 k pos hpos
    obtain ⟨br1, u1, br2, u2, br3, u3, u4⟩ := by simpa only [bind_iff] using b2
    cases u4
    have hlt : pos.toNat < 4 := by rw [hprec] at z2; omega
    obtain ⟨br1', leaf1, w1, -, w2, w3⟩ := m3 pos.toNat hlt
    obtain ⟨br2', leaf2, y1, -, y2, y3⟩ := m3 ((pos.toNat + 2) % 4) (Nat.mod_lt _ (by norm_num))
    rw [u1] at w1
    cases w1
    have y1' := u2.symm.trans y1
    cases y1'
    obtain ⟨a1, a2, a3, x1, x2, x3, d1, d2, d3, f1, f2, f3, -, ⟨v, g1, g2⟩, -⟩ := (verifyAt_iff _ _ _ _ _ _ _
      (show (16 : Zp 17) ≠ 1 by decide +kernel)).1 hat
    have hb3 : ∀ b ∈ bs, b.length = 3 := by
      intro b hb
      obtain ⟨j, hj, rfl⟩ := List.getElem_of_mem hb
      have hlen := ((pyMap_iff _ _ _).1 r3).1
      obtain ⟨b', c1, c2⟩ := ((pyMap_iff _ _ _).1 r3).2 j (positions[j]'(by omega)) (by simp)
      rw [(List.getElem?_eq_some_iff.1 c1).2]
      simp only [bind_iff] at c2
      obtain ⟨_, -, _, -, _, -, c3⟩ := c2
      cases c3
      rfl
    have d1' := (flatten3 bs hb3 k 0 _ (by omega) b1).symm.trans d1
    have d2' := (flatten3 bs hb3 k 1 _ (by omega) b1).symm.trans d2
    cases d1'
    cases d2'
    have f1' := w2.symm.trans f1
    cases f1'
    have f2' := y2.symm.trans f2
    cases f2'
    obtain ⟨f, t1, v0, t2, t3⟩ := g1.2 0 (by norm_num [hS, eighthS])
    obtain ⟨vd, t4, t5⟩ := g2 0 (by norm_num [hS, eighthS])
    rw [t2] at t4
    cases t4
    cases t1
    have i1 := w3 0 _ rfl
    have i2 := w3 1 _ rfl
    have i3 := y3 0 _ rfl
    change blk leaf2 0 = v0 + (((4 : Zp 17) ^ pos.toNat) ^ 2 - 1) / ((4 : Zp 17) ^ pos.toNat - 16) * blk leaf1 1 at t5
    change Mv.call 1 [([8], 1)] [blk leaf1 0] = .ok v0 at t3
    rw [i3, i2] at t5
    rw [i1] at t3
    have hodd : pos.toNat = 1 ∨ pos.toNat = 3 := by
      have : ¬ (2 : Int) ∣ pos := z3
      omega
    rcases hodd with h | h <;> rw [h] at t3 t5 <;> simp only [← call_eq_eval] at t3 t5
    · have : Mv.call 1 [([8], (1 : Zp 17))] [call [(1 : Zp 17), 2] ((4 : Zp 17) ^ 1)] = .ok 1 := by decide +kernel
      have := this.symm.trans t3
      cases this
      revert t5
      decide +kernel
    · have : Mv.call 1 [([8], (1 : Zp 17))] [call [(1 : Zp 17), 2] ((4 : Zp 17) ^ 3)] = .ok 16 := by decide +kernel
      have := this.symm.trans t3
      cases this
      revert t5
      decide +kernel

theorem eighth_output : ∀ col ∈ eighthW, ∀ out, col.getLast? = some out → out ≠ 0 := by
  simp only [eighthW, List.mem_singleton, forall_eq]
  intro out h
  simp at h
  subst h
  decide +kernel

/-- **C50** fails for step polynomials of degree above `extension_factor + 1`, which `STARK` takes without complaint: the step
`x ↦ x⁸` modulo 17, two steps and extension factor 2.  The witness is a valid execution with a non-zero output.  With any hash function
of 32 bytes and any proximity test, the checks raise at each of the 80 positions sampled from a proof that `mk_proof` returns. -/
theorem C50_degree_refuted {φ : Type} (blake : Bytes → Bytes) (hbl : ∀ x, (blake x).length = 32) (factor : Nat)
    (friProve : List (Zp 17) → Zp 17 → Nat → Nat → Py φ) (fuel : Nat) (hf : 4 ≤ fuel) :
    Computation 17 1 1 1 eighthStep ∧ IsDegree 1 eighthStep 8 ∧ IsExecution 1 (2 ^ 1) eighthStep eighthB eighthW ∧
    (∀ col ∈ eighthW, ∀ out, col.getLast? = some out → out ≠ 0) ∧
    ∃ S, mkStark fuel 17 (2 ^ 1) (2 ^ 1) 1 1 eighthStep factor = .ok S ∧
      ∀ pr, mkProof fuel blake friProve S eighthW eighthB = .ok pr →
        ∃ positions, Utils.getPseudorandomIndices blake pr.lRoot (2 ^ 1 * 2 ^ 1 : Nat) (80 : Nat) (2 ^ 1 : Nat) = .ok positions ∧
          positions.length = 80 ∧
          ∀ (i : Nat) (pos : Int), positions[i]? = some pos → verifyAt blake S eighthW eighthB pr i pos.toNat ≠ .ok () := by
  refine ⟨eighth_computation, eighth_isDegree, eighth_execution, eighth_output, _, eighth_stark factor fuel hf, fun pr hpr => ?_⟩
  obtain ⟨o, h1, h2, -⟩ := C36_indices_exclude blake hbl pr.lRoot (2 ^ 1 * 2 ^ 1 : Nat) 80 (2 ^ 1 : Nat) (by norm_num) (by norm_num)
    (by norm_num)
  exact ⟨o, h1, h2, eighth_refused blake hbl factor friProve fuel hf pr hpr o h1⟩

/-- **C74** fails for the same execution: with any hash function of 32 bytes, any proximity test and any sampling factor of at least 1,
a proof that `mk_proof` returns is not accepted. -/
theorem C74_degree_refuted {φ : Type} (blake : Bytes → Bytes) (hbl : ∀ x, (blake x).length = 32) (factor : Nat) (h1 : 1 ≤ factor)
    (h80 : factor ≤ 80) (friProve : List (Zp 17) → Zp 17 → Nat → Nat → Py φ) (friVerify : φ → Bytes → Zp 17 → Nat → Nat → Py Bool)
    (fuel : Nat) (hf : 4 ≤ fuel) :
    Computation 17 1 1 1 eighthStep ∧ IsDegree 1 eighthStep 8 ∧ IsExecution 1 (2 ^ 1) eighthStep eighthB eighthW ∧
    (∀ col ∈ eighthW, ∀ out, col.getLast? = some out → out ≠ 0) ∧
    ∃ S, mkStark fuel 17 (2 ^ 1) (2 ^ 1) 1 1 eighthStep factor = .ok S ∧
      ∀ pr, mkProof fuel blake friProve S eighthW eighthB = .ok pr → verifyProof blake friVerify S eighthW eighthB pr ≠ .ok true := by
  refine ⟨eighth_computation, eighth_isDegree, eighth_execution, eighth_output, _, eighth_stark factor fuel hf, fun pr hpr hv => ?_⟩
  obtain ⟨-, deg', positions', -, -, v3, v4⟩ := (verifyProof_iff _ _ _ _ _ _ _).1 hv
  obtain ⟨o, o1, o2⟩ := C36_indices_prefix blake hbl pr.lRoot (2 ^ 1 * 2 ^ 1 : Nat) (2 ^ 1 : Nat) factor 80 (by norm_num) (by norm_num)
    (.inr (by norm_num)) h80
  obtain ⟨o', o1', ol, -⟩ := C36_indices_exclude blake hbl pr.lRoot (2 ^ 1 * 2 ^ 1 : Nat) 80 (2 ^ 1 : Nat) (by norm_num) (by norm_num)
    (by norm_num)
  have e := o1.symm.trans o1'
  cases e
  have v3' := o2.symm.trans v3
  cases v3'
  have hpos : o[0]? = some (o[0]'(by omega)) := List.getElem?_eq_getElem _
  exact eighth_refused blake hbl factor friProve fuel hf pr hpr o o1 0 _ hpos
    (v4 0 _ (by rw [List.getElem?_take_of_lt h1]; exact hpos))

/-- With the toy hash and a proximity test that accepts everything, the honest proof is made, and refused with `AssertionError`. This
meets the hypotheses of `C50_degree_refuted` and `C74_degree_refuted`. -/
example : (∀ x, (sqHash x).length = 32) ∧
    (do
      let S ← mkStark (K := Zp 17) 100 17 2 2 1 1 eighthStep 10
      let pr ← mkProof 100 sqHash (fun _ _ _ _ => .ok ()) S eighthW eighthB
      .ok pr.branches.length : Py Nat) = .ok 240 ∧
    (do
      let S ← mkStark (K := Zp 17) 100 17 2 2 1 1 eighthStep 10
      let pr ← mkProof 100 sqHash (fun _ _ _ _ => .ok ()) S eighthW eighthB
      verifyProof sqHash (fun _ _ _ _ _ => .ok true) S eighthW eighthB pr : Py Bool) = .error .assertion :=
  ⟨sqHash_length, by decide +kernel, by decide +kernel⟩

end Verif.Props
