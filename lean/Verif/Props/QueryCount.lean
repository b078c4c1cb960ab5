import Verif.Proofs.QueryCount
import Verif.Props.GeneratedProofs
/-!
# C135: verification is cheap

How often the verifiers call the hash function, for every proof they may be sent, and for the proofs the provers make; and what they read of
the witness.  `Determined` is in `Spec/QueryCount`.
-/

namespace Verif.Props
open Verif.Spec Verif.Stark Verif.SmoothFri Verif.Compression Verif.QueryCount Verif.PolyUtils Verif.Mv

variable {p : Nat} [Fact p.Prime]

/-- **C135** (proximity). Whatever proof it is sent, `verify_proximity_proof` uses the hash function no more often than there are byte strings in
the proof, and one more time per eight spot checks of each layer. -/
theorem C135_fri (blake : Bytes → Bytes) (hbl : ∀ x, (blake x).length = 32) (fuel : Nat) (prf : List (Bytes × List (List (List Bytes))) × List Bytes)
    (root : Bytes) (w : Zp p) (d e F : Nat) :
    Determined (fun b => verify fuel b prf root w d e F) blake (prf.1.length * ((F + 7) / 8) + (friObjects prf).length) :=
  fri_determined hbl fuel prf root w d e F

/-- **C135** (STARK). Whatever proof it is sent, `verify_proof` uses the hash function no more often than there are byte strings in the branches
and in the proof of proximity, and one more time per eight spot checks.  (Its four calls for challenges it does not use are not counted.) -/
theorem C135_stark (blake : Bytes → Bytes) (hbl : ∀ x, (blake x).length = 32) (fuel : Nat) (S : Params (Zp p)) (W : List (List (Zp p)))
    (boundary : List (Nat × Nat × Zp p)) (pr : Proof (List (Bytes × List (List (List Bytes))) × List Bytes)) (F : Nat) :
    Determined (fun b => verifyProof b (fun prf root w d e => verify fuel b prf root w d e F) S W boundary pr) blake
      (pr.fri.1.length * ((F + 7) / 8) + (friObjects pr.fri).length + ((S.factor + 7) / 8 + pr.branches.flatten.length)) := by
  rw [List.length_flatten]
  exact stark_determined hbl (fun b prf root w d e => verify fuel b prf root w d e F) S W boundary pr _ fun d => fri_determined hbl fuel _ _ _ _ _ F

/-- **C135** (witness). Of the witness `verify_proof` reads the last entry of each column and nothing else: with any other witness that ends
in the same entries its outcome is the same. -/
theorem C135_witness {φ : Type _} (blake : Bytes → Bytes) (friVerify : φ → Bytes → Zp p → Nat → Nat → Py Bool) (S : Params (Zp p))
    (W W' : List (List (Zp p))) (boundary : List (Nat × Nat × Zp p)) (pr : Proof φ)
    (hW : ∀ i < S.width, (W[i]?).map List.getLast? = (W'[i]?).map List.getLast?) :
    verifyProof blake friVerify S W boundary pr = verifyProof blake friVerify S W' boundary pr := by
  have hb : ∀ (last x : Zp p) (P B : List (Zp p)), pyMap (checkBoundary W boundary last x P B) (List.range S.width) =
      pyMap (checkBoundary W' boundary last x P B) (List.range S.width) := by
    intro last x P B
    have : ∀ i ∈ List.range S.width, checkBoundary W boundary last x P B i = checkBoundary W' boundary last x P B i := by
      intro i hi
      have h := hW i (List.mem_range.1 hi)
      have e : (do let row ← pyIdx W i; pyLast row : Py (Zp p)) = (do let row ← pyIdx W' i; pyLast row : Py (Zp p)) := by
        simp only [pyIdx]
        cases h1 : W[i]? with
        | none =>
          cases h2 : W'[i]? with
          | none => rfl
          | some r' => rw [h1, h2] at h; cases h
        | some r =>
          cases h2 : W'[i]? with
          | none => rw [h1, h2] at h; cases h
          | some r' =>
            rw [h1, h2] at h
            have h : r.getLast? = r'.getLast? := by simpa using h
            simp [bind, Except.bind, pyLast, h]
      have assoc : ∀ (V : List (List (Zp p))), checkBoundary V boundary last x P B i = (do
          let con ← pyIdx boundary i
          let out ← (do let row ← pyIdx V i; pyLast row : Py (Zp p))
          let q ← lagrangeInterp2 [1, last] [con.2.2, out]
          let a ← pyIdx P i
          let b ← pyIdx B i
          pyAssert (decide (a - b * Poly.call (zeroPoly2 last) x - Poly.call q x = 0))) := by
        intro V
        simp only [checkBoundary, bind, Except.bind]
        cases pyIdx boundary i with
        | error e => rfl
        | ok con => cases pyIdx V i <;> rfl
      rw [assoc W, assoc W', e]
    generalize List.range S.width = l at this ⊢
    induction l with
    | nil => rfl
    | cons i l ih =>
      simp only [pyMap]
      rw [this i (by simp), ih fun j hj => this j (List.mem_cons_of_mem _ hj)]
  have hv : ∀ i pos, verifyAt blake S W boundary pr i pos = verifyAt blake S W' boundary pr i pos := by
    intro i pos
    simp only [verifyAt, hb]
  simp only [verifyProof, hv]

theorem proveRec_layers (fuel : Nat) (blake : Bytes → Bytes) (e : Nat) : ∀ (depth : Nat) (f : List (Zp p)) (w : Zp p) (d F : Nat)
    (prf : FriProof), proveRec fuel blake depth f w d e F = .ok prf → 4 ^ prf.1.length ≤ max d 1
  | 0, _, _, _, _, _, h => by cases h
  | depth + 1, f, w, d, F, prf, h => by
    rw [proveRec] at h
    obtain ⟨values, hv, h⟩ := bind_inv h
    by_cases h16 : d ≤ 16
    · rw [if_pos h16] at h
      obtain ⟨out, _, h⟩ := bind_inv h
      cases h
      simp
    · rw [if_neg h16] at h
      obtain ⟨fo, hfold, h⟩ := bind_inv h
      obtain ⟨root2, hr, h⟩ := bind_inv h
      obtain ⟨ys, hys, h⟩ := bind_inv h
      obtain ⟨branches, hb, h⟩ := bind_inv h
      obtain ⟨g', hg, h⟩ := bind_inv h
      obtain ⟨rest, hrest, h⟩ := bind_inv h
      cases h
      have ih := proveRec_layers fuel blake e depth _ _ _ _ rest hrest
      simp only [List.length_cons, pow_succ]
      omega

theorem objects_le_count (prf : FriProof) : (friObjects prf).length ≤ friCount prf := by
  rw [objects_length]
  simp only [friCount]
  have : ∀ it : Item, 1 + it.2.flatten.flatten.length ≤ 2 + (it.2.map fun y => 1 + (y.map fun b => b.length + 1).sum).sum := by
    intro it
    have hy : ∀ y : List (List Bytes), y.flatten.length ≤ 1 + (y.map fun b => b.length + 1).sum := by
      intro y
      induction y with
      | nil => simp
      | cons b y ih => simp only [List.flatten_cons, List.length_append, List.map_cons, List.sum_cons]; omega
    have : ∀ ys : List (List (List Bytes)), ys.flatten.flatten.length ≤ (ys.map fun y => 1 + (y.map fun b => b.length + 1).sum).sum := by
      intro ys
      induction ys with
      | nil => simp
      | cons y ys ih =>
        have := hy y
        simp only [List.flatten_cons, List.flatten_append, List.length_append, List.map_cons, List.sum_cons]
        omega
    have := this it.2
    omega
  have : ∀ its : List Item, (its.map fun it => 1 + it.2.flatten.flatten.length).sum ≤
      (its.map fun it => 2 + (it.2.map fun y => 1 + (y.map fun b => b.length + 1).sum).sum).sum := by
    intro its
    induction its with
    | nil => simp
    | cons it its ih =>
      have := this it
      simp only [List.map_cons, List.sum_cons]
      omega
  exact (Nat.add_le_add_right (this prf.1) _).trans (Nat.add_le_add_right (Nat.le_succ _) _)

theorem generated_bound (hp2 : p ≤ 2 ^ 256) (blake : Bytes → Bytes) (hbl : ∀ x, (blake x).length = 32) (w : Zp p) (k : Nat)
    (hk : 2 ≤ k) (hk2 : k < 26) (hw : HasOrder w (2 ^ k)) (fuel : Nat) (hfuel : 2 ^ k ≤ fuel) (f : List (Zp p)) (hl : f.length ≤ 2 ^ k)
    (d : Nat) (hd : d ≤ 2 ^ k) (hc : 2 ^ k ≤ 1024 * (d + 1)) (e : Nat) (he : e = 0 ∨ 2 ≤ e) (F : Nat) (hF : F ≤ 40) (F' : Nat) (hF' : F' ≤ 40)
    (prf : FriProof) (h : prove fuel blake f w d e F = .ok prf) :
    prf.1.length * ((F' + 7) / 8) + (friObjects prf).length ≤ 50 * k ^ 2 + 284 * k + 17409 := by
  have h1 := objects_le_count prf
  rw [C130_fri_size hp2 blake hbl w k hk hk2 hw fuel hfuel f hl d hd e he F prf h] at h1
  have h2 := proofEntries_le d k F hF hd hc
  have h3 := proveRec_layers fuel blake e _ f w d F prf h
  have h4 : 2 * prf.1.length ≤ k := by
    have : 4 ^ prf.1.length ≤ 2 ^ k := h3.trans (max_le hd Nat.one_le_two_pow)
    rw [show (4 : Nat) = 2 ^ 2 from rfl, ← pow_mul] at this
    exact (Nat.pow_le_pow_iff_right (by norm_num)).1 this
  have h5 : (F' + 7) / 8 ≤ 5 := by omega
  have := Nat.mul_le_mul_left prf.1.length h5
  omega

/-- **C135** (generated proofs of proximity). For the proof of degree below `d` of a polynomial on `2^k` points, extended at most 1024 times, the
verifier uses the hash function a number of times that grows with the square of `k` — not with the number of points. -/
theorem C135_fri_generated (hp2 : p ≤ 2 ^ 256) (blake : Bytes → Bytes) (hbl : ∀ x, (blake x).length = 32) (w : Zp p) (k : Nat)
    (hk : 2 ≤ k) (hk2 : k < 26) (hw : HasOrder w (2 ^ k)) (fuel : Nat) (hfuel : 2 ^ k ≤ fuel) (f : List (Zp p)) (hl : f.length ≤ 2 ^ k)
    (d : Nat) (hd : d ≤ 2 ^ k) (hc : 2 ^ k ≤ 1024 * (d + 1)) (e : Nat) (he : e = 0 ∨ 2 ≤ e) (F : Nat) (hF : F ≤ 40)
    (prf : List (Bytes × List (List (List Bytes))) × List Bytes) (h : prove fuel blake f w d e F = .ok prf) (root : Bytes) :
    Determined (fun b => verify fuel b prf root w d e F) blake (50 * k ^ 2 + 284 * k + 17409) :=
  (C135_fri blake hbl fuel prf root w d e F).mono (generated_bound hp2 blake hbl w k hk hk2 hw fuel hfuel f hl d hd hc e he F hF F hF prf h)

/-- **C135** (generated STARKs). For the proof made of an execution of `2^a` steps, extended `2^b` times, with the 80 spot checks the prover
makes, the verifier uses the hash function at most `50 k^2 + 524 k + 17659` times, where `k = a + b`. -/
theorem C135_stark_generated (blake : Bytes → Bytes) (hbl : ∀ x, (blake x).length = 32) (a b width : Nat)
    (polys : List (Dict (Zp p))) (c : Computation p a b width polys) (deg : Nat) (hdeg : IsDegree width polys deg) (hdeg1 : 1 ≤ deg)
    (hdeg2 : deg ≤ 2 ^ b) (hq : deg ≤ 8 ∨ ∃ r j, 2 ^ a * deg = r * 4 ^ j ∧ r ≤ 16) (hc : 2 ^ b ≤ 1024 * deg)
    (boundary : List (Nat × Nat × Zp p)) (W : List (List (Zp p))) (hW : IsExecution width (2 ^ a) polys boundary W)
    (hout : ∀ col ∈ W, ∀ out, col.getLast? = some out → out ≠ 0) :
    ∃ N, ∀ fuel ≥ N, ∃ S pr, mkStark fuel p (2 ^ a) (2 ^ b) width width polys 80 = .ok S ∧
      mkProof fuel blake (fun f w d e => prove fuel blake f w d e 40) S W boundary = .ok pr ∧
      Determined (fun b => verifyProof b (fun prf root w d e => verify fuel b prf root w d e 40) S W boundary pr) blake
        (50 * (a + b) ^ 2 + 524 * (a + b) + 17659) := by
  obtain ⟨N, hN⟩ := stark_generated blake hbl a b width polys c deg hdeg hdeg1 hdeg2 hq boundary W hW hout 80
  refine ⟨N, fun fuel hf => ?_⟩
  obtain ⟨S, pr, l, h1, m1, m6, m7, h12, hfuel, g0, g2, hdle, hfac⟩ := hN fuel hf
  have hab : 2 ≤ a + b := by have := c.steps; have := c.ext; omega
  have hab2 : a + b < 26 := by have := c.size; omega
  have hb2 : 2 ≤ 2 ^ b := by
    calc 2 = 2 ^ 1 := rfl
      _ ≤ _ := Nat.pow_le_pow_right (by omega) c.ext
  refine ⟨S, pr, h1, m1, (C135_stark blake hbl fuel S W boundary pr 40).mono ?_⟩
  have hg := generated_bound c.modulus blake hbl S.G2 (a + b) hab hab2 h12 fuel hfuel l g0 _ hdle (by
    have := Nat.mul_le_mul_left (2 ^ a) hc
    rw [pow_add]
    nlinarith) _ (.inr hb2) 40 le_rfl 40 le_rfl _ g2
  have hbr : pr.branches.flatten.length = 240 * (a + b + 1) := by
    rw [List.length_flatten, List.map_eq_replicate_iff.2 m7, List.sum_replicate, m6]
    rfl
  rw [hbr, hfac]
  omega

/-! ## Instances -/

/-- The proof of a small polynomial: 32 points, bound 20, one spot check. This meets the hypotheses of `C135_fri` and `C135_fri_generated`. -/
example : (∀ x, (sqHash x).length = 32) ∧ HasOrder (28 : Zp 97) (2 ^ 5) ∧ 2 ^ 5 ≤ 1024 * (20 + 1) ∧
    (do
      let prf ← prove 100 sqHash ([3, 1, 4, 1, 5, 9, 2, 6, 5, 3, 5, 8, 9, 7, 9, 3, 2, 3, 8, 4] : List (Zp 97)) 28 20 4 1
      .ok (prf.1.length * ((1 + 7) / 8) + (friObjects prf).length) : Py Nat).toOption = some 38 :=
  ⟨sqHash_length, order_28, by norm_num, by decide +kernel⟩

/-- The squaring computation and its execution. This meets the hypotheses of `C135_stark`, `C135_stark_generated`. -/
example : Computation 17 2 2 1 sqStep ∧ IsDegree 1 sqStep 2 ∧ 2 ≤ 2 ^ 2 ∧ 2 ≤ 8 ∧ 2 ^ 2 ≤ 1024 * 2 ∧ IsExecution 1 (2 ^ 2) sqStep sqB sqW ∧
    (∀ col ∈ sqW, ∀ out, col.getLast? = some out → out ≠ 0) := by
  refine ⟨sq_computation, sq_isDegree, by norm_num, by norm_num, by norm_num, sq_execution, ?_⟩
  simp only [sqW, List.mem_singleton, forall_eq]
  intro out h
  simp at h
  subst h
  decide +kernel

/-- Two witnesses with the same outputs. This meets the hypotheses of `C135_witness`. -/
example : ∀ i < 2, (([[1, 2, 3], [4, 5]] : List (List (Zp 17)))[i]?).map List.getLast? = (([[3], [0, 0, 0, 5]] : List (List (Zp 17)))[i]?).map List.getLast? := by
  decide

end Verif.Props
