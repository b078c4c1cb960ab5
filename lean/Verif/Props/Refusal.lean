import Verif.Proofs.RefusalShape
import Verif.Props.SmoothFri
/-!
# C153: a refused proof is refused with an `AssertionError`, and every verification ends

`TrueOrAssertion`, `TrueOrRaises` and `FriShape` are in `Spec/Refusal`.
-/

namespace Verif.Props
open Verif.Spec Verif.Stark Verif.SmoothFri Verif.Compression Verif.PolyUtils Verif.Mv Verif.Refusals

variable {p : Nat} [Fact p.Prime]

/-- **C153** (proximity). Whatever proof, root, degree bound, excluded step and number of spot checks it is given, with a root of unity of order `2^k`
`verify_proximity_proof` ends, never returns `False`, and raises nothing but `AssertionError`, `IndexError`, `ZeroDivisionError` and `OverflowError`.
(Missing: only `AssertionError`; see `C153_refuted`.) -/
theorem C153_fri_partial (blake : Bytes → Bytes) (hbl : ∀ x, (blake x).length = 32) (w : Zp p) (k : Nat) (hw : HasOrder w (2 ^ k)) (fuel : Nat)
    (hfuel : 2 ^ k ≤ fuel) (prf : List (Bytes × List (List (List Bytes))) × List Bytes) (root : Bytes) (d e F : Nat) :
    TrueOrRaises (verify fuel blake prf root w d e F) := by
  have hb : ∀ x, blake x ≠ [] := fun x h => by have := hbl x; simp [h] at this
  have hc := calm_verify fuel blake hb prf root w k hw.eq hfuel d e F
  cases h : verify fuel blake prf root w d e F with
  | ok b => rw [verify_true h]; exact .inl rfl
  | error er => rcases hc er h with rfl | rfl | rfl | rfl <;> simp [TrueOrRaises]

/-- **C153** (proximity, proofs of the right shape). A proof with as many layers, branches and values as an honest one is accepted, or refused with
an `AssertionError`, whatever bytes it is made of. -/
theorem C153_fri_shape (blake : Bytes → Bytes) (hbl : ∀ x, (blake x).length = 32) (w : Zp p) (k : Nat) (hk : k < 26) (hw : HasOrder w (2 ^ k)) (fuel : Nat)
    (hfuel : 2 ^ k ≤ fuel) (prf : List (Bytes × List (List (List Bytes))) × List Bytes) (root : Bytes) (d e F : Nat) (he : e = 0 ∨ 2 ≤ e)
    (hs : FriShape k F prf) : TrueOrAssertion (verify fuel blake prf root w d e F) := by
  have hc := firm_verify fuel blake hbl prf root w k hk hw.eq hfuel d e F he hs
  cases h : verify fuel blake prf root w d e F with
  | ok b => rw [verify_true h]; exact .inl rfl
  | error er => rw [hc er h]; exact .inr rfl

/-- **C153** (honest proofs). What `generate_proximity_proof` returns has the right shape, so that changing bytes in it can only lead to `AssertionError`. -/
theorem C153_generated_shape (hp2 : p ≤ 2 ^ 256) (blake : Bytes → Bytes) (hbl : ∀ x, (blake x).length = 32) (w : Zp p) (k : Nat) (hk : 2 ≤ k) (hk2 : k < 26)
    (hw : HasOrder w (2 ^ k)) (fuel : Nat) (hfuel : 2 ^ k ≤ fuel) (f : List (Zp p)) (hl : f.length ≤ 2 ^ k) (d : Nat) (hd : d ≤ 2 ^ k) (e : Nat)
    (he : e = 0 ∨ 2 ≤ e) (F : Nat) (hF : F ≤ 40) (prf : List (Bytes × List (List (List Bytes))) × List Bytes) (h : prove fuel blake f w d e F = .ok prf) :
    FriShape k F prf :=
  proveRec_shape hp2 blake hbl fuel e he _ f w d k F prf hF hk hk2 hw.eq hfuel hl hd h

/-- **C153** (STARK). Whatever proof, witness and boundary it is given, for the parameters of any computation `verify_proof` ends, never returns
`False`, and raises nothing but `AssertionError`, `IndexError`, `ZeroDivisionError` and `OverflowError`.  (Missing: only `AssertionError`; see
`C153_stark_refuted`.) -/
theorem C153_stark_partial (blake : Bytes → Bytes) (hbl : ∀ x, (blake x).length = 32) (a b width : Nat) (polys : List (Dict (Zp p)))
    (c : Computation p a b width polys) (factor F : Nat) :
    ∃ N, ∀ fuel ≥ N, ∃ S, mkStark fuel p (2 ^ a) (2 ^ b) width width polys factor = .ok S ∧
      ∀ (W : List (List (Zp p))) (boundary : List (Nat × Nat × Zp p)) (pr : Proof (List (Bytes × List (List (List Bytes))) × List Bytes)),
        TrueOrRaises (verifyProof blake (fun prf root w d e => verify fuel blake prf root w d e F) S W boundary pr) := by
  obtain ⟨N, hN⟩ := c.params factor
  refine ⟨max N (2 ^ (a + b)), fun fuel hf => ?_⟩
  obtain ⟨S, h1, -, -, -, -, h6, -, -, -, -, h11, -⟩ := hN fuel (le_trans (le_max_left _ _) hf)
  refine ⟨S, h1, fun W boundary pr => ?_⟩
  have hb : ∀ x, blake x ≠ [] := fun x h => by have := hbl x; simp [h] at this
  have hS : S.polys ≠ [] := by
    rw [h6]
    intro h
    have := c.count
    have := c.width_pos
    simp [h] at *
    omega
  rw [← pow_add] at h11
  have hc := calm_stark blake hb (fun prf root w d e => verify fuel blake prf root w d e F) S hS W boundary pr fun root d e =>
    calm_verify fuel blake hb pr.fri root S.G2 (a + b) h11.eq (le_trans (le_max_right _ _) hf) d e F
  cases h : verifyProof blake (fun prf root w d e => verify fuel blake prf root w d e F) S W boundary pr with
  | ok b => rw [stark_true h]; exact .inl rfl
  | error er => rcases hc er h with rfl | rfl | rfl | rfl <;> simp [TrueOrRaises]

/-- **C153** (STARK, proofs of the right shape). With a boundary condition and a column that is not empty for every coordinate, a proof with enough branches, none of
fewer than three byte strings, and a proof of proximity of the right shape is accepted, or refused with an `AssertionError`, whatever bytes
it is made of. -/
theorem C153_stark_shape (blake : Bytes → Bytes) (hbl : ∀ x, (blake x).length = 32) (a b width : Nat) (polys : List (Dict (Zp p)))
    (c : Computation p a b width polys) (factor F : Nat) :
    ∃ N, ∀ fuel ≥ N, ∃ S, mkStark fuel p (2 ^ a) (2 ^ b) width width polys factor = .ok S ∧
      ∀ (W : List (List (Zp p))) (boundary : List (Nat × Nat × Zp p)) (pr : Proof (List (Bytes × List (List (List Bytes))) × List Bytes)),
        width ≤ W.length → (∀ col ∈ W, col ≠ []) → width ≤ boundary.length → 3 * factor ≤ pr.branches.length →
        (∀ br ∈ pr.branches, 3 ≤ br.length) → FriShape (a + b) F pr.fri →
        TrueOrAssertion (verifyProof blake (fun prf root w d e => verify fuel blake prf root w d e F) S W boundary pr) := by
  obtain ⟨N, hN⟩ := c.params factor
  refine ⟨max N (2 ^ (a + b)), fun fuel hf => ?_⟩
  obtain ⟨S, h1, h2, h3, h4, h5, h6, h7, h8, h9, h10, h11, h12, h13⟩ := hN fuel (le_trans (le_max_left _ _) hf)
  refine ⟨S, h1, fun W boundary pr w1 w2 w3 b1 b2 hs => ?_⟩
  have h2a : 2 ≤ 2 ^ a := by
    calc 2 = 2 ^ 1 := rfl
      _ ≤ 2 ^ a := Nat.pow_le_pow_right (by omega) c.steps
  have h2b : 2 ≤ 2 ^ b := by
    calc 2 = 2 ^ 1 := rfl
      _ ≤ 2 ^ b := Nat.pow_le_pow_right (by omega) c.ext
  have hG := h11.eq
  rw [← pow_add] at h11
  have hc := firm_stark blake hbl (fun prf root w d e => verify fuel blake prf root w d e F) S (by rw [h4]; exact c.width_pos) (by rw [h4, h5])
    (by rw [h4, h6]; exact c.count) (by rw [h4, h6]; exact c.wf) (by rw [h2]; exact h2a) (by rw [h3]; exact h2b) (by rw [h9, h2, h3])
    (by rw [h9, ← pow_add]; exact Nat.pow_lt_pow_right (by norm_num) c.size) (by rw [h2, h3]; exact hG) (by rw [h3]; exact h10)
    (by rw [h2]; exact h13) W (by rw [h4]; exact w1) w2 boundary (by rw [h4]; exact w3) pr (by rw [h7]; exact b1) b2 fun root d =>
    firm_verify fuel blake hbl pr.fri root S.G2 (a + b) (by have := c.size; omega) h11.eq (le_trans (le_max_right _ _) hf) d S.ext F (.inr (by rw [h3]; exact h2b)) hs
  cases h : verifyProof blake (fun prf root w d e => verify fuel blake prf root w d e F) S W boundary pr with
  | ok b => rw [stark_true h]; exact .inl rfl
  | error er => rw [hc er h]; exact .inr rfl

theorem pyMap_first {α β : Type _} {f : α → Py β} {a : α} {l : List α} {e : PyErr} (h : f a = .error e) : pyMap f (a :: l) = .error e := by
  rw [pyMap, h]
  rfl

theorem bind_error_of {α β : Type _} {x : Py α} {f : α → Py β} {e : PyErr} (h : x = .error e) : (x >>= f) = .error e := by
  rw [h]
  rfl

theorem layer_first (blake : Bytes → Bytes) (hbl : ∀ x, (blake x).length = 32) (qr : List (Zp p)) (root : Bytes) (w : Zp p) (q : Nat) (hq : 2 ≤ q)
    (hq2 : q < 2 ^ 24) (e F : Nat) (he : e = 0 ∨ 2 ≤ e) (hF : 1 ≤ F) (it : Item) (er : PyErr)
    (h : ∀ y, query blake root it.1 w qr q it.2 0 y = .error er) : verifyLayer blake qr root w (4 * q) e F it = .error er := by
  obtain ⟨ys, h1, h2, -⟩ := indices_ok blake hbl it.1 q e F hq hq2 he
  rw [verifyLayer, show 4 * q / 4 = q by omega, h1]
  cases ys with
  | nil => simp at h2; omega
  | cons y ys =>
    have := pyMap_first (f := fun yi : Int × Nat => query blake root it.1 w qr q it.2 yi.2 yi.1.toNat) (a := (y, 0)) (l := ys.zipIdx 1) (h y.toNat)
    simp only [Bind.bind, Except.bind, List.zipIdx_cons, Nat.zero_add]
    rw [this]

theorem query_none (blake : Bytes → Bytes) (root root2 : Bytes) (w : Zp p) (qr : List (Zp p)) (q y : Nat) :
    query blake root root2 w qr q [] 0 y = .error .indexError := by
  simp [query, pyIdx, Bind.bind, Except.bind]

theorem query_empty (blake : Bytes → Bytes) (root root2 : Bytes) (w : Zp p) (qr : List (Zp p)) (q y f : Nat) :
    query blake root root2 w qr q (List.replicate (f + 1) (List.replicate 5 [])) 0 y = .error .zeroDivision := by
  have h : ∀ i, Merkle.verifyBranchInt blake root i [] = .error .zeroDivision := by
    intro i
    simp [Merkle.verifyBranchInt, Merkle.verifyBranch, Merkle.getIndexInPermuted, Bind.bind, Except.bind]
  simp only [query, pyIdx, List.replicate_succ, List.getElem?_cons_zero, Bind.bind, Except.bind, List.tail_cons, show List.range 4 = [0, 1, 2, 3] from rfl,
    List.zip_cons_cons, List.replicate_zero]
  rw [pyMap_first (f := fun jb : Nat × List Bytes => Merkle.verifyBranchInt blake root (y + q * jb.1) jb.2) (a := (0, [])) (h _)]

theorem merkelize_overflow (blake : Bytes → Bytes) (L : Merkle.Leaf) (h : L.encode = .error .overflow) :
    Merkle.merkelize blake (List.replicate 4 L) = .error .overflow := by
  have hp : Merkle.permute4 (List.replicate 4 L) = .ok [L, L, L, L] := by
    simp [Merkle.permute4, Merkle.permute4Loop, pyIdx, List.replicate, Bind.bind, Except.bind]
  rw [Merkle.merkelize, hp]
  simp [Bind.bind, Except.bind, Merkle.encodeLeaves, h]

theorem too_long : (Merkle.Leaf.int ((fromBytes (List.replicate 33 255) : Nat) : Int)).encode = .error .overflow := by
  have h : 2 ^ 256 ≤ fromBytes (List.replicate 33 255) := by
    norm_num [fromBytes, List.replicate, show UInt8.toNat 255 = 255 from rfl]
  generalize fromBytes (List.replicate 33 255) = n at h
  have h' : (2 : Int) ^ 256 ≤ (n : Int) := by exact_mod_cast h
  exact (C29_leaf_encoding _ [] (.ok [])).2.1 (.inr h')

theorem at_none {φ : Type} (blake : Bytes → Bytes) (S : Params (Zp p)) (W : List (List (Zp p))) (boundary : List (Nat × Nat × Zp p)) (pr : Proof φ)
    (h : pr.branches = []) (i pos : Nat) : verifyAt blake S W boundary pr i pos = .error .indexError := by
  simp [verifyAt, h, pyIdx, Bind.bind, Except.bind]

/-- **C153** is false of the proximity test: whatever the root, the domain of at least eight points and the parameters, a proof with a layer without
branches raises `IndexError`, one with empty branches `ZeroDivisionError`, and one whose last component has values of more than 32 bytes
`OverflowError`. -/
theorem C153_refuted (blake : Bytes → Bytes) (hbl : ∀ x, (blake x).length = 32) (w : Zp p) (k : Nat) (hk : 3 ≤ k) (hk2 : k < 26)
    (hw : HasOrder w (2 ^ k)) (fuel : Nat) (hfuel : 2 ^ k ≤ fuel) (root root2 : Bytes) (last : List Bytes) (d e F : Nat) (he : e = 0 ∨ 2 ≤ e) (hF : 1 ≤ F) :
    verify fuel blake ([(root2, [])], last) root w d e F = .error .indexError ∧
    verify fuel blake ([(root2, List.replicate F (List.replicate 5 []))], last) root w d e F = .error .zeroDivision ∧
    (d ≤ 16 → verify fuel blake ([], List.replicate 4 (List.replicate 33 255)) root w d e F = .error .overflow) := by
  obtain ⟨j, rfl⟩ : ∃ j, k = j + 2 := ⟨k - 2, by omega⟩
  have h4 : 2 ^ (j + 2) = 4 * 2 ^ j := by rw [pow_add]; ring
  have hj : 2 ≤ 2 ^ j := by
    calc 2 = 2 ^ 1 := rfl
      _ ≤ 2 ^ j := Nat.pow_le_pow_right (by omega) (by omega)
  have hr := rou_ok (j + 2) fuel w 1 hw.eq (lt_of_lt_of_le Nat.lt_two_pow_self hfuel)
  rw [one_mul, h4] at hr
  have hlayer : ∀ brs er, (∀ y, query blake root root2 w (quartic w (4 * 2 ^ j)) (2 ^ j) brs 0 y = .error er) →
      verify fuel blake ([(root2, brs)], last) root w d e F = .error er := by
    intro brs er h
    have := layer_first blake hbl (quartic w (4 * 2 ^ j)) root w (2 ^ j) hj (pow_lt_24 (by omega)) e F he hF (root2, brs) er h
    exact bind_error_of_ok hr (bind_error_of (bind_error_of this))
  refine ⟨hlayer _ _ fun y => query_none _ _ _ _ _ _ _, hlayer _ _ fun y => ?_, fun hd => ?_⟩
  · obtain ⟨f, rfl⟩ : ∃ f, F = f + 1 := ⟨F - 1, by omega⟩
    exact query_empty _ _ _ _ _ _ _ _
  · have : Merkle.merkelize blake (((List.replicate 4 (List.replicate 33 255 : Bytes)).map fromBytes).map fun n : Nat => .int (n : Int)) = .error .overflow := by
      rw [List.map_replicate, List.map_replicate]
      exact merkelize_overflow blake _ too_long
    have ha : pyAssert (decide (d ≤ 16)) = .ok () := by simp [pyAssert, hd]
    exact bind_error_of_ok hr (bind_error_of_ok rfl (bind_error_of (bind_error_of_ok ha (bind_error_of this))))

/-- **C153** is false of `verify_proof`: an accepted proof without its branches raises `IndexError`. -/
theorem C153_stark_refuted {φ : Type} (blake : Bytes → Bytes) (hbl : ∀ x, (blake x).length = 32) (friVerify : φ → Bytes → Zp p → Nat → Nat → Py Bool)
    (S : Params (Zp p)) (hn : 2 ≤ S.precision) (hn2 : S.precision < 2 ^ 24) (he : 2 ≤ S.ext) (hf : 1 ≤ S.factor) (W : List (List (Zp p)))
    (boundary : List (Nat × Nat × Zp p)) (pr : Proof φ) (hacc : verifyProof blake friVerify S W boundary pr = .ok true) :
    verifyProof blake friVerify S W boundary { pr with branches := [] } = .error .indexError := by
  obtain ⟨-, positions, h2, -, h3, h4⟩ := C51_all_positions blake hbl friVerify S W boundary pr hn hn2 he
  obtain ⟨⟨deg, h5, h6⟩, -⟩ := h4.1 hacc
  cases positions with
  | nil => simp at h2; omega
  | cons y ys =>
    refine bind_error_of_ok h5 (bind_error_of_ok h6 (bind_error_of_ok (a := ()) rfl (bind_error_of_ok h3 (bind_error_of ?_))))
    exact pyMap_first (at_none _ _ _ _ _ rfl _ _)

/-! ### Concrete cases -/

/-- A domain of 32 points, and an honest proof for it, with one layer. This meets the hypotheses of `C153_fri_partial`, `C153_generated_shape`,
`C153_refuted`. -/
example : (∀ x, (sqHash x).length = 32) ∧ HasOrder (28 : Zp 97) (2 ^ 5) ∧ 3 ≤ 5 ∧ 5 < 26 ∧ 2 ^ 5 ≤ 100 ∧ 97 ≤ 2 ^ 256 ∧
    (prove 100 sqHash ([3, 1, 4, 1, 5, 9, 2, 6, 5, 3, 5, 8, 9, 7, 9, 3, 2, 3, 8, 4] : List (Zp 97)) 28 20 4 2).toOption.map (fun prf => prf.1.length) = some 1 :=
  ⟨sqHash_length, order_28, by norm_num, by norm_num, by norm_num, by norm_num, by decide +kernel⟩

/-- Arbitrary bytes in the right shape: one layer with two groups of branches. This meets the hypotheses of `C153_fri_shape`. -/
example : FriShape 5 2 ([([1], List.replicate 2 (List.replicate 5 [[2], [3], [4]]))], List.replicate 8 [5]) ∧ (4 = 0 ∨ 2 ≤ 4) := by
  refine ⟨⟨by simp, by simp, ?_, by simp, ?_⟩, by norm_num⟩
  · intro b hb
    rw [List.eq_of_mem_replicate hb]
    simp
  · intro it hit br hbr
    rw [List.mem_singleton.1 hit] at hbr
    rw [List.eq_of_mem_replicate hbr]
    refine ⟨by simp, fun s hs => ?_⟩
    rw [List.eq_of_mem_replicate hs]
    simp

/-- The same proof: the verifier refuses it with an `AssertionError`. -/
example : verify 100 sqHash ([([1], List.replicate 2 (List.replicate 5 [[2], [3], [4]]))], List.replicate 8 [5]) [6] (28 : Zp 97) 20 4 2 = .error .assertion := by
  decide +kernel

/-- The squaring computation. This meets the hypotheses of `C153_stark_partial`, `C153_stark_shape`. -/
example : Computation 17 2 2 1 sqStep ∧ 1 ≤ sqW.length ∧ (∀ col ∈ sqW, col ≠ []) ∧ 1 ≤ sqB.length ∧
    FriShape (2 + 2) 2 ([([1], List.replicate 2 (List.replicate 5 [[2], [3], [4]]))], List.replicate 4 [5]) := by
  refine ⟨sq_computation, by decide, by decide +kernel, by decide, ⟨by simp, by simp, ?_, by simp, ?_⟩⟩
  · intro b hb
    rw [List.eq_of_mem_replicate hb]
    simp
  · intro it hit br hbr
    rw [List.mem_singleton.1 hit] at hbr
    rw [List.eq_of_mem_replicate hbr]
    refine ⟨by simp, fun s hs => ?_⟩
    rw [List.eq_of_mem_replicate hs]
    simp

/-- An accepted proof, and the same without its branches. This meets the hypotheses of `C153_stark_refuted`. -/
example : (do
    let S ← mkStark (K := Zp 17) 100 17 4 4 1 1 sqStep 10
    let pr ← mkProof 100 sqHash (fun _ _ _ _ => .ok ()) S sqW sqB
    let ok ← verifyProof sqHash (fun _ _ _ _ _ => .ok true) S sqW sqB pr
    .ok (S.precision, S.ext, S.factor, ok) : Py _).toOption = some (16, 4, 10, true) ∧
  (do
    let S ← mkStark (K := Zp 17) 100 17 4 4 1 1 sqStep 10
    let pr ← mkProof 100 sqHash (fun _ _ _ _ => .ok ()) S sqW sqB
    verifyProof sqHash (fun _ _ _ _ _ => .ok true) S sqW sqB { pr with branches := [] } : Py Bool) = .error .indexError := by
  constructor <;> decide +kernel

end Verif.Props
