import Verif.Proofs.ProverCount
/-!
# C138: proving costs a number of hash calls proportional to the size of the extended execution

`Determined` is in `Spec/QueryCount`.
-/

namespace Verif.Props
open Verif.Spec Verif.Stark Verif.SmoothFri Verif.Compression Verif.QueryCount Verif.PolyUtils Verif.Mv Verif.ProverCount Verif.Poly

variable {p : Nat} [Fact p.Prime]

/-- **C138** (trees). A tree over `n` items takes at most `n - 1` hash calls, whatever the items are. -/
theorem C138_merkelize (blake : Bytes → Bytes) (L : List Merkle.Leaf) : Determined (fun b => Merkle.merkelize b L) blake (L.length - 1) :=
  merkelize_determined L

/-- **C138** (trees, exactly). It takes no fewer: where the pairs of neighbours in the tree are all different, the tree is not determined by
less than `n - 1` hash values. -/
theorem C138_merkelize_exact (blake : Bytes → Bytes) (L : List Merkle.Leaf) (bs : List Bytes) (h4 : 4 ∣ L.length) (h0 : L ≠ [])
    (henc : L.map Merkle.Leaf.encode = bs.map .ok) (tree : List Bytes) (ht : Merkle.merkelize blake L = .ok tree)
    (hd : ∀ i j, 1 ≤ i → i < j → j < L.length → tree.getD (2 * i) [] ++ tree.getD (2 * i + 1) [] ≠ tree.getD (2 * j) [] ++ tree.getD (2 * j + 1) [])
    (m : Nat) (hm : Determined (fun b => Merkle.merkelize b L) blake m) : L.length - 1 ≤ m := by
  obtain ⟨Q, hQ1, hQ2⟩ := hm
  have node : ∀ b tr, Merkle.merkelize b L = .ok tr → ∀ j, 1 ≤ j → j < L.length →
      tr.getD j [] = b (tr.getD (2 * j) [] ++ tr.getD (2 * j + 1) []) := by
    intro b tr htr j h1 h2
    obtain ⟨tr', e1, -, -, e2⟩ := C29_merkelize_structure b L bs h4 h0 henc
    rw [htr] at e1
    cases e1
    obtain ⟨x, y, e3, e4, e5⟩ := e2 j h1 h2
    simp [List.getD_eq_getElem?_getD, e3, e4, e5]
  have sub : ∀ j, 1 ≤ j → j < L.length → tree.getD (2 * j) [] ++ tree.getD (2 * j + 1) [] ∈ Q := by
    intro j h1 h2
    by_contra hn
    generalize hx : tree.getD (2 * j) [] ++ tree.getD (2 * j + 1) [] = x at hn
    have e := hQ2 (fun y => if y = x then blake x ++ [0] else blake y) (by
      intro y hy
      have : y ≠ x := fun h => hn (h ▸ hy)
      simp [this])
    simp only [ht] at e
    have e1 := node _ _ e j h1 h2
    have e2 := node _ _ ht j h1 h2
    simp only [hx, if_true] at e1 e2
    rw [e2] at e1
    have := congrArg List.length e1
    simp at this
  classical
  let X := (List.range (L.length - 1)).map fun i => tree.getD (2 * (i + 1)) [] ++ tree.getD (2 * (i + 1) + 1) []
  have hnd : X.Nodup := by
    refine List.Nodup.map_on ?_ List.nodup_range
    intro i hi j hj hij
    rw [List.mem_range] at hi hj
    by_contra hne
    rcases Nat.lt_or_gt_of_ne hne with h | h
    · exact hd (i + 1) (j + 1) (by omega) (by omega) (by omega) hij
    · exact hd (j + 1) (i + 1) (by omega) (by omega) (by omega) hij.symm
  have hsub : X ⊆ Q := by
    intro x hx
    obtain ⟨i, hi, rfl⟩ := List.mem_map.1 hx
    rw [List.mem_range] at hi
    exact sub (i + 1) (by omega) (by omega)
  have := (hnd.subperm hsub).length_le
  simp only [X, List.length_map, List.length_range] at this
  omega

/-- **C138** (proximity). On `2^k` points `generate_proximity_proof` calls the hash function at most `2 * 2^k` times, and once more per eight spot
checks of the first layer — the trees of all the layers included. -/
theorem C138_fri (blake : Bytes → Bytes) (hbl : ∀ x, (blake x).length = 32) (w : Zp p) (k : Nat) (hw : HasOrder w (2 ^ k)) (fuel : Nat)
    (hfuel : 2 ^ k ≤ fuel) (f : List (Zp p)) (hl : f.length ≤ 2 ^ k) (d : Nat) (hd : d ≤ 2 ^ k) (e F : Nat) :
    Determined (fun b => prove fuel b f w d e F) blake (2 * 2 ^ k + (F + 7) / 8) :=
  proveRec_determined hbl fuel e (d + 1) f w d k F hw.eq hfuel hl hd

/-- **C138** (proximity, small bounds). For a degree bound of 16 or less the hash function is not called at all. -/
theorem C138_fri_small (blake blake' : Bytes → Bytes) (fuel : Nat) (f : List (Zp p)) (w : Zp p) (d : Nat) (hd : d ≤ 16) (e F : Nat) :
    prove fuel blake f w d e F = prove fuel blake' f w d e F := by
  simp only [prove, proveRec, hd, if_true]

/-- **C138** (STARK). For an execution of `2^a` steps with `width` columns, extended `2^b` times, `mk_proof` calls the hash function at most
`4 * 2^(a + b) + width + 17` times. -/
theorem C138_stark (blake : Bytes → Bytes) (hbl : ∀ x, (blake x).length = 32) (a b width : Nat)
    (polys : List (Dict (Zp p))) (c : Computation p a b width polys) (deg : Nat) (hdeg : IsDegree width polys deg) (hdeg2 : deg ≤ 2 ^ b)
    (boundary : List (Nat × Nat × Zp p)) (W : List (List (Zp p))) (hW : IsExecution width (2 ^ a) polys boundary W)
    (hout : ∀ col ∈ W, ∀ out, col.getLast? = some out → out ≠ 0) (factor : Nat) :
    ∃ N, ∀ fuel ≥ N, ∃ S, mkStark fuel p (2 ^ a) (2 ^ b) width width polys factor = .ok S ∧
      Determined (fun b => mkProof fuel b (fun f w d e => prove fuel b f w d e 40) S W boundary) blake (4 * 2 ^ (a + b) + width + 17) := by
  have hchar : CharP (Zp p) p := charP_zp p
  obtain ⟨N, hN⟩ := c.params factor
  refine ⟨max N (2 ^ a * 2 ^ b), fun fuel hf => ?_⟩
  obtain ⟨S, h1, hs, h3, rfl, h5, rfl, rfl, h8, h9, h11, h12, h13, h14⟩ := hN fuel (le_trans (le_max_left _ _) hf)
  have hgd := getDegree_of c.wf hdeg
  have hpw : S.steps * S.ext = 2 ^ (a + b) := by rw [hs, h3, pow_add]
  have hfuel : 2 ^ (a + b) ≤ fuel := by rw [pow_add]; exact le_trans (le_max_right _ _) hf
  have hord : HasOrder S.G2 (2 ^ (a + b)) := by rw [pow_add]; exact h12
  have h2s : 2 ≤ S.steps := by
    rw [hs]
    calc 2 = 2 ^ 1 := rfl
      _ ≤ 2 ^ a := Nat.pow_le_pow_right (by omega) c.steps
  have h2e : 2 ≤ S.ext := by
    rw [h3]
    calc 2 = 2 ^ 1 := rfl
      _ ≤ 2 ^ b := Nat.pow_le_pow_right (by omega) c.ext
  have hse : S.steps ≤ S.steps * S.ext := Nat.le_mul_of_pos_right _ (by omega)
  have hg1 : orderOf S.G1 = S.steps := by
    rw [h11, ← h3, orderOf_pow' _ (by omega), hord.eq, ← hpw, Nat.gcd_eq_right (Nat.dvd_mul_left _ _), Nat.mul_div_cancel _ (by omega)]
  refine ⟨S, h1, ?_⟩
  obtain ⟨P, cps, D, B, p1, p2, p3, p4, pl, dl, bl, hQ, -⟩ := honest_polys (p := p) (ext := S.ext) (.inl hs) hg1 h2s (by omega) c.wf c.count
    (by rw [h3]; exact fun f hf => (hdeg.2 f hf).trans (by omega)) hW.columns (by rw [hs]; exact hW.entries) (by rw [hs]; exact hW.step)
    hW.start hout fuel (by omega)
  have hlast : S.last = S.G1 ^ (S.steps - 1) := by rw [h14, hs]
  rw [← hlast] at p3 p4
  have hpos : 0 < 2 ^ (a + b) := by positivity
  refine (mkProof_determined hbl fuel S W boundary P D B cps (by rw [h8]; exact p1) (by rw [h5]; exact p2) p3 p4 (2 ^ (a + b)) ?_ ?_ ?_
    (fun b f w d e => prove fuel b f w d e 40) (2 * 2 ^ (a + b) + (40 + 7) / 8) ?_).mono (by omega)
  · intro f v hfl hv
    rw [h8, fwd_spec S.G2 (a + b) hord.eq fuel hfuel f hfl] at hv
    cases hv
    simp
  · intro f hf'
    rw [← hpw]
    exact (hQ f hf').2
  · intro entropy l hl
    obtain ⟨k1, k2, k3, k4, ks, -, -, -, hcomb⟩ := C52_combination_partial blake hbl entropy S.width c.width_pos c.width_lt S.G2 S.precision S.steps
      (show 2 ≤ S.steps * S.ext by omega)
    obtain ⟨l', l1, l2, -, l4⟩ := hcomb P D B pl dl bl
    rw [hl] at l1
    cases l1
    rw [← hpw]
    apply length_le_of_canon l2
    have : (toPoly l).degree ≤ ((S.steps * S.ext - 1 : Nat) : WithBot ℕ) := l4 _ fun f hf' =>
      Polynomial.degree_le_of_natDegree_le (natDegree_toPoly_le (by have := (hQ f hf').2; omega))
    exact fun i hi => Polynomial.coeff_eq_zero_of_natDegree_lt (lt_of_le_of_lt (Polynomial.natDegree_le_of_degree_le this) (by omega))
  · intro l deg' hl hd
    rw [hgd] at hd
    cases hd
    refine C138_fri blake hbl S.G2 (a + b) hord fuel hfuel l hl _ ?_ _ 40
    rw [hs, pow_add]
    exact Nat.mul_le_mul_left _ hdeg2

/-! ## Instances -/

/-- This meets the hypotheses of `C138_merkelize`, `C138_merkelize_exact`. -/
example : ([.int 5, .bytes [1], .elt (.ok [2, 3]), .int 7] : List Merkle.Leaf).map Merkle.Leaf.encode =
      ([List.replicate 31 0 ++ [5], [1], [2, 3], List.replicate 31 0 ++ [7]] : List Bytes).map .ok ∧
    ∃ tree, Merkle.merkelize sqHash [.int 5, .bytes [1], .elt (.ok [2, 3]), .int 7] = .ok tree ∧
      ∀ i < 4, ∀ j < 4, 1 ≤ i → i < j → tree.getD (2 * i) [] ++ tree.getD (2 * i + 1) [] ≠ tree.getD (2 * j) [] ++ tree.getD (2 * j + 1) [] := by
  refine ⟨by decide +kernel, _, rfl, ?_⟩
  decide +kernel

/-- This meets the hypotheses of `C138_fri`: 32 points, one layer. -/
example : (∀ x, (sqHash x).length = 32) ∧ HasOrder (28 : Zp 97) (2 ^ 5) ∧ (20 : Nat) ≤ 2 ^ 5 ∧
    (prove 100 sqHash ([3, 1, 4, 1, 5, 9, 2, 6, 5, 3, 5, 8, 9, 7, 9, 3, 2, 3, 8, 4] : List (Zp 97)) 28 20 4 1).toOption.isSome :=
  ⟨sqHash_length, order_28, by norm_num, by decide +kernel⟩

/-- This meets the hypotheses of `C138_fri_small`. -/
example : (prove 100 sqHash ([3, 1, 4, 1] : List (Zp 97)) 28 16 4 1).toOption.isSome := by decide +kernel

/-- The squaring computation and its execution. This meets the hypotheses of `C138_stark`. -/
example : Computation 17 2 2 1 sqStep ∧ IsDegree 1 sqStep 2 ∧ 2 ≤ 2 ^ 2 ∧ IsExecution 1 (2 ^ 2) sqStep sqB sqW ∧
    (∀ col ∈ sqW, ∀ out, col.getLast? = some out → out ≠ 0) := by
  refine ⟨sq_computation, sq_isDegree, by norm_num, sq_execution, ?_⟩
  simp only [sqW, List.mem_singleton, forall_eq]
  intro out h
  simp at h
  subst h
  decide +kernel

end Verif.Props
