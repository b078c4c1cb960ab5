import Verif.Proofs.Merkle
import Mathlib.Logic.Equiv.Fin.Basic
import Mathlib.Data.List.FinRange
import Mathlib.Tactic.NormNum
/-!
# C28–C32: Merkle trees

`H` is an arbitrary hash function.
-/

namespace Verif.Props
open Merkle

/-- **C28**. For a list whose length is divisible by 4, `permute4` returns a permutation of it that puts the element
with index `x` at position `get_index_in_permuted(x, len)`, and this map on indices is a bijection of `[0, len)`
(injective from a finite set to itself). -/
theorem C28_permute4 {α : Type _} (values : List α) (h4 : 4 ∣ values.length) :
    ∃ P, permute4 values = .ok P ∧ P.Perm values ∧
      (∀ x, x < values.length → ∃ y, getIndexInPermuted x values.length = .ok y ∧ y < values.length ∧
        P[y]? = values[x]?) ∧
      (∀ x x' y, x < values.length → x' < values.length → getIndexInPermuted x values.length = .ok y →
        getIndexInPermuted x' values.length = .ok y → x = x') := by
  obtain ⟨P, h1, h2, h3⟩ := permute4_spec values
  have hl : P.length = values.length := by omega
  have h3 := h3 h4
  refine ⟨P, h1, ?_, ?_, ?_⟩
  · let σ : Fin values.length → Fin values.length := fun x => ⟨perm values.length x, perm_lt h4 x.2⟩
    have hσ : Function.Injective σ := fun x y hxy => Fin.ext (perm_inj h4 x.2 y.2 (by simpa [σ] using hxy))
    let e : Equiv.Perm (Fin values.length) := Equiv.ofBijective σ (Finite.injective_iff_bijective.mp hσ)
    let g : Fin values.length → α := fun i => P[i.1]'(by omega)
    have hP : P = List.ofFn g := by
      apply List.ext_getElem (by simp [hl])
      intro i hi hi'
      simp [g]
    have hv : values = List.ofFn (g ∘ e) := by
      apply List.ext_getElem (by simp)
      intro i hi hi'
      have := h3 i hi
      rw [List.getElem?_eq_getElem (by rw [hl]; exact perm_lt h4 hi), List.getElem?_eq_getElem hi] at this
      simp only [List.getElem_ofFn, Function.comp]
      exact (Option.some.inj this).symm
    conv_rhs => rw [hv]
    rw [hP]
    exact (Equiv.Perm.ofFn_comp_perm e g).symm
  · intro x hx
    have : 4 ≤ values.length := Nat.le_of_dvd (by omega) h4
    exact ⟨_, getIndex_ok this, perm_lt h4 hx, h3 x hx⟩
  · intro x x' y hx hx' e1 e2
    have : 4 ≤ values.length := Nat.le_of_dvd (by omega) h4
    rw [getIndex_ok this, Except.ok.injEq] at e1 e2
    exact perm_inj h4 hx hx' (e1.trans e2.symm)

example : permute4 [10, 11, 12, 13, 14, 15, 16, 17] = .ok [10, 12, 14, 16, 11, 13, 15, 17] := by decide

/-- **C29**. For a non-empty list of `4k` items with encodings `bs`, `merkelize` returns `2·4k` nodes; the last `4k` are
the encodings, item `x` at offset `get_index_in_permuted(x)`; every node `1 ≤ j < 4k` is the hash of nodes `2j` and
`2j+1`. -/
theorem C29_merkelize_structure (H : Bytes → Bytes) (L : List Leaf) (bs : List Bytes) (h4 : 4 ∣ L.length) (h0 : L ≠ [])
    (henc : L.map Leaf.encode = bs.map .ok) :
    ∃ tree, merkelize H L = .ok tree ∧ tree.length = 2 * L.length ∧
      (∀ x, x < L.length → ∃ y, getIndexInPermuted x L.length = .ok y ∧ tree[L.length + y]? = bs[x]?) ∧
      (∀ j, 1 ≤ j → j < L.length →
        ∃ a b, tree[2 * j]? = some a ∧ tree[2 * j + 1]? = some b ∧ tree[j]? = some (H (a ++ b))) := by
  obtain ⟨tree, h1, h2, h3, h5⟩ := merkelize_spec H L bs h4 h0 henc
  have : 4 ≤ L.length := Nat.le_of_dvd (List.length_pos_iff.mpr h0) h4
  exact ⟨tree, h1, h2, fun x hx => ⟨_, getIndex_ok this, h3 x hx⟩, h5⟩

/-- **C29** (what the encodings are). An int in `[0, 2^256)` becomes its 32 big-endian bytes, other ints raise OverflowError; byte
strings are taken as they are and field elements by their `to_bytes()`. -/
theorem C29_leaf_encoding (n : Int) (s : Bytes) (e : Py Bytes) :
    (0 ≤ n → n < 2 ^ 256 → ∃ b : Bytes, Leaf.encode (.int n) = .ok b ∧ b.length = 32 ∧ (fromBytes b : Int) = n) ∧
    (n < 0 ∨ 2 ^ 256 ≤ n → Leaf.encode (.int n) = .error .overflow) ∧
    Leaf.encode (.bytes s) = .ok s ∧ Leaf.encode (.elt e) = e := by
  have h256 : (256 : Int) ^ 32 = 2 ^ 256 := by norm_num
  refine ⟨?_, ?_, rfl, rfl⟩
  · intro h0 h1
    rcases intToBytes_spec n 32 with ⟨_, _, b, h2, h3, h4⟩ | ⟨h2, _⟩
    · exact ⟨b, h2, h3, h4⟩
    · rw [h256] at h2; omega
  · intro h
    rcases intToBytes_spec n 32 with ⟨h2, h3, _⟩ | ⟨_, h2⟩
    · rw [h256] at h3; omega
    · exact h2

example : Leaf.encode (.int (2 ^ 256)) = .error .overflow ∧ (Leaf.encode (.int (2 ^ 256 - 1))).isOk = true := by decide

/-- **C30**. For `2^k` items, `k ≥ 2`, the branch made for any index verifies against the root, and the verification
returns that item's encoding. -/
theorem C30_merkle_completeness (H : Bytes → Bytes) (L : List Leaf) (bs : List Bytes) (k : Nat) (hk : 2 ≤ k)
    (hlen : L.length = 2 ^ k) (henc : L.map Leaf.encode = bs.map .ok) (x : Nat) (hx : x < L.length) :
    ∃ tree root proof b, merkelize H L = .ok tree ∧ tree[1]? = some root ∧ mkBranch tree x = .ok proof ∧
      proof.length = k + 1 ∧ bs[x]? = some b ∧ verifyBranch H root x proof = .ok b ∧
      verifyBranchInt H root x proof = .ok (fromBytes b) := by
  obtain ⟨tree, root, proof, b, h1, h2, h3, h5, h6, h7⟩ := merkle_complete H L bs k hk hlen henc x hx
  exact ⟨tree, root, proof, b, h1, h2, h3, h5, h6, h7, by simp [verifyBranchInt, h7, bind, Except.bind]⟩

/-- This meets the hypotheses of `C29_merkelize_structure`, `C31_opening_is_item_partial`. -/
example : ([.int 5, .bytes [1], .elt (.ok [2, 3]), .int 7] : List Leaf).map Leaf.encode =
    ([beDigits 32 5, [1], [2, 3], beDigits 32 7] : List Bytes).map .ok ∧ (4 : Nat) = 2 ^ 2 := by decide

/-- **C30** (small trees). A tree of fewer than 4 items cannot be opened: proofs of length 0, 1 or 2 raise
`ZeroDivisionError` in the verifier, and so does the prover on trees with fewer than 8 nodes. -/
theorem C30_small_trees_raise (H : Bytes → Bytes) (root : Bytes) (x : Nat) (proof tree : List Bytes)
    (hp : proof.length < 3) (ht : tree.length < 8) :
    verifyBranch H root x proof = .error .zeroDivision ∧ mkBranch tree x = .error .zeroDivision := by
  constructor
  · have : 2 ^ proof.length / 2 / 4 = 0 := by
      have : proof.length = 0 ∨ proof.length = 1 ∨ proof.length = 2 := by omega
      rcases this with h | h | h <;> rw [h] <;> rfl
    simp [verifyBranch, getIndexInPermuted, this, bind, Except.bind]
  · have : tree.length / 2 / 4 = 0 := by omega
    simp [mkBranch, getIndexInPermuted, this, bind, Except.bind]

example (H : Bytes → Bytes) : verifyBranch H [1] 0 [[1], [2]] = .error .zeroDivision ∧ mkBranch [[0], [1], [2], [3]] 0 = .error .zeroDivision :=
  C30_small_trees_raise H [1] 0 [[1], [2]] [[0], [1], [2], [3]] (by decide) (by decide)

/-- **C31**, under the side condition the code does not enforce: hash outputs all have the same length `n`, and the two
claimed leaves have equal length. Two accepted proofs of the same length for the same root and index then have the same
leaf, or among the strings hashed by the two verifications there are two different ones with the same hash.

Missing: without `hleaf` the claim is false (`C31_merkle_binding_refuted`), since the verifier does not check leaf
lengths. -/
theorem C31_merkle_binding_partial (H : Bytes → Bytes) (n : Nat) (hH : ∀ s, (H s).length = n) (root : Bytes) (x : Nat)
    (proof proof' : List Bytes) (b b' : Bytes) (hlen : proof.length = proof'.length) (hleaf : b.length = b'.length)
    (h : verifyBranch H root x proof = .ok b) (h' : verifyBranch H root x proof' = .ok b') :
    b = b' ∨ ∃ s ∈ hashedByVerification H x proof, ∃ t ∈ hashedByVerification H x proof', s ≠ t ∧ H s = H t := by
  obtain ⟨ps, rfl, hl, hv⟩ := verifyBranch_ok h
  obtain ⟨ps', rfl, hl', hv'⟩ := verifyBranch_ok h'
  have e : (b' :: ps').length - 1 = (b :: ps).length - 1 := by rw [hlen]
  rw [e] at hv'
  have := verifyLoop_binding H n hH ps ps' _ b b' (by simpa using hlen) hleaf (hv.trans hv'.symm)
  unfold hashedByVerification
  rw [e]
  exact this

/-- **C31** (out-of-date leaf). Restated for trees: if the root is that of a tree built over `2^k` items, an accepted
proof of length `k+1` whose leaf has the length of the item's encoding returns that very encoding, or a string hashed by the
verification and a different one hashed in building the tree have the same hash. -/
theorem C31_opening_is_item_partial (H : Bytes → Bytes) (n : Nat) (hH : ∀ s, (H s).length = n) (L : List Leaf)
    (bs : List Bytes) (k : Nat) (hk : 2 ≤ k) (hlen : L.length = 2 ^ k) (henc : L.map Leaf.encode = bs.map .ok) (x : Nat)
    (hx : x < L.length) (tree : List Bytes) (root : Bytes) (htree : merkelize H L = .ok tree)
    (hroot : tree[1]? = some root) (proof : List Bytes) (b : Bytes) (hpl : proof.length = k + 1)
    (hb : bs[x]?.map List.length = some b.length) (h : verifyBranch H root x proof = .ok b) :
    bs[x]? = some b ∨ ∃ s ∈ hashedByVerification H x proof, ∃ t, HashedInTree tree t ∧ s ≠ t ∧ H s = H t := by
  obtain ⟨tree', root', proof', b', h1, h2, -, h5, h6, h7, h8⟩ := merkle_complete' H L bs k hk hlen henc x hx
  rw [htree] at h1
  cases h1
  rw [hroot] at h2
  cases h2
  rw [h6] at hb
  rcases C31_merkle_binding_partial H n hH root x proof proof' b b' (by omega) (by simpa using hb.symm) h h7 with e | ⟨s, hs, t, ht, h⟩
  · left; rw [h6, e]
  · right; exact ⟨s, hs, t, h8 t ht, h⟩

/-- The second alternative of `C31_opening_is_item_partial` is not the rule, although every hash function of fixed length has collisions: none
is found here. -/
example : ∃ H : Bytes → Bytes, (∀ s, (H s).length = 1) ∧ merkelize H [.bytes [1], .bytes [2], .bytes [3], .bytes [4]] =
      .ok [[], [96], [33], [97], [1], [2], [3], [4]] ∧ verifyBranch H [96] 0 [[1], [2], [97]] = .ok [1] ∧
    ¬ ∃ s ∈ hashedByVerification H 0 [[1], [2], [97]], ∃ t,
      HashedInTree [[], [96], [33], [97], [1], [2], [3], [4]] t ∧ s ≠ t ∧ H s = H t := by
  refine ⟨fun s => [s.foldl (fun a b => 31 * a + b) 0], fun _ => rfl, by decide +kernel, by decide +kernel, ?_⟩
  rintro ⟨s, hs, t, ⟨j, a, b, hj, ha, hb, rfl⟩, hne, h⟩
  have hj4 : j < 4 := by
    have := (List.getElem?_eq_some_iff.1 hb).1
    simp at this
    omega
  have key : ∀ s ∈ hashedByVerification (fun s : Bytes => [s.foldl (fun a b => 31 * a + b) 0]) 0 [[1], [2], [97]],
      ∀ j < 4, 1 ≤ j → ∀ a ∈ ([[], [96], [33], [97], [1], [2], [3], [4]] : List Bytes)[2 * j]?,
      ∀ b ∈ ([[], [96], [33], [97], [1], [2], [3], [4]] : List Bytes)[2 * j + 1]?,
      [s.foldl (fun a b => 31 * a + b) 0] = [(a ++ b).foldl (fun a b => 31 * a + b) 0] → s = a ++ b := by decide +kernel
  exact hne (key s hs j hj4 hj a ha b hb h)

/-- **C31** as stated is false, for every hash function: two accepted proofs of the same length for the same root and
index can have different leaves although the two verifications hash exactly the same strings, so no collision can be
read off. -/
theorem C31_merkle_binding_refuted (H : Bytes → Bytes) :
    ∃ (root : Bytes) (x : Nat) (proof proof' : List Bytes) (b b' : Bytes), proof.length = proof'.length ∧
      verifyBranch H root x proof = .ok b ∧ verifyBranch H root x proof' = .ok b' ∧ b ≠ b' ∧
      hashedByVerification H x proof = hashedByVerification H x proof' := by
  refine ⟨H (H [1, 2] ++ [3]), 0, [[1], [2], [3]], [[1, 2], [], [3]], [1], [1, 2], rfl, ?_, ?_, by decide, ?_⟩
  · simp [verifyBranch, getIndexInPermuted, verifyLoop, pyAssert, bind, Except.bind]
  · simp [verifyBranch, getIndexInPermuted, verifyLoop, pyAssert, bind, Except.bind]
  · simp [hashedByVerification, hashedStrings]

/-- This meets the hypotheses of `C31_merkle_binding_partial`. -/
example : ∃ (H : Bytes → Bytes), ∀ s, (H s).length = 1 := ⟨fun s => [UInt8.ofNat s.length], fun _ => rfl⟩

/-- **C32**. Unpacking the concatenation of `num_polys · dims` 32-byte encodings returns them, in order. -/
theorem C32_unpack (bs : List Bytes) (dims numPolys : Nat) (hl : bs.length = numPolys * dims)
    (hw : ∀ b ∈ bs, b.length = 32) : unpackMerkleLeaf bs.flatten dims numPolys = bs :=
  unpack_flatten bs dims numPolys hl hw

/-- **C32** (end to end). Build the joint tree over rows of `2^k` encoded evaluations; opening position `x` and unpacking
the verified leaf gives the encodings of the `x`-th entries of all rows. -/
theorem C32_pack_open_unpack (H : Bytes → Bytes) (rows : List (List Bytes)) (dims numPolys k : Nat) (hk : 2 ≤ k)
    (h0 : rows ≠ []) (hrows : rows.length = numPolys * dims) (hlen : ∀ r ∈ rows, r.length = 2 ^ k)
    (hw : ∀ r ∈ rows, ∀ b ∈ r, b.length = 32) (x : Nat) (hx : x < 2 ^ k) :
    ∃ tree root proof leaf, merkelizePolynomialEvaluations H (rows.map (fun r => r.map .ok)) = .ok tree ∧
      tree[1]? = some root ∧ mkBranch tree x = .ok proof ∧ proof.length = k + 1 ∧ verifyBranch H root x proof = .ok leaf ∧
      (unpackMerkleLeaf leaf dims numPolys).map some = rows.map (fun r => r[x]?) := by
  obtain ⟨z1, z2⟩ := zipStar_spec (2 ^ k) rows h0 hlen
  -- the packed leaves
  have hz : zipStar (rows.map (fun r => r.map (Except.ok (ε := PyErr)))) = (zipStar rows).map (List.map .ok) := by
    clear z1 z2 hrows hlen hw
    induction rows with
    | nil => rfl
    | cons r rows ih =>
      cases rows with
      | nil => simp [zipStar]
      | cons r' rows =>
        have ih := ih (by simp)
        have e : ∀ (α : Type) (a b : List α) (c : List (List α)), zipStar (a :: b :: c) = List.zipWith List.cons a (zipStar (b :: c)) :=
          fun _ _ _ _ => rfl
        simp only [List.map_cons] at ih ⊢
        rw [e, e, ih, List.map_zipWith, List.zipWith_map]
        simp
  have hleaves : ((zipStar rows).map (List.map (Except.ok (ε := PyErr)))).mapM joinBytes = .ok ((zipStar rows).map List.flatten) := by
    generalize zipStar rows = cols
    induction cols with
    | nil => rfl
    | cons c cs ih =>
      rw [List.map_cons, List.mapM_cons, joinBytes_spec _ c rfl]
      simp only [bind, Except.bind]
      rw [ih]; rfl
  obtain ⟨tree, root, proof, b, h1, h2, h3, h5, h6, h7⟩ := merkle_complete H
    (((zipStar rows).map List.flatten).map .bytes) ((zipStar rows).map List.flatten) k hk (by simp [z1])
    (by simp [Function.comp_def, Leaf.encode]) x (by simpa [z1] using hx)
  obtain ⟨col, hc1, hc2⟩ := z2 x hx
  have hb : b = col.flatten := by
    rw [List.getElem?_map, hc1] at h6; simpa using h6.symm
  subst hb
  refine ⟨tree, root, proof, col.flatten, ?_, h2, h3, h5, h7, ?_⟩
  · simp only [merkelizePolynomialEvaluations, hz, bind, Except.bind, hleaves]; exact h1
  · rw [unpack_flatten col dims numPolys, hc2]
    · have := congrArg List.length hc2
      simpa [hrows] using this
    · intro b hb
      have : some b ∈ rows.map (fun r => r[x]?) := by rw [← hc2]; simp [hb]
      obtain ⟨r, hr, hrx⟩ := List.mem_map.mp this
      exact hw r hr b (List.mem_of_getElem? hrx)

/-- This meets the hypotheses of `C32_unpack`. -/
example : unpackMerkleLeaf (List.replicate 32 1 ++ List.replicate 32 2) 2 1 = [List.replicate 32 1, List.replicate 32 2] := by
  decide

end Verif.Props
