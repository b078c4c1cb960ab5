import Verif.Model.MerkleInt
import Verif.Props.Merkle
import Mathlib.Data.Int.ModEq
/-!
# C113: Merkle trees with arbitrary integer indices
-/

namespace Verif.Props
open Merkle

theorem getIndexZ_nat (x L : Nat) : (getIndexInPermuted x L = .error .zeroDivision ∧ getIndexInPermutedZ x L = .error .zeroDivision) ∨
    ∃ n : Nat, getIndexInPermuted x L = .ok n ∧ getIndexInPermutedZ x L = .ok (n : Int) := by
  unfold getIndexInPermutedZ getIndexInPermuted
  split
  · simp
  · exact Or.inr ⟨_, rfl, by push_cast; rfl⟩

theorem verifyLoopZ_congr (H : Bytes → Bytes) : ∀ (ps : List Bytes) (i : Int) (j : Nat) (v : Bytes),
    i % 2 ^ ps.length = (j : Int) % 2 ^ ps.length → verifyLoopZ H ps i v = verifyLoop H ps j v
  | [], _, _, _, _ => rfl
  | p :: ps, i, j, v, h => by
    rw [List.length_cons, pow_succ] at h
    have h2 : i % 2 = (j : Int) % 2 := by
      have := congrArg (· % 2) h
      simpa [Int.emod_emod_of_dvd _ (Dvd.intro_left _ rfl : (2 : Int) ∣ 2 ^ ps.length * 2)] using this
    have h3 : i / 2 % 2 ^ ps.length = ((j / 2 : Nat) : Int) % 2 ^ ps.length := by
      obtain ⟨c, hc⟩ := (Int.ModEq.dvd (show i ≡ j [ZMOD _] from h))
      refine Int.ModEq.symm ((Int.modEq_iff_dvd).2 ⟨-c, ?_⟩)
      have e : (j : Int) - i = 2 * (2 ^ ps.length * c) := by rw [hc]; ring
      have : (2 : Int) ^ ps.length * -c = -(2 ^ ps.length * c) := by ring
      rw [this]
      push_cast
      omega
    rw [verifyLoopZ, verifyLoop]
    by_cases hj : j % 2 = 1
    · rw [if_pos hj, if_pos (by omega)]
      exact verifyLoopZ_congr H ps _ _ _ h3
    · rw [if_neg hj, if_neg (by omega)]
      exact verifyLoopZ_congr H ps _ _ _ h3

/-- **C113** (non-negative indices).  On natural numbers, inside the range or not, the functions on all ints are those of the
other Merkle theorems (C28 to C32). -/
theorem C113_nat_partial (H : Bytes → Bytes) (root : Bytes) (tree proof : List Bytes) (x : Nat) :
    mkBranchZ tree x = mkBranch tree x ∧ verifyBranchZ H root x proof = verifyBranch H root x proof := by
  constructor
  · unfold mkBranchZ mkBranch
    rcases getIndexZ_nat x (tree.length / 2) with ⟨h1, h2⟩ | ⟨n, h1, h2⟩
    · rw [h1, h2]
      rfl
    · rw [h1, h2]
      simp only [bind, Except.bind, idxZ]
      rw [if_pos (by omega)]
      norm_cast
  · unfold verifyBranchZ verifyBranch
    rcases getIndexZ_nat x (2 ^ proof.length / 2) with ⟨h1, h2⟩ | ⟨n, h1, h2⟩
    · rw [h1, h2]
      rfl
    · rw [h1, h2]
      cases proof with
      | nil => rfl
      | cons v ps =>
        simp only [bind, Except.bind]
        rw [verifyLoopZ_congr H ps _ (n + 2 ^ (v :: ps).length / 2) v (by norm_cast)]

/-- The position in the list whose openings `verify_branch` accepts at the integer index `x`, for `2^k` leaves: the one that
`permute4` sends to `x // (2^k/4) + 4*(x % (2^k/4))` modulo `2^k`. -/
def aliasOf (k : Nat) (x : Int) : Nat :=
  let y := ((x / (2 ^ (k - 2) : Nat) + 4 * (x % (2 ^ (k - 2) : Nat))) % (2 ^ k : Nat)).toNat
  y % 4 * 2 ^ (k - 2) + y / 4

theorem alias_spec (k : Nat) (hk : 2 ≤ k) (x : Int) : aliasOf k x < 2 ^ k ∧
    (perm (2 ^ k) (aliasOf k x) : Int) = (x / (2 ^ (k - 2) : Nat) + 4 * (x % (2 ^ (k - 2) : Nat))) % (2 ^ k : Nat) := by
  obtain ⟨j, rfl⟩ := Nat.exists_eq_add_of_le' hk
  have e : 2 ^ (j + 2) = 4 * 2 ^ j := by rw [pow_add]; ring
  have hpos : 0 < 2 ^ j := Nat.two_pow_pos j
  unfold aliasOf
  simp only [Nat.add_sub_cancel]
  set z : Int := x / (2 ^ j : Nat) + 4 * (x % (2 ^ j : Nat)) with hz
  have h0 := Int.emod_nonneg z (show ((2 ^ (j + 2) : Nat) : Int) ≠ 0 by positivity)
  have h1 := Int.emod_lt_of_pos z (show 0 < ((2 ^ (j + 2) : Nat) : Int) by positivity)
  set y := (z % (2 ^ (j + 2) : Nat)).toNat with hy
  have hyz : (y : Int) = z % (2 ^ (j + 2) : Nat) := Int.toNat_of_nonneg h0
  have hy2 : y < 4 * 2 ^ j := by rw [← e]; omega
  have hq : y / 4 < 2 ^ j := by omega
  generalize 2 ^ j = m at *
  constructor
  · rw [e]
    have : y % 4 ≤ 3 := by omega
    have := Nat.mul_le_mul_right m this
    omega
  · rw [← hyz]
    have : perm (2 ^ (j + 2)) (y % 4 * m + y / 4) = y := by
      unfold perm
      rw [e, Nat.mul_div_cancel_left _ (by norm_num), Nat.add_comm (y % 4 * m), Nat.add_mul_div_right _ _ hpos, Nat.add_mul_mod_self_right,
        Nat.div_eq_of_lt hq, Nat.mod_eq_of_lt hq]
      omega
    rw [this]

theorem two_pow_half (k : Nat) : 2 ^ (k + 1) / 2 = 2 ^ k := by rw [pow_succ]; omega

theorem getIndexZ_ok (k : Nat) (hk : 2 ≤ k) (x : Int) :
    getIndexInPermutedZ x (2 ^ k) = .ok (x / (2 ^ (k - 2) : Nat) + 4 * (x % (2 ^ (k - 2) : Nat))) := by
  obtain ⟨j, rfl⟩ := Nat.exists_eq_add_of_le' hk
  have e : 2 ^ (j + 2) / 4 = 2 ^ j := by rw [pow_add]; omega
  have hpos : 0 < 2 ^ j := Nat.two_pow_pos j
  rw [getIndexInPermutedZ, e, if_neg (by omega)]
  rfl

theorem verifyBranchZ_alias (H : Bytes → Bytes) (root : Bytes) (k : Nat) (hk : 2 ≤ k) (x : Int) (proof : List Bytes)
    (hp : proof.length = k + 1) : verifyBranchZ H root x proof = verifyBranch H root (aliasOf k x) proof := by
  have h4 : 4 ≤ 2 ^ k := by
    obtain ⟨j, rfl⟩ := Nat.exists_eq_add_of_le' hk
    have : 0 < 2 ^ j := Nat.two_pow_pos j
    rw [pow_add]; omega
  obtain ⟨h1, h2⟩ := alias_spec k hk x
  unfold verifyBranchZ verifyBranch
  rw [hp, two_pow_half, getIndexZ_ok k hk, getIndex_ok h4]
  cases proof with
  | nil => simp at hp
  | cons v ps =>
    have hl : ps.length = k := by simpa using hp
    simp only [bind, Except.bind]
    rw [verifyLoopZ_congr H ps _ (perm (2 ^ k) (aliasOf k x) + 2 ^ k) v]
    rw [hl]
    push_cast
    rw [h2]
    push_cast
    simp

/-- **C113** fails: `verify_branch` accepts at EVERY integer index.  Whatever the int `x`, checking at `x` is checking at some
position of the list, so an honest tree has an accepted proof for every index, in the list or not. -/
theorem C113_verify_refuted (H : Bytes → Bytes) (k : Nat) (hk : 2 ≤ k) (x : Int) :
    ∃ x' : Nat, x' < 2 ^ k ∧
      (∀ (root : Bytes) (proof : List Bytes), proof.length = k + 1 → verifyBranchZ H root x proof = verifyBranch H root x' proof) ∧
      ∀ (L : List Leaf) (bs : List Bytes), L.length = 2 ^ k → L.map Leaf.encode = bs.map .ok →
        ∃ tree root proof b, merkelize H L = .ok tree ∧ tree[1]? = some root ∧ bs[x']? = some b ∧ verifyBranchZ H root x proof = .ok b := by
  refine ⟨aliasOf k x, (alias_spec k hk x).1, fun root proof hp => verifyBranchZ_alias H root k hk x proof hp, ?_⟩
  intro L bs hlen henc
  obtain ⟨tree, root, proof, b, h1, h2, -, h5, h6, h7⟩ := merkle_complete H L bs k hk hlen henc (aliasOf k x)
    (by rw [hlen]; exact (alias_spec k hk x).1)
  exact ⟨tree, root, proof, b, h1, h2, h6, by rw [verifyBranchZ_alias H root k hk x proof h5, h7]⟩

/-- `mk_branch` at an integer that `permute4` would send inside the list opens the position of which it is an alias. -/
theorem mkBranchZ_alias (tree : List Bytes) (k : Nat) (hk : 2 ≤ k) (ht : tree.length = 2 * 2 ^ k) (x : Int)
    (h0 : 0 ≤ x / (2 ^ (k - 2) : Nat) + 4 * (x % (2 ^ (k - 2) : Nat)))
    (h1 : x / (2 ^ (k - 2) : Nat) + 4 * (x % (2 ^ (k - 2) : Nat)) < (2 ^ k : Nat)) : mkBranchZ tree x = mkBranch tree (aliasOf k x) := by
  have h4 : 4 ≤ 2 ^ k := by
    obtain ⟨j, rfl⟩ := Nat.exists_eq_add_of_le' hk
    have : 0 < 2 ^ j := Nat.two_pow_pos j
    rw [pow_add]; omega
  obtain ⟨a1, a2⟩ := alias_spec k hk x
  rw [Int.emod_eq_of_lt h0 h1] at a2
  have ht2 : tree.length / 2 = 2 ^ k := by omega
  unfold mkBranchZ mkBranch
  rw [ht2, getIndexZ_ok k hk, getIndex_ok h4, ← a2]
  simp only [bind, Except.bind, idxZ]
  rw [if_pos (by positivity)]
  norm_cast

theorem alias_neg_one (k : Nat) (hk : 3 ≤ k) : (-1 : Int) / (2 ^ (k - 2) : Nat) + 4 * (-1 % (2 ^ (k - 2) : Nat)) = (2 ^ k : Nat) - 5 ∧
    aliasOf k (-1) = 2 ^ k - 2 := by
  obtain ⟨j, rfl⟩ := Nat.exists_eq_add_of_le' hk
  have e : 2 ^ (j + 3) = 4 * (2 * 2 ^ j) := by rw [pow_add]; ring
  have e' : 2 ^ (j + 3 - 2) = 2 * 2 ^ j := by rw [show j + 3 - 2 = j + 1 by omega, pow_succ]; ring
  have hpos : 0 < 2 ^ j := Nat.two_pow_pos j
  have d : (-1 : Int) / ((2 * 2 ^ j : Nat) : Int) = -1 := Int.ediv_eq_neg_one_of_neg_of_le (by norm_num) (by omega)
  have m : (-1 : Int) % ((2 * 2 ^ j : Nat) : Int) = (2 * 2 ^ j : Nat) - 1 := by
    have := Int.mul_ediv_add_emod (-1 : Int) ((2 * 2 ^ j : Nat) : Int)
    rw [d] at this
    omega
  have h1 : (-1 : Int) / (2 ^ (j + 3 - 2) : Nat) + 4 * (-1 % (2 ^ (j + 3 - 2) : Nat)) = (2 ^ (j + 3) : Nat) - 5 := by
    rw [e', d, m, e]
    omega
  refine ⟨h1, ?_⟩
  unfold aliasOf
  rw [h1, Int.emod_eq_of_lt (by rw [e]; omega) (by omega), e', e]
  have : (((4 * (2 * 2 ^ j) : Nat) : Int) - 5).toNat = 4 * (2 * 2 ^ j) - 5 := by omega
  rw [this]
  clear m d h1 e e' this
  generalize 2 ^ j = m at *
  have h4 : (4 * (2 * m) - 5) % 4 = 3 := by omega
  simp only [h4]
  omega

theorem alias_len (k : Nat) (hk : 3 ≤ k) :
    ((2 ^ k : Nat) : Int) / (2 ^ (k - 2) : Nat) + 4 * ((2 ^ k : Nat) % (2 ^ (k - 2) : Nat)) = 4 ∧ aliasOf k (2 ^ k : Nat) = 1 := by
  obtain ⟨j, rfl⟩ := Nat.exists_eq_add_of_le' hk
  have e : 2 ^ (j + 3) = 4 * (2 * 2 ^ j) := by rw [pow_add]; ring
  have e' : 2 ^ (j + 3 - 2) = 2 * 2 ^ j := by rw [show j + 3 - 2 = j + 1 by omega, pow_succ]; ring
  have hpos : 0 < 2 ^ j := Nat.two_pow_pos j
  have h1 : ((2 ^ (j + 3) : Nat) : Int) / (2 ^ (j + 3 - 2) : Nat) + 4 * ((2 ^ (j + 3) : Nat) % (2 ^ (j + 3 - 2) : Nat)) = 4 := by
    rw [e', e]
    norm_cast
    rw [Nat.mul_div_cancel _ (by omega), Nat.mul_mod_left]
  refine ⟨h1, ?_⟩
  unfold aliasOf
  rw [h1, Int.emod_eq_of_lt (by norm_num) (by rw [e]; omega)]
  simp

/-- **C113** fails for `mk_branch` too: on a list of `2^k >= 8` leaves, index `-1` opens (and verifies) the last leaf but ONE, and
index `len(L)`, past the end, opens the leaf at position 1. -/
theorem C113_open_refuted (H : Bytes → Bytes) (L : List Leaf) (bs : List Bytes) (k : Nat) (hk : 3 ≤ k) (hlen : L.length = 2 ^ k)
    (henc : L.map Leaf.encode = bs.map .ok) :
    ∃ tree root, merkelize H L = .ok tree ∧ tree[1]? = some root ∧
      (∃ proof b, mkBranchZ tree (-1) = .ok proof ∧ bs[2 ^ k - 2]? = some b ∧ verifyBranchZ H root (-1) proof = .ok b) ∧
      ∃ proof b, mkBranchZ tree L.length = .ok proof ∧ bs[1]? = some b ∧ verifyBranchZ H root L.length proof = .ok b := by
  have h8 : 8 ≤ 2 ^ k := by
    obtain ⟨j, rfl⟩ := Nat.exists_eq_add_of_le' hk
    have : 0 < 2 ^ j := Nat.two_pow_pos j
    rw [pow_add]; omega
  have h4 : 4 ∣ 2 ^ k := by
    obtain ⟨j, rfl⟩ := Nat.exists_eq_add_of_le' (show 2 ≤ k by omega)
    exact ⟨2 ^ j, by rw [pow_add]; ring⟩
  obtain ⟨tree, t1, t2, -, -⟩ := merkelize_spec H L bs (by rw [hlen]; exact h4) (by rintro rfl; simp at hlen; omega) henc
  obtain ⟨a1, a2⟩ := alias_neg_one k hk
  obtain ⟨b1, b2⟩ := alias_len k hk
  obtain ⟨tree', root, proof, b, h1, h2, h3, h5, h6, h7⟩ := merkle_complete H L bs k (by omega) hlen henc (2 ^ k - 2) (by omega)
  rw [t1] at h1
  cases h1
  obtain ⟨tree', root', proof', b', h1', h2', h3', h5', h6', h7'⟩ := merkle_complete H L bs k (by omega) hlen henc 1 (by omega)
  rw [t1] at h1'
  cases h1'
  rw [h2] at h2'
  cases h2'
  refine ⟨tree, root, t1, h2, ⟨proof, b, ?_, h6, ?_⟩, proof', b', ?_, h6', ?_⟩
  · rw [mkBranchZ_alias tree k (by omega) (by omega) (-1) (by omega) (by omega), a2, h3]
  · rw [verifyBranchZ_alias H root k (by omega) (-1) proof h5, a2, h7]
  · rw [hlen, mkBranchZ_alias tree k (by omega) (by omega) _ (by rw [b1]; norm_num) (by rw [b1]; omega), b2, h3']
  · rw [hlen, verifyBranchZ_alias H root k (by omega) _ proof' h5', b2, h7']

/-- This meets the hypotheses of `C113_verify_refuted`. -/
example : ([.int 0, .int 1, .int 2, .int 3, .int 4, .int 5, .int 6, .int 7] : List Leaf).length = 2 ^ 3 ∧
    ∃ bs : List Bytes, ([.int 0, .int 1, .int 2, .int 3, .int 4, .int 5, .int 6, .int 7] : List Leaf).map Leaf.encode = bs.map .ok :=
  ⟨rfl, [0, 1, 2, 3, 4, 5, 6, 7].map fun i => List.replicate 31 0 ++ [i], by decide⟩

theorem branchLoop_total (tree : List Bytes) (he : 2 ∣ tree.length) : ∀ (fuel index : Nat) (o : List Bytes), index < fuel →
    index < tree.length → ∃ S, branchLoop tree fuel index o = .ok S
  | 0, _, _, h, _ => absurd h (by omega)
  | fuel + 1, index, o, h, hi => by
    rw [branchLoop]
    split
    · have hx : index ^^^ 1 < tree.length := by
        rcases Nat.even_or_odd' index with ⟨p, rfl | rfl⟩
        · rw [xor_one_even]; omega
        · rw [xor_one_odd]; omega
      rw [pyIdx_ok hx]
      simp only [bind, Except.bind]
      exact branchLoop_total tree he fuel _ _ (by omega) (by omega)
    · exact ⟨_, rfl⟩

/-- **C113** (where `mk_branch` does raise).  With `node = x // (len(L)/4) + 4*(x % (len(L)/4)) + len(L)`, the call raises `IndexError`
exactly when the Python list of nodes has no item `node`: when `node >= 2*len(L)` or `node < -2*len(L)`. -/
theorem C113_index_error_partial (tree : List Bytes) (k : Nat) (hk : 2 ≤ k) (ht : tree.length = 2 * 2 ^ k) (x node : Int)
    (hn : node = x / (2 ^ (k - 2) : Nat) + 4 * (x % (2 ^ (k - 2) : Nat)) + (2 ^ k : Nat)) :
    mkBranchZ tree x = .error .indexError ↔ 2 * (2 ^ k : Nat) ≤ node ∨ node < -(2 * (2 ^ k : Nat) : Nat) := by
  have ht2 : tree.length / 2 = 2 ^ k := by omega
  unfold mkBranchZ
  rw [ht2, getIndexZ_ok k hk]
  simp only [bind, Except.bind]
  rw [← hn]
  have he : 2 ∣ tree.length := ⟨_, ht⟩
  unfold idxZ
  by_cases h0 : 0 ≤ node
  · rw [if_pos h0]
    by_cases h1 : node.toNat < tree.length
    · rw [pyIdx_ok h1]
      obtain ⟨S, hS⟩ := branchLoop_total tree he (node.toNat + 1) node.toNat [tree[node.toNat]] (by omega) h1
      simp only [hS, reduceCtorEq, false_iff]
      omega
    · simp only [pyIdx, List.getElem?_eq_none (Nat.le_of_not_lt h1), true_iff]
      omega
  · rw [if_neg h0]
    by_cases h1 : 0 ≤ node + tree.length
    · rw [if_pos h1, pyIdx_ok (by omega)]
      obtain ⟨S, hS⟩ := branchLoop_total tree he (node.toNat + 1) node.toNat [tree[(node + tree.length).toNat]'(by omega)] (by omega)
        (by have : 0 < 2 ^ k := Nat.two_pow_pos k
            omega)
      simp only [hS, reduceCtorEq, false_iff]
      omega
    · rw [if_neg h1]
      simp only [true_iff]
      omega

example : mkBranchZ (List.replicate 8 [0]) 5 = .error .indexError :=
  (C113_index_error_partial _ 2 (by norm_num) rfl 5 9 (by norm_num)).2 (by norm_num)

end Verif.Props
