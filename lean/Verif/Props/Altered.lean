import Verif.Props.Statement
import Verif.Props.Merkle
/-!
# C165: a proof cannot be altered
-/

namespace Verif.Props
open Poly Stark Air Merkle

theorem verifyLoop_whole (H : Bytes → Bytes) (n : Nat) (hH : ∀ s, (H s).length = n) :
    ∀ (ps ps' : List Bytes) (index : Nat) (v v' : Bytes), ps.map List.length = ps'.map List.length → v.length = v'.length →
      verifyLoop H ps index v = verifyLoop H ps' index v' →
      (v = v' ∧ ps = ps') ∨ ∃ x ∈ hashedStrings H ps index v, ∃ y ∈ hashedStrings H ps' index v', x ≠ y ∧ H x = H y
  | [], [], _, v, v', _, _, h => Or.inl ⟨by simpa [verifyLoop] using h, rfl⟩
  | [], _ :: _, _, _, _, hl, _, _ => by simp at hl
  | _ :: _, [], _, _, _, hl, _, _ => by simp at hl
  | p :: ps, p' :: ps', index, v, v', hl, hv, h => by
    have e : ∀ (q w : Bytes), (if index % 2 = 1 then H (q ++ w) else H (w ++ q)) = H (if index % 2 = 1 then q ++ w else w ++ q) := by
      intro q w; split <;> rfl
    rw [verifyLoop, verifyLoop, e, e] at h
    simp only [List.map_cons, List.cons.injEq] at hl
    rcases verifyLoop_whole H n hH ps ps' (index / 2) _ _ hl.2 (by rw [hH, hH]) h with ⟨h, h'⟩ | ⟨x, hx, y, hy, hne, hxy⟩
    · by_cases hs : (if index % 2 = 1 then p ++ v else v ++ p) = (if index % 2 = 1 then p' ++ v' else v' ++ p')
      · left
        split at hs
        · obtain ⟨a, b⟩ := List.append_inj' hs hv
          exact ⟨b, by rw [a, h']⟩
        · obtain ⟨a, b⟩ := List.append_inj hs hv
          exact ⟨a, by rw [b, h']⟩
      · right
        exact ⟨_, by simp [hashedStrings], _, by simp [hashedStrings], hs, h⟩
    · right
      exact ⟨x, by simp [hashedStrings, hx], y, by simp [hashedStrings, hy], hne, hxy⟩

/-- **C165** for one opening: two accepted proofs for one position of one root whose strings have the same sizes are the same, or two
different strings hashed in checking them have the same hash. -/
theorem C165_branch_partial (H : Bytes → Bytes) (n : Nat) (hH : ∀ s, (H s).length = n) (root : Bytes) (x : Nat)
    (proof proof' : List Bytes) (b b' : Bytes) (hsize : proof.map List.length = proof'.map List.length)
    (h : verifyBranch H root x proof = .ok b) (h' : verifyBranch H root x proof' = .ok b') :
    proof = proof' ∨ ∃ s ∈ hashedByVerification H x proof, ∃ t ∈ hashedByVerification H x proof', s ≠ t ∧ H s = H t := by
  obtain ⟨ps, rfl, hl, hv⟩ := verifyBranch_ok h
  obtain ⟨ps', rfl, hl', hv'⟩ := verifyBranch_ok h'
  have hlen : (b :: ps).length = (b' :: ps').length := by simpa using congrArg List.length hsize
  simp only [List.map_cons, List.cons.injEq] at hsize
  have e : (b' :: ps').length - 1 = (b :: ps).length - 1 := by rw [hlen]
  rw [e] at hv'
  have := verifyLoop_whole H n hH ps ps' _ b b' hsize.2 hsize.1 (hv.trans hv'.symm)
  unfold hashedByVerification
  rw [e]
  rcases this with ⟨rfl, rfl⟩ | h
  · exact .inl rfl
  · exact .inr h

theorem verifyBranch_of {H : Bytes → Bytes} {root : Bytes} {index : Nat} {b : Bytes} {ps : List Bytes} (hl : 3 ≤ (b :: ps).length)
    (hv : verifyLoop H ps (perm (2 ^ ((b :: ps).length - 1)) index + 2 ^ ((b :: ps).length - 1)) b = root) :
    verifyBranch H root index (b :: ps) = .ok b := by
  have hp : 2 ^ (b :: ps).length / 2 = 2 ^ ((b :: ps).length - 1) := by
    obtain ⟨m, hm⟩ : ∃ m, (b :: ps).length = m + 1 := ⟨(b :: ps).length - 1, by omega⟩
    rw [hm, pow_succ]; simp
  have h4 : 4 ≤ 2 ^ (b :: ps).length / 2 := by
    rw [hp]
    calc 4 = 2 ^ 2 := rfl
      _ ≤ _ := Nat.pow_le_pow_right (by omega) (by omega)
  unfold verifyBranch
  rw [getIndex_ok h4, hp]
  simp only [bind, Except.bind, hv, beq_self_eq_true, pyAssert, if_true]

/-- In an accepted branch without empty strings a byte can be moved from the leaf to its neighbour or back. -/
theorem moved_branch {H : Bytes → Bytes} {root : Bytes} {index : Nat} {leaf : Bytes} {proof : List Bytes}
    (h : verifyBranch H root index proof = .ok leaf) (hne : ∀ s ∈ proof, s ≠ []) :
    ∃ proof' leaf', proof' ≠ proof ∧ (proof'.map List.length).sum = (proof.map List.length).sum ∧
      verifyBranch H root index proof' = .ok leaf' := by
  obtain ⟨ps, rfl, hl, hv⟩ := verifyBranch_ok h
  obtain ⟨q, ps, rfl⟩ : ∃ q qs, ps = q :: qs := by
    cases ps with
    | nil => simp at hl
    | cons q qs => exact ⟨q, qs, rfl⟩
  have hleaf : leaf ≠ [] := hne _ (by simp)
  have hq : q ≠ [] := hne _ (by simp)
  rw [verifyLoop] at hv
  by_cases hodd : (perm (2 ^ ((leaf :: q :: ps).length - 1)) index + 2 ^ ((leaf :: q :: ps).length - 1)) % 2 = 1
  · obtain ⟨c, cs, rfl⟩ := List.exists_cons_of_ne_nil hleaf
    refine ⟨cs :: (q ++ [c]) :: ps, cs, fun e => ?_, by simp; omega, verifyBranch_of (by simpa using hl) ?_⟩
    · have := congrArg List.length (List.cons.inj e).1
      simp at this
    · rw [verifyLoop]
      simp only [List.length_cons] at hodd hv ⊢
      rw [if_pos hodd] at hv ⊢
      simpa using hv
  · obtain ⟨c, cs, rfl⟩ := List.exists_cons_of_ne_nil hq
    refine ⟨(leaf ++ [c]) :: cs :: ps, leaf ++ [c], fun e => ?_, by simp; omega, verifyBranch_of (by simpa using hl) ?_⟩
    · have := congrArg List.length (List.cons.inj e).1
      simp at this
    · rw [verifyLoop]
      simp only [List.length_cons] at hodd hv ⊢
      rw [if_neg hodd] at hv ⊢
      simpa using hv

variable {p : Nat} [Fact p.Prime] {φ : Type}

/-- **C165** for STARK proofs: two proofs with the same roots, accepted for whatever statements, whose branches have strings of the same
sizes, have the same branches in all places that are read, or there are two different strings hashed in checking them with the same
hash. -/
theorem C165_proof_partial (blake : Bytes → Bytes) (hbl : ∀ x, (blake x).length = 32)
    (friVerify : φ → Bytes → Zp p → Nat → Nat → Py Bool) (S : Params (Zp p)) (hl : S.last ≠ 1) (ho : orderOf S.G2 = S.precision)
    (h2 : 2 ≤ S.precision) (h24 : S.precision < 2 ^ 24) (he : 2 ≤ S.ext) (W W' : List (List (Zp p)))
    (b b' : List (Nat × Nat × Zp p)) (pr pr' : Proof φ) (hm : pr.mRoot = pr'.mRoot) (hr : pr.lRoot = pr'.lRoot)
    (hsize : ∀ j, j < 3 * S.factor → (pr.branches[j]?).map (List.map List.length) = (pr'.branches[j]?).map (List.map List.length))
    (h : verifyProof blake friVerify S W b pr = .ok true) (h' : verifyProof blake friVerify S W' b' pr' = .ok true) :
    (∀ j, j < 3 * S.factor → pr.branches[j]? = pr'.branches[j]?) ∨
      ∃ br ∈ pr.branches, ∃ br' ∈ pr'.branches, ∃ x, ∃ s ∈ hashedByVerification blake x br, ∃ t ∈ hashedByVerification blake x br',
        s ≠ t ∧ blake s = blake t := by
  by_cases hc : ∃ br ∈ pr.branches, ∃ br' ∈ pr'.branches, ∃ x, ∃ s ∈ hashedByVerification blake x br,
      ∃ t ∈ hashedByVerification blake x br', s ≠ t ∧ blake s = blake t
  · exact .inr hc
  left
  obtain ⟨-, deg, positions, -, -, v3, v4⟩ := (verifyProof_iff _ _ _ _ _ _ _).1 h
  obtain ⟨-, deg', positions', -, -, w3, w4⟩ := (verifyProof_iff _ _ _ _ _ _ _).1 h'
  rw [← hr, v3] at w3
  cases w3
  have hlen := (sampled blake hbl S ho h2 h24 he v3).1
  have one : ∀ (j x : Nat) (root leaf leaf' : Bytes) (br br' : List Bytes), j < 3 * S.factor → pr.branches[j]? = some br →
      pr'.branches[j]? = some br' → verifyBranch blake root x br = .ok leaf → verifyBranch blake root x br' = .ok leaf' →
      pr.branches[j]? = pr'.branches[j]? := by
    intro j x root leaf leaf' br br' hj e e' hv hv'
    have hs := hsize j hj
    rw [e, e', Option.map_some, Option.map_some, Option.some.injEq] at hs
    rcases C165_branch_partial blake 32 hbl root x br br' leaf leaf' hs hv hv' with rfl | ⟨s, hs1, t, ht1, hne⟩
    · rw [e, e']
    · exact absurd ⟨br, List.mem_of_getElem? e, br', List.mem_of_getElem? e', x, s, hs1, t, ht1, hne⟩ hc
  intro j hj
  have hi : positions[j / 3]? = some (positions[j / 3]'(by omega)) := List.getElem?_eq_getElem _
  obtain ⟨br1, br2, br3, l1, l2, l3, a1, a2, a3, a4, a5, a6, -⟩ := (verifyAt_iff _ _ _ _ _ _ _ hl).1 (v4 _ _ hi)
  obtain ⟨br1', br2', br3', l1', l2', l3', b1, b2, b3, b4, b5, b6, -⟩ := (verifyAt_iff _ _ _ _ _ _ _ hl).1 (w4 _ _ hi)
  rw [← hm] at b4 b5
  rw [← hr] at b6
  have hcase : j = j / 3 * 3 ∨ j = j / 3 * 3 + 1 ∨ j = j / 3 * 3 + 2 := by omega
  rcases hcase with e | e | e
  · rw [e]; exact one _ _ _ _ _ _ _ (by omega) a1 b1 a4 b4
  · rw [e]; exact one _ _ _ _ _ _ _ (by omega) a2 b2 a5 b5
  · rw [e]; exact one _ _ _ _ _ _ _ (by omega) a3 b3 a6 b6

/-- **C165** fails: branches nobody reads can be added to every accepted proof. -/
theorem C165_appended_refuted (blake : Bytes → Bytes) (friVerify : φ → Bytes → Zp p → Nat → Nat → Py Bool) (S : Params (Zp p))
    (hl : S.last ≠ 1) (W : List (List (Zp p))) (b : List (Nat × Nat × Zp p)) (pr : Proof φ)
    (h : verifyProof blake friVerify S W b pr = .ok true) (extra : List (List Bytes)) :
    verifyProof blake friVerify S W b { pr with branches := pr.branches ++ extra } = .ok true := by
  obtain ⟨-, deg, positions, v1, v2, v3, v4⟩ := (verifyProof_iff _ _ _ _ _ _ _).1 h
  refine (verifyProof_iff _ _ _ _ _ _ _).2 ⟨rfl, deg, positions, v1, v2, v3, fun i pos hi => ?_⟩
  obtain ⟨br1, br2, br3, l1, l2, l3, a1, a2, a3, a4⟩ := (verifyAt_iff _ _ _ _ _ _ _ hl).1 (v4 i pos hi)
  have app : ∀ (j : Nat) (br : List Bytes), pr.branches[j]? = some br → (pr.branches ++ extra)[j]? = some br := fun j br e => by
    rw [List.getElem?_append_left (List.getElem?_eq_some_iff.1 e).1, e]
  exact (verifyAt_iff _ _ _ _ _ _ _ hl).2 ⟨br1, br2, br3, l1, l2, l3, app _ _ a1, app _ _ a2, app _ _ a3, a4⟩

/-- **C165** fails: in every accepted proof without empty strings, a byte can be moved from one string of a branch to the next, and the
proof is still accepted for the same statement. -/
theorem C165_moved_refuted (blake : Bytes → Bytes) (hbl : ∀ x, (blake x).length = 32)
    (friVerify : φ → Bytes → Zp p → Nat → Nat → Py Bool) (S : Params (Zp p)) (hl : S.last ≠ 1) (ho : orderOf S.G2 = S.precision)
    (h2 : 2 ≤ S.precision) (h24 : S.precision < 2 ^ 24) (he : 2 ≤ S.ext) (hf : 1 ≤ S.factor) (W : List (List (Zp p)))
    (b : List (Nat × Nat × Zp p)) (pr : Proof φ) (hne : ∀ br ∈ pr.branches, ∀ s ∈ br, s ≠ [])
    (h : verifyProof blake friVerify S W b pr = .ok true) :
    ∃ branches : List (List Bytes), branches ≠ pr.branches ∧
      branches.map (fun br => (br.map List.length).sum) = pr.branches.map (fun br => (br.map List.length).sum) ∧
      verifyProof blake friVerify S W b { pr with branches := branches } = .ok true := by
  obtain ⟨-, deg, positions, v1, v2, v3, v4⟩ := (verifyProof_iff _ _ _ _ _ _ _).1 h
  have hlen := (sampled blake hbl S ho h2 h24 he v3).1
  have h0 : positions[0]? = some (positions[0]'(by omega)) := List.getElem?_eq_getElem _
  obtain ⟨br1, br2, br3, l1, l2, l3, a1, a2, a3, a4, a5, a6, a7⟩ := (verifyAt_iff _ _ _ _ _ _ _ hl).1 (v4 _ _ h0)
  have hmem := hne br3 (List.mem_of_getElem? a3)
  obtain ⟨br, l, hbr, hsum, hv⟩ := moved_branch a6 hmem
  simp only [Nat.zero_mul, Nat.zero_add] at a1 a2 a3
  refine ⟨pr.branches.set 2 br, fun e => ?_, ?_, ?_⟩
  · have := congrArg (·[2]?) e
    simp only [a3, List.getElem?_set_self (List.getElem?_eq_some_iff.1 a3).1, Option.some.injEq] at this
    exact hbr this
  · rw [List.map_set]
    apply List.ext_getElem?
    intro j
    rw [List.getElem?_set]
    split
    · subst j
      rw [List.getElem?_map, a3, hsum]
      simp [(List.getElem?_eq_some_iff.1 a3).1]
    · rfl
  · refine (verifyProof_iff _ _ _ _ _ _ _).2 ⟨rfl, deg, positions, v1, v2, v3, fun i pos hi => ?_⟩
    by_cases hi0 : i = 0
    · subst hi0
      rw [h0] at hi
      cases hi
      refine (verifyAt_iff _ _ _ _ _ _ _ hl).2 ⟨br1, br2, br, l1, l2, l, ?_, ?_, ?_, a4, a5, hv, a7⟩
      · simpa using a1
      · simpa using a2
      · simp [(List.getElem?_eq_some_iff.1 a3).1]
    · obtain ⟨br1, br2, br3, l1, l2, l3, c1, c2, c3, c4⟩ := (verifyAt_iff _ _ _ _ _ _ _ hl).1 (v4 i pos hi)
      refine (verifyAt_iff _ _ _ _ _ _ _ hl).2 ⟨br1, br2, br3, l1, l2, l3, ?_, ?_, ?_, c4⟩ <;>
        · dsimp only
          rw [List.getElem?_set_ne (by omega)]
          assumption

/-- An honest proof for two steps of squaring, the same proof with a branch added, and the same proof with a byte moved from the leaf of the
third branch: all three are accepted, no string in the honest proof is empty, and the first two agree in all sizes that are read. This
meets the hypotheses of `C165_proof_partial`, `C165_appended_refuted` and `C165_moved_refuted`. -/
example : (∀ x, (sqHash x).length = 32) ∧
    (do
      let S ← mkStark (K := Zp 17) 100 17 4 4 1 1 sqStep 1
      let pr ← mkProof 100 sqHash (fun _ _ _ _ => .ok ()) S sqW sqB
      let r ← verifyProof sqHash (fun _ _ _ _ _ => .ok true) S sqW sqB pr
      let more := { pr with branches := pr.branches ++ [[[1, 2]]] }
      let r' ← verifyProof sqHash (fun _ _ _ _ _ => .ok true) S sqW sqB more
      let t ← pyIdx pr.branches 2
      let v ← pyIdx t 0
      let q ← pyIdx t 1
      let even := { pr with branches := pr.branches.set 2 ((v ++ q.take 1) :: q.drop 1 :: t.drop 2) }
      let odd := { pr with branches := pr.branches.set 2 (v.drop 1 :: (q ++ v.take 1) :: t.drop 2) }
      let e := decide (verifyProof sqHash (fun _ _ _ _ _ => .ok true) S sqW sqB even = .ok true)
      let o := decide (verifyProof sqHash (fun _ _ _ _ _ => .ok true) S sqW sqB odd = .ok true)
      .ok (decide (S.G2 = 7 ∧ S.last = 13 ∧ S.precision = 16 ∧ S.ext = 4 ∧ S.factor = 1),
        decide (∀ br ∈ pr.branches, ∀ s ∈ br, s ≠ []),
        decide (∀ j < 3, (pr.branches[j]?).map (List.map List.length) = (more.branches[j]?).map (List.map List.length)),
        r && r' && (e || o)) : Py (Bool × Bool × Bool × Bool)) = .ok (true, true, true, true) ∧
    orderOf (7 : Zp 17) = 16 := by
  refine ⟨sqHash_length, by decide +kernel, (orderOf_eq_iff (by norm_num)).2 ⟨by decide +kernel, fun m h1 h2 => ?_⟩⟩
  interval_cases m <;> decide +kernel

/-- With `sqHash` as the hash: a list of eight words, and the branch for position 5 accepted. This meets the hypotheses of
`C165_branch_partial`. -/
example : (∀ x, (sqHash x).length = 32) ∧
    (do
      let tree ← merkelize sqHash ((List.range 8).map fun i => Leaf.bytes [UInt8.ofNat i, 7])
      let root ← pyIdx tree 1
      let br ← mkBranch tree 5
      verifyBranch sqHash root 5 br : Py Bytes) = .ok [5, 7] := by
  refine ⟨sqHash_length, by decide +kernel⟩

end Verif.Props
