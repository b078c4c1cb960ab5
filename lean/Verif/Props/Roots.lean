import Verif.Props.Merkle
import Mathlib.Data.Fintype.EquivFin
/-!
# C164: a Merkle root stands for one list
-/

namespace Verif.Props
open Merkle

theorem perm_surj {n : Nat} (hn : 4 ∣ n) (y : Nat) (hy : y < n) : ∃ x < n, perm n x = y := by
  let f : Fin n → Fin n := fun x => ⟨perm n x, perm_lt hn x.2⟩
  have hf : Function.Injective f := fun a b h => Fin.ext (perm_inj hn a.2 b.2 (congrArg Fin.val h))
  obtain ⟨x, hx⟩ := (Finite.injective_iff_surjective.1 hf) ⟨y, hy⟩
  exact ⟨x, x.2, congrArg Fin.val hx⟩

/-- **C164**, for lists of the same length whose items have encodings of the same lengths: if the roots are equal, then the encodings are,
or two different strings hashed in building the two trees have the same hash. -/
theorem C164_lists_partial (H : Bytes → Bytes) (n : Nat) (hH : ∀ s, (H s).length = n) (L L' : List Leaf) (bs bs' : List Bytes)
    (h4 : 4 ∣ L.length) (hlen : L.length = L'.length) (henc : L.map Leaf.encode = bs.map .ok) (henc' : L'.map Leaf.encode = bs'.map .ok)
    (hsize : bs.map List.length = bs'.map List.length) (tree tree' : List Bytes) (ht : merkelize H L = .ok tree)
    (ht' : merkelize H L' = .ok tree') (hroot : tree[1]? = tree'[1]?) :
    bs = bs' ∨ ∃ s t, HashedInTree tree s ∧ HashedInTree tree' t ∧ s ≠ t ∧ H s = H t := by
  by_cases hc : ∃ s t, HashedInTree tree s ∧ HashedInTree tree' t ∧ s ≠ t ∧ H s = H t
  · exact .inr hc
  left
  have hbl : bs.length = L.length := by simpa using (congrArg List.length henc).symm
  have hbl' : bs'.length = L.length := by simpa [hlen] using (congrArg List.length henc').symm
  rcases eq_or_ne L [] with rfl | h0
  · rw [List.length_nil] at hbl hbl'
    rw [List.length_eq_zero_iff.1 hbl, List.length_eq_zero_iff.1 hbl']
  have h0' : L' ≠ [] := by
    rintro rfl
    exact h0 (List.length_eq_zero_iff.1 hlen)
  obtain ⟨t, a1, a2, a3, a4⟩ := merkelize_spec H L bs h4 h0 henc
  obtain ⟨t', b1, b2, b3, b4⟩ := merkelize_spec H L' bs' (hlen ▸ h4) h0' henc'
  rw [ht] at a1
  rw [ht'] at b1
  cases a1
  cases b1
  rw [← hlen] at b2 b3 b4
  set N := L.length with hN
  have hlens : ∀ j, 1 ≤ j → j < 2 * N → (tree[j]?).map List.length = (tree'[j]?).map List.length := by
    intro j hj1 hj2
    rcases Nat.lt_or_ge j N with hj | hj
    · obtain ⟨a, b, -, -, e⟩ := a4 j hj1 hj
      obtain ⟨a', b', -, -, e'⟩ := b4 j hj1 hj
      rw [e, e', Option.map_some, Option.map_some, hH, hH]
    · obtain ⟨x, hx, hxy⟩ := perm_surj h4 (j - N) (by omega)
      have e1 := a3 x hx
      have e2 := b3 x hx
      rw [hxy, Nat.add_sub_cancel' hj] at e1 e2
      rw [e1, e2, ← List.getElem?_map, ← List.getElem?_map, hsize]
  have key : ∀ j, 1 ≤ j → j < 2 * N → tree[j]? = tree'[j]? := by
    intro j
    induction j using Nat.strong_induction_on with
    | _ j ih =>
      intro hj1 hj2
      rcases Nat.lt_or_ge 1 j with h1 | h1
      · have hup := ih (j / 2) (by omega) (by omega) (by omega)
        obtain ⟨a, b, e1, e2, e3⟩ := a4 (j / 2) (by omega) (by omega)
        obtain ⟨a', b', f1, f2, f3⟩ := b4 (j / 2) (by omega) (by omega)
        rw [e3, f3, Option.some.injEq] at hup
        have heq : a ++ b = a' ++ b' := by
          by_contra hne
          exact hc ⟨_, _, ⟨j / 2, a, b, by omega, e1, e2, rfl⟩, ⟨j / 2, a', b', by omega, f1, f2, rfl⟩, hne, hup⟩
        have hla := hlens (2 * (j / 2)) (by omega) (by omega)
        rw [e1, f1, Option.map_some, Option.map_some, Option.some.injEq] at hla
        obtain ⟨g1, g2⟩ := List.append_inj heq hla
        rcases Nat.mod_two_eq_zero_or_one j with hm | hm
        · rw [show j = 2 * (j / 2) by omega, e1, f1, g1]
        · rw [show j = 2 * (j / 2) + 1 by omega, e2, f2, g2]
      · rw [show j = 1 by omega]; exact hroot
  refine List.ext_getElem? fun x => ?_
  rcases Nat.lt_or_ge x N with hx | hx
  · rw [← a3 x hx, ← b3 x hx]
    exact key _ (by omega) (by have := perm_lt h4 hx; omega)
  · rw [List.getElem?_eq_none (by omega), List.getElem?_eq_none (by omega)]

/-- **C164** for lists of ints, which are all encoded with 32 bytes: lists of the same length with the same root are equal, or there is a
collision. -/
theorem C164_ints (H : Bytes → Bytes) (hH : ∀ s, (H s).length = 32) (l l' : List Int) (h4 : 4 ∣ l.length) (hlen : l.length = l'.length)
    (hl : ∀ z ∈ l ++ l', 0 ≤ z ∧ z < 2 ^ 256) (tree tree' : List Bytes) (ht : merkelize H (l.map .int) = .ok tree) (ht' : merkelize H (l'.map .int) = .ok tree')
    (hroot : tree[1]? = tree'[1]?) : l = l' ∨ ∃ s t, HashedInTree tree s ∧ HashedInTree tree' t ∧ s ≠ t ∧ H s = H t := by
  have hex : ∀ l : List Int, (∀ z ∈ l, 0 ≤ z ∧ z < 2 ^ 256) → ∃ bs : List Bytes, (l.map Leaf.int).map Leaf.encode = bs.map .ok ∧
      bs.map List.length = List.replicate l.length 32 ∧ bs.map (fun b => (fromBytes b : Int)) = l := by
    intro l
    induction l with
    | nil => exact fun _ => ⟨[], rfl, rfl, rfl⟩
    | cons z l ih =>
      intro h
      obtain ⟨bs, e1, e2, e3⟩ := ih fun z hz => h z (List.mem_cons_of_mem _ hz)
      obtain ⟨b, f1, f2, f3⟩ := (C29_leaf_encoding z [] (.ok [])).1 (h z (by simp)).1 (h z (by simp)).2
      refine ⟨b :: bs, ?_, ?_, ?_⟩
      · rw [List.map_cons, List.map_cons, List.map_cons, e1, f1]
      · rw [List.map_cons, e2, f2]; rfl
      · rw [List.map_cons, e3, f3]
  obtain ⟨bs, e1, e2, e3⟩ := hex l fun z hz => hl z (List.mem_append_left _ hz)
  obtain ⟨bs', f1, f2, f3⟩ := hex l' fun z hz => hl z (List.mem_append_right _ hz)
  rcases C164_lists_partial H 32 hH (l.map .int) (l'.map .int) bs bs' (by simpa using h4) (by simpa using hlen) e1 f1
    (by rw [e2, f2, hlen]) tree tree' ht ht' hroot with h | h
  · left; rw [← e3, ← f3, h]
  · exact .inr h

/-- **C164** fails for lists of different lengths, whatever the hash function: the nodes one level above the items of a list of `2^(k+1)`
items, in the right order, are a list of half the length with the same root, and `verify_branch` accepts each of them as an item. -/
theorem C164_levels_refuted (H : Bytes → Bytes) (L : List Leaf) (bs : List Bytes) (k : Nat) (hk : 2 ≤ k) (hlen : L.length = 2 ^ (k + 1))
    (henc : L.map Leaf.encode = bs.map .ok) :
    ∃ (tree : List Bytes) (root : Bytes) (nodes tree' : List Bytes), merkelize H L = .ok tree ∧ tree[1]? = some root ∧ nodes.length = 2 ^ k ∧
      merkelize H (nodes.map .bytes) = .ok tree' ∧ tree'[1]? = some root ∧
      ∀ x, x < 2 ^ k → ∃ s proof b, HashedInTree tree s ∧ nodes[x]? = some b ∧ b = H s ∧ mkBranch tree' x = .ok proof ∧
        verifyBranch H root x proof = .ok b := by
  have hpow : 4 ∣ 2 ^ k := by
    obtain ⟨m, rfl⟩ := Nat.exists_eq_add_of_le hk
    exact ⟨2 ^ m, by rw [pow_add]; norm_num⟩
  have h0 : 0 < 2 ^ k := Nat.two_pow_pos k
  have hlen2 : L.length = 2 * 2 ^ k := by rw [hlen, pow_succ]; ring
  obtain ⟨tree, a1, a2, a3, a4⟩ := merkelize_spec H L bs (by rw [hlen2]; exact hpow.mul_left 2) (by rintro rfl; simp at hlen2) henc
  rw [hlen2] at a2 a3 a4
  set N := 2 ^ k with hNdef
  have hidx : ∀ x, x < N → N + perm N x < tree.length := fun x hx => by have := perm_lt hpow hx; omega
  let nodes : List Bytes := (List.range N).map fun x => tree.getD (N + perm N x) []
  have hnl : nodes.length = N := by simp [nodes]
  have hnx : ∀ x, x < N → nodes[x]? = tree[N + perm N x]? := fun x hx => by
    simp only [nodes, List.getElem?_map, List.getElem?_range hx, Option.map_some]
    rw [List.getD_eq_getElem?_getD, List.getElem?_eq_getElem (hidx x hx), Option.getD_some]
  have hne : (nodes.map Leaf.bytes) ≠ [] := by
    intro h
    rw [List.map_eq_nil_iff] at h
    rw [h] at hnl
    simp at hnl; omega
  have henc' : (nodes.map Leaf.bytes).map Leaf.encode = nodes.map .ok := by simp [Leaf.encode, Function.comp_def]
  obtain ⟨tree', b1, b2, b3, b4⟩ := merkelize_spec H (nodes.map .bytes) nodes (by rw [List.length_map, hnl]; exact hpow) hne henc'
  rw [List.length_map, hnl] at b2 b3 b4
  have key : ∀ d j, j = 2 * N - 1 - d → 1 ≤ j → tree'[j]? = tree[j]? := by
    intro d
    induction d using Nat.strong_induction_on with
    | _ d ih =>
      intro j hj hj1
      rcases Nat.lt_or_ge j N with h | h
      · obtain ⟨a, b, e1, e2, e3⟩ := a4 j hj1 (by omega)
        obtain ⟨a', b', f1, f2, f3⟩ := b4 j hj1 h
        have g1 := ih (2 * N - 1 - 2 * j) (by omega) (2 * j) (by omega) (by omega)
        have g2 := ih (2 * N - 1 - (2 * j + 1)) (by omega) (2 * j + 1) (by omega) (by omega)
        rw [e1, f1, Option.some.injEq] at g1
        rw [e2, f2, Option.some.injEq] at g2
        rw [e3, f3, g1, g2]
      · obtain ⟨x, hx, hxy⟩ := perm_surj hpow (j - N) (by omega)
        have e := b3 x hx
        rw [hnx x hx, hxy, Nat.add_sub_cancel' h] at e
        exact e
  have hroot : tree[1]? = some (tree[1]'(by omega)) := List.getElem?_eq_getElem _
  have hroot' : tree'[1]? = some (tree[1]'(by omega)) := by rw [← hroot]; exact key (2 * N - 2) 1 (by omega) le_rfl
  refine ⟨tree, tree[1]'(by omega), nodes, tree', a1, hroot, hnl, b1, hroot', fun x hx => ?_⟩
  obtain ⟨t, r, proof, b, c1, c2, c3, -, c5, c6⟩ := merkle_complete H (nodes.map .bytes) nodes k hk (by rw [List.length_map, hnl]) henc' x
    (by rw [List.length_map, hnl]; exact hx)
  rw [b1] at c1
  cases c1
  rw [hroot'] at c2
  cases c2
  obtain ⟨u, v, e1, e2, e3⟩ := a4 (N + perm N x) (by omega) (by have := perm_lt hpow hx; omega)
  refine ⟨u ++ v, proof, b, ⟨_, u, v, by omega, e1, e2, rfl⟩, c5, ?_, c3, c6⟩
  rw [hnx x hx, e3, Option.some.injEq] at c5
  exact c5.symm

/-- **C164** fails for items of different lengths, whatever the hash function. -/
theorem C164_sizes_refuted (H : Bytes → Bytes) (c d : Bytes) : ∃ tree tree', merkelize H [.bytes [1], .bytes [2], .bytes c, .bytes d] = .ok tree ∧
    merkelize H [.bytes [1, 2], .bytes [], .bytes c, .bytes d] = .ok tree' ∧ tree[1]? = tree'[1]? :=
  ⟨[[], H (H [1, 2] ++ H (c ++ d)), H [1, 2], H (c ++ d), [1], [2], c, d], [[], H (H [1, 2] ++ H (c ++ d)), H [1, 2], H (c ++ d), [1, 2], [], c, d],
    by simp [merkelize, permute4, permute4Loop, encodeLeaves, Leaf.encode, merkleLoop, pyIdx, bind, Except.bind, List.range, List.range.loop],
    by simp [merkelize, permute4, permute4Loop, encodeLeaves, Leaf.encode, merkleLoop, pyIdx, bind, Except.bind, List.range, List.range.loop], rfl⟩

/-- Two lists of four numbers have the same root under a hash function that adds up the bytes. This meets the hypotheses of
`C164_lists_partial` and `C164_ints`. -/
example : (∀ s : Bytes, (List.replicate 32 s.sum).length = 32) ∧
    (do
      let t ← merkelize (fun s => List.replicate 32 s.sum) ([7, 300, 5, 11].map .int)
      let t' ← merkelize (fun s => List.replicate 32 s.sum) ([300, 7, 16, 0].map .int)
      .ok (t[1]? == t'[1]?, t == t') : Py (Bool × Bool)) = .ok (true, false) := by
  refine ⟨by simp, by decide +kernel⟩

/-- Eight numbers, whose tree has the root of a tree of four byte strings. This meets the hypotheses of `C164_levels_refuted`. -/
example : ∃ bs : List Bytes, ([1, 2, 3, 4, 5, 6, 7, 8].map Leaf.int).map Leaf.encode = bs.map .ok ∧
    (List.map Leaf.int [1, 2, 3, 4, 5, 6, 7, 8]).length = 2 ^ (2 + 1) :=
  ⟨[1, 2, 3, 4, 5, 6, 7, 8].map fun i => List.replicate 31 0 ++ [i], rfl, rfl⟩

end Verif.Props
