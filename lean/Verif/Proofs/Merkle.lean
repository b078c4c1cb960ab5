import Verif.Model.Merkle
import Verif.Spec.Merkle
import Verif.Proofs.Bytes
import Mathlib.Data.List.Basic
import Mathlib.Data.Fintype.EquivFin
import Mathlib.Tactic.NormNum
import Mathlib.Data.Nat.Bitwise
import Mathlib.Tactic.IntervalCases
/-! # Merkle trees -/

namespace Verif.Merkle

/-! ### `permute4` -/

theorem pyIdx_ok {α : Type _} {l : List α} {i : Nat} (h : i < l.length) : pyIdx l i = .ok l[i] := by
  simp [pyIdx, h]

theorem permute4Loop_spec {α : Type _} (values : List α) (ld4 : Nat) (h4 : 4 * ld4 ≤ values.length) :
    ∀ (is : List Nat) (o : List α), (∀ i ∈ is, i < ld4) →
    ∃ B, permute4Loop values ld4 is o = .ok (o ++ B) ∧ B.length = 4 * is.length ∧
      ∀ (j r : Nat) (i : Nat), is[j]? = some i → r < 4 → B[4 * j + r]? = values[i + ld4 * r]?
  | [], o, _ => ⟨[], by simp [permute4Loop], rfl, by simp⟩
  | i :: is, o, h => by
    have hi := h i (by simp)
    obtain ⟨B, h1, h2, h3⟩ := permute4Loop_spec values ld4 h4 is
      (o ++ [values[i]'(by omega), values[i + ld4]'(by omega), values[i + ld4 * 2]'(by omega), values[i + ld4 * 3]'(by omega)])
      (fun j hj => h j (by simp [hj]))
    refine ⟨[values[i]'(by omega), values[i + ld4]'(by omega), values[i + ld4 * 2]'(by omega), values[i + ld4 * 3]'(by omega)] ++ B,
      ?_, by simp [h2]; omega, ?_⟩
    · rw [permute4Loop, pyIdx_ok (by omega), pyIdx_ok (by omega), pyIdx_ok (by omega), pyIdx_ok (by omega)]
      simp only [bind, Except.bind]
      rw [h1]; simp
    · intro j r i' hj hr
      cases j with
      | zero =>
        simp only [List.getElem?_cons_zero, Option.some.injEq] at hj
        subst hj
        interval_cases r <;> simp [(by omega : i < values.length), (by omega : i + ld4 < values.length), (by omega : i + ld4 * 2 < values.length), (by omega : i + ld4 * 3 < values.length)]
      | succ j =>
        simp only [List.getElem?_cons_succ] at hj
        rw [List.getElem?_append_right (by simp; omega)]
        have : 4 * (j + 1) + r - 4 = 4 * j + r := by omega
        simp only [List.length_cons, List.length_nil, Nat.reduceAdd, this]
        exact h3 j r i' hj hr

/-- Where `permute4` puts the entry with index `x`. -/
def perm (n x : Nat) : Nat := x / (n / 4) + 4 * (x % (n / 4))

theorem perm_lt {n x : Nat} (hn : 4 ∣ n) (hx : x < n) : perm n x < n := by
  obtain ⟨k, rfl⟩ := hn
  have hk : 4 * k / 4 = k := by omega
  unfold perm; rw [hk]
  have hk0 : 0 < k := by omega
  have h1 : x / k < 4 := Nat.div_lt_of_lt_mul (by omega)
  have h2 := Nat.mod_lt x hk0
  omega

theorem perm_inj {n x y : Nat} (hn : 4 ∣ n) (hx : x < n) (hy : y < n) (h : perm n x = perm n y) : x = y := by
  obtain ⟨k, rfl⟩ := hn
  have hk : 4 * k / 4 = k := by omega
  unfold perm at h; rw [hk] at h
  have h1 : x / k < 4 := Nat.div_lt_of_lt_mul (by omega)
  have h2 : y / k < 4 := Nat.div_lt_of_lt_mul (by omega)
  have key : ∀ a b c d : Nat, a < 4 → b < 4 → a + 4 * c = b + 4 * d → a = b ∧ c = d := by omega
  obtain ⟨e1, e2⟩ := key _ _ _ _ h1 h2 h
  rw [← Nat.div_add_mod x k, ← Nat.div_add_mod y k, e1, e2]

theorem permute4_spec {α : Type _} (values : List α) :
    ∃ P, permute4 values = .ok P ∧ P.length = 4 * (values.length / 4) ∧
      (4 ∣ values.length → ∀ x, x < values.length → P[perm values.length x]? = values[x]?) := by
  obtain ⟨B, h1, h2, h3⟩ := permute4Loop_spec values (values.length / 4) (by omega)
    (List.range (values.length / 4)) [] (by simp)
  refine ⟨B, by simpa [permute4] using h1, by simpa using h2, ?_⟩
  rintro ⟨k, hk⟩ x hx
  have hk4 : values.length / 4 = k := by omega
  rw [hk4] at h3
  have hk0 : 0 < k := by omega
  have hm := Nat.mod_lt x hk0
  have hd : x / k < 4 := Nat.div_lt_of_lt_mul (by omega)
  have := h3 (x % k) (x / k) (x % k) (by simp [hm]) hd
  unfold perm
  rw [hk4, add_comm, this]
  congr 1
  exact Nat.mod_add_div x k

theorem getIndex_ok {x L : Nat} (h : 4 ≤ L) : getIndexInPermuted x L = .ok (perm L x) := by
  have : L / 4 ≠ 0 := by omega
  simp [getIndexInPermuted, this, perm]

/-! ### The tree -/

theorem encodeLeaves_spec : ∀ (xs : List Leaf) (bs nodes : List Bytes), xs.map Leaf.encode = bs.map .ok →
    encodeLeaves xs nodes = .ok (nodes ++ bs)
  | [], bs, nodes, h => by
    have : bs = [] := by simpa using h.symm
    simp [encodeLeaves, this]
  | x :: xs, bs, nodes, h => by
    cases bs with
    | nil => simp at h
    | cons b bs =>
      simp only [List.map_cons, List.cons.injEq] at h
      rw [encodeLeaves, h.1]
      simp only [bind, Except.bind]
      rw [encodeLeaves_spec xs bs _ h.2]; simp

/-- Node `j` of a heap-ordered tree is the hash of its two children. -/
def IsNode (H : Bytes → Bytes) (tree : List Bytes) (j : Nat) : Prop :=
  ∃ a b, tree[2 * j]? = some a ∧ tree[2 * j + 1]? = some b ∧ tree[j]? = some (H (a ++ b))

theorem merkleLoop_spec (H : Bytes → Bytes) : ∀ (i : Nat) (nodes : List Bytes), 2 * i + 1 < nodes.length ∨ i = 0 →
    ∃ tree, merkleLoop H i nodes = .ok tree ∧ tree.length = nodes.length ∧
      (∀ j, i < j → tree[j]? = nodes[j]?) ∧ ∀ j, 1 ≤ j → j ≤ i → IsNode H tree j
  | 0, nodes, _ => ⟨nodes, rfl, rfl, fun _ _ => rfl, fun j h1 h2 => by omega⟩
  | i + 1, nodes, h => by
    have h : 2 * (i + 1) + 1 < nodes.length := by omega
    obtain ⟨tree, h1, h2, h3, h4⟩ := merkleLoop_spec H i
      (nodes.set (i + 1) (H (nodes[(i + 1) * 2]'(by omega) ++ nodes[(i + 1) * 2 + 1]'(by omega)))) (by simp; omega)
    refine ⟨tree, ?_, by simp [h2], ?_, ?_⟩
    · rw [merkleLoop, pyIdx_ok (by omega), pyIdx_ok (by omega)]
      simp only [bind, Except.bind]
      exact h1
    · intro j hj
      rw [h3 j (by omega), List.getElem?_set_ne (by omega)]
    · intro j hj1 hj2
      rcases Nat.lt_or_ge i j with hj | hj
      · have : j = i + 1 := by omega
        subst this
        refine ⟨nodes[(i + 1) * 2]'(by omega), nodes[(i + 1) * 2 + 1]'(by omega), ?_, ?_, ?_⟩
        · rw [h3 _ (by omega), List.getElem?_set_ne (by omega), mul_comm, List.getElem?_eq_getElem]
        · rw [h3 _ (by omega), List.getElem?_set_ne (by omega), mul_comm, List.getElem?_eq_getElem]
        · rw [h3 _ (by omega), List.getElem?_set_self (by omega)]
      · exact h4 j hj1 hj

theorem merkelize_spec (H : Bytes → Bytes) (L : List Leaf) (bs : List Bytes) (hL : 4 ∣ L.length) (h0 : L ≠ [])
    (henc : L.map Leaf.encode = bs.map .ok) :
    ∃ tree, merkelize H L = .ok tree ∧ tree.length = 2 * L.length ∧
      (∀ x, x < L.length → tree[L.length + perm L.length x]? = bs[x]?) ∧
      ∀ j, 1 ≤ j → j < L.length → IsNode H tree j := by
  have hpos : 0 < L.length := List.length_pos_iff.mpr h0
  obtain ⟨P, hP, hPl, hPx⟩ := permute4_spec L
  have hPl : P.length = L.length := by omega
  have hPx := hPx hL
  have hbl : bs.length = L.length := by simpa using (congrArg List.length henc).symm
  -- the permuted encodings
  obtain ⟨bp, hbp, hbpl, hbpx⟩ := permute4_spec bs
  have hbpl : bp.length = L.length := by omega
  have hbpx := hbpx (by rw [hbl]; exact hL)
  rw [hbl] at hbpx
  -- every permuted position is hit
  have hsurj : ∀ j, j < L.length → ∃ x, x < L.length ∧ perm L.length x = j := by
    intro j hj
    have hf : Function.Surjective (fun x : Fin L.length => (⟨perm L.length x, perm_lt hL x.2⟩ : Fin L.length)) := by
      apply Finite.surjective_of_injective
      intro x y hxy
      exact Fin.ext (perm_inj hL x.2 y.2 (by simpa using hxy))
    obtain ⟨x, hx⟩ := hf ⟨j, hj⟩
    exact ⟨x, x.2, by simpa using hx⟩
  have hencP : P.map Leaf.encode = bp.map .ok := by
    apply List.ext_getElem?
    intro j
    rcases Nat.lt_or_ge j L.length with hj | hj
    · obtain ⟨x, hx, rfl⟩ := hsurj j hj
      rw [List.getElem?_map, List.getElem?_map, hPx x hx, hbpx x hx, ← List.getElem?_map, ← List.getElem?_map, henc]
    · rw [List.getElem?_eq_none (by simp; omega), List.getElem?_eq_none (by simp; omega)]
  obtain ⟨tree, h1, h2, h3, h4⟩ := merkleLoop_spec H (L.length - 1) (List.replicate L.length [] ++ bp) (by simp; omega)
  refine ⟨tree, ?_, by simp [h2]; omega, ?_, ?_⟩
  · simp only [merkelize, hP, bind, Except.bind, hPl]
    rw [encodeLeaves_spec P bp _ hencP]
    exact h1
  · intro x hx
    rw [h3 _ (by omega), List.getElem?_append_right (by simp)]
    simp only [List.length_replicate, Nat.add_sub_cancel_left]
    exact hbpx x hx
  · intro j hj1 hj2
    exact h4 j hj1 (by omega)

/-! ### Completeness -/

theorem xor_one_odd (p : Nat) : (2 * p + 1) ^^^ 1 = 2 * p := by
  rw [Nat.xor_one_of_odd (by simp)]; omega

theorem xor_one_even (p : Nat) : (2 * p) ^^^ 1 = 2 * p + 1 := by
  rw [Nat.xor_one_of_even (by simp)]

/-- With the strings hashed on the way up, which are those of the tree. -/
theorem branch_complete' (H : Bytes → Bytes) (tree : List Bytes) (N : Nat) (hnode : ∀ j, 1 ≤ j → j < N → IsNode H tree j)
    (root : Bytes) (hroot : tree[1]? = some root) :
    ∀ (d index fuel : Nat) (o : List Bytes) (v : Bytes), 2 ^ d ≤ index → index < 2 ^ (d + 1) → index < 2 * N →
      d < fuel → tree[index]? = some v →
      ∃ S, branchLoop tree fuel index o = .ok (o ++ S) ∧ S.length = d ∧ verifyLoop H S index v = root ∧
        ∀ s ∈ hashedStrings H S index v, HashedInTree tree s
  | 0, index, fuel, o, v, h1, h2, h3, h4, h5 => by
    have : index = 1 := by simp at h1 h2; omega
    subst this
    obtain ⟨f, rfl⟩ : ∃ f, fuel = f + 1 := ⟨fuel - 1, by omega⟩
    rw [hroot] at h5
    exact ⟨[], by simp [branchLoop], rfl, by simpa [verifyLoop] using h5.symm, by simp [hashedStrings]⟩
  | d + 1, index, fuel, o, v, h1, h2, h3, h4, h5 => by
    obtain ⟨f, rfl⟩ : ∃ f, fuel = f + 1 := ⟨fuel - 1, by omega⟩
    have hd : 0 < 2 ^ d := Nat.two_pow_pos d
    rw [pow_succ] at h1 h2
    rw [pow_succ] at h2
    obtain ⟨a, b, ha, hb, hp⟩ := hnode (index / 2) (by omega) (by omega)
    rcases Nat.even_or_odd' index with ⟨p, rfl | rfl⟩
    · have hp2 : 2 * p / 2 = p := by omega
      rw [hp2] at ha hb hp
      obtain ⟨S, e1, e2, e3, e4⟩ := branch_complete' H tree N hnode root hroot d p f (o ++ [b]) (H (a ++ b)) (by omega)
        (by rw [pow_succ]; omega) (by omega) (by omega) hp
      have hva : v = a := by rw [ha] at h5; exact (Option.some.inj h5).symm
      refine ⟨b :: S, ?_, by simp [e2], ?_, ?_⟩
      · rw [branchLoop, if_pos (by omega), xor_one_even, hp2]
        simp only [pyIdx, hb, bind, Except.bind]
        rw [e1]; simp
      · rw [verifyLoop, if_neg (by omega), hp2, hva]; exact e3
      · intro s hs
        rw [hashedStrings, if_neg (by omega), hp2, hva] at hs
        rcases List.mem_cons.mp hs with rfl | hs
        · exact ⟨p, a, b, by omega, ha, hb, rfl⟩
        · exact e4 s hs
    · have hp2 : (2 * p + 1) / 2 = p := by omega
      rw [hp2] at ha hb hp
      obtain ⟨S, e1, e2, e3, e4⟩ := branch_complete' H tree N hnode root hroot d p f (o ++ [a]) (H (a ++ b)) (by omega)
        (by rw [pow_succ]; omega) (by omega) (by omega) hp
      have hvb : v = b := by rw [hb] at h5; exact (Option.some.inj h5).symm
      refine ⟨a :: S, ?_, by simp [e2], ?_, ?_⟩
      · rw [branchLoop, if_pos (by omega), xor_one_odd, hp2]
        simp only [pyIdx, ha, bind, Except.bind]
        rw [e1]; simp
      · rw [verifyLoop, if_pos (by omega), hp2, hvb]; exact e3
      · intro s hs
        rw [hashedStrings, if_pos (by omega), hp2, hvb] at hs
        rcases List.mem_cons.mp hs with rfl | hs
        · exact ⟨p, a, b, by omega, ha, hb, rfl⟩
        · exact e4 s hs

theorem merkle_complete' (H : Bytes → Bytes) (L : List Leaf) (bs : List Bytes) (k : Nat) (hk : 2 ≤ k)
    (hlen : L.length = 2 ^ k) (henc : L.map Leaf.encode = bs.map .ok) (x : Nat) (hx : x < L.length) :
    ∃ tree root proof b, merkelize H L = .ok tree ∧ tree[1]? = some root ∧ mkBranch tree x = .ok proof ∧
      proof.length = k + 1 ∧ bs[x]? = some b ∧ verifyBranch H root x proof = .ok b ∧
      ∀ s ∈ hashedByVerification H x proof, HashedInTree tree s := by
  have hpow : 4 ∣ 2 ^ k := by
    obtain ⟨m, rfl⟩ := Nat.exists_eq_add_of_le hk
    exact ⟨2 ^ m, by rw [pow_add]; norm_num⟩
  have h4 : 4 ≤ 2 ^ k := Nat.le_of_dvd (Nat.two_pow_pos k) hpow
  have hbl : bs.length = L.length := by simpa using (congrArg List.length henc).symm
  obtain ⟨tree, h1, h2, h3, h5⟩ := merkelize_spec H L bs (by rw [hlen]; exact hpow) (by intro h; simp [h] at hx) henc
  have htl : tree.length / 2 = 2 ^ k := by omega
  have hpl : perm (2 ^ k) x < 2 ^ k := perm_lt hpow (by omega)
  have hleaf : tree[perm (2 ^ k) x + 2 ^ k]? = some (bs[x]'(by omega)) := by
    have := h3 x hx
    rw [hlen, add_comm] at this
    rw [this, List.getElem?_eq_getElem]
  have hroot : tree[1]? = some (tree[1]'(by omega)) := List.getElem?_eq_getElem _
  obtain ⟨S, e1, e2, e3, e4⟩ := branch_complete' H tree (2 ^ k) (fun j hj1 hj2 => h5 j hj1 (by omega)) _ hroot k
    (perm (2 ^ k) x + 2 ^ k) (perm (2 ^ k) x + 2 ^ k + 1) [bs[x]'(by omega)] (bs[x]'(by omega)) (by omega)
    (by rw [pow_succ]; omega) (by omega) (by have := @Nat.lt_two_pow_self k; omega) hleaf
  refine ⟨tree, tree[1]'(by omega), bs[x]'(by omega) :: S, bs[x]'(by omega), h1, hroot, ?_, by simp [e2],
    List.getElem?_eq_getElem _, ?_, ?_⟩
  · unfold mkBranch
    rw [htl, getIndex_ok h4]
    simp only [bind, Except.bind, pyIdx, hleaf]
    simpa using e1
  · have hl : 2 ^ (bs[x]'(by omega) :: S).length / 2 = 2 ^ k := by
      rw [List.length_cons, e2, pow_succ]; omega
    unfold verifyBranch
    rw [hl, getIndex_ok h4]
    simp only [bind, Except.bind, e3, beq_self_eq_true, pyAssert, if_true]
  · intro s hs
    unfold hashedByVerification at hs
    rw [List.length_cons, e2, Nat.add_sub_cancel] at hs
    exact e4 s hs

theorem merkle_complete (H : Bytes → Bytes) (L : List Leaf) (bs : List Bytes) (k : Nat) (hk : 2 ≤ k)
    (hlen : L.length = 2 ^ k) (henc : L.map Leaf.encode = bs.map .ok) (x : Nat) (hx : x < L.length) :
    ∃ tree root proof b, merkelize H L = .ok tree ∧ tree[1]? = some root ∧ mkBranch tree x = .ok proof ∧
      proof.length = k + 1 ∧ bs[x]? = some b ∧ verifyBranch H root x proof = .ok b := by
  obtain ⟨tree, root, proof, b, h1, h2, h3, h4, h5, h6, -⟩ := merkle_complete' H L bs k hk hlen henc x hx
  exact ⟨tree, root, proof, b, h1, h2, h3, h4, h5, h6⟩

/-! ### Binding -/

theorem verifyLoop_binding (H : Bytes → Bytes) (n : Nat) (hH : ∀ s, (H s).length = n) :
    ∀ (ps ps' : List Bytes) (index : Nat) (v v' : Bytes), ps.length = ps'.length → v.length = v'.length →
      verifyLoop H ps index v = verifyLoop H ps' index v' →
      v = v' ∨ ∃ x ∈ hashedStrings H ps index v, ∃ y ∈ hashedStrings H ps' index v', x ≠ y ∧ H x = H y
  | [], [], _, v, v', _, _, h => Or.inl (by simpa [verifyLoop] using h)
  | [], _ :: _, _, _, _, hl, _, _ => by simp at hl
  | _ :: _, [], _, _, _, hl, _, _ => by simp at hl
  | p :: ps, p' :: ps', index, v, v', hl, hv, h => by
    have e : ∀ (q w : Bytes), (if index % 2 = 1 then H (q ++ w) else H (w ++ q)) = H (if index % 2 = 1 then q ++ w else w ++ q) := by
      intro q w; split <;> rfl
    rw [verifyLoop, verifyLoop, e, e] at h
    rcases verifyLoop_binding H n hH ps ps' (index / 2) _ _ (by simpa using hl) (by rw [hH, hH]) h with h | ⟨x, hx, y, hy, hne, hxy⟩
    · by_cases hs : (if index % 2 = 1 then p ++ v else v ++ p) = (if index % 2 = 1 then p' ++ v' else v' ++ p')
      · left
        split at hs
        · exact (List.append_inj' hs hv).2
        · exact (List.append_inj hs hv).1
      · right
        exact ⟨_, by simp [hashedStrings], _, by simp [hashedStrings], hs, h⟩
    · right
      exact ⟨x, by simp [hashedStrings, hx], y, by simp [hashedStrings, hy], hne, hxy⟩

theorem verifyBranch_ok {H : Bytes → Bytes} {root : Bytes} {index : Nat} {proof : List Bytes} {b : Bytes}
    (h : verifyBranch H root index proof = .ok b) :
    ∃ ps, proof = b :: ps ∧ 3 ≤ proof.length ∧
      verifyLoop H ps (perm (2 ^ (proof.length - 1)) index + 2 ^ (proof.length - 1)) b = root := by
  unfold verifyBranch at h
  by_cases h4 : 4 ≤ 2 ^ proof.length / 2
  · have hlen : 3 ≤ proof.length := by
      by_contra hc
      have : proof.length = 0 ∨ proof.length = 1 ∨ proof.length = 2 := by omega
      rcases this with h | h | h <;> rw [h] at h4 <;> simp at h4
    have hp : 2 ^ proof.length / 2 = 2 ^ (proof.length - 1) := by
      obtain ⟨m, hm⟩ : ∃ m, proof.length = m + 1 := ⟨proof.length - 1, by omega⟩
      rw [hm, pow_succ]; simp
    rw [getIndex_ok h4, hp] at h
    simp only [bind, Except.bind] at h
    cases proof with
    | nil => simp at hlen
    | cons v ps =>
      simp only [pyAssert] at h
      by_cases hv : verifyLoop H ps (perm (2 ^ ((v :: ps).length - 1)) index + 2 ^ ((v :: ps).length - 1)) v = root
      · simp only [beq_iff_eq, hv, if_true, Except.ok.injEq] at h
        subst h
        exact ⟨ps, rfl, hlen, hv⟩
      · simp only [beq_iff_eq, hv, if_false] at h; cases h
  · have : 2 ^ proof.length / 2 / 4 = 0 := Nat.div_eq_of_lt (by omega)
    simp [getIndexInPermuted, this, bind, Except.bind] at h

/-! ### Packing -/

theorem zipStar_spec {α : Type _} (m : Nat) : ∀ (rows : List (List α)), rows ≠ [] → (∀ r ∈ rows, r.length = m) →
    (zipStar rows).length = m ∧ ∀ i, i < m → ∃ col, (zipStar rows)[i]? = some col ∧ col.map some = rows.map (fun r => r[i]?)
  | [], h, _ => absurd rfl h
  | [row], _, h => by
    have hr := h row (by simp)
    refine ⟨by simp [zipStar, hr], fun i hi => ⟨[row[i]], by simp [zipStar, hr, hi], by simp [hr, hi]⟩⟩
  | row :: row' :: rows, _, h => by
    have hr := h row (by simp)
    obtain ⟨h1, h2⟩ := zipStar_spec m (row' :: rows) (by simp) (fun r hr => h r (by simp [hr]))
    have e : zipStar (row :: row' :: rows) = List.zipWith List.cons row (zipStar (row' :: rows)) := rfl
    refine ⟨by rw [e]; simp [h1, hr], fun i hi => ?_⟩
    obtain ⟨col, hc1, hc2⟩ := h2 i hi
    refine ⟨row[i] :: col, ?_, ?_⟩
    · rw [e, List.getElem?_zipWith, hc1, List.getElem?_eq_getElem (by omega)]
    · simp only [List.map_cons] at hc2 ⊢
      rw [hc2, List.getElem?_eq_getElem (l := row) (by omega)]

theorem joinBytes_spec : ∀ (es : List (Py Bytes)) (bs : List Bytes), es = bs.map .ok → joinBytes es = .ok bs.flatten
  | _, [], h => by subst h; rfl
  | _, b :: bs, h => by
    subst h
    simp only [List.map_cons, joinBytes, bind, Except.bind]
    rw [joinBytes_spec _ bs rfl]; simp

theorem flatten_slice (w : Nat) : ∀ (bs : List Bytes), (∀ b ∈ bs, b.length = w) → ∀ i b, bs[i]? = some b →
    (bs.flatten.take (w * (i + 1))).drop (w * i) = b
  | [], _, i, b, h => by simp at h
  | b0 :: bs, hw, 0, b, h => by
    have := hw b0 (by simp)
    simp at h; subst h
    simp [this]
  | b0 :: bs, hw, i + 1, b, h => by
    have h0 := hw b0 (by simp)
    have ih := flatten_slice w bs (fun b hb => hw b (by simp [hb])) i b (by simpa using h)
    rw [List.flatten_cons, List.take_append, List.drop_append]
    have e1 : w * (i + 1 + 1) - b0.length = w * (i + 1) := by rw [h0, Nat.mul_add w (i + 1) 1]; omega
    have e2 : List.take (w * (i + 1 + 1)) b0 = b0 := List.take_of_length_le (by rw [h0]; exact Nat.le_mul_of_pos_right w (by omega))
    have e3 : List.drop (w * (i + 1)) b0 = [] := List.drop_of_length_le (by rw [h0]; exact Nat.le_mul_of_pos_right w (by omega))
    have e4 : w * (i + 1) - b0.length = w * i := by rw [h0, Nat.mul_add w i 1]; omega
    rw [e1, e2, e3, e4, ih]; simp

theorem range_flatMap_map (dims numPolys : Nat) {α : Type _} (g : Nat → α) :
    ((List.range numPolys).flatMap fun p => (List.range dims).map fun d => g (p * dims + d)) =
      (List.range (numPolys * dims)).map g := by
  induction numPolys with
  | zero => simp
  | succ n ih =>
    rw [List.range_succ, List.flatMap_append, ih, Nat.succ_mul, List.range_add]
    simp

theorem unpack_flatten (bs : List Bytes) (dims numPolys : Nat) (hl : bs.length = numPolys * dims)
    (hw : ∀ b ∈ bs, b.length = 32) : unpackMerkleLeaf bs.flatten dims numPolys = bs := by
  unfold unpackMerkleLeaf
  rw [range_flatMap_map dims numPolys (fun i => (bs.flatten.take (32 * (i + 1))).drop (32 * i))]
  apply List.ext_getElem?
  intro i
  rcases Nat.lt_or_ge i bs.length with h | h
  · rw [List.getElem?_map, List.getElem?_range (by omega), List.getElem?_eq_getElem h, Option.map_some]
    congr 1
    exact flatten_slice 32 bs hw i _ (List.getElem?_eq_getElem h)
  · rw [List.getElem?_eq_none (by simp; omega), List.getElem?_eq_none h]

end Verif.Merkle
