import Verif.Proofs.Compression
import Verif.Proofs.GeneratedProofs
import Verif.Spec.ProofSize
/-! # The size of a compressed proof -/

namespace Verif.Compression

theorem binLength_append (a b : List Bytes) : binLength (a ++ b) = binLength a + binLength b := by
  simp [binLength]

theorem binLength_single (x : Bytes) : binLength [x] = cost x := by
  unfold binLength cost
  by_cases h : x.length = 32
  · simp [h]
  · simp [h]

theorem binLength_eq (T : List Bytes) : binLength T = plainSize T := by
  induction T with
  | nil => rfl
  | cons x T ih =>
    rw [← List.singleton_append, binLength_append, binLength_single, ih]
    simp [plainSize]

theorem card_le (T : List Bytes) : T.toFinset.card ≤ T.length := List.toFinset_card_le T

theorem sharedSize_snoc (T : List Bytes) (x : Bytes) :
    sharedSize (T ++ [x]) = sharedSize T + if x ∈ T then 2 else cost x := by
  have hc := card_le T
  unfold sharedSize
  have e : (T ++ [x]).toFinset = insert x T.toFinset := by
    ext y
    simp
  rw [e, List.length_append, List.length_singleton]
  by_cases h : x ∈ T
  · rw [Finset.insert_eq_of_mem (by simpa using h), if_pos h]
    omega
  · rw [if_neg h, Finset.sum_insert (by simpa using h), Finset.card_insert_of_notMem (by simpa using h)]
    omega

/-- The state of the compressor after the entries `T`. -/
structure SizeInv (st : St) (T : List Bytes) : Prop where
  seen : ∀ x, st.oindex.lookup x ≠ none ↔ x ∈ T
  size : binLength st.o = sharedSize T
  len : st.o.length = T.length

theorem SizeInv.nil : SizeInv ⟨[], []⟩ [] := ⟨by simp, rfl, rfl⟩

theorem SizeInv.addObj {st st' : St} {T : List Bytes} (h : SizeInv st T) {x : Bytes} (hx : addObj st x = .ok st') : SizeInv st' (T ++ [x]) := by
  unfold Compression.addObj at hx
  cases hl : st.oindex.lookup x with
  | some i =>
    rw [hl] at hx
    simp only [intToBytes] at hx
    split at hx
    · cases hx
    · cases hx
      have hm : x ∈ T := (h.seen x).1 (by rw [hl]; simp)
      refine ⟨fun y => ?_, ?_, ?_⟩
      · rw [h.seen y, List.mem_append, List.mem_singleton]
        exact ⟨.inl, fun h => h.elim id fun e => e ▸ hm⟩
      · rw [binLength_append, binLength_single, sharedSize_snoc, if_pos hm, h.size]
        simp [cost, beDigits_length]
      · simp [h.len]
  | none =>
    rw [hl] at hx
    cases hx
    have hm : x ∉ T := fun hm => (h.seen x).2 hm hl
    refine ⟨fun y => ?_, ?_, ?_⟩
    · rw [List.lookup_cons, List.mem_append, List.mem_singleton, ← h.seen y]
      by_cases e : y = x
      · simp [e]
      · simp [e, beq_eq_false_iff_ne.2 e]
    · rw [binLength_append, binLength_single, sharedSize_snoc, if_neg hm, h.size]
    · simp [h.len]

theorem SizeInv.addAll : ∀ (xs : List Bytes) {st st' : St} {T : List Bytes}, SizeInv st T → addAll st xs = .ok st' → SizeInv st' (T ++ xs)
  | [], st, st', T, h, hx => by
    cases hx
    simpa using h
  | x :: xs, st, st', T, h, hx => by
    rw [Compression.addAll] at hx
    cases h1 : Compression.addObj st x with
    | error e => rw [h1] at hx; cases hx
    | ok s1 =>
      rw [h1] at hx
      have := SizeInv.addAll xs (h.addObj h1) hx
      simpa using this

theorem compressFri_size {prf : FriProof} {c : List Bytes} (h : compressFri prf = .ok c) :
    binLength c = sharedSize (friEntries prf) ∧ c.length = (friEntries prf).length := by
  obtain ⟨its, last⟩ := prf
  simp only [compressFri, addItems_eq] at h
  obtain ⟨s1, h1, h⟩ := SmoothFri.bind_inv h
  obtain ⟨s2, h2, h⟩ := SmoothFri.bind_inv h
  obtain ⟨s3, h3, h⟩ := SmoothFri.bind_inv h
  obtain ⟨d, -, h⟩ := SmoothFri.bind_inv h
  obtain ⟨-, -, h⟩ := SmoothFri.bind_inv h
  cases h
  have := ((SizeInv.nil.addAll _ h1).addObj h2).addAll _ h3
  rw [friEntries_eq]
  simp only [List.nil_append, List.append_assoc, List.singleton_append] at this
  exact ⟨this.size, this.len⟩

theorem compressBranches_size {bs : List (List Bytes)} {c : List Bytes} (h : compressBranches bs = .ok c) :
    binLength c = sharedSize (branchEntries bs) ∧ c.length = (branchEntries bs).length := by
  simp only [compressBranches, addBranches_eq] at h
  obtain ⟨s1, h1, h⟩ := SmoothFri.bind_inv h
  obtain ⟨d, -, h⟩ := SmoothFri.bind_inv h
  obtain ⟨-, -, h⟩ := SmoothFri.bind_inv h
  cases h
  have := SizeInv.nil.addAll _ h1
  rw [List.nil_append] at this
  exact ⟨this.size, this.len⟩

theorem sharedSize_le (T : List Bytes) (h : ∀ x ∈ T, 2 ≤ x.length) : sharedSize T ≤ plainSize T := by
  induction T using List.reverseRecOn with
  | nil => exact le_rfl
  | append_singleton T x ih =>
    have h1 := ih fun y hy => h y (by simp [hy])
    have h2 := h x (by simp)
    rw [sharedSize_snoc]
    have e : plainSize (T ++ [x]) = plainSize T + cost x := by simp [plainSize]
    rw [e]
    have h3 : 2 ≤ cost x := by unfold cost; omega
    split <;> omega

theorem plainSize_le (T : List Bytes) (n : Nat) (h : ∀ x ∈ T, cost x ≤ n) : plainSize T ≤ n * T.length := by
  induction T with
  | nil => simp [plainSize]
  | cons x T ih =>
    have h1 := ih fun y hy => h y (by simp [hy])
    have h2 := h x (by simp)
    simp only [plainSize, List.map_cons, List.sum_cons, List.length_cons] at h1 ⊢
    rw [Nat.mul_succ]
    omega

theorem plainSize_append (a b : List Bytes) : plainSize (a ++ b) = plainSize a + plainSize b := by simp [plainSize]

theorem plainSize_branches (bs : List (List Bytes)) : plainSize (branchEntries bs) = (bs.map fun b => plainSize b + 4).sum := by
  induction bs with
  | nil => rfl
  | cons b bs ih =>
    rw [branchEntries, List.flatMap_cons, ← branchEntries, plainSize_append, plainSize_append, ih, List.map_cons, List.sum_cons]
    rfl

theorem mem_friEntries {prf : FriProof} {t : Bytes} (h : t ∈ friEntries prf) : t.length = 4 ∨ t ∈ friObjects prf := by
  obtain ⟨its, last⟩ := prf
  rw [friEntries_eq] at h
  simp only [List.mem_append, List.mem_cons] at h
  rcases h with h | rfl | h
  · rcases mem_itemsTokens h with rfl | rfl | rfl | h
    · exact .inl rfl
    · exact .inl rfl
    · exact .inl rfl
    · right
      simp only [friObjects, List.append_nil] at h ⊢
      exact List.mem_append_left _ h
  · exact .inl rfl
  · exact .inr (by simp [friObjects, h])

end Verif.Compression

namespace Verif.SmoothFri
open Verif.Poly Verif.PolyUtils Verif.Stark Verif.Compression FFT

variable {p : Nat} [hp : Fact p.Prime]

theorem permute4Loop_len {α : Type _} (values : List α) (ld4 : Nat) : ∀ (is : List Nat) (o r : List α),
    Merkle.permute4Loop values ld4 is o = .ok r → r.length = o.length + 4 * is.length
  | [], o, r, h => by
    cases h
    simp
  | i :: is, o, r, h => by
    rw [Merkle.permute4Loop] at h
    obtain ⟨a, ha, h⟩ := bind_inv h
    obtain ⟨b, hb, h⟩ := bind_inv h
    obtain ⟨c, hc, h⟩ := bind_inv h
    obtain ⟨d, hd, h⟩ := bind_inv h
    rw [permute4Loop_len values ld4 is _ r h]
    simp only [List.length_append, List.length_cons, List.length_nil]
    omega

/-- A tree: the nodes above the leaves are hashes, the leaves satisfy `Q`. -/
structure Layered (Q : Bytes → Prop) (tree : List Bytes) : Prop where
  quarter : ∃ n, tree.length = 2 * (4 * n)
  inner : ∀ (i : Nat) (v : Bytes), 1 ≤ i → i < tree.length / 2 → tree[i]? = some v → v.length = 32
  leaf : ∀ (i : Nat) (v : Bytes), tree.length / 2 ≤ i → tree[i]? = some v → Q v

theorem merkelize_layered {Q : Bytes → Prop} {H : Bytes → Bytes} (hH : ∀ s, (H s).length = 32) {L : List Merkle.Leaf}
    (hL : ∀ x ∈ L, ∀ b, x.encode = .ok b → Q b) {tree : List Bytes} (h : Merkle.merkelize H L = .ok tree) : Layered Q tree := by
  obtain ⟨P, hP, h⟩ := bind_inv h
  obtain ⟨nodes, hn, h⟩ := bind_inv h
  obtain ⟨bs, rfl, hb1, hb2⟩ := encodeLeaves_inv _ _ _ hn
  obtain ⟨h1, h2⟩ := merkleLoop_inv H _ _ _ h
  have hPl := permute4Loop_len _ _ _ _ _ hP
  simp only [List.length_nil, List.length_range, Nat.zero_add] at hPl
  simp only [List.length_append, List.length_replicate, hb1] at h1
  refine ⟨⟨L.length / 4, by omega⟩, fun i v hi hi2 hv => ?_, fun i v hi hv => ?_⟩
  · obtain ⟨s, h4 | h4⟩ := (h2 i).2 hi (by omega)
    · rw [hv] at h4
      rw [Option.some.inj h4]
      exact hH s
    · rw [hv] at h4
      cases h4
  · have hlen := (List.getElem?_eq_some_iff.1 hv).1
    have h3 : P.length - 1 < i := by omega
    rw [(h2 i).1 (.inr h3)] at hv
    have hmem : v ∈ bs := by
      rw [List.getElem?_append_right (by simp; omega)] at hv
      exact List.mem_of_getElem? hv
    obtain ⟨x, hx, hx'⟩ := hb2 v hmem
    rcases permute4Loop_mem _ _ _ _ _ hP x hx with h4 | h4
    · simp at h4
    · exact hL x h4 v hx'

theorem xor_one_bounds (i m : Nat) (h : 1 < i) (hm : i < 2 * m) : 1 ≤ i ^^^ 1 ∧ i ^^^ 1 < 2 * m := by
  rcases Nat.even_or_odd' i with ⟨q, rfl | rfl⟩
  · rw [Merkle.xor_one_even]; omega
  · rw [Merkle.xor_one_odd]; omega

theorem branchLoop_inner {Q : Bytes → Prop} {tree : List Bytes} (ht : Layered Q tree) : ∀ (fuel index : Nat) (o r : List Bytes),
    index < tree.length / 2 → Merkle.branchLoop tree fuel index o = .ok r → ∃ rest, r = o ++ rest ∧ ∀ x ∈ rest, x.length = 32
  | 0, _, _, _, _, h => by cases h
  | fuel + 1, index, o, r, hi, h => by
    rw [Merkle.branchLoop] at h
    split at h
    · rename_i h1
      obtain ⟨s, hs, h⟩ := bind_inv h
      obtain ⟨n, hn⟩ := ht.quarter
      obtain ⟨b1, b2⟩ := xor_one_bounds index (2 * n) h1 (by omega)
      obtain ⟨rest, rfl, hr⟩ := branchLoop_inner ht fuel _ _ r (by omega) h
      refine ⟨s :: rest, by simp, fun x hx => ?_⟩
      rcases List.mem_cons.1 hx with rfl | hx
      · exact ht.inner _ _ b1 (by omega) (pyIdx_inv hs)
      · exact hr x hx
    · cases h
      exact ⟨[], by simp, by simp⟩

/-- A branch: a leaf, its neighbour and hashes. -/
def BranchOf (Q : Bytes → Prop) (b : List Bytes) : Prop := ∃ x y rest, b = x :: y :: rest ∧ Q x ∧ Q y ∧ ∀ z ∈ rest, z.length = 32

theorem mkBranch_layered {Q : Bytes → Prop} {tree : List Bytes} (ht : Layered Q tree) {i : Nat} {b : List Bytes} (h : Merkle.mkBranch tree i = .ok b) :
    BranchOf Q b := by
  obtain ⟨idx, h1, h⟩ := bind_inv h
  obtain ⟨leaf, h2, h⟩ := bind_inv h
  obtain ⟨n, hn⟩ := ht.quarter
  have h3 := (List.getElem?_eq_some_iff.1 (pyIdx_inv h2)).1
  have hn0 : n ≠ 0 := by rintro rfl; omega
  rw [Merkle.branchLoop, if_pos (by omega)] at h
  obtain ⟨s, hs, h⟩ := bind_inv h
  obtain ⟨rest, rfl, hr⟩ := branchLoop_inner ht _ _ _ _ (by omega) h
  refine ⟨leaf, s, rest, by simp, ht.leaf _ _ (by omega) (pyIdx_inv h2), ht.leaf _ _ ?_ (pyIdx_inv hs), hr⟩
  rcases Nat.even_or_odd' (idx + tree.length / 2) with ⟨q, e | e⟩
  · rw [e, Merkle.xor_one_even]; omega
  · rw [e, Merkle.xor_one_odd]; omega

/-- A byte string of at least two bytes that counts at most `n`. -/
def Fits (n : Nat) (x : Bytes) : Prop := 2 ≤ x.length ∧ cost x ≤ n

theorem BranchOf.two_le {n : Nat} {b : List Bytes} (h : BranchOf (Fits n) b) : ∀ x ∈ b, 2 ≤ x.length := by
  obtain ⟨x, y, rest, rfl, hx, hy, hr⟩ := h
  intro z hz
  rcases List.mem_cons.1 hz with rfl | hz
  · exact hx.1
  rcases List.mem_cons.1 hz with rfl | hz
  · exact hy.1
  · rw [hr z hz]; omega

theorem plainSize_branch {n : Nat} {b : List Bytes} (h : BranchOf (Fits n) b) : plainSize b + 66 ≤ 2 * n + 33 * b.length := by
  obtain ⟨x, y, rest, rfl, ⟨-, hx⟩, ⟨-, hy⟩, hr⟩ := h
  have := plainSize_le rest 33 fun z hz => by rw [cost, hr z hz]; simp
  simp only [plainSize, List.map_cons, List.sum_cons, List.length_cons] at this ⊢
  omega

theorem joinBytes_len : ∀ (es : List (Py Bytes)) (b : Bytes), Merkle.joinBytes es = .ok b → (∀ e ∈ es, ∀ x, e = .ok x → x.length = 32) →
    b.length = 32 * es.length
  | [], b, h, _ => by
    cases h
    simp
  | e :: es, b, h, he => by
    obtain ⟨x, hx, h⟩ := bind_inv h
    obtain ⟨bs, hbs, h⟩ := bind_inv h
    cases h
    have h1 := he e (by simp) x hx
    have h2 := joinBytes_len es bs hbs fun e' he' => he e' (by simp [he'])
    rw [List.length_append, List.length_cons]
    omega

theorem zipStar_len {α : Type _} : ∀ (rows : List (List α)), ∀ col ∈ Merkle.zipStar rows, col.length = rows.length
  | [], col, hc => by simp [Merkle.zipStar] at hc
  | [r], col, hc => by
    simp only [Merkle.zipStar, List.mem_map] at hc
    obtain ⟨y, hy, rfl⟩ := hc
    rfl
  | r :: r' :: rows, col, hc => by
    rw [Merkle.zipStar] at hc
    · rw [List.mem_iff_getElem] at hc
      obtain ⟨i, hi, rfl⟩ := hc
      rw [List.getElem_zipWith, List.length_cons, zipStar_len (r' :: rows) _ (List.getElem_mem _)]
      rfl
    all_goals simp

theorem mkProof_branches {φ : Type _} (blake : Bytes → Bytes) (hbl : ∀ x, (blake x).length = 32) (fuel : Nat)
    (friProve : List (Zp p) → Zp p → Nat → Nat → Py φ) (S : Stark.Params (Zp p)) (W : List (List (Zp p))) (boundary : List (Nat × Nat × Zp p))
    (hW : 0 < W.length) (pr : Stark.Proof φ) (h : Stark.mkProof fuel blake friProve S W boundary = .ok pr) :
    ∃ bs : List (List Bytes × List Bytes × List Bytes), pr.branches = bs.flatMap (fun t => [t.1, t.2.1, t.2.2]) ∧
      ∀ t ∈ bs, BranchOf (Fits (96 * W.length)) t.1 ∧ BranchOf (Fits (96 * W.length)) t.2.1 ∧
        BranchOf (Fits 33) t.2.2 := by
  unfold Stark.mkProof at h
  obtain ⟨P, hP, h⟩ := bind_inv h
  obtain ⟨cps, hcps, h⟩ := bind_inv h
  obtain ⟨D, hD, h⟩ := bind_inv h
  obtain ⟨B, hB, h⟩ := bind_inv h
  obtain ⟨evals, hev, h⟩ := bind_inv h
  obtain ⟨mtree, hm, h⟩ := bind_inv h
  obtain ⟨mRoot, -, h⟩ := bind_inv h
  obtain ⟨l, -, h⟩ := bind_inv h
  have l1 : P.length = W.length := pyMap_len hP
  have l2 : cps.length ≤ W.length := by
    have := pyMap_len hcps
    rw [List.length_zip, List.length_map] at this
    omega
  have l3 : D.length ≤ W.length := by
    obtain ⟨z, -, hD⟩ := bind_inv hD
    obtain ⟨fs, hfs, hD⟩ := bind_inv hD
    have a1 := pyMap_len hfs
    have a2 := pyMap_len hD
    omega
  have l4 : B.length ≤ W.length := by
    obtain ⟨is, -, hB⟩ := bind_inv hB
    have := pyMap_len hB
    rw [List.length_zip] at this
    omega
  have l5 := pyMap_len hev
  simp only [List.length_append] at l5
  cases l with
  | none => cases h
  | some l =>
    obtain ⟨levals, -, h⟩ := bind_inv h
    obtain ⟨ltree, hl, h⟩ := bind_inv h
    obtain ⟨branches, hbr, h⟩ := bind_inv h
    obtain ⟨lRoot, -, h⟩ := bind_inv h
    obtain ⟨deg, -, h⟩ := bind_inv h
    obtain ⟨fri, -, h⟩ := bind_inv h
    cases h
    have s2 : Layered (Fits 33) ltree := merkelize_layered hbl (by
      intro x hx b hb
      obtain ⟨a, -, rfl⟩ := List.mem_map.1 hx
      rw [Fits, cost, enc_length (show Stark.enc a = .ok b from hb)]
      simp) hl
    have s1 : Layered (Fits (96 * W.length)) mtree := by
      unfold Merkle.merkelizePolynomialEvaluations at hm
      obtain ⟨leaves, hlv, hm⟩ := bind_inv hm
      refine merkelize_layered hbl (fun x hx b hb => ?_) hm
      obtain ⟨lf, hlf, rfl⟩ := List.mem_map.1 hx
      have : b = lf := (Except.ok.inj hb).symm
      subst this
      obtain ⟨col, hcol, hj⟩ := mapM_out hlv b hlf
      have hlen := joinBytes_len _ _ hj fun e he y hy => by
        obtain ⟨row, hrow, her⟩ := zipStar_mem _ col hcol e he
        obtain ⟨row', -, rfl⟩ := List.mem_map.1 hrow
        obtain ⟨a, -, rfl⟩ := List.mem_map.1 her
        exact enc_length hy
      rw [zipStar_len _ _ hcol, List.length_map] at hlen
      unfold Fits cost
      split <;> omega
    obtain ⟨root, -, hbr⟩ := bind_inv hbr
    obtain ⟨positions, -, hbr⟩ := bind_inv hbr
    obtain ⟨bs, hbs, hbr⟩ := bind_inv hbr
    cases hbr
    have key : ∀ bb ∈ bs, ∃ t : List Bytes × List Bytes × List Bytes, bb = [t.1, t.2.1, t.2.2] ∧
        BranchOf (Fits (96 * W.length)) t.1 ∧ BranchOf (Fits (96 * W.length)) t.2.1 ∧
        BranchOf (Fits 33) t.2.2 := by
      intro bb hbb
      obtain ⟨pos, -, hp'⟩ := pyMap_out hbs bb hbb
      obtain ⟨b1, e1, hp'⟩ := bind_inv hp'
      obtain ⟨b2, e2, hp'⟩ := bind_inv hp'
      obtain ⟨b3, e3, hp'⟩ := bind_inv hp'
      cases hp'
      exact ⟨(b1, b2, b3), rfl, mkBranch_layered s1 e1, mkBranch_layered s1 e2, mkBranch_layered s2 e3⟩
    choose! g hg using key
    refine ⟨bs.map g, ?_, fun t ht => ?_⟩
    · show bs.flatten = _
      rw [List.flatMap_map, List.flatten_eq_flatMap]
      exact List.flatMap_congr fun bb hbb => (hg bb hbb).1
    · obtain ⟨bb, hbb, rfl⟩ := List.mem_map.1 ht
      exact (hg bb hbb).2

theorem branches_size {n k : Nat} (bs : List (List Bytes × List Bytes × List Bytes))
    (h : ∀ t ∈ bs, BranchOf (Fits n) t.1 ∧ BranchOf (Fits n) t.2.1 ∧ BranchOf (Fits 33) t.2.2)
    (hk : ∀ b ∈ bs.flatMap (fun t => [t.1, t.2.1, t.2.2]), b.length = k + 1) :
    plainSize (branchEntries (bs.flatMap fun t => [t.1, t.2.1, t.2.2])) + 21 * bs.length ≤ bs.length * (4 * n + 99 * k) := by
  rw [plainSize_branches]
  induction bs with
  | nil => simp
  | cons t bs ih =>
    have h1 := ih (fun t ht => h t (by simp [ht])) fun b hb => hk b (by
      rw [List.flatMap_cons]; exact List.mem_append_right _ hb)
    obtain ⟨a1, a2, a3⟩ := h t (by simp)
    have b1 := plainSize_branch a1
    have b2 := plainSize_branch a2
    have b3 := plainSize_branch a3
    rw [hk _ (by simp)] at b1 b2 b3
    rw [List.flatMap_cons, List.map_append, List.sum_append, List.length_cons, Nat.add_mul bs.length 1 (4 * n + 99 * k), Nat.one_mul]
    simp only [List.map_cons, List.map_nil, List.sum_cons, List.sum_nil]
    omega

end Verif.SmoothFri
