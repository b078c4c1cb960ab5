import Verif.Proofs.SmoothFri
import Verif.Spec.GeneratedProofs
/-!
# What the proofs of `SmoothSubgroupFRI` are made of

Every byte string in a proof that `generate_proximity_proof` returns has 32 bytes, and their number is determined by the parameters.
-/

namespace Verif.SmoothFri
open Verif.Poly Verif.PolyUtils Verif.Stark Verif.Compression FFT

variable {p : Nat} [hp : Fact p.Prime]

theorem permute4Loop_mem {α : Type _} (values : List α) (ld4 : Nat) : ∀ (is : List Nat) (o r : List α),
    Merkle.permute4Loop values ld4 is o = .ok r → ∀ x ∈ r, x ∈ o ∨ x ∈ values
  | [], o, r, h, x, hx => by
    cases h
    exact .inl hx
  | i :: is, o, r, h, x, hx => by
    rw [Merkle.permute4Loop] at h
    obtain ⟨a, ha, h⟩ := bind_inv h
    obtain ⟨b, hb, h⟩ := bind_inv h
    obtain ⟨c, hc, h⟩ := bind_inv h
    obtain ⟨d, hd, h⟩ := bind_inv h
    have mem : ∀ (n : Nat) (y : α), pyIdx values n = .ok y → y ∈ values := by
      intro n y hy
      unfold pyIdx at hy
      split at hy
      · rename_i z hz
        cases hy
        exact List.mem_of_getElem? hz
      · cases hy
    rcases permute4Loop_mem values ld4 is _ r h x hx with h' | h'
    · simp only [List.mem_append, List.mem_cons, List.not_mem_nil, or_false] at h'
      rcases h' with h' | rfl | rfl | rfl | rfl
      · exact .inl h'
      · exact .inr (mem _ _ ha)
      · exact .inr (mem _ _ hb)
      · exact .inr (mem _ _ hc)
      · exact .inr (mem _ _ hd)
    · exact .inr h'

theorem encodeLeaves_inv : ∀ (xs : List Merkle.Leaf) (nodes r : List Bytes), Merkle.encodeLeaves xs nodes = .ok r →
    ∃ bs, r = nodes ++ bs ∧ bs.length = xs.length ∧ ∀ b ∈ bs, ∃ x ∈ xs, x.encode = .ok b
  | [], nodes, r, h => ⟨[], by cases h; simp⟩
  | x :: xs, nodes, r, h => by
    rw [Merkle.encodeLeaves] at h
    obtain ⟨b, hb, h⟩ := bind_inv h
    obtain ⟨bs, h1, h2, h3⟩ := encodeLeaves_inv xs _ r h
    refine ⟨b :: bs, by rw [h1]; simp, by simp [h2], fun b' hb' => ?_⟩
    rcases List.mem_cons.1 hb' with rfl | hb'
    · exact ⟨x, by simp, hb⟩
    · obtain ⟨y, hy, hy'⟩ := h3 b' hb'
      exact ⟨y, by simp [hy], hy'⟩

theorem merkleLoop_inv (H : Bytes → Bytes) : ∀ (i : Nat) (nodes r : List Bytes), Merkle.merkleLoop H i nodes = .ok r →
    r.length = nodes.length ∧ ∀ j, (j = 0 ∨ i < j → r[j]? = nodes[j]?) ∧ (1 ≤ j → j ≤ i → ∃ s, r[j]? = some (H s) ∨ r[j]? = none)
  | 0, nodes, r, h => by
    cases h
    exact ⟨rfl, fun j => ⟨fun _ => rfl, fun _ _ => by omega⟩⟩
  | i + 1, nodes, r, h => by
    rw [Merkle.merkleLoop] at h
    obtain ⟨a, -, h⟩ := bind_inv h
    obtain ⟨b, -, h⟩ := bind_inv h
    obtain ⟨h1, h2⟩ := merkleLoop_inv H i _ r h
    refine ⟨by simpa using h1, fun j => ⟨fun hj => ?_, fun h3 h4 => ?_⟩⟩
    · rw [(h2 j).1 (by omega), List.getElem?_set_ne (by omega)]
    · rcases Nat.lt_or_ge i j with h5 | h5
      · have : j = i + 1 := by omega
        subst this
        rw [(h2 _).1 (by omega)]
        refine ⟨a ++ b, ?_⟩
        by_cases h6 : i + 1 < nodes.length
        · exact .inl (List.getElem?_set_self h6)
        · exact .inr (List.getElem?_eq_none (by simp; omega))
      · exact (h2 j).2 h3 h5

/-- All nodes of a tree but the first, unused one satisfy `Q`. -/
def Sized (Q : Bytes → Prop) (tree : List Bytes) : Prop := ∀ (i : Nat) (v : Bytes), 1 ≤ i → tree[i]? = some v → Q v

theorem merkelize_sized {Q : Bytes → Prop} {H : Bytes → Bytes} (hH : ∀ s, Q (H s)) {L : List Merkle.Leaf}
    (hL : ∀ x ∈ L, ∀ b, x.encode = .ok b → Q b) {tree : List Bytes} (h : Merkle.merkelize H L = .ok tree) : Sized Q tree := by
  obtain ⟨P, hP, h⟩ := bind_inv h
  obtain ⟨nodes, hn, h⟩ := bind_inv h
  obtain ⟨bs, rfl, hb1, hb2⟩ := encodeLeaves_inv _ _ _ hn
  obtain ⟨-, h2⟩ := merkleLoop_inv H _ _ _ h
  intro i v hi hv
  rcases Nat.lt_or_ge (P.length - 1) i with h3 | h3
  · rw [(h2 i).1 (.inr h3)] at hv
    have hmem : v ∈ bs := by
      rw [List.getElem?_append_right (by simp; omega)] at hv
      exact List.mem_of_getElem? hv
    obtain ⟨x, hx, hx'⟩ := hb2 v hmem
    rcases permute4Loop_mem _ _ _ _ _ hP x hx with h4 | h4
    · simp at h4
    · exact hL x h4 v hx'
  · obtain ⟨s, h4 | h4⟩ := (h2 i).2 hi h3
    · rw [hv] at h4
      rw [Option.some.inj h4]
      exact hH s
    · rw [hv] at h4
      cases h4

theorem pyIdx_inv {α : Type _} {l : List α} {i : Nat} {x : α} (h : pyIdx l i = .ok x) : l[i]? = some x := by
  unfold pyIdx at h
  split at h
  · rename_i z hz
    cases h
    exact hz
  · cases h

theorem branchLoop_sized {Q : Bytes → Prop} {tree : List Bytes} (ht : Sized Q tree) : ∀ (fuel index : Nat) (o r : List Bytes),
    Merkle.branchLoop tree fuel index o = .ok r → (∀ x ∈ o, Q x) → ∀ x ∈ r, Q x
  | 0, _, _, _, h, _ => by cases h
  | fuel + 1, index, o, r, h, ho => by
    rw [Merkle.branchLoop] at h
    split at h
    · rename_i hi
      obtain ⟨s, hs, h⟩ := bind_inv h
      refine branchLoop_sized ht fuel _ _ r h fun x hx => ?_
      rcases List.mem_append.1 hx with hx | hx
      · exact ho x hx
      · rw [List.mem_singleton] at hx
        subst hx
        refine ht _ _ ?_ (pyIdx_inv hs)
        rcases Nat.even_or_odd' index with ⟨q, rfl | rfl⟩
        · rw [Merkle.xor_one_even]; omega
        · rw [Merkle.xor_one_odd]; omega
    · cases h
      exact ho

theorem mkBranch_sized {Q : Bytes → Prop} {tree : List Bytes} (ht : Sized Q tree) {i : Nat} {b : List Bytes} (h : Merkle.mkBranch tree i = .ok b) :
    ∀ x ∈ b, Q x := by
  obtain ⟨idx, h1, h⟩ := bind_inv h
  obtain ⟨leaf, h2, h⟩ := bind_inv h
  refine branchLoop_sized ht _ _ _ _ h fun x hx => ?_
  rw [List.mem_singleton] at hx
  subst hx
  refine ht _ _ ?_ (pyIdx_inv h2)
  unfold Merkle.getIndexInPermuted at h1
  split at h1
  · cases h1
  · omega

theorem pyMap_out {α β : Type _} {f : α → Py β} : ∀ {l : List α} {r : List β}, pyMap f l = .ok r → ∀ b ∈ r, ∃ a ∈ l, f a = .ok b
  | [], r, h, b, hb => by
    cases h
    simp at hb
  | a :: l, r, h, b, hb => by
    obtain ⟨c, hc, h⟩ := bind_inv h
    obtain ⟨r', hr', h⟩ := bind_inv h
    cases h
    rcases List.mem_cons.1 hb with rfl | hb
    · exact ⟨a, by simp, hc⟩
    · obtain ⟨a', ha', h'⟩ := pyMap_out hr' b hb
      exact ⟨a', by simp [ha'], h'⟩

omit hp in
theorem enc_length {a : Zp p} {b : Bytes} (h : enc a = .ok b) : b.length = 32 := by
  unfold enc Modp.toBytes intToBytes at h
  generalize (256 : Int) ^ 32 = N at h
  split at h
  · cases h
  · rw [← Except.ok.inj h]
    exact beDigits_length _ _

theorem proveRec_sized (blake : Bytes → Bytes) (hbl : ∀ x, (blake x).length = 32) (fuel : Nat) (e : Nat) :
    ∀ (depth : Nat) (f : List (Zp p)) (w : Zp p) (d F : Nat) (prf : FriProof), proveRec fuel blake depth f w d e F = .ok prf →
      ∀ x ∈ friObjects prf, x.length = 32
  | 0, _, _, _, _, _, h => by cases h
  | depth + 1, f, w, d, F, prf, h => by
    rw [proveRec] at h
    obtain ⟨values, hv, h⟩ := bind_inv h
    split at h
    · obtain ⟨out, ho, h⟩ := bind_inv h
      cases h
      intro x hx
      simp only [friObjects, List.flatMap_nil, List.nil_append] at hx
      obtain ⟨a, -, ha⟩ := pyMap_out ho x hx
      exact enc_length ha
    · obtain ⟨⟨m, q, column, m2⟩, hfold, h⟩ := bind_inv h
      obtain ⟨root2, hr, h⟩ := bind_inv h
      obtain ⟨ys, -, h⟩ := bind_inv h
      obtain ⟨branches, hb, h⟩ := bind_inv h
      obtain ⟨g, -, h⟩ := bind_inv h
      obtain ⟨rest, hrest, h⟩ := bind_inv h
      cases h
      obtain ⟨xs, -, hfold⟩ := bind_inv hfold
      obtain ⟨-, -, hfold⟩ := bind_inv hfold
      obtain ⟨m', hm, hfold⟩ := bind_inv hfold
      obtain ⟨root, -, hfold⟩ := bind_inv hfold
      obtain ⟨xrows, -, hfold⟩ := bind_inv hfold
      obtain ⟨yrows, -, hfold⟩ := bind_inv hfold
      obtain ⟨polys, -, hfold⟩ := bind_inv hfold
      obtain ⟨m2', hm2, hfold⟩ := bind_inv hfold
      cases hfold
      have s1 : Sized (fun b => b.length = 32) m := merkelize_sized hbl (by
        intro x hx b hb
        obtain ⟨a, -, rfl⟩ := List.mem_map.1 hx
        exact enc_length hb) hm
      have s2 : Sized (fun b => b.length = 32) m2 := merkelize_sized hbl (by
        intro x hx b hb
        obtain ⟨a, -, rfl⟩ := List.mem_map.1 hx
        exact enc_length hb) hm2
      have ih := proveRec_sized blake hbl fuel e depth _ _ _ _ _ hrest
      intro x hx
      simp only [friObjects, List.flatMap_cons, List.cons_append, List.append_assoc, List.mem_cons, List.mem_append] at hx
      rcases hx with rfl | hx | hx
      · exact s2 1 _ le_rfl (pyIdx_inv hr)
      · simp only [List.mem_flatten] at hx
        obtain ⟨br, ⟨yp, hyp, hbr⟩, hx⟩ := hx
        obtain ⟨y, -, hy⟩ := pyMap_out hb yp hyp
        obtain ⟨b0, hb0, hy⟩ := bind_inv hy
        obtain ⟨bs, hbs, hy⟩ := bind_inv hy
        cases hy
        rcases List.mem_cons.1 hbr with rfl | hbr
        · exact mkBranch_sized s2 hb0 x hx
        · obtain ⟨j, -, hj⟩ := pyMap_out hbs br hbr
          exact mkBranch_sized s1 hj x hx
      · exact ih x (by simpa [friObjects] using hx)

/-! ### The number of entries -/

theorem pyMap_len {α β : Type _} {f : α → Py β} : ∀ {l : List α} {r : List β}, pyMap f l = .ok r → r.length = l.length
  | [], r, h => by
    cases h
    rfl
  | a :: l, r, h => by
    obtain ⟨c, -, h⟩ := bind_inv h
    obtain ⟨r', hr', h⟩ := bind_inv h
    cases h
    simp [pyMap_len hr']

theorem branchLoop_len {tree : List Bytes} : ∀ (fuel d index : Nat) (o r : List Bytes), 2 ^ d ≤ index → index < 2 ^ (d + 1) →
    Merkle.branchLoop tree fuel index o = .ok r → r.length = o.length + d
  | 0, _, _, _, _, _, _, h => by cases h
  | fuel + 1, d, index, o, r, h1, h2, h => by
    rw [Merkle.branchLoop] at h
    split at h
    · obtain ⟨s, -, h⟩ := bind_inv h
      obtain ⟨d, rfl⟩ : ∃ d', d = d' + 1 := ⟨d - 1, by
        rcases Nat.eq_zero_or_pos d with rfl | hd
        · simp at h2; omega
        · omega⟩
      rw [pow_succ] at h1 h2
      rw [pow_succ] at h2
      have := branchLoop_len fuel d (index / 2) _ r (by omega) (by rw [pow_succ]; omega) h
      simp only [List.length_append, List.length_singleton] at this
      omega
    · cases h
      rcases Nat.eq_zero_or_pos d with rfl | hd
      · rfl
      · have : 2 ^ 1 ≤ 2 ^ d := Nat.pow_le_pow_right (by omega) hd
        omega

theorem mkBranch_len {tree : List Bytes} {k : Nat} (ht : tree.length = 2 * 2 ^ k) {i : Nat} {b : List Bytes}
    (h : Merkle.mkBranch tree i = .ok b) : b.length = k + 1 := by
  obtain ⟨idx, -, h⟩ := bind_inv h
  obtain ⟨leaf, h2, h⟩ := bind_inv h
  have h3 := (List.getElem?_eq_some_iff.1 (pyIdx_inv h2)).1
  have := branchLoop_len _ k _ _ _ (by omega) (by rw [pow_succ]; omega) h
  simpa [add_comm] using this

theorem tree_length (hp2 : p ≤ 2 ^ 256) (blake : Bytes → Bytes) (V : List (Zp p)) (k : Nat) (hk : 2 ≤ k) (hV : V.length = 2 ^ k)
    (tree : List Bytes) (h : Merkle.merkelize blake (V.map fun a => .elt (enc a)) = .ok tree) : tree.length = 2 * 2 ^ k := by
  obtain ⟨j, rfl⟩ := Nat.exists_eq_add_of_le hk
  obtain ⟨tree', h1, h2, -⟩ := Merkle.merkelize_spec blake (V.map fun a => .elt (enc a)) (V.map encB)
    (by rw [List.length_map, hV, pow_add]; exact dvd_mul_right _ _) (by
      intro h0
      have := congrArg List.length h0
      rw [List.length_map, hV] at this
      simp at this) (by
      simp only [List.map_map]
      apply List.map_congr_left
      intro a _
      simpa [Merkle.Leaf.encode] using enc_eq hp2 a)
  rw [h] at h1
  cases h1
  rw [h2, List.length_map, hV]

theorem friCount_cons (it : Item) (rest : FriProof) :
    friCount (it :: rest.1, rest.2) = 2 + (it.2.map fun y => 1 + (y.map fun b => b.length + 1).sum).sum + friCount rest := by
  simp only [friCount, List.map_cons, List.sum_cons]
  omega

theorem sum_const {α : Type _} (g : α → Nat) (c : Nat) : ∀ l : List α, (∀ x ∈ l, g x = c) → (l.map g).sum = l.length * c
  | [], _ => by simp
  | x :: l, h => by
    rw [List.map_cons, List.sum_cons, h x (by simp), sum_const g c l (fun y hy => h y (by simp [hy])), List.length_cons]
    ring

theorem proveRec_count (hp2 : p ≤ 2 ^ 256) (blake : Bytes → Bytes) (hbl : ∀ x, (blake x).length = 32) (fuel : Nat) (e : Nat)
    (he : e = 0 ∨ 2 ≤ e) : ∀ (depth : Nat) (f : List (Zp p)) (w : Zp p) (d k F : Nat) (prf : FriProof),
      2 ≤ k → k < 26 → orderOf w = 2 ^ k → 2 ^ k ≤ fuel → f.length ≤ 2 ^ k → d ≤ 2 ^ k →
      proveRec fuel blake depth f w d e F = .ok prf → friCount prf = proofEntries k d F
  | 0, _, _, _, _, _, _, _, _, _, _, _, _, h => by cases h
  | depth + 1, f, w, d, k, F, prf, hk, hk26, hw, hf, hl, hd, h => by
    have hfwd := fwd_spec w k hw fuel hf f hl
    by_cases h16 : d ≤ 16
    · rw [prove_base hp2 blake fuel w k hw hf f hl d h16 e F depth] at h
      cases h
      rw [proofEntries, if_pos h16]
      simp [friCount]
    · have hk5 : 5 ≤ k := by
        by_contra hlt
        have : 2 ^ k ≤ 2 ^ 4 := Nat.pow_le_pow_right (by omega) (by omega)
        omega
      obtain ⟨k0, rfl⟩ : ∃ k0, k = k0 + 2 := ⟨k - 2, by omega⟩
      have h4 : 2 ^ (k0 + 2) = 4 * 2 ^ k0 := by rw [pow_add]; ring
      have hw' : orderOf w = 4 * 2 ^ k0 := by rw [hw, h4]
      have hw4 := order_four hw'
      obtain ⟨m, root, t1, t2, -⟩ := tree_of hp2 blake (dft w (2 ^ (k0 + 2)) f) (k0 + 2) (by omega) (by simp)
      obtain ⟨C', m2, c1, c2, c3⟩ := fold_ok hp2 blake w k0 (by omega) hw' fuel (by omega) (dft w (2 ^ (k0 + 2)) f) (by simp [h4]) m root t1 t2
      obtain ⟨g, i1, i2, i3⟩ := inv_spec (w ^ 4) k0 hw4 fuel (by omega) C' c2.1
      rw [proveRec] at h
      obtain ⟨values, hv, h⟩ := bind_inv h
      rw [hfwd] at hv
      cases hv
      rw [if_neg h16] at h
      obtain ⟨fo, hfold, h⟩ := bind_inv h
      rw [c1] at hfold
      cases hfold
      obtain ⟨root2, hr, h⟩ := bind_inv h
      obtain ⟨ys, hys, h⟩ := bind_inv h
      obtain ⟨branches, hb, h⟩ := bind_inv h
      obtain ⟨g', hg, h⟩ := bind_inv h
      rw [i1] at hg
      cases hg
      obtain ⟨rest, hrest, h⟩ := bind_inv h
      cases h
      have h2k : 2 ≤ 2 ^ k0 := by
        calc 2 = 2 ^ 1 := rfl
          _ ≤ _ := Nat.pow_le_pow_right (by omega) (by omega)
      have h24 : 2 ^ k0 < 2 ^ 24 := Nat.pow_lt_pow_right (by omega) (by omega)
      obtain ⟨ys', y1, y2, -⟩ := indices_ok blake hbl root2 (2 ^ k0) e F h2k h24 he
      rw [c2.1, y1] at hys
      cases hys
      have ih := proveRec_count hp2 blake hbl fuel e he depth g (w ^ 4) (d / 4) k0 40 rest (by omega) (by omega) hw4 (by omega) i2 (by omega)
        hrest
      have l1 := tree_length hp2 blake (dft w (2 ^ (k0 + 2)) f) (k0 + 2) (by omega) (by simp) m t1
      have l2 := tree_length hp2 blake C' k0 (by omega) c2.1 m2 c3
      rw [friCount_cons, ih, sum_const _ (1 + ((k0 + 2) + 4 * (k0 + 4))) branches, pyMap_len hb, y2]
      · conv_rhs => rw [proofEntries, if_neg h16]
        rfl
      · intro yp hyp
        obtain ⟨y, -, hy⟩ := pyMap_out hb yp hyp
        obtain ⟨b0, hb0, hy⟩ := bind_inv hy
        obtain ⟨bs, hbs, hy⟩ := bind_inv hy
        cases hy
        rw [List.map_cons, List.sum_cons, mkBranch_len l2 hb0, sum_const _ (k0 + 4) bs, pyMap_len hbs, List.length_range]
        intro b hbm
        obtain ⟨j, -, hj⟩ := pyMap_out hbs b hbm
        rw [mkBranch_len l1 hj]

/-! ### The branches of a STARK proof -/

theorem joinBytes_inv : ∀ (es : List (Py Bytes)) (b : Bytes), Merkle.joinBytes es = .ok b → (∀ e ∈ es, ∀ x, e = .ok x → x.length = 32) →
    32 ∣ b.length
  | [], b, h, _ => by
    cases h
    simp
  | e :: es, b, h, he => by
    obtain ⟨x, hx, h⟩ := bind_inv h
    obtain ⟨bs, hbs, h⟩ := bind_inv h
    cases h
    have h1 := he e (by simp) x hx
    have h2 := joinBytes_inv es bs hbs fun e' he' => he e' (by simp [he'])
    rw [List.length_append]
    omega

theorem mapM_out {α β : Type _} {f : α → Py β} : ∀ {l : List α} {r : List β}, l.mapM f = .ok r → ∀ b ∈ r, ∃ a ∈ l, f a = .ok b
  | [], r, h, b, hb => by
    rw [List.mapM_nil] at h
    cases h
    simp at hb
  | a :: l, r, h, b, hb => by
    rw [List.mapM_cons] at h
    obtain ⟨c, hc, h⟩ := bind_inv h
    obtain ⟨r', hr', h⟩ := bind_inv h
    cases h
    rcases List.mem_cons.1 hb with rfl | hb
    · exact ⟨a, by simp, hc⟩
    · obtain ⟨a', ha', h'⟩ := mapM_out hr' b hb
      exact ⟨a', by simp [ha'], h'⟩

theorem zipStar_mem {α : Type _} : ∀ (rows : List (List α)), ∀ col ∈ Merkle.zipStar rows, ∀ x ∈ col, ∃ row ∈ rows, x ∈ row
  | [], col, hc, x, hx => by simp [Merkle.zipStar] at hc
  | [r], col, hc, x, hx => by
    simp only [Merkle.zipStar, List.mem_map] at hc
    obtain ⟨y, hy, rfl⟩ := hc
    rw [List.mem_singleton] at hx
    subst hx
    exact ⟨r, by simp, hy⟩
  | r :: r' :: rows, col, hc, x, hx => by
    rw [Merkle.zipStar] at hc
    · rw [List.mem_iff_getElem] at hc
      obtain ⟨i, hi, rfl⟩ := hc
      rw [List.getElem_zipWith] at hx
      rcases List.mem_cons.1 hx with rfl | hx
      · exact ⟨r, by simp, List.getElem_mem _⟩
      · obtain ⟨row, h1, h2⟩ := zipStar_mem (r' :: rows) _ (List.getElem_mem _) x hx
        exact ⟨row, by simp [List.mem_cons.1 h1], h2⟩
    all_goals simp

theorem mkProof_sized {φ : Type _} (blake : Bytes → Bytes) (hbl : ∀ x, (blake x).length = 32) (fuel : Nat)
    (friProve : List (Zp p) → Zp p → Nat → Nat → Py φ) (S : Stark.Params (Zp p)) (W : List (List (Zp p))) (boundary : List (Nat × Nat × Zp p))
    (pr : Stark.Proof φ) (h : Stark.mkProof fuel blake friProve S W boundary = .ok pr) : ∀ b ∈ pr.branches, ∀ x ∈ b, 32 ∣ x.length := by
  unfold Stark.mkProof at h
  obtain ⟨P, -, h⟩ := bind_inv h
  obtain ⟨cps, -, h⟩ := bind_inv h
  obtain ⟨D, -, h⟩ := bind_inv h
  obtain ⟨B, -, h⟩ := bind_inv h
  obtain ⟨evals, -, h⟩ := bind_inv h
  obtain ⟨mtree, hm, h⟩ := bind_inv h
  obtain ⟨mRoot, -, h⟩ := bind_inv h
  obtain ⟨l, -, h⟩ := bind_inv h
  cases l with
  | none => cases h
  | some l =>
    obtain ⟨levals, -, h⟩ := bind_inv h
    obtain ⟨ltree, hl, h⟩ := bind_inv h
    obtain ⟨branches, hbr, h⟩ := bind_inv h
    obtain ⟨lRoot, -, h⟩ := bind_inv h
    obtain ⟨deg, -, h⟩ := bind_inv h
    obtain ⟨fri, -, h⟩ := bind_inv h
    cases h
    have hblk : ∀ s, 32 ∣ (blake s).length := fun s => by rw [hbl]
    have s2 : Sized (fun b => 32 ∣ b.length) ltree := merkelize_sized hblk (by
      intro x hx b hb
      obtain ⟨a, -, rfl⟩ := List.mem_map.1 hx
      rw [enc_length (show Stark.enc a = .ok b from hb)]) hl
    have s1 : Sized (fun b => 32 ∣ b.length) mtree := by
      unfold Merkle.merkelizePolynomialEvaluations at hm
      obtain ⟨leaves, hlv, hm⟩ := bind_inv hm
      refine merkelize_sized hblk (fun x hx b hb => ?_) hm
      obtain ⟨lf, hlf, rfl⟩ := List.mem_map.1 hx
      have : b = lf := (Except.ok.inj hb).symm
      subst this
      obtain ⟨col, hcol, hj⟩ := mapM_out hlv b hlf
      refine joinBytes_inv _ _ hj fun e he y hy => ?_
      obtain ⟨row, hrow, her⟩ := zipStar_mem _ col hcol e he
      obtain ⟨row', -, rfl⟩ := List.mem_map.1 hrow
      obtain ⟨a, -, rfl⟩ := List.mem_map.1 her
      exact enc_length hy
    obtain ⟨root, -, hbr⟩ := bind_inv hbr
    obtain ⟨positions, -, hbr⟩ := bind_inv hbr
    obtain ⟨bs, hbs, hbr⟩ := bind_inv hbr
    cases hbr
    intro b hb x hx
    obtain ⟨bb, hbb, hb⟩ := List.mem_flatten.1 hb
    obtain ⟨pos, -, hp'⟩ := pyMap_out hbs bb hbb
    obtain ⟨b1, e1, hp'⟩ := bind_inv hp'
    obtain ⟨b2, e2, hp'⟩ := bind_inv hp'
    obtain ⟨b3, e3, hp'⟩ := bind_inv hp'
    cases hp'
    simp only [List.mem_cons, List.not_mem_nil, or_false] at hb
    rcases hb with rfl | rfl | rfl
    · exact mkBranch_sized s1 e1 x hx
    · exact mkBranch_sized s1 e2 x hx
    · exact mkBranch_sized s2 e3 x hx

end Verif.SmoothFri
