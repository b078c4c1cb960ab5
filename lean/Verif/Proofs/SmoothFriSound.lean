import Verif.Proofs.SmoothFri
import Verif.Props.Merkle
/-!
# `SmoothSubgroupFRI`: what acceptance means, and where the honest proof is refused
-/

namespace Verif.SmoothFri
open Verif.Poly Verif.PolyUtils Verif.Stark Verif.Compression Verif.FFT
open Polynomial

variable {p : Nat} [hp : Fact p.Prime]

/-! ### One layer, exactly -/

omit hp in
theorem pyIdx_inv {α : Type _} {l : List α} {i : Nat} {a : α} (h : pyIdx l i = .ok a) : l[i]? = some a := by
  unfold pyIdx at h
  split at h <;> simp_all

theorem finish_len {ys : List (Zp p)} {eqs : List (Zp p) × List (Zp p) × List (Zp p) × List (Zp p)} {inv r : List (Zp p)}
    (h : interp4Finish ys eqs inv = .ok r) : 4 ≤ ys.length := by
  unfold interp4Finish at h
  obtain ⟨_, -, h⟩ := bind_inv h
  obtain ⟨_, -, h⟩ := bind_inv h
  obtain ⟨_, -, h⟩ := bind_inv h
  obtain ⟨_, -, h⟩ := bind_inv h
  obtain ⟨_, -, h⟩ := bind_inv h
  obtain ⟨_, -, h⟩ := bind_inv h
  obtain ⟨_, h3, h⟩ := bind_inv h
  have := (List.getElem?_eq_some_iff.1 (pyIdx_inv h3)).1
  omega

theorem loop_len (inv : List (Zp p)) : ∀ (i : Nat) (l : List (List (Zp p) × (List (Zp p) × List (Zp p) × List (Zp p) × List (Zp p))))
    (rs : List (List (Zp p))), interp4Loop inv i l = .ok rs → ∀ e ∈ l, 4 ≤ e.1.length
  | _, [], _, _, e, he => by simp at he
  | i, (ys, eqs) :: rest, rs, h, e, he => by
    rw [interp4Loop] at h
    obtain ⟨r, h1, h⟩ := bind_inv h
    obtain ⟨rs', h2, -⟩ := bind_inv h
    rcases List.mem_cons.1 he with rfl | he
    · exact finish_len h1
    · exact loop_len inv (i + 1) rest rs' h2 e he

/-- `multi_interp_4` does not accept a short row. -/
theorem multi_len {xs ys rs : List (List (Zp p))} (hl : xs.length = ys.length) (h : multiInterp4 xs ys = .ok rs) :
    ∀ r ∈ ys, 4 ≤ r.length := by
  unfold multiInterp4 at h
  obtain ⟨data, h1, h⟩ := bind_inv h
  obtain ⟨inv, -, h⟩ := bind_inv h
  intro r hr
  obtain ⟨i, hi, rfl⟩ := List.getElem_of_mem hr
  obtain ⟨e1, e2⟩ := (Air.pyMap_iff _ _ _).1 h1
  have hz : (xs.zip ys)[i]? = some (xs[i]'(by omega), ys[i]) := by
    rw [List.getElem?_zip_eq_some]
    exact ⟨List.getElem?_eq_getElem _, List.getElem?_eq_getElem _⟩
  have hd : ∃ d, data[i]? = some (ys[i], d) := by
    obtain ⟨b, hb, hg⟩ := e2 i _ hz
    obtain ⟨d, -, hd⟩ := bind_inv hg
    exact ⟨d, by rw [hb, ← Except.ok.inj hd]⟩
  obtain ⟨d, hd⟩ := hd
  exact loop_len inv 0 _ rs h (ys[i], d.1) (List.mem_map.2 ⟨_, List.mem_of_getElem? hd, rfl⟩)

/-- What the verifier checks about the query `y`, given the branches opened for it. -/
def QueryHolds (blake : Bytes → Bytes) (root root2 : Bytes) (w : Zp p) (q y : Nat) (opened : List (List Bytes)) : Prop :=
  ∃ P : (Zp p)[X], P.degree < 4 ∧
    (∀ j < 4, ∃ br leaf, opened[j + 1]? = some br ∧ Merkle.verifyBranch blake root (y + q * j) br = .ok leaf ∧
      P.eval (w ^ (y + q * j)) = dec leaf) ∧
    ∃ br leaf, opened[0]? = some br ∧ Merkle.verifyBranch blake root2 y br = .ok leaf ∧ P.eval (dec root) = dec leaf

omit hp in
theorem branchInt_inv {blake : Bytes → Bytes} {root : Bytes} {x : Nat} {br : List Bytes} {n : Nat}
    (h : Merkle.verifyBranchInt blake root x br = .ok n) : ∃ leaf, Merkle.verifyBranch blake root x br = .ok leaf ∧ n = fromBytes leaf := by
  unfold Merkle.verifyBranchInt at h
  obtain ⟨l, h1, h2⟩ := bind_inv h
  exact ⟨l, h1, (Except.ok.inj h2).symm⟩

theorem query_inv (blake : Bytes → Bytes) (root root2 : Bytes) (w : Zp p) (q : Nat) (branches : List (List (List Bytes))) (i y : Nat)
    (r : List (Zp p) × List (Zp p) × Zp p)
    (h : query blake root root2 w ((List.range 4).map fun j => w ^ (q * j)) q branches i y = .ok r) :
    r.1 = (List.range 4).map (fun j => w ^ (y + q * j)) ∧ r.2.1.length ≤ 4 ∧
    ∃ opened, branches[i]? = some opened ∧
      (∀ j, j < r.2.1.length → ∃ br leaf, opened[j + 1]? = some br ∧ Merkle.verifyBranch blake root (y + q * j) br = .ok leaf ∧
        r.2.1[j]? = some (dec leaf)) ∧
      ∃ br leaf, opened[0]? = some br ∧ Merkle.verifyBranch blake root2 y br = .ok leaf ∧ r.2.2 = dec leaf := by
  unfold query at h
  obtain ⟨opened, h1, h⟩ := bind_inv h
  obtain ⟨row, h2, h⟩ := bind_inv h
  obtain ⟨b0, h3, h⟩ := bind_inv h
  obtain ⟨c, h4, h⟩ := bind_inv h
  have hr := Except.ok.inj h
  subst hr
  obtain ⟨e1, e2⟩ := (Air.pyMap_iff _ _ _).1 h2
  obtain ⟨leaf, l1, l2⟩ := branchInt_inv h4
  refine ⟨?_, ?_, opened, pyIdx_inv h1, ?_, b0, leaf, pyIdx_inv h3, l1, by rw [l2]; rfl⟩
  · simp only [List.map_map]
    apply List.map_congr_left
    intro j _
    simp only [Function.comp_apply]
    rw [← pow_add, add_comm]
  · simp only [List.length_map, e1, List.length_zip, List.length_range]
    omega
  · intro j hj
    simp only [List.length_map] at hj
    have hjz : j < ((List.range 4).zip opened.tail).length := by omega
    obtain ⟨n, f1, f2⟩ := e2 j _ (List.getElem?_eq_getElem hjz)
    have hj2 : j < 4 ∧ j < opened.length - 1 := by simpa using hjz
    rw [List.getElem_zip] at f2
    simp only [List.getElem_range, List.getElem_tail] at f2
    obtain ⟨leaf', m1, m2⟩ := branchInt_inv f2
    refine ⟨_, leaf', List.getElem?_eq_getElem (by omega), m1, ?_⟩
    rw [List.getElem?_map, f1, m2]
    rfl

/-- The verifier accepts a layer exactly if every query holds. -/
theorem layer_iff (blake : Bytes → Bytes) (hbl : ∀ x, (blake x).length = 32) (w : Zp p) (q : Nat) (hq : 2 ≤ q)
    (hq2 : q < 2 ^ 24) (hw : orderOf w = 4 * q) (root : Bytes) (qr : List (Zp p))
    (hqr : qr = (List.range 4).map fun j => w ^ (q * j)) (e : Nat) (he : e = 0 ∨ 2 ≤ e) (f : Nat) (it : Item) :
    verifyLayer blake qr root w (4 * q) e f it = .ok () ↔
      ∃ ys, Utils.getPseudorandomIndices blake it.1 q f e = .ok ys ∧ ∀ (i : Nat) (y : Int), ys[i]? = some y →
        ∃ opened, it.2[i]? = some opened ∧ QueryHolds blake root it.1 w q y.toNat opened := by
  subst hqr
  have h4 : 4 * q / 4 = q := by omega
  obtain ⟨ys, y1, y2, y3⟩ := indices_ok blake hbl it.1 q e f hq hq2 he
  constructor
  · intro h
    unfold verifyLayer at h
    rw [h4] at h
    obtain ⟨ys', h1, h⟩ := bind_inv h
    obtain ⟨qs, h2, h⟩ := bind_inv h
    obtain ⟨rs, h3, h⟩ := bind_inv h
    obtain ⟨u, h5, -⟩ := bind_inv h
    rw [y1] at h1
    cases h1
    refine ⟨ys, y1, fun i y hi => ?_⟩
    obtain ⟨e1, e2⟩ := (Air.pyMap_iff _ _ _).1 h2
    have hqs : ∀ (i : Nat) (y : Int), ys[i]? = some y → ∃ r, qs[i]? = some r ∧
        query blake root it.1 w ((List.range 4).map fun j => w ^ (q * j)) q it.2 i y.toNat = .ok r := by
      intro i y hi
      exact e2 i (y, i) (by simp [hi])
    have hlen : qs.length = ys.length := by simpa using e1
    have hshort := multi_len (by simp) h3
    have hx : ∀ s ∈ qs.map (·.1), s.length = 4 ∧ s.Nodup := by
      intro s hs
      obtain ⟨r, hr, rfl⟩ := List.mem_map.1 hs
      obtain ⟨i, hi, rfl⟩ := List.getElem_of_mem hr
      obtain ⟨r, q1, q2⟩ := hqs i ys[i] (List.getElem?_eq_getElem (by omega))
      rw [List.getElem?_eq_getElem hi, Option.some.injEq] at q1
      rw [q1, (query_inv blake root it.1 w q it.2 i _ r q2).1]
      exact ⟨by simp, four_nodup (by omega) hw _ (y3 _ (List.getElem_mem _)).2⟩
    have hrow : ∀ s ∈ qs.map (·.2.1), s.length = 4 := by
      intro s hs
      have := hshort s hs
      obtain ⟨r, hr, rfl⟩ := List.mem_map.1 hs
      obtain ⟨i, hi, rfl⟩ := List.getElem_of_mem hr
      obtain ⟨r, q1, q2⟩ := hqs i ys[i] (List.getElem?_eq_getElem (by omega))
      rw [List.getElem?_eq_getElem hi, Option.some.injEq] at q1
      have hle := (query_inv blake root it.1 w q it.2 i _ r q2).2.1
      rw [← q1] at hle
      omega
    obtain ⟨rs', r1, r2, r3⟩ := multi4 (qs.map (·.1)) (qs.map (·.2.1)) (by simp) hx hrow
    rw [h3] at r1
    cases r1
    obtain ⟨r, q1, q2⟩ := hqs i y hi
    obtain ⟨s1, -, opened, s3, s4, s5⟩ := query_inv blake root it.1 w q it.2 i _ r q2
    have hil : i < rs.length := by
      have := (List.getElem?_eq_some_iff.1 q1).1
      rw [r2]
      simpa using this
    obtain ⟨g1, g2⟩ := r3 i rs[i] r.1 r.2.1 (List.getElem?_eq_getElem hil) (by rw [List.getElem?_map, q1]; rfl)
      (by rw [List.getElem?_map, q1]; rfl)
    have hr4 : r.2.1.length = 4 := hrow _ (List.mem_map.2 ⟨r, List.mem_of_getElem? q1, rfl⟩)
    refine ⟨opened, s3, toPoly rs[i], g1, ?_, ?_⟩
    · intro j hj
      obtain ⟨br, leaf, t1, t2, t3⟩ := s4 j (by omega)
      refine ⟨br, leaf, t1, t2, ?_⟩
      rw [← g2, s1] at t3
      simpa [List.getElem?_range hj] using t3
    · obtain ⟨br, leaf, t1, t2, t3⟩ := s5
      refine ⟨br, leaf, t1, t2, ?_⟩
      obtain ⟨b, c1⟩ := pyMap_mem h5 (rs[i], r.2.2) (List.mem_of_getElem? (i := i) (by
        rw [List.getElem?_zip_eq_some]
        exact ⟨List.getElem?_eq_getElem hil, by rw [List.getElem?_map, q1]; rfl⟩))
      rw [← t3, ← call_eq_eval]
      by_contra hne
      simp [pyAssert, hne] at c1
  · rintro ⟨ys', y1', hall⟩
    rw [y1] at y1'
    cases y1'
    have hqi : ∀ (i : Nat) (y : Int), ys[i]? = some y → ∃ r, query blake root it.1 w ((List.range 4).map fun j => w ^ (q * j)) q it.2 i y.toNat = .ok r ∧
        ∃ P : (Zp p)[X], P.degree < 4 ∧ r.2.1 = (List.range 4).map (fun j => P.eval (w ^ (y.toNat + q * j))) ∧ r.2.2 = P.eval (dec root) := by
      intro i y hi
      obtain ⟨opened, o1, P, p1, p2, br, leaf, p3, p4, p5⟩ := hall i y hi
      obtain ⟨b0, l0, a0, c0, d0⟩ := p2 0 (by omega)
      obtain ⟨b1, l1, a1, c1, d1⟩ := p2 1 (by omega)
      obtain ⟨b2, l2, a2, c2, d2⟩ := p2 2 (by omega)
      obtain ⟨b3, l3, a3, c3, d3⟩ := p2 3 (by omega)
      have ho : ∃ rest, opened = br :: b0 :: b1 :: b2 :: b3 :: rest := by
        match opened, p3, a0, a1, a2, a3 with
        | [], h, _, _, _, _ => simp at h
        | [_], _, h, _, _, _ => simp at h
        | [_, _], _, _, h, _, _ => simp at h
        | [_, _, _], _, _, _, h, _ => simp at h
        | [_, _, _, _], _, _, _, _, h => simp at h
        | x0 :: x1 :: x2 :: x3 :: x4 :: rest, h0, h1, h2, h3, h4 =>
          simp at h0 h1 h2 h3 h4
          exact ⟨rest, by rw [h0, h1, h2, h3, h4]⟩
      obtain ⟨rest, rfl⟩ := ho
      refine ⟨((List.range 4).map fun j => w ^ (y.toNat + q * j), (List.range 4).map (fun j => P.eval (w ^ (y.toNat + q * j))), P.eval (dec root)),
        ?_, P, p1, rfl, rfl⟩
      unfold query
      have hidx : pyIdx it.2 i = .ok (br :: b0 :: b1 :: b2 :: b3 :: rest) := by simp [pyIdx, o1]
      have hz : ((List.range 4).zip (br :: b0 :: b1 :: b2 :: b3 :: rest).tail) = [(0, b0), (1, b1), (2, b2), (3, b3)] := by
        simp [show List.range 4 = [0, 1, 2, 3] from rfl]
      have h0 : pyIdx (br :: b0 :: b1 :: b2 :: b3 :: rest) 0 = .ok br := rfl
      simp only [hidx, hz, h0, bind, Except.bind, pyMap, Merkle.verifyBranchInt, c0, c1, c2, c3, p4, List.map_cons, List.map_nil]
      simp only [show List.range 4 = [0, 1, 2, 3] from rfl, List.map_cons, List.map_nil, ← pow_add, add_comm (q * _) y.toNat, d0, d1, d2, d3, p5]
      rfl
    choose! g hg using fun yi : Int × Nat => fun h : yi ∈ ys.zipIdx => hqi yi.2 yi.1 (by simpa using List.mem_zipIdx_iff_getElem?.1 h)
    have hmap := pyMap_ok (fun yi : Int × Nat => query blake root it.1 w ((List.range 4).map fun j => w ^ (q * j)) (4 * q / 4) it.2 yi.2 yi.1.toNat)
      g ys.zipIdx (fun yi h => by rw [h4]; exact (hg yi h).1)
    have hylt : ∀ yi ∈ ys.zipIdx, yi.1.toNat < q := by
      rintro ⟨y, i⟩ h
      exact (y3 y (List.fst_mem_of_mem_zipIdx h)).2
    have hfst : ∀ yi ∈ ys.zipIdx, (g yi).1 = (List.range 4).map fun j => w ^ (yi.1.toNat + q * j) := fun yi h =>
      (query_inv blake root it.1 w q it.2 yi.2 _ _ (hg yi h).1).1
    obtain ⟨rs, r1, r2, r3⟩ := multi4 ((ys.zipIdx.map g).map (·.1)) ((ys.zipIdx.map g).map (·.2.1)) (by simp)
      (by
        intro s hs
        rw [List.map_map] at hs
        obtain ⟨yi, hyi, rfl⟩ := List.mem_map.1 hs
        simp only [Function.comp_apply, hfst yi hyi]
        exact ⟨by simp, four_nodup (by omega) hw _ (hylt yi hyi)⟩)
      (by
        intro s hs
        rw [List.map_map] at hs
        obtain ⟨yi, hyi, rfl⟩ := List.mem_map.1 hs
        obtain ⟨-, P, -, t, -⟩ := hg yi hyi
        simp only [Function.comp_apply, t]
        simp)
    refine verifyLayer_of blake _ root w (4 * q) e f it ys _ rs (by rw [h4]; exact y1) hmap r1 ?_
    rintro ⟨r, c⟩ hrc
    obtain ⟨i, hi⟩ := List.mem_iff_getElem?.1 hrc
    rw [List.getElem?_zip_eq_some] at hi
    obtain ⟨hi1, hi2⟩ := hi
    rw [List.map_map, List.getElem?_map] at hi2
    obtain ⟨yi, hyi, rfl⟩ := Option.map_eq_some_iff.1 hi2
    have hm := List.mem_of_getElem? hyi
    obtain ⟨g1, g2⟩ := r3 i r _ _ hi1 (by rw [List.getElem?_map, List.getElem?_map, hyi]; rfl)
      (by rw [List.getElem?_map, List.getElem?_map, hyi]; rfl)
    obtain ⟨-, P, c1, c2, c3⟩ := hg yi hm
    have hP : toPoly r = P := by
      apply row_unique (by omega) hw _ (hylt yi hm) g1 c1
      intro j hj
      have := congrArg (fun l : List (Zp p) => l[j]?) g2
      simp only [hfst yi hm, c2, List.map_map, List.getElem?_map, List.getElem?_range hj, Option.map_some, Function.comp, Option.some.injEq] at this
      exact this
    change call r (dec root) = (g yi).2.2
    rw [call_eq_eval, hP, c3]

/-! ### What acceptance says about committed vectors -/

/-- `root` is the root of the tree over the `2^k` values `V`. -/
def CommitsTo (blake : Bytes → Bytes) (root : Bytes) (k : Nat) (V : List (Zp p)) : Prop :=
  V.length = 2 ^ k ∧ ∃ m, Merkle.merkelize blake (V.map fun a => .elt (enc a)) = .ok m ∧ m[1]? = some root

/-- Two different strings of those `A` singles out have the same hash. -/
def Collides (blake : Bytes → Bytes) (A : Bytes → Prop) : Prop := ∃ s t, A s ∧ A t ∧ s ≠ t ∧ blake s = blake t

/-- The strings hashed in building the tree over `V` are among those `A` singles out. -/
def TreeIn (blake : Bytes → Bytes) (A : Bytes → Prop) (L : List Merkle.Leaf) : Prop :=
  ∀ m, Merkle.merkelize blake L = .ok m → ∀ s, Merkle.HashedInTree m s → A s

/-- The strings hashed in checking the branches of an item are among those `A` singles out. -/
def BranchesIn (blake : Bytes → Bytes) (A : Bytes → Prop) (it : Item) : Prop :=
  ∀ opened ∈ it.2, ∀ br ∈ opened, ∀ x < 2 ^ (br.length - 1), ∀ s ∈ Merkle.hashedByVerification blake x br, A s

/-- An opening of the right shape is the committed value, or there is a collision. -/
theorem opening (A : Bytes → Prop) (hp2 : p ≤ 2 ^ 256) (blake : Bytes → Bytes) (hbl : ∀ x, (blake x).length = 32) {root : Bytes} {k : Nat} {V : List (Zp p)}
    (hk : 2 ≤ k) (hV : CommitsTo blake root k V) (x : Nat) (hx : x < 2 ^ k) (br : List Bytes) (leaf : Bytes) (h1 : br.length = k + 1)
    (h2 : leaf.length = 32) (hA : TreeIn blake A (V.map fun a => .elt (enc a)))
    (hA2 : ∀ s ∈ Merkle.hashedByVerification blake x br, A s) (h : Merkle.verifyBranch blake root x br = .ok leaf) :
    V[x]? = some (dec leaf) ∨ Collides blake A := by
  obtain ⟨hl, m, m1, m2⟩ := hV
  have hxV : x < V.length := by omega
  rcases Props.C31_opening_is_item_partial blake 32 hbl (V.map fun a => .elt (enc a)) (V.map encB) k hk (by simp [hl])
    (by
      simp only [List.map_map]
      apply List.map_congr_left
      intro a _
      simpa [Merkle.Leaf.encode] using enc_eq hp2 a) x (by simpa using hxV) m root m1 m2 br leaf h1
    (by simp [hxV, encB_length, h2]) h with e | e
  · left
    rw [List.getElem?_map, List.getElem?_eq_getElem hxV, Option.map_some, Option.some.injEq] at e
    rw [← e, dec_encB hp2, List.getElem?_eq_getElem hxV]
  · obtain ⟨s, hs, t, ht, e⟩ := e
    exact .inr ⟨s, t, hA2 s hs, hA m m1 t ht, e⟩

/-- The branches of a layer have the lengths of the two trees, and the leaves that of a field element; the verifier does not check
it. -/
def Shaped (k : Nat) (it : Item) : Prop :=
  ∀ opened ∈ it.2, ∀ (j : Nat) (br : List Bytes), opened[j]? = some br → br.length = (if j = 0 then k - 2 else k) + 1 ∧
    ∀ b, br.head? = some b → b.length = 32

omit hp in
theorem branch_head {blake : Bytes → Bytes} {root : Bytes} {x : Nat} {br : List Bytes} {leaf : Bytes}
    (h : Merkle.verifyBranch blake root x br = .ok leaf) : br.head? = some leaf := by
  obtain ⟨ps, rfl, -⟩ := Merkle.verifyBranch_ok h
  rfl

/-- At a query, the committed column is the fold of the committed row. -/
def FoldsAt (w : Zp p) (q : Nat) (V : List (Zp p)) (s : Zp p) (C : List (Zp p)) (y : Nat) : Prop :=
  ∃ P : (Zp p)[X], P.degree < 4 ∧ (∀ j < 4, V[y + q * j]? = some (P.eval (w ^ (y + q * j)))) ∧ C[y]? = some (P.eval s)

theorem query_sound (A : Bytes → Prop) (hp2 : p ≤ 2 ^ 256) (blake : Bytes → Bytes) (hbl : ∀ x, (blake x).length = 32) (w : Zp p) (k : Nat) (hk : 2 ≤ k)
    {root : Bytes} {it : Item} {V C : List (Zp p)} (hV : CommitsTo blake root (k + 2) V) (hC : CommitsTo blake it.1 k C)
    (hs : Shaped (k + 2) it) (hAV : TreeIn blake A (V.map fun a => .elt (enc a))) (hAC : TreeIn blake A (C.map fun a => .elt (enc a)))
    (hAb : BranchesIn blake A it) (y : Nat) (hy : y < 2 ^ k) (opened : List (List Bytes)) (ho : opened ∈ it.2)
    (h : QueryHolds blake root it.1 w (2 ^ k) y opened) :
    FoldsAt w (2 ^ k) V (dec root) C y ∨ Collides blake A := by
  by_cases hcol : Collides blake A
  · exact .inr hcol
  left
  obtain ⟨P, h1, h2, br, leaf, h3, h4, h5⟩ := h
  refine ⟨P, h1, fun j hj => ?_, ?_⟩
  · obtain ⟨br, leaf, a1, a2, a3⟩ := h2 j hj
    obtain ⟨s1, s2⟩ := hs opened ho _ _ a1
    have hj3 : 2 ^ k * j ≤ 2 ^ k * 3 := Nat.mul_le_mul_left _ (by omega)
    rw [a3]
    have hx : y + 2 ^ k * j < 2 ^ (k + 2) := by rw [pow_add]; omega
    simp only [Nat.add_eq_zero_iff, one_ne_zero, and_false, if_false] at s1
    exact (opening A hp2 blake hbl (by omega) hV _ hx br leaf s1 (s2 _ (branch_head a2)) hAV
      (hAb opened ho br (List.mem_of_getElem? a1) _ (by rw [s1]; simpa using hx)) a2).resolve_right hcol
  · obtain ⟨s1, s2⟩ := hs opened ho _ _ h3
    rw [h5]
    rw [if_pos rfl, Nat.add_sub_cancel] at s1
    exact (opening A hp2 blake hbl hk hC _ hy br leaf s1 (s2 _ (branch_head h4)) hAC
      (hAb opened ho br (List.mem_of_getElem? h3) _ (by rw [s1]; simpa using hy)) h4).resolve_right hcol

/-- The layers of an accepted proof. -/
theorem layers_sound (A : Bytes → Prop) (hp2 : p ≤ 2 ^ 256) (blake : Bytes → Bytes) (hbl : ∀ x, (blake x).length = 32) (e : Nat) (he : e = 0 ∨ 2 ≤ e)
    (f : Nat) : ∀ (items : List Item) (root : Bytes) (w : Zp p) (d k : Nat) (U : Nat → List (Zp p)) (out : Bytes × Zp p × Nat),
    2 * items.length + 2 ≤ k → k < 26 → orderOf w = 2 ^ k → CommitsTo blake root k (U 0) →
    (∀ (i : Nat) (it : Item), items[i]? = some it → CommitsTo blake it.1 (k - 2 * (i + 1)) (U (i + 1)) ∧ Shaped (k - 2 * i) it) →
    (∀ i ≤ items.length, TreeIn blake A ((U i).map fun a => .elt (enc a))) → (∀ it ∈ items, BranchesIn blake A it) →
    verifyLayers blake ((List.range 4).map fun j => w ^ (2 ^ k / 4 * j)) e f items root w d (2 ^ k) = .ok out →
    Collides blake A ∨
      CommitsTo blake out.1 (k - 2 * items.length) (U items.length) ∧ out.2.1 = w ^ 4 ^ items.length ∧ out.2.2 = d / 4 ^ items.length ∧
      ∀ (i : Nat) (it : Item), items[i]? = some it → ∃ ys, ys.length = f ∧
        Utils.getPseudorandomIndices blake it.1 (2 ^ (k - 2 * (i + 1)) : Nat) f e = .ok ys ∧
        ∀ y ∈ ys, FoldsAt (w ^ 4 ^ i) (2 ^ (k - 2 * (i + 1))) (U i) (dec (if i = 0 then root else (items.getD (i - 1) it).1)) (U (i + 1)) y.toNat := by
  intro items
  induction items with
  | nil =>
    intro root w d k U out hk hk26 hw h0 hU hAt hAb h
    rw [verifyLayers] at h
    cases h
    exact .inr ⟨by simpa using h0, by simp, by simp, by simp⟩
  | cons it rest hrec =>
    intro root w d k U out hk hk26 hw h0 hU hAt hAb h
    by_cases hcol : Collides blake A
    · exact .inl hcol
    simp only [List.length_cons] at hk
    obtain ⟨k0, rfl⟩ : ∃ k0, k = k0 + 2 := ⟨k - 2, by omega⟩
    have h4 : 2 ^ (k0 + 2) = 4 * 2 ^ k0 := by rw [pow_add]; ring
    have h2k : 2 ≤ 2 ^ k0 := by
      calc 2 = 2 ^ 1 := rfl
        _ ≤ _ := Nat.pow_le_pow_right (by omega) (by omega)
    have h24 : 2 ^ k0 < 2 ^ 24 := Nat.pow_lt_pow_right (by omega) (by omega)
    rw [verifyLayers, h4, Nat.mul_div_cancel_left _ (by norm_num)] at h
    rw [h4] at hw
    obtain ⟨u, l1, l2⟩ := bind_inv h
    obtain ⟨ys, y1, y2⟩ := (layer_iff blake hbl w (2 ^ k0) h2k h24 hw root _ rfl e he f it).1 l1
    obtain ⟨c1, c2⟩ := hU 0 it rfl
    obtain ⟨ys', z1, z2, z3⟩ := indices_ok blake hbl it.1 (2 ^ k0) e f h2k h24 he
    rw [y1] at z1
    cases z1
    have hqr : (List.range 4).map (fun j => w ^ (2 ^ k0 * j)) = (List.range 4).map (fun j => (w ^ 4) ^ (2 ^ k0 / 4 * j)) := by
      apply List.map_congr_left
      intro j _
      obtain ⟨k1, rfl⟩ : ∃ k1, k0 = k1 + 2 := ⟨k0 - 2, by omega⟩
      have e4 : 2 ^ (k1 + 2) = 4 * 2 ^ k1 := by rw [pow_add]; ring
      rw [e4, Nat.mul_div_cancel_left _ (by norm_num), ← pow_mul, mul_assoc]
    rw [hqr] at l2
    have ih := hrec it.1 (w ^ 4) (d / 4) k0 (fun i => U (i + 1)) out (by omega) (by omega) (order_four hw)
      (by simpa using c1)
      (fun i it' hi => by
        have := hU (i + 1) it' (by simpa using hi)
        rw [show k0 + 2 - 2 * (i + 1 + 1) = k0 - 2 * (i + 1) by omega, show k0 + 2 - 2 * (i + 1) = k0 - 2 * i by omega] at this
        exact this)
      (fun i hi => hAt (i + 1) (by rw [List.length_cons]; omega)) (fun it' h' => hAb it' (List.mem_cons_of_mem _ h')) l2
    obtain ⟨i1, i2, i3, i4⟩ := ih.resolve_left hcol
    refine .inr ⟨?_, ?_, ?_, ?_⟩
    · rw [List.length_cons, show k0 + 2 - 2 * (rest.length + 1) = k0 - 2 * rest.length by omega]
      exact i1
    · rw [i2, List.length_cons, ← pow_mul, show 4 * 4 ^ rest.length = 4 ^ (rest.length + 1) by ring]
    · rw [i3, List.length_cons, pow_succ, mul_comm (4 ^ _) 4, Nat.div_div_eq_div_mul]
    · intro i it' hi
      cases i with
      | zero =>
        simp only [List.getElem?_cons_zero, Option.some.injEq] at hi
        subst hi
        refine ⟨ys, z2, by simpa using y1, fun y hy => ?_⟩
        obtain ⟨i, hi', rfl⟩ := List.getElem_of_mem hy
        obtain ⟨opened, o1, o2⟩ := y2 i _ (List.getElem?_eq_getElem hi')
        have := (query_sound A hp2 blake hbl w k0 (by omega) h0 (by simpa using c1) (by simpa using c2) (hAt 0 (by omega))
          (hAt 1 (by rw [List.length_cons]; omega)) (hAb it (by simp)) _ (z3 _ hy).2 opened
          (List.mem_of_getElem? o1) o2).resolve_right hcol
        simpa using this
      | succ i =>
        obtain ⟨ys', j1, j2, j3⟩ := i4 i it' (by simpa using hi)
        refine ⟨ys', j1, by rw [show k0 + 2 - 2 * (i + 1 + 1) = k0 - 2 * (i + 1) by omega]; exact j2, fun y hy => ?_⟩
        have := j3 y hy
        rw [show k0 + 2 - 2 * (i + 1 + 1) = k0 - 2 * (i + 1) by omega]
        rw [← pow_mul, show 4 * 4 ^ i = 4 ^ (i + 1) by ring] at this
        cases i with
        | zero => simpa using this
        | succ i => simpa using this

theorem verify_inv (blake : Bytes → Bytes) (fuel : Nat) (w : Zp p) (k : Nat) (hk : 2 ≤ k) (hw : orderOf w = 2 ^ k) (hf : 2 ^ k ≤ fuel)
    (items : List Item) (last : List Bytes) (root : Bytes) (d e fv : Nat)
    (h : verify fuel blake (items, last) root w d e fv = .ok true) :
    ∃ out, verifyLayers blake ((List.range 4).map fun j => w ^ (2 ^ k / 4 * j)) e fv items root w d (2 ^ k) = .ok out ∧
      verifyLast fuel blake out.1 out.2.1 out.2.2 e last = .ok () := by
  have hr : rouLoop fuel w 1 = .ok (2 ^ k) := by
    have := rou_ok k fuel w 1 hw (by have := @Nat.lt_two_pow_self k; omega)
    rwa [one_mul] at this
  unfold verify at h
  obtain ⟨r, h1, h⟩ := bind_inv h
  rw [hr] at h1
  cases h1
  obtain ⟨⟨r', w', d'⟩, h2, h⟩ := bind_inv h
  obtain ⟨u, h3, -⟩ := bind_inv h
  rw [quartic_eq w k hk] at h2
  exact ⟨_, h2, h3⟩

/-- The direct component, if it has as many entries as the domain. -/
theorem last_sound (A : Bytes → Prop) (hp2 : p ≤ 2 ^ 256) (blake : Bytes → Bytes) (hbl : ∀ x, (blake x).length = 32) (fuel : Nat) (w : Zp p) (k : Nat)
    (hk : 2 ≤ k) (hw : orderOf w = 2 ^ k) (hf : 2 ^ k ≤ fuel) {root : Bytes} {V : List (Zp p)} (hV : CommitsTo blake root k V)
    (hAV : TreeIn blake A (V.map fun a => .elt (enc a))) (d e : Nat) (last : List Bytes)
    (hAl : TreeIn blake A (last.map fun b => .int (fromBytes b))) (hl : last.length = 2 ^ k) (hb : ∀ b ∈ last, b.length = 32)
    (h : verifyLast fuel blake root w d e last = .ok ()) :
    Collides blake A ∨ d ≤ 16 ∧
      ∃ P : (Zp p)[X], P.degree < d ∧ ∀ x < 2 ^ k, e = 0 ∨ ¬ e ∣ x → V[x]? = some (P.eval (w ^ x)) := by
  by_cases hcol : Collides blake A
  · exact .inl hcol
  rw [last_iff blake fuel root w (2 ^ k) (by positivity) hw hf] at h
  obtain ⟨h16, ⟨m, m1, m2⟩, -, P, h1, h2⟩ := h
  refine .inr ⟨h16, P, h1, fun x hx hxe => ?_⟩
  have henc : (last.map fun b => Merkle.Leaf.int ((fromBytes b : Nat) : Int)).map Merkle.Leaf.encode = last.map .ok := by
    rw [List.map_map]
    apply List.map_congr_left
    intro b hb'
    exact int_leaf b (hb b hb')
  obtain ⟨tree, r, proof, bb, t1, t2, t3, t4, t5, t6, t7⟩ := Merkle.merkle_complete' blake
    (last.map fun b => .int (fromBytes b)) last k hk (by simpa using hl) henc x (by simpa [hl] using hx)
  rw [m1] at t1
  cases t1
  rw [m2] at t2
  cases t2
  have hbb : bb.length = 32 := hb _ (List.mem_of_getElem? t5)
  rw [(opening A hp2 blake hbl hk hV x hx proof bb (by omega) hbb hAV (fun s hs => hAl _ m1 s (t7 s hs)) t6).resolve_right hcol, h2 x ?_ bb t5]
  rw [hl, pts]
  split
  · rename_i he
    rw [List.mem_filter]
    refine ⟨List.mem_range.2 hx, ?_⟩
    have := hxe.resolve_left he
    simpa [Nat.dvd_iff_mod_eq_zero] using this
  · exact List.mem_range.2 hx

/-! ### Honest proofs that are refused -/

theorem pts_count (n e : Nat) (he : e = 0 ∨ 2 ≤ e) : n / 2 ≤ (pts n e).length ∧ (e = 0 → (pts n e).length = n) := by
  rcases he with rfl | he
  · simp [pts]
    omega
  · refine ⟨?_, by omega⟩
    have hsub : ((List.range (n / 2)).map fun i => if 2 * i % e ≠ 0 then 2 * i else 2 * i + 1).length ≤ (pts n e).length := by
      apply List.Subperm.length_le
      apply List.Nodup.subperm
      · apply List.Nodup.map_on _ List.nodup_range
        intro a _ b _ h
        split at h <;> split at h <;> omega
      · intro x hx
        obtain ⟨i, hi, rfl⟩ := List.mem_map.1 hx
        rw [List.mem_range] at hi
        rw [pts, if_pos (by omega), List.mem_filter, List.mem_range]
        split
        · rename_i h
          exact ⟨by omega, by simpa using h⟩
        · rename_i h
          refine ⟨by omega, ?_⟩
          have h0 : e ∣ 2 * i := Nat.dvd_of_mod_eq_zero (not_not.1 h)
          have : ¬ e ∣ 2 * i + 1 := fun h1 => by
            have := (Nat.dvd_add_right h0).1 h1
            have := Nat.le_of_dvd (by omega) this
            omega
          simpa [Nat.dvd_iff_mod_eq_zero] using this
    simpa using hsub

/-- Where the bound cannot be divided, some polynomial of degree below it is refused. -/
theorem refuse (hp2 : p ≤ 2 ^ 256) (blake : Bytes → Bytes) (hbl : ∀ x, (blake x).length = 32) (w : Zp p) (k : Nat) (hk : 2 ≤ k)
    (hk2 : k < 26) (hw : orderOf w = 2 ^ k) (fuel : Nat) (hf : 2 ^ k ≤ fuel) (d : Nat)
    (hd : d ≤ 2 ^ k) (hQ : ¬ Quarters d) (e : Nat) (he : e = 0 ∨ 2 ≤ e) (hed : e = 0 ∨ d ≤ 2 ^ k / 2) (F fv : Nat)
    (hF : fv ≤ F) (h40 : 16 < d / 4 → fv ≤ 40) (f : List (Zp p)) (hfd : toPoly f = X ^ (d / 4 ^ folds d * 4 ^ folds d)) (hl : f.length ≤ 2 ^ k)
    (m : List Bytes) (root : Bytes)
    (hm : Merkle.merkelize blake ((dft w (2 ^ k) f).map fun a => .elt (enc a)) = .ok m) (hroot : m[1]? = some root) :
    ∃ pf, prove fuel blake f w d e F = .ok pf ∧ verify fuel blake pf root w d e fv ≠ .ok true := by
  obtain ⟨items, V, k', w', d', m', root', i1, i2, i3, i4, i5, i6, i7, i8, i9, i10, i11, -, i13, i14, i15⟩ := prove_chain hp2 blake hbl fuel e he
    fv (d + 1) f w d k F m root (by omega) hk hk2 hw hf hl hd (fun _ => hF) h40 hm hroot
  refine ⟨_, i1, fun hv => ?_⟩
  obtain ⟨out, o1, o2⟩ := verify_inv blake fuel w k hk hw hf _ _ _ _ _ _ hv
  rw [i2 _ rfl] at o1
  cases o1
  have hk' : 2 ^ k' ≤ 2 ^ k := Nat.pow_le_pow_right (by omega) i7
  simp only [] at o2
  rw [last_iff blake fuel root' w' (2 ^ k') (by positivity) i8 (by omega)] at o2
  obtain ⟨-, -, h3, P, h4, h5⟩ := o2
  have hVm := i15 (d / 4 ^ folds d) (fun i hi => by rw [dft_getElem? _ _ _ _ hi, hfd, eval_pow, eval_X])
  rw [← i13] at hVm
  have hlen : (V.map encB).length = 2 ^ k' := by rw [List.length_map, i9]
  rw [hlen] at h3 h5
  -- the folds lose something of `d`
  have hlt : d' * 4 ^ folds d < d := by
    rw [i13]
    refine lt_of_le_of_ne (Nat.div_mul_le_self _ _) fun h => hQ ((quarters_iff (d + 1) d (by omega)).2 h.symm)
  have hpos : 0 < 4 ^ folds d := by positivity
  have hcount : d' < (pts (2 ^ k') e).length := by
    obtain ⟨c1, c2⟩ := pts_count (2 ^ k') e he
    rcases hed with h0 | hed
    · rw [c2 h0]
      by_contra hge
      have : 2 ^ k' * 4 ^ folds d ≤ d' * 4 ^ folds d := Nat.mul_le_mul_right _ (by omega)
      omega
    · refine lt_of_lt_of_le ?_ c1
      obtain ⟨k1, rfl⟩ : ∃ k1, k' = k1 + 1 := ⟨k' - 1, by omega⟩
      rw [i14, pow_succ, show 2 ^ k1 * 2 * 4 ^ folds d = 2 ^ k1 * 4 ^ folds d * 2 by ring, Nat.mul_div_cancel _ (by norm_num)] at hed
      rw [pow_succ, Nat.mul_div_cancel _ (by norm_num)]
      by_contra hge
      have : 2 ^ k1 * 4 ^ folds d ≤ d' * 4 ^ folds d := Nat.mul_le_mul_right _ (by omega)
      omega
  have hPX : P = X ^ d' := by
    apply Polynomial.eq_of_degree_sub_lt_of_eval_finset_eq ((pts (2 ^ k') e).toFinset.image fun i => w' ^ i)
    · rw [Finset.card_image_of_injOn]
      · rw [List.toFinset_card_of_nodup (pts_nodup _ _)]
        refine lt_of_le_of_lt (degree_sub_le _ _) (max_lt (lt_of_lt_of_le h4 (by exact_mod_cast hcount.le)) ?_)
        rw [degree_X_pow]
        exact_mod_cast hcount
      · intro a ha b hb h
        simp only [List.coe_toFinset, Set.mem_ofPred_eq] at ha hb
        exact pow_inj_of_order i8 a b (h3 a ha) (h3 b hb) h
    · intro x hx
      obtain ⟨i, hi, rfl⟩ := Finset.mem_image.1 hx
      rw [List.mem_toFinset] at hi
      rw [h5 i hi (encB ((w' ^ i) ^ d')) (by rw [List.getElem?_map, hVm i (h3 i hi)]; rfl), dec_encB hp2, eval_pow, eval_X]
  rw [hPX, degree_X_pow] at h4
  exact absurd h4 (lt_irrefl _)

/-- The verifier looks for more openings than the prover's recursive call makes. -/
theorem factor_refused (hp2 : p ≤ 2 ^ 256) (blake : Bytes → Bytes) (hbl : ∀ x, (blake x).length = 32) (w : Zp p) (k : Nat)
    (hk2 : k < 26) (hw : orderOf w = 2 ^ k) (fuel : Nat) (hf : 2 ^ k ≤ fuel) (f : List (Zp p)) (hl : f.length ≤ 2 ^ k) (d : Nat)
    (hd : d ≤ 2 ^ k) (e : Nat) (he : e = 0 ∨ 2 ≤ e) (F fv : Nat) (hF : fv ≤ F) (h16 : 16 < d / 4) (h40 : 40 < fv) (m : List Bytes) (root : Bytes)
    (hm : Merkle.merkelize blake ((dft w (2 ^ k) f).map fun a => .elt (enc a)) = .ok m) (hroot : m[1]? = some root) :
    ∃ pf, prove fuel blake f w d e F = .ok pf ∧ verify fuel blake pf root w d e fv = .error .indexError := by
  have hk5 : 7 ≤ k := by
    by_contra hlt
    have : 2 ^ k ≤ 2 ^ 6 := Nat.pow_le_pow_right (by omega) (by omega)
    omega
  obtain ⟨k0, rfl⟩ : ∃ k0, k = k0 + 4 := ⟨k - 4, by omega⟩
  have hwk := hw
  have hfk := hf
  have e1 : 2 ^ (k0 + 4) = 4 * 2 ^ (k0 + 2) := by rw [pow_add, pow_add]; ring
  have e2 : 2 ^ (k0 + 2) = 4 * 2 ^ k0 := by rw [pow_add]; ring
  rw [e1] at hw hf hl hd hm
  obtain ⟨it, g, m2, s1, s2, s3, s4, s7, s5, s6⟩ := prove_step hp2 blake hbl fuel w (k0 + 2) (by omega) (by omega) hw hf f hl d (by omega) e he F
    fv hF m root hm hroot
  have hw4 := order_four hw
  have hw4' := hw4
  rw [e2] at hw4 s1 s2
  obtain ⟨it2, g2, m3, t1, t2, t3, t4, t7, t5, t6⟩ := prove_step hp2 blake hbl fuel (w ^ 4) k0 (by omega) (by omega) hw4 (by omega) g s1 (d / 4)
    (by omega) e he 40 40 le_rfl m2 it.1 s2 s3
  obtain ⟨items, V, k', w', d', m', root', i1, -⟩ := prove_chain hp2 blake hbl fuel e he 0 (d - 1) g2 ((w ^ 4) ^ 4) (d / 4 / 4) k0 40 m3 it2.1
    (by omega) (by omega) (by omega) (order_four hw4) (by omega) t1 (by omega) (fun _ => by omega) (fun _ => by omega) t2 t3
  refine ⟨(it :: it2 :: items, V.map encB), ?_, ?_⟩
  · obtain ⟨d0, rfl⟩ : ∃ d0, d = d0 + 1 := ⟨d - 1, by omega⟩
    rw [prove, s6, t6]
    exact bind_to (bind_to i1 rfl) rfl
  · have hr : rouLoop fuel w 1 = .ok (2 ^ (k0 + 4)) := by
      have := rou_ok (k0 + 4) fuel w 1 hwk (by have := @Nat.lt_two_pow_self (k0 + 4); omega)
      rwa [one_mul] at this
    have hqr1 : quartic w (2 ^ (k0 + 4)) = (List.range 4).map (fun j => w ^ (2 ^ (k0 + 2) * j)) := by
      rw [quartic_eq w _ (by omega), e1, Nat.mul_div_cancel_left _ (by norm_num)]
    have hqr2 : quartic w (2 ^ (k0 + 4)) = (List.range 4).map (fun j => (w ^ 4) ^ (2 ^ k0 * j)) := by
      rw [hqr1]
      apply List.map_congr_left
      intro j _
      rw [e2, ← pow_mul, mul_assoc]
    -- the second layer
    have h2k : 2 ≤ 2 ^ k0 := by
      calc 2 = 2 ^ 1 := rfl
        _ ≤ _ := Nat.pow_le_pow_right (by omega) (by omega)
    have h24 : 2 ^ k0 < 2 ^ 24 := Nat.pow_lt_pow_right (by omega) (by omega)
    obtain ⟨ys, y1, y2, y3⟩ := indices_ok blake hbl it2.1 (2 ^ k0) e fv h2k h24 he
    have y40 := prefix_ok blake hbl it2.1 (2 ^ k0) e fv 40 h2k h24 he (by omega) ys y1
    have hok := t5 _ hqr2
    have hfail : verifyLayer blake (quartic w (2 ^ (k0 + 4))) it.1 (w ^ 4) (4 * 2 ^ k0) e fv it2 = .error .indexError := by
      unfold verifyLayer at hok ⊢
      rw [Nat.mul_div_cancel_left _ (by norm_num)] at hok ⊢
      obtain ⟨ys', a1, hok⟩ := bind_inv hok
      rw [y40] at a1
      cases a1
      obtain ⟨qs, a2, -⟩ := bind_inv hok
      refine bind_to y1 ?_
      have : pyMap (fun yi : Int × Nat => query blake it.1 it2.1 (w ^ 4) (quartic w (2 ^ (k0 + 4))) (2 ^ k0) it2.2 yi.2 yi.1.toNat) ys.zipIdx =
          .error .indexError := by
        have hbad : ∀ i (y : Nat), 40 ≤ i → query blake it.1 it2.1 (w ^ 4) (quartic w (2 ^ (k0 + 4))) (2 ^ k0) it2.2 i y = .error .indexError := by
          intro i y hi
          have : pyIdx it2.2 i = .error .indexError := by
            unfold pyIdx
            rw [List.getElem?_eq_none (by omega)]
          unfold query
          rw [this]
          rfl
        apply Stark.pyMap_fails
        · rintro ⟨y, i⟩ hm
          have hi : ys[i]? = some y := by simpa using List.mem_zipIdx_iff_getElem?.1 hm
          by_cases h : i < 40
          · left
            obtain ⟨b, hb⟩ := pyMap_mem a2 (y, i) (List.mem_zipIdx_iff_getElem?.2 (by simp [h, hi]))
            exact ⟨b, hb⟩
          · exact .inr (hbad i _ (by omega))
        · exact ⟨(ys[40]'(by omega), 40), List.mem_zipIdx_iff_getElem?.2 (by simp), hbad 40 _ le_rfl⟩
      rw [this]
      rfl
    unfold verify
    refine bind_to hr ?_
    have hl2 : verifyLayers blake (quartic w (2 ^ (k0 + 4))) e fv (it :: it2 :: items) root w d (2 ^ (k0 + 4)) = .error .indexError := by
      rw [verifyLayers, e1]
      refine bind_to (s5 _ (by rw [← e1]; exact hqr1)) ?_
      rw [Nat.mul_div_cancel_left _ (by norm_num), verifyLayers, e2, ← e2, ← e1, e2, hfail]
      rfl
    rw [hl2]
    rfl

/-- The loop that looks for the order of the root of unity ends only at a power of two. -/
theorem rou_diverges : ∀ (fuel : Nat) (t : Zp p) (r : Nat), (∀ j, t ^ 2 ^ j ≠ 1) → rouLoop fuel t r = .error .diverge
  | 0, _, _, _ => rfl
  | fuel + 1, t, r, h => by
    rw [rouLoop, if_pos (by simpa using h 0)]
    exact rou_diverges fuel (t * t) (r * 2) fun j hj => h (j + 1) (by rw [pow_succ', pow_mul, pow_two]; exact hj)

end Verif.SmoothFri

namespace Verif.SmoothFri

instance fact97 : Fact (Nat.Prime 97) := ⟨by norm_num⟩
instance fact257 : Fact (Nat.Prime 257) := ⟨by norm_num⟩

end Verif.SmoothFri
