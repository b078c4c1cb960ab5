import Verif.Model.SmoothFri
import Verif.Proofs.StarkProtocol
import Verif.Proofs.Utils
import Verif.Proofs.Merkle
import Verif.Proofs.FFT
import Verif.Proofs.PolyUtils
import Verif.Props.PolyUtils
import Verif.Props.Utils
/-!
# Proofs about `SmoothSubgroupFRI`
-/

namespace Verif.SmoothFri
open Verif.Poly Verif.PolyUtils Verif.Stark Verif.Compression Verif.FFT
open Polynomial

variable {p : Nat} [hp : Fact p.Prime]

/-! ### Trees -/

/-- The tree of a list of values: it exists, and every value can be opened. -/
theorem tree_of (hp2 : p ≤ 2 ^ 256) (blake : Bytes → Bytes) (V : List (Zp p)) (k : Nat) (hk : 2 ≤ k) (hV : V.length = 2 ^ k) :
    ∃ tree root, Merkle.merkelize blake (V.map fun a => .elt (enc a)) = .ok tree ∧ tree[1]? = some root ∧
      ∀ x a, V[x]? = some a → ∃ br, Merkle.mkBranch tree x = .ok br ∧
        Merkle.verifyBranchInt blake root x br = .ok (fromBytes (encB a)) := by
  have key : ∀ x, x < V.length → ∃ tree root proof b, Merkle.merkelize blake (V.map fun a => .elt (enc a)) = .ok tree ∧
      tree[1]? = some root ∧ Merkle.mkBranch tree x = .ok proof ∧ proof.length = k + 1 ∧ (V.map encB)[x]? = some b ∧
      Merkle.verifyBranch blake root x proof = .ok b := by
    intro x hx
    exact Merkle.merkle_complete blake (V.map fun a => .elt (enc a)) (V.map encB) k hk (by simpa using hV)
      (by
        simp only [List.map_map]
        apply List.map_congr_left
        intro a _
        simpa [Merkle.Leaf.encode] using enc_eq hp2 a) x (by simpa using hx)
  obtain ⟨tree, root, -, -, h1, h2, -⟩ := key 0 (by rw [hV]; positivity)
  refine ⟨tree, root, h1, h2, fun x a hx => ?_⟩
  obtain ⟨tree', root', proof, b, g1, g2, g3, -, g5, g6⟩ := key x (List.getElem?_eq_some_iff.1 hx).1
  rw [h1] at g1
  cases g1
  rw [h2] at g2
  cases g2
  refine ⟨proof, g3, ?_⟩
  have : b = encB a := by
    rw [List.getElem?_map, hx] at g5
    exact (Option.some.inj g5).symm
  simp only [Merkle.verifyBranchInt, g6, bind, Except.bind, this]

theorem ofInt_encB (hp2 : p ≤ 2 ^ 256) (a : Zp p) : Zp.ofInt (p := p) ((fromBytes (encB a) : Nat) : Int) = a := dec_encB hp2 a

/-! ### `merkelize` looks at the encodings only -/

theorem permute4Loop_map {α β : Type _} (g : α → β) (values : List α) (ld4 : Nat) : ∀ (is : List Nat) (o : List α),
    Merkle.permute4Loop (values.map g) ld4 is (o.map g) = (Merkle.permute4Loop values ld4 is o).map (List.map g)
  | [], o => rfl
  | i :: is, o => by
    have hidx : ∀ j, pyIdx (values.map g) j = (pyIdx values j).map g := by
      intro j
      unfold pyIdx
      rw [List.getElem?_map]
      cases values[j]? <;> rfl
    simp only [Merkle.permute4Loop, hidx]
    cases h1 : pyIdx values i with
    | error => rfl
    | ok a =>
      cases h2 : pyIdx values (i + ld4) with
      | error => rfl
      | ok b =>
        cases h3 : pyIdx values (i + ld4 * 2) with
        | error => rfl
        | ok c =>
          cases h4 : pyIdx values (i + ld4 * 3) with
          | error => rfl
          | ok d =>
            simp only [bind, Except.bind, Except.map]
            have := permute4Loop_map g values ld4 is (o ++ [a, b, c, d])
            simpa [Except.map] using this

theorem encodeLeaves_congr : ∀ (xs ys : List Merkle.Leaf) (nodes : List Bytes), xs.map Merkle.Leaf.encode = ys.map Merkle.Leaf.encode →
    Merkle.encodeLeaves xs nodes = Merkle.encodeLeaves ys nodes
  | [], [], _, _ => rfl
  | [], _ :: _, _, h => by simp at h
  | _ :: _, [], _, h => by simp at h
  | x :: xs, y :: ys, nodes, h => by
    simp only [List.map_cons, List.cons.injEq] at h
    simp only [Merkle.encodeLeaves, h.1]
    congr 1
    funext b
    exact encodeLeaves_congr xs ys _ h.2

theorem merkelize_congr (blake : Bytes → Bytes) (L L' : List Merkle.Leaf) (h : L.map Merkle.Leaf.encode = L'.map Merkle.Leaf.encode) :
    Merkle.merkelize blake L = Merkle.merkelize blake L' := by
  have hl : L.length = L'.length := by simpa using congrArg List.length h
  have hperm : (Merkle.permute4 L).map (List.map Merkle.Leaf.encode) = (Merkle.permute4 L').map (List.map Merkle.Leaf.encode) := by
    unfold Merkle.permute4
    have e1 := permute4Loop_map Merkle.Leaf.encode L (L.length / 4) (List.range (L.length / 4)) []
    have e2 := permute4Loop_map Merkle.Leaf.encode L' (L'.length / 4) (List.range (L'.length / 4)) []
    rw [← e1, ← e2, h, hl]
  unfold Merkle.merkelize
  cases h1 : Merkle.permute4 L with
  | error a =>
    cases h2 : Merkle.permute4 L' with
    | error b => rw [h1, h2] at hperm; cases hperm; rfl
    | ok b => rw [h1, h2] at hperm; cases hperm
  | ok a =>
    cases h2 : Merkle.permute4 L' with
    | error b => rw [h1, h2] at hperm; cases hperm
    | ok b =>
      rw [h1, h2] at hperm
      have hab : a.map Merkle.Leaf.encode = b.map Merkle.Leaf.encode := Except.ok.inj hperm
      have hl2 : a.length = b.length := by simpa using congrArg List.length hab
      simp only [bind, Except.bind, hl2, encodeLeaves_congr a b _ hab]

/-! ### Rows and columns -/

theorem rows_ok (l : List (Zp p)) (q : Nat) (hl : l.length = 4 * q) :
    rows l q = .ok ((List.range q).map fun i => (List.range 4).map fun j => l.getD (i + q * j) 0) := by
  unfold rows
  apply pyMap_ok
  intro i hi
  apply pyMap_ok
  intro j hj
  rw [List.mem_range] at hi hj
  have : i + q * j < l.length := by
    have : q * j ≤ q * 3 := Nat.mul_le_mul_left _ (by omega)
    omega
  rw [Merkle.pyIdx_ok this]
  simp [this]

/-- The values `C` are those at `s` of the cubic polynomials through the rows of `V`. -/
def IsFold (w : Zp p) (q : Nat) (V : List (Zp p)) (s : Zp p) (C : List (Zp p)) : Prop :=
  C.length = q ∧ ∀ i < q, ∃ P : (Zp p)[X], P.degree < 4 ∧ (∀ j < 4, V[i + q * j]? = some (P.eval (w ^ (i + q * j)))) ∧
    C[i]? = some (P.eval s)

theorem four_nodup {w : Zp p} {q : Nat} (hq : 0 < q) (hw : orderOf w = 4 * q) (i : Nat) (hi : i < q) :
    ((List.range 4).map fun j => w ^ (i + q * j)).Nodup := by
  apply List.Nodup.map_on _ List.nodup_range
  intro a ha b hb h
  rw [List.mem_range] at ha hb
  have h3a : q * a ≤ q * 3 := Nat.mul_le_mul_left _ (by omega)
  have h3b : q * b ≤ q * 3 := Nat.mul_le_mul_left _ (by omega)
  have := pow_inj_of_order hw _ _ (by omega) (by omega) h
  have : q * a = q * b := by omega
  exact Nat.eq_of_mul_eq_mul_left hq this

theorem multi4 (xsets ysets : List (List (Zp p))) (hl : xsets.length = ysets.length) (hx : ∀ s ∈ xsets, s.length = 4 ∧ s.Nodup)
    (hy : ∀ s ∈ ysets, s.length = 4) :
    ∃ rs, multiInterp4 xsets ysets = .ok rs ∧ rs.length = xsets.length ∧
      ∀ (i : Nat) (r xs ys : List (Zp p)), rs[i]? = some r → xsets[i]? = some xs → ysets[i]? = some ys →
        (toPoly r).degree < 4 ∧ xs.map (fun x => (toPoly r).eval x) = ys := by
  obtain ⟨rs, h1, h2, h3⟩ := Props.C21_multi_interp_4 xsets ysets hl (fun s hs => (hx s hs).1) hy
  refine ⟨rs, h1, h2, fun i r xs ys hr hxs hys => ?_⟩
  obtain ⟨hi, rfl⟩ := List.getElem?_eq_some_iff.1 hr
  obtain ⟨hi2, rfl⟩ := List.getElem?_eq_some_iff.1 hxs
  obtain ⟨hi3, rfl⟩ := List.getElem?_eq_some_iff.1 hys
  obtain ⟨⟨g1, g2⟩, -⟩ := (h3 i hi2 hi).2 (hx _ (List.getElem_mem _)).2
  rw [(hx _ (List.getElem_mem _)).1] at g1
  exact ⟨g1, g2⟩

theorem fold_ok (hp2 : p ≤ 2 ^ 256) (blake : Bytes → Bytes) (w : Zp p) (k : Nat) (hk : 2 ≤ k) (hw : orderOf w = 4 * 2 ^ k) (fuel : Nat)
    (hf : 4 * 2 ^ k ≤ fuel) (V : List (Zp p)) (hV : V.length = 4 * 2 ^ k) (m : List Bytes) (root : Bytes)
    (hm : Merkle.merkelize blake (V.map fun a => .elt (enc a)) = .ok m) (hroot : m[1]? = some root) :
    ∃ C m2, fold fuel blake w V = .ok (m, 2 ^ k, C, m2) ∧ IsFold w (2 ^ k) V (dec root) C ∧
      Merkle.merkelize blake (C.map fun a => .elt (enc a)) = .ok m2 := by
  have hpos : 0 < 2 ^ k := by positivity
  have hxs : Utils.getPowerCycle fuel w = .ok ((List.range (4 * 2 ^ k)).map (w ^ ·)) := by
    have := Utils.getPowerCycle_ok w (by omega) fuel (by omega)
    rwa [hw] at this
  obtain ⟨rs, r1, r2, r3⟩ := multi4
    ((List.range (2 ^ k)).map fun i => (List.range 4).map fun j => ((List.range (4 * 2 ^ k)).map (w ^ ·)).getD (i + 2 ^ k * j) 0)
    ((List.range (2 ^ k)).map fun i => (List.range 4).map fun j => V.getD (i + 2 ^ k * j) 0) (by simp)
    (by
      intro s hs
      obtain ⟨i, hi, rfl⟩ := List.mem_map.1 hs
      rw [List.mem_range] at hi
      refine ⟨by simp, ?_⟩
      have := four_nodup hpos hw i hi
      convert this using 1
      apply List.map_congr_left
      intro j hj
      rw [List.mem_range] at hj
      have h3 : 2 ^ k * j ≤ 2 ^ k * 3 := Nat.mul_le_mul_left _ (by omega)
      simp [show i + 2 ^ k * j < 4 * 2 ^ k by omega])
    (by
      intro s hs
      obtain ⟨i, hi, rfl⟩ := List.mem_map.1 hs
      simp)
  have hlen : (rs.map fun f => call f (dec root : Zp p)).length = 2 ^ k := by simp [r2]
  obtain ⟨m2, root2, t1, -, -⟩ := tree_of hp2 blake (rs.map fun f => call f (dec root : Zp p)) k hk hlen
  refine ⟨rs.map fun f => call f (dec root : Zp p), m2, ?_, ⟨hlen, ?_⟩, t1⟩
  · unfold fold
    have hq : ((List.range (4 * 2 ^ k)).map (w ^ ·)).length / 4 = 2 ^ k := by simp
    have hpi : pyIdx m 1 = .ok root := by simp [pyIdx, hroot]
    simp only [hxs, bind, Except.bind, hm, hpi, hq, rows_ok V _ hV, rows_ok ((List.range (4 * 2 ^ k)).map (w ^ ·)) (2 ^ k) (by simp), r1, t1]
    simp [pyAssert, hV]
  · intro i hi
    have hri : i < rs.length := by simpa [r2] using hi
    obtain ⟨g1, g2⟩ := r3 i rs[i] _ _ (List.getElem?_eq_getElem hri)
      (by rw [List.getElem?_map, List.getElem?_range hi]; rfl) (by rw [List.getElem?_map, List.getElem?_range hi]; rfl)
    refine ⟨toPoly rs[i], g1, ?_, ?_⟩
    · intro j hj
      have h3 : 2 ^ k * j ≤ 2 ^ k * 3 := Nat.mul_le_mul_left _ (by omega)
      have hlt : i + 2 ^ k * j < 4 * 2 ^ k := by omega
      have := congrArg (fun l : List (Zp p) => l[j]?) g2
      simp only [List.map_map, List.getElem?_map, List.getElem?_range hj, Option.map_some, Function.comp, Option.some.injEq] at this
      rw [List.getD_eq_getElem?_getD, List.getElem?_map, List.getElem?_range hlt, List.getD_eq_getElem?_getD,
        List.getElem?_eq_getElem (by omega)] at this
      rw [List.getElem?_eq_getElem (by omega)]
      simpa using this.symm
    · rw [List.getElem?_map, List.getElem?_eq_getElem hri]
      simp [call_eq_eval]

/-- A polynomial of degree below four is determined by the four values of a row. -/
theorem row_unique {w : Zp p} {q : Nat} (hq : 0 < q) (hw : orderOf w = 4 * q) (i : Nat) (hi : i < q) {P Q : (Zp p)[X]}
    (hP : P.degree < 4) (hQ : Q.degree < 4) (h : ∀ j < 4, P.eval (w ^ (i + q * j)) = Q.eval (w ^ (i + q * j))) : P = Q := by
  apply interp_unique (four_nodup hq hw i hi) (by simpa using hP) (by simpa using hQ)
  intro x hx
  obtain ⟨j, hj, rfl⟩ := List.mem_map.1 hx
  exact h j (List.mem_range.1 hj)

theorem indices_ok (blake : Bytes → Bytes) (hbl : ∀ x, (blake x).length = 32) (entropy : Bytes) (q e F : Nat) (hq : 2 ≤ q)
    (hq2 : q < 2 ^ 24) (he : e = 0 ∨ 2 ≤ e) :
    ∃ o, Utils.getPseudorandomIndices blake entropy q F e = .ok o ∧ o.length = F ∧ ∀ y ∈ o, 0 ≤ y ∧ y.toNat < q := by
  rcases he with rfl | he
  · obtain ⟨o, h1, h2, h3, -⟩ := Props.C36_indices blake hbl entropy q F (by omega) (by exact_mod_cast hq2)
    exact ⟨o, h1, h2, fun y hy => ⟨(h3 y hy).1, by have := h3 y hy; omega⟩⟩
  · obtain ⟨o, h1, h2, h3⟩ := Props.C36_indices_exclude blake hbl entropy q F e (by omega) (by exact_mod_cast hq2) (by omega)
    exact ⟨o, h1, h2, fun y hy => ⟨(h3 y hy).1, by have := h3 y hy; omega⟩⟩

theorem prefix_ok (blake : Bytes → Bytes) (hbl : ∀ x, (blake x).length = 32) (entropy : Bytes) (q e F f : Nat) (hq : 2 ≤ q)
    (hq2 : q < 2 ^ 24) (he : e = 0 ∨ 2 ≤ e) (hf : f ≤ F) (ys : List Int)
    (h : Utils.getPseudorandomIndices blake entropy q F e = .ok ys) :
    Utils.getPseudorandomIndices blake entropy q f e = .ok (ys.take f) := by
  obtain ⟨ys', z1, z2⟩ := Props.C36_indices_prefix blake hbl entropy q e f F (by exact_mod_cast hq) (by exact_mod_cast hq2)
    (by exact_mod_cast he) hf
  rw [h] at z1
  cases z1
  exact z2

/-! ### One layer -/

/-- What can be opened: a branch verifies against the root and yields the value. -/
def Opens (blake : Bytes → Bytes) (tree : List Bytes) (root : Bytes) (V : List (Zp p)) : Prop :=
  ∀ x a, V[x]? = some a → ∃ br, Merkle.mkBranch tree x = .ok br ∧ Merkle.verifyBranchInt blake root x br = .ok (fromBytes (encB a))

theorem opens_of (hp2 : p ≤ 2 ^ 256) (blake : Bytes → Bytes) (V : List (Zp p)) (k : Nat) (hk : 2 ≤ k) (hV : V.length = 2 ^ k)
    (tree : List Bytes) (h : Merkle.merkelize blake (V.map fun a => .elt (enc a)) = .ok tree) :
    ∃ root, tree[1]? = some root ∧ Opens blake tree root V := by
  obtain ⟨tree', root, h1, h2, h3⟩ := tree_of hp2 blake V k hk hV
  rw [h] at h1
  cases h1
  exact ⟨root, h2, h3⟩

omit hp in
theorem openAll_ok (blake : Bytes → Bytes) (q : Nat) (V C : List (Zp p)) (hV : V.length = 4 * q) (hC : C.length = q)
    (m m2 : List Bytes) (root root2 : Bytes) (hm : Opens blake m root V) (hm2 : Opens blake m2 root2 C) (ys : List Int)
    (hys : ∀ y ∈ ys, y.toNat < q) :
    ∃ branches, openAll m m2 q ys = .ok branches ∧ branches.length = ys.length ∧
      ∀ (i : Nat) (y : Int), ys[i]? = some y → ∃ b b0 b1 b2 b3, branches[i]? = some [b, b0, b1, b2, b3] ∧
        (∀ c, C[y.toNat]? = some c → Merkle.verifyBranchInt blake root2 y.toNat b = .ok (fromBytes (encB c))) ∧
        ∀ (j : Nat) (br : List Bytes) (a : Zp p), [b0, b1, b2, b3][j]? = some br → V[y.toNat + q * j]? = some a →
          Merkle.verifyBranchInt blake root (y.toNat + q * j) br = .ok (fromBytes (encB a)) := by
  have key : ∀ y : Int, y.toNat < q → ∃ b b0 b1 b2 b3, (do
      let b ← Merkle.mkBranch m2 y.toNat
      let bs ← pyMap (fun j => Merkle.mkBranch m (y.toNat + q * j)) (List.range 4)
      .ok (b :: bs) : Py (List (List Bytes))) = .ok [b, b0, b1, b2, b3] ∧
        (∀ c, C[y.toNat]? = some c → Merkle.verifyBranchInt blake root2 y.toNat b = .ok (fromBytes (encB c))) ∧
        ∀ (j : Nat) (br : List Bytes) (a : Zp p), [b0, b1, b2, b3][j]? = some br → V[y.toNat + q * j]? = some a →
          Merkle.verifyBranchInt blake root (y.toNat + q * j) br = .ok (fromBytes (encB a)) := by
    intro y hy
    have hv : ∀ j < 4, ∃ br, Merkle.mkBranch m (y.toNat + q * j) = .ok br ∧
        ∀ a, V[y.toNat + q * j]? = some a → Merkle.verifyBranchInt blake root (y.toNat + q * j) br = .ok (fromBytes (encB a)) := by
      intro j hj
      have h3 : q * j ≤ q * 3 := Nat.mul_le_mul_left _ (by omega)
      have hlt : y.toNat + q * j < V.length := by omega
      obtain ⟨br, h1, h2⟩ := hm (y.toNat + q * j) _ (List.getElem?_eq_getElem hlt)
      refine ⟨br, h1, fun a ha => ?_⟩
      rw [List.getElem?_eq_getElem hlt] at ha
      rw [← Option.some.inj ha]
      exact h2
    obtain ⟨b0, a0, c0⟩ := hv 0 (by omega)
    obtain ⟨b1, a1, c1⟩ := hv 1 (by omega)
    obtain ⟨b2, a2, c2⟩ := hv 2 (by omega)
    obtain ⟨b3, a3, c3⟩ := hv 3 (by omega)
    obtain ⟨b, a, c⟩ := hm2 y.toNat _ (List.getElem?_eq_getElem (by omega))
    refine ⟨b, b0, b1, b2, b3, ?_, ?_, ?_⟩
    · simp only [a, bind, Except.bind, show List.range 4 = [0, 1, 2, 3] from rfl, pyMap, a0, a1, a2, a3]
    · intro c' hc'
      rw [List.getElem?_eq_getElem (by omega)] at hc'
      rw [← Option.some.inj hc']
      exact c
    · intro j br a' hj ha
      have hj4 : j < 4 := by
        have := (List.getElem?_eq_some_iff.1 hj).1
        simpa using this
      interval_cases j <;> simp at hj <;> subst hj
      · exact c0 a' ha
      · exact c1 a' ha
      · exact c2 a' ha
      · exact c3 a' ha
  obtain ⟨branches, h1, h2, h3⟩ := pyMap_spec (fun y : Int => (do
      let b ← Merkle.mkBranch m2 y.toNat
      let bs ← pyMap (fun j => Merkle.mkBranch m (y.toNat + q * j)) (List.range 4)
      .ok (b :: bs) : Py (List (List Bytes)))) ys (by
    intro i hi
    obtain ⟨b, b0, b1, b2, b3, h, -⟩ := key ys[i] (hys _ (List.getElem_mem _))
    exact ⟨_, h⟩)
  refine ⟨branches, h1, h2, fun i y hy => ?_⟩
  obtain ⟨hi, rfl⟩ := List.getElem?_eq_some_iff.1 hy
  obtain ⟨b, b0, b1, b2, b3, h, h4, h5⟩ := key ys[i] (hys _ (List.getElem_mem _))
  refine ⟨b, b0, b1, b2, b3, ?_, h4, h5⟩
  have := h3 i hi (by omega)
  rw [List.getElem?_eq_getElem (by omega)]
  rw [this] at h
  exact congrArg some (Except.ok.inj h)

theorem verifyLayer_of (blake : Bytes → Bytes) (qr : List (Zp p)) (root : Bytes) (w : Zp p) (r e f : Nat) (it : Item) (ys : List Int)
    (qs : List (List (Zp p) × List (Zp p) × Zp p)) (rs : List (List (Zp p)))
    (h1 : Utils.getPseudorandomIndices blake it.1 ((r / 4 : Nat) : Int) f e = .ok ys)
    (h2 : pyMap (fun yi : Int × Nat => query blake root it.1 w qr (r / 4) it.2 yi.2 yi.1.toNat) ys.zipIdx = .ok qs)
    (h3 : multiInterp4 (qs.map (·.1)) (qs.map (·.2.1)) = .ok rs)
    (h4 : ∀ pc ∈ rs.zip (qs.map (·.2.2)), call pc.1 (dec root) = pc.2) : verifyLayer blake qr root w r e f it = .ok () := by
  have h5 : pyMap (fun pc : List (Zp p) × Zp p => pyAssert (decide (call pc.1 (dec root) = pc.2))) (rs.zip (qs.map (·.2.2))) =
      .ok ((rs.zip (qs.map (·.2.2))).map fun _ => ()) := by
    apply pyMap_ok
    intro pc hpc
    simp only [h4 pc hpc, decide_true, pyAssert, if_true]
  unfold verifyLayer
  rw [h1]
  simp only [bind, Except.bind]
  rw [h2]
  dsimp only
  rw [h3]
  dsimp only
  rw [h5]

theorem layer_ok (hp2 : p ≤ 2 ^ 256) (blake : Bytes → Bytes) (hbl : ∀ x, (blake x).length = 32) (w : Zp p) (q : Nat) (hq : 2 ≤ q)
    (hq2 : q < 2 ^ 24) (hw : orderOf w = 4 * q) (V C : List (Zp p)) (hV : V.length = 4 * q) (m m2 : List Bytes) (root root2 : Bytes)
    (hm : Opens blake m root V) (hm2 : Opens blake m2 root2 C) (hC : IsFold w q V (dec root) C) (qr : List (Zp p))
    (hqr : qr = (List.range 4).map fun j => w ^ (q * j)) (e : Nat) (he : e = 0 ∨ 2 ≤ e) (F f : Nat) (hf : f ≤ F) :
    ∃ ys branches, Utils.getPseudorandomIndices blake root2 C.length F e = .ok ys ∧ openAll m m2 q ys = .ok branches ∧
      branches.length = F ∧ verifyLayer blake qr root w (4 * q) e f (root2, branches) = .ok () := by
  obtain ⟨hCl, hC⟩ := hC
  obtain ⟨ys, y1, y2, y3⟩ := indices_ok blake hbl root2 q e F hq hq2 he
  have z2 := prefix_ok blake hbl root2 q e F f hq hq2 he hf ys y1
  have henc := @ofInt_encB p _ hp2
  clear hq2 hp2
  obtain ⟨branches, b1, b2, b3⟩ := openAll_ok blake q V C hV hCl m m2 root root2 hm hm2 ys (fun y hy => (y3 y hy).2)
  refine ⟨ys, branches, by rw [hCl]; exact y1, b1, by omega, ?_⟩
  -- what each query returns
  have hquery : ∀ (y : Int) (i : Nat), (y, i) ∈ (ys.take f).zipIdx →
      query blake root root2 w qr q branches i y.toNat = .ok ((List.range 4).map fun j => w ^ (y.toNat + q * j),
        (List.range 4).map fun j => V.getD (y.toNat + q * j) 0, C.getD y.toNat 0) := by
    intro y i hi
    have hi2 : ys[i]? = some y := by
      have := List.mem_zipIdx_iff_getElem?.1 hi
      simp only [List.getElem?_take] at this
      split at this
      · exact this
      · simp at this
    have hy : y.toNat < q := (y3 y (List.mem_of_getElem? hi2)).2
    obtain ⟨b, b0, b1', b2', b3', h1, h2, h3⟩ := b3 i y hi2
    have hc : C[y.toNat]? = some (C.getD y.toNat 0) := by
      rw [List.getD_eq_getElem?_getD, List.getElem?_eq_getElem (by omega)]
      rfl
    have hv : ∀ j < 4, V[y.toNat + q * j]? = some (V.getD (y.toNat + q * j) 0) := by
      intro j hj
      have h3 : q * j ≤ q * 3 := Nat.mul_le_mul_left _ (by omega)
      rw [List.getD_eq_getElem?_getD, List.getElem?_eq_getElem (by omega)]
      rfl
    have g0 := h3 0 b0 _ rfl (hv 0 (by omega))
    have g1 := h3 1 b1' _ rfl (hv 1 (by omega))
    have g2 := h3 2 b2' _ rfl (hv 2 (by omega))
    have g3 := h3 3 b3' _ rfl (hv 3 (by omega))
    have gc := h2 _ hc
    unfold query
    have hidx : pyIdx branches i = .ok [b, b0, b1', b2', b3'] := by simp [pyIdx, h1]
    have hz : ((List.range 4).zip [b, b0, b1', b2', b3'].tail) = [(0, b0), (1, b1'), (2, b2'), (3, b3')] := rfl
    have h0 : pyIdx [b, b0, b1', b2', b3'] 0 = .ok b := rfl
    simp only [hidx, hz, h0, bind, Except.bind, pyMap, g0, g1, g2, g3, gc, List.map_cons, List.map_nil, henc]
    rw [hqr]
    simp only [show List.range 4 = [0, 1, 2, 3] from rfl, List.map_cons, List.map_nil, ← pow_add, add_comm (q * _) y.toNat]
  have hmap : pyMap (fun yi : Int × Nat => query blake root root2 w qr (4 * q / 4) branches yi.2 yi.1.toNat) (ys.take f).zipIdx =
      .ok ((ys.take f).zipIdx.map fun yi => ((List.range 4).map fun j => w ^ (yi.1.toNat + q * j),
        (List.range 4).map fun j => V.getD (yi.1.toNat + q * j) 0, C.getD yi.1.toNat 0)) := by
    rw [show 4 * q / 4 = q by omega]
    exact pyMap_ok _ _ _ fun ⟨y, i⟩ h => hquery y i h
  have hylt : ∀ yi ∈ (ys.take f).zipIdx, yi.1.toNat < q := by
    rintro ⟨y, i⟩ h
    exact (y3 y (List.mem_of_mem_take (List.fst_mem_of_mem_zipIdx h))).2
  have h4 : 4 * q / 4 = q := by omega
  set Z := (ys.take f).zipIdx with hZ
  obtain ⟨rs, r1, r2, r3⟩ := multi4 (Z.map fun yi => (List.range 4).map fun j => w ^ (yi.1.toNat + q * j))
    (Z.map fun yi => (List.range 4).map fun j => V.getD (yi.1.toNat + q * j) 0) (by simp)
    (by
      intro s hs
      obtain ⟨yi, hyi, rfl⟩ := List.mem_map.1 hs
      exact ⟨by simp, four_nodup (by omega) hw _ (hylt yi hyi)⟩)
    (by
      intro s hs
      obtain ⟨yi, hyi, rfl⟩ := List.mem_map.1 hs
      simp)
  refine verifyLayer_of blake qr root w (4 * q) e f (root2, branches) (ys.take f) _ rs (by rw [h4]; exact z2) hmap
    (by simpa only [List.map_map, Function.comp_def] using r1) ?_
  rintro ⟨r, c⟩ hrc
  obtain ⟨i, hi⟩ := List.mem_iff_getElem?.1 hrc
  rw [List.getElem?_zip_eq_some] at hi
  obtain ⟨hi1, hi2⟩ := hi
  rw [List.map_map, List.getElem?_map] at hi2
  obtain ⟨yi, hyi, rfl⟩ := Option.map_eq_some_iff.1 hi2
  obtain ⟨g1, g2⟩ := r3 i r _ _ hi1 (by rw [List.getElem?_map, hyi]; rfl) (by rw [List.getElem?_map, hyi]; rfl)
  have hy := hylt yi (List.mem_of_getElem? hyi)
  obtain ⟨P, c1, c2, c3⟩ := hC yi.1.toNat hy
  have hP : toPoly r = P := by
    apply row_unique (by omega) hw _ hy g1 c1
    intro j hj
    have := congrArg (fun l : List (Zp p) => l[j]?) g2
    simp only [List.map_map, List.getElem?_map, List.getElem?_range hj, Option.map_some, Function.comp, Option.some.injEq] at this
    rw [this, List.getD_eq_getElem?_getD, c2 j hj]
    rfl
  change call r (dec root) = C.getD yi.1.toNat 0
  rw [call_eq_eval, hP, List.getD_eq_getElem?_getD, c3]
  rfl

/-! ### Degrees -/

theorem sum_four (c : Nat → Zp p) (x : Zp p) : ∀ m, ∑ n ∈ Finset.range (4 * m), c n * x ^ n =
    ∑ i ∈ Finset.range m, (c (4 * i) + c (4 * i + 1) * x + c (4 * i + 2) * x ^ 2 + c (4 * i + 3) * x ^ 3) * (x ^ 4) ^ i
  | 0 => by simp
  | m + 1 => by
    rw [show 4 * (m + 1) = 4 * m + 1 + 1 + 1 + 1 by ring, Finset.sum_range_succ, Finset.sum_range_succ, Finset.sum_range_succ,
      Finset.sum_range_succ, Finset.sum_range_succ, sum_four c x m]
    ring

/-- Folding divides the degree bound by four. -/
theorem fold_degree {w : Zp p} {q : Nat} (hq : 0 < q) (hw : orderOf w = 4 * q) (V : List (Zp p)) (s : Zp p) (C' : List (Zp p))
    (hC : IsFold w q V s C') (F : (Zp p)[X]) (m : Nat) (hF : F.degree < (4 * m : Nat))
    (hV : ∀ i < 4 * q, V[i]? = some (F.eval (w ^ i))) :
    ∃ G : (Zp p)[X], G.degree < m ∧ ∀ i < q, C'[i]? = some (G.eval ((w ^ 4) ^ i)) := by
  set c : Nat → Zp p := fun n => F.coeff n with hc
  have hFe : ∀ x, F.eval x = ∑ i ∈ Finset.range m,
      (c (4 * i) + c (4 * i + 1) * x + c (4 * i + 2) * x ^ 2 + c (4 * i + 3) * x ^ 3) * (x ^ 4) ^ i := by
    intro x
    rw [← sum_four c x m]
    by_cases h0 : F = 0
    · simp [hc, h0]
    · exact Polynomial.eval_eq_sum_range' ((Polynomial.natDegree_lt_iff_degree_lt h0).2 hF) x
  refine ⟨∑ i ∈ Finset.range m, C (c (4 * i) + c (4 * i + 1) * s + c (4 * i + 2) * s ^ 2 + c (4 * i + 3) * s ^ 3) * X ^ i, ?_, ?_⟩
  · refine lt_of_le_of_lt (Polynomial.degree_sum_le _ _) ?_
    refine (Finset.sup_lt_iff (WithBot.bot_lt_coe m)).2 ?_
    intro i hi
    refine lt_of_le_of_lt (Polynomial.degree_C_mul_X_pow_le _ _) ?_
    exact WithBot.coe_lt_coe.2 (Finset.mem_range.1 hi)
  · intro i hi
    obtain ⟨P, h1, h2, h3⟩ := hC.2 i hi
    set y := (w ^ 4) ^ i with hy
    set A : Nat → Zp p := fun j => ∑ l ∈ Finset.range m, c (4 * l + j) * y ^ l with hA
    have hev : ∀ z, (C (A 0) + C (A 1) * X + C (A 2) * X ^ 2 + C (A 3) * X ^ 3).eval z = ∑ l ∈ Finset.range m,
        (c (4 * l) + c (4 * l + 1) * z + c (4 * l + 2) * z ^ 2 + c (4 * l + 3) * z ^ 3) * y ^ l := by
      intro z
      simp only [Polynomial.eval_add, Polynomial.eval_mul, Polynomial.eval_C, Polynomial.eval_X, Polynomial.eval_pow, hA,
        Finset.sum_mul, ← Finset.sum_add_distrib]
      apply Finset.sum_congr rfl
      intro l _
      rw [Nat.add_zero]
      ring
    have hdeg : (C (A 0) + C (A 1) * X + C (A 2) * X ^ 2 + C (A 3) * X ^ 3).degree < 4 := by
      refine lt_of_le_of_lt (Polynomial.degree_add_le _ _) (max_lt (lt_of_le_of_lt (Polynomial.degree_add_le _ _) (max_lt
        (lt_of_le_of_lt (Polynomial.degree_add_le _ _) (max_lt ?_ ?_)) ?_)) ?_)
      · exact lt_of_le_of_lt Polynomial.degree_C_le (by norm_num)
      · exact lt_of_le_of_lt (by simpa using Polynomial.degree_C_mul_X_pow_le 1 (A 1)) (by norm_num)
      · exact lt_of_le_of_lt (Polynomial.degree_C_mul_X_pow_le 2 (A 2)) (by norm_num)
      · exact lt_of_le_of_lt (Polynomial.degree_C_mul_X_pow_le 3 (A 3)) (by norm_num)
    have hP : P = C (A 0) + C (A 1) * X + C (A 2) * X ^ 2 + C (A 3) * X ^ 3 := by
      apply row_unique hq hw i hi h1 hdeg
      intro j hj
      have h3j : q * j ≤ q * 3 := Nat.mul_le_mul_left _ (by omega)
      have e := h2 j hj
      rw [hV _ (by omega), Option.some.injEq] at e
      rw [← e, hFe, hev]
      have : (w ^ (i + q * j)) ^ 4 = y := by
        have h1 : w ^ (q * 4) = 1 := by rw [mul_comm, ← hw]; exact pow_orderOf_eq_one w
        rw [hy, ← pow_mul, ← pow_mul, show (i + q * j) * 4 = 4 * i + (q * 4) * j by ring, pow_add, pow_mul w (q * 4), h1, one_pow, mul_one]
      rw [this]
    rw [h3, hP, hev]
    simp only [Polynomial.eval_finsetSum, Polynomial.eval_mul, Polynomial.eval_C, Polynomial.eval_pow, Polynomial.eval_X]

/-! ### The prover -/

theorem bind_to {α β : Type _} {x : Py α} {a : α} {f : α → Py β} {r : Py β} (h : x = .ok a) (h2 : f a = r) : (x >>= f) = r := by
  rw [h]
  exact h2

theorem if_neg_to {α : Type _} {c : Prop} [Decidable c] {a b r : α} (h : ¬ c) (h2 : b = r) : (if c then a else b) = r := by
  rw [if_neg h, h2]

theorem if_pos_to {α : Type _} {c : Prop} [Decidable c] {a b r : α} (h : c) (h2 : a = r) : (if c then a else b) = r := by
  rw [if_pos h, h2]

theorem inv_spec (w : Zp p) (k : Nat) (hw : orderOf w = 2 ^ k) (fuel : Nat) (hf : 2 ^ k ≤ fuel) (v : List (Zp p)) (hv : v.length = 2 ^ k) :
    ∃ g, FFT.nbInvFft fuel p w v = .ok g ∧ g.length ≤ 2 ^ k ∧ dft w (2 ^ k) g = v := by
  have hg : Good (2 ^ k) := (good_iff _).2 ⟨k, .inl rfl⟩
  refine ⟨ctor ((dft w⁻¹ (2 ^ k) v).map fun x => x * ((2 ^ k : Nat) : Zp p)⁻¹), ?_, ?_, ?_⟩
  · simp only [nbInvFft, fft1d_inv hg w hw p v hv.le fuel hf, bind, Except.bind]
  · exact length_le_of_canon (canon_ctor _) _ (fun i hi => by
      rw [toPoly_ctor]
      exact coeff_eq_zero_of_length_le (by simpa using hi))
  · rw [dft_congr w (2 ^ k) (toPoly_ctor _)]
    exact dft_dft_inv hg.pos hw v hv

theorem fwd_spec (w : Zp p) (k : Nat) (hw : orderOf w = 2 ^ k) (fuel : Nat) (hf : 2 ^ k ≤ fuel) (f : List (Zp p)) (hl : f.length ≤ 2 ^ k) :
    FFT.nbFft fuel p w f = .ok (dft w (2 ^ k) f) :=
  fft1d_fwd ((good_iff _).2 ⟨k, .inl rfl⟩) w hw p f hl fuel hf

theorem order_four {w : Zp p} {k : Nat} (hw : orderOf w = 4 * 2 ^ k) : orderOf (w ^ 4) = 2 ^ k := by
  rw [orderOf_pow_of_dvd (by norm_num) (by rw [hw]; exact dvd_mul_right _ _), hw]
  omega

/-- One step of the recursion: the layer it adds is accepted, and the rest is the proof for the column. -/
theorem prove_step (hp2 : p ≤ 2 ^ 256) (blake : Bytes → Bytes) (hbl : ∀ x, (blake x).length = 32) (fuel : Nat) (w : Zp p) (k : Nat)
    (hk : 2 ≤ k) (hk2 : k < 24) (hw : orderOf w = 4 * 2 ^ k) (hf : 4 * 2 ^ k ≤ fuel) (f : List (Zp p)) (hl : f.length ≤ 4 * 2 ^ k)
    (d : Nat) (hd : 16 < d) (e : Nat) (he : e = 0 ∨ 2 ≤ e) (F fv : Nat) (hF : fv ≤ F) (m : List Bytes) (root : Bytes)
    (hm : Merkle.merkelize blake ((dft w (4 * 2 ^ k) f).map fun a => .elt (enc a)) = .ok m) (hroot : m[1]? = some root) :
    ∃ (it : Item) (g : List (Zp p)) (m2 : List Bytes), g.length ≤ 2 ^ k ∧
      Merkle.merkelize blake ((dft (w ^ 4) (2 ^ k) g).map fun a => .elt (enc a)) = .ok m2 ∧ m2[1]? = some it.1 ∧
      IsFold w (2 ^ k) (dft w (4 * 2 ^ k) f) (dec root) (dft (w ^ 4) (2 ^ k) g) ∧ it.2.length = F ∧
      (∀ qr, qr = (List.range 4).map (fun j => w ^ (2 ^ k * j)) → verifyLayer blake qr root w (4 * 2 ^ k) e fv it = .ok ()) ∧
      ∀ depth, proveRec fuel blake (depth + 1) f w d e F = (do
        let rest ← proveRec fuel blake depth g (w ^ 4) (d / 4) e 40
        .ok (it :: rest.1, rest.2)) := by
  have h4 : 4 * 2 ^ k = 2 ^ (k + 2) := by rw [pow_add]; ring
  have hfwd := fwd_spec w (k + 2) (by rw [← h4]; exact hw) fuel (by omega) f (by omega)
  rw [← h4] at hfwd
  obtain ⟨C', m2, c1, c2, c3⟩ := fold_ok hp2 blake w k hk hw fuel hf (dft w (4 * 2 ^ k) f) (by simp) m root hm hroot
  obtain ⟨root2, t1, t2⟩ := opens_of hp2 blake C' k hk c2.1 m2 c3
  obtain ⟨root', t3, t4⟩ := opens_of hp2 blake (dft w (4 * 2 ^ k) f) (k + 2) (by omega) (by simp [h4]) m hm
  rw [hroot] at t3
  cases t3
  have hw4 := order_four hw
  obtain ⟨g, i1, i2, i3⟩ := inv_spec (w ^ 4) k hw4 fuel (by omega) C' c2.1
  have h2k : 2 ≤ 2 ^ k := by
    calc 2 = 2 ^ 1 := rfl
      _ ≤ _ := Nat.pow_le_pow_right (by omega) (by omega)
  have h24 : 2 ^ k < 2 ^ 24 := Nat.pow_lt_pow_right (by omega) hk2
  obtain ⟨ys, branches, l1, l2, l3, l4⟩ := layer_ok hp2 blake hbl w (2 ^ k) h2k h24 hw (dft w (4 * 2 ^ k) f) C' (by simp) m m2 root root2
    t4 t2 c2 _ rfl e he F fv hF
  refine ⟨(root2, branches), g, m2, i2, by rw [i3]; exact c3, t1, by rw [i3]; exact c2, l3, fun qr hqr => by rw [hqr]; exact l4, ?_⟩
  intro depth
  have hpi : pyIdx m2 1 = .ok root2 := by simp [pyIdx, t1]
  rw [proveRec]
  exact bind_to hfwd (if_neg_to (by omega) (bind_to c1 (bind_to hpi (bind_to l1 (bind_to l2 (bind_to i1 rfl))))))

theorem prove_base (hp2 : p ≤ 2 ^ 256) (blake : Bytes → Bytes) (fuel : Nat) (w : Zp p) (k : Nat) (hw : orderOf w = 2 ^ k)
    (hf : 2 ^ k ≤ fuel) (f : List (Zp p)) (hl : f.length ≤ 2 ^ k) (d : Nat) (hd : d ≤ 16) (e F depth : Nat) :
    proveRec fuel blake (depth + 1) f w d e F = .ok ([], (dft w (2 ^ k) f).map encB) := by
  rw [proveRec]
  exact bind_to (fwd_spec w k hw fuel hf f hl) (if_pos_to hd (bind_to (pyMap_ok enc encB _ (fun a _ => enc_eq hp2 a)) rfl))

/-- `d` can be divided by four, without remainder, until it is at most sixteen. -/
def Quarters (d : Nat) : Prop := ∃ r j, d = r * 4 ^ j ∧ r ≤ 16

theorem Quarters.next {d : Nat} (h : Quarters d) (hd : 16 < d) : d = 4 * (d / 4) ∧ Quarters (d / 4) := by
  obtain ⟨r, j, rfl, hr⟩ := h
  cases j with
  | zero => omega
  | succ j =>
    have e : r * 4 ^ (j + 1) = 4 * (r * 4 ^ j) := by rw [pow_succ]; ring
    rw [e, Nat.mul_div_cancel_left _ (by norm_num)]
    exact ⟨rfl, r, j, rfl, hr⟩

/-- How many times the prover folds. -/
def folds (d : Nat) : Nat := if d ≤ 16 then 0 else folds (d / 4) + 1
decreasing_by omega

theorem folds_le {d : Nat} (h : d ≤ 16) : folds d = 0 := by rw [folds, if_pos h]

theorem folds_gt {d : Nat} (h : 16 < d) : folds d = folds (d / 4) + 1 := by rw [folds, if_neg (by omega)]

theorem quarters_iff : ∀ (n d : Nat), d < n → (Quarters d ↔ d = d / 4 ^ folds d * 4 ^ folds d)
  | 0, _, h => by omega
  | n + 1, d, h => by
    by_cases h16 : d ≤ 16
    · rw [folds_le h16]
      simpa using ⟨d, 0, by simp, h16⟩
    · rw [folds_gt (by omega), pow_succ, mul_comm (4 ^ _) 4, ← Nat.div_div_eq_div_mul]
      have ih := quarters_iff n (d / 4) (by omega)
      constructor
      · intro hq
        obtain ⟨e1, e2⟩ := hq.next (by omega)
        have := ih.1 e2
        generalize d / 4 / 4 ^ folds (d / 4) = x at *
        calc d = 4 * (d / 4) := e1
          _ = 4 * (x * 4 ^ folds (d / 4)) := by rw [← this]
          _ = _ := by ring
      · intro hq
        have hle : d / 4 / 4 ^ folds (d / 4) ≤ 16 := folds_small n (d / 4) (by omega)
        exact ⟨_, folds (d / 4) + 1, by rw [pow_succ, mul_comm (4 ^ _) 4]; exact hq, hle⟩
where
  folds_small : ∀ (n d : Nat), d < n → d / 4 ^ folds d ≤ 16
  | 0, _, h => by omega
  | n + 1, d, h => by
    by_cases h16 : d ≤ 16
    · rw [folds_le h16]
      simpa using h16
    · rw [folds_gt (by omega), pow_succ, mul_comm (4 ^ _) 4, ← Nat.div_div_eq_div_mul]
      exact folds_small n (d / 4) (by omega)

/-- Folding the values of `X^(4a)` gives those of `X^a`, whatever the challenge. -/
theorem fold_monomial {w : Zp p} {q : Nat} (hq : 0 < q) (hw : orderOf w = 4 * q) (V : List (Zp p)) (s : Zp p) (C' : List (Zp p))
    (hC : IsFold w q V s C') (a : Nat) (hV : ∀ i < 4 * q, V[i]? = some ((w ^ i) ^ (4 * a))) :
    ∀ i < q, C'[i]? = some (((w ^ 4) ^ i) ^ a) := by
  intro i hi
  obtain ⟨P, h1, h2, h3⟩ := hC.2 i hi
  have hPc : P = Polynomial.C ((w ^ i) ^ (4 * a)) := by
    refine row_unique hq hw i hi h1 (lt_of_le_of_lt Polynomial.degree_C_le (by norm_num)) fun j hj => ?_
    have hj3 : q * j ≤ q * 3 := Nat.mul_le_mul_left _ (by omega)
    have := h2 j hj
    rw [hV _ (by omega), Option.some.injEq] at this
    rw [← this, Polynomial.eval_C, ← pow_mul, ← pow_mul, show (i + q * j) * (4 * a) = i * (4 * a) + 4 * q * (j * a) by ring, pow_add,
      pow_mul w (4 * q), ← hw, pow_orderOf_eq_one, one_pow, mul_one]
  rw [h3, hPc, Polynomial.eval_C, ← pow_mul, ← pow_mul, ← pow_mul]
  congr 2
  ring

/-- The whole run of the prover on the values of any polynomial: it returns a proof whose layers the verifier accepts, ending with the
values `V'` that are its last component.  If the degree is below the bound, and the bound can be divided, so is the degree of `V'`. -/
theorem prove_chain (hp2 : p ≤ 2 ^ 256) (blake : Bytes → Bytes) (hbl : ∀ x, (blake x).length = 32) (fuel : Nat) (e : Nat)
    (he : e = 0 ∨ 2 ≤ e) (fv : Nat) : ∀ (depth : Nat) (f : List (Zp p)) (w : Zp p) (d k F : Nat) (m : List Bytes) (root : Bytes),
    d < depth → 2 ≤ k → k < 26 → orderOf w = 2 ^ k → 2 ^ k ≤ fuel → f.length ≤ 2 ^ k → d ≤ 2 ^ k → (16 < d → fv ≤ F) →
    (16 < d / 4 → fv ≤ 40) → Merkle.merkelize blake ((dft w (2 ^ k) f).map fun a => .elt (enc a)) = .ok m → m[1]? = some root →
    ∃ (items : List Item) (V : List (Zp p)) (k' : Nat) (w' : Zp p) (d' : Nat) (m' : List Bytes) (root' : Bytes),
      proveRec fuel blake depth f w d e F = .ok (items, V.map encB) ∧
      (∀ qr, qr = (List.range 4).map (fun j => w ^ (2 ^ k / 4 * j)) →
        verifyLayers blake qr e fv items root w d (2 ^ k) = .ok (root', w', d')) ∧
      d' ≤ 16 ∧ min d 4 ≤ d' ∧ d' ≤ 2 ^ k' ∧ 2 ≤ k' ∧ k' ≤ k ∧ orderOf w' = 2 ^ k' ∧ V.length = 2 ^ k' ∧
      Merkle.merkelize blake (V.map fun a => .elt (enc a)) = .ok m' ∧ m'[1]? = some root' ∧
      (Quarters d → (toPoly f).degree < d → ∃ G : (Zp p)[X], G.degree < d' ∧ ∀ i < 2 ^ k', V[i]? = some (G.eval (w' ^ i))) ∧
      d' = d / 4 ^ folds d ∧ 2 ^ k = 2 ^ k' * 4 ^ folds d ∧
      ∀ a, (∀ i < 2 ^ k, (dft w (2 ^ k) f)[i]? = some ((w ^ i) ^ (a * 4 ^ folds d))) → ∀ i < 2 ^ k', V[i]? = some ((w' ^ i) ^ a)
  | 0, _, _, _, _, _, _, _, h, _, _, _, _, _, _, _, _, _, _ => by omega
  | depth + 1, f, w, d, k, F, m, root, hdep, hk, hk26, hw, hf, hl, hd, hF, h40, hm, hroot => by
    by_cases h16 : d ≤ 16
    · refine ⟨[], dft w (2 ^ k) f, k, w, d, m, root, prove_base hp2 blake fuel w k hw hf f hl d h16 e F depth, fun _ _ => rfl, h16, by omega,
        hd, hk, le_rfl, hw, by simp, hm, hroot, fun _ hdeg => ⟨toPoly f, hdeg, fun i hi => dft_getElem? w _ f i hi⟩, by rw [folds_le h16]; simp,
        by rw [folds_le h16]; simp, fun a ha => by simpa [folds_le h16] using ha⟩
    · have hk5 : 5 ≤ k := by
        by_contra hlt
        have : 2 ^ k ≤ 2 ^ 4 := Nat.pow_le_pow_right (by omega) (by omega)
        omega
      obtain ⟨k0, rfl⟩ : ∃ k0, k = k0 + 2 := ⟨k - 2, by omega⟩
      have h4 : 2 ^ (k0 + 2) = 4 * 2 ^ k0 := by rw [pow_add]; ring
      rw [h4] at hw hf hl hd hm
      have hwq := order_four hw
      obtain ⟨it, g, m2, s1, s2, s3, s4, -, s5, s6⟩ := prove_step hp2 blake hbl fuel w k0 (by omega) (by omega) hw hf f hl d (by omega) e he F
        fv (hF (by omega)) m root hm hroot
      obtain ⟨items, V, k', w', d', m', root', i1, i2, i3, i4, i5, i6, i7, i8, i9, i10, i11, i12, i13, i14, i15⟩ := prove_chain hp2 blake hbl fuel e he fv
        depth g (w ^ 4) (d / 4) k0 40 m2 it.1 (by omega) (by omega) (by omega) hwq (by omega) s1 (by omega) h40
        (fun h => h40 (by omega)) s2 s3
      refine ⟨it :: items, V, k', w', d', m', root', ?_, ?_, i3, by omega, i5, i6, by omega, i8, i9, i10, i11, ?_, ?_, ?_, ?_⟩
      · rw [s6 depth]
        exact bind_to i1 rfl
      · intro qr hqr
        rw [h4, Nat.mul_div_cancel_left _ (by norm_num)] at hqr
        have hq2 : qr = (List.range 4).map (fun j => (w ^ 4) ^ (2 ^ k0 / 4 * j)) := by
          rw [hqr]
          apply List.map_congr_left
          intro j _
          obtain ⟨k1, rfl⟩ : ∃ k1, k0 = k1 + 2 := ⟨k0 - 2, by omega⟩
          have e4 : 2 ^ (k1 + 2) = 4 * 2 ^ k1 := by rw [pow_add]; ring
          rw [e4, Nat.mul_div_cancel_left _ (by norm_num), ← pow_mul, mul_assoc]
        rw [verifyLayers, h4]
        refine bind_to (s5 qr hqr) ?_
        rw [Nat.mul_div_cancel_left _ (by norm_num)]
        exact i2 qr hq2
      · intro hQ hdeg
        obtain ⟨e1, e2⟩ := hQ.next (by omega)
        obtain ⟨G, g1, g2⟩ := fold_degree (by positivity) hw _ _ _ s4 (toPoly f) (d / 4) (by rw [← e1]; exact hdeg)
          (fun i hi => dft_getElem? w _ f i hi)
        refine i12 e2 ?_
        -- the coefficients found by the inverse transform are those of `G`
        have hGg : toPoly g = G := by
          have hdq : d / 4 ≤ 2 ^ k0 := by omega
          apply Polynomial.eq_of_degrees_lt_of_eval_finset_eq ((Finset.range (2 ^ k0)).image fun i => (w ^ 4) ^ i)
          · rw [Finset.card_image_of_injOn, Finset.card_range]
            · rcases eq_or_ne (toPoly g) 0 with h0 | h0
              · rw [h0, Polynomial.degree_zero]
                exact WithBot.bot_lt_coe _
              · rw [Polynomial.degree_lt_iff_coeff_zero]
                intro i hi
                exact coeff_eq_zero_of_length_le (by omega)
            · intro a ha b hb h
              simp only [Finset.coe_range, Set.mem_Iio] at ha hb
              exact pow_inj_of_order hwq a b ha hb h
          · rw [Finset.card_image_of_injOn, Finset.card_range]
            · exact lt_of_lt_of_le g1 (by exact_mod_cast hdq)
            · intro a ha b hb h
              simp only [Finset.coe_range, Set.mem_Iio] at ha hb
              exact pow_inj_of_order hwq a b ha hb h
          · intro x hx
            obtain ⟨i, hi, rfl⟩ := Finset.mem_image.1 hx
            rw [Finset.mem_range] at hi
            have := g2 i hi
            rw [dft_getElem? _ _ _ _ hi] at this
            exact Option.some.inj this
        rw [hGg]
        exact g1
      · rw [i13, folds_gt (d := d) (by omega), pow_succ, mul_comm (4 ^ _) 4, ← Nat.div_div_eq_div_mul]
      · rw [h4, i14, folds_gt (d := d) (by omega)]
        ring
      · intro a ha
        refine i15 a ?_
        rw [h4] at ha
        refine fold_monomial (by positivity) hw _ _ _ s4 _ fun i hi => ?_
        rw [ha i hi, folds_gt (d := d) (by omega)]
        congr 2
        ring

/-! ### The direct component -/

theorem bind_inv {α β : Type _} {x : Py α} {f : α → Py β} {b : β} (h : (x >>= f) = .ok b) : ∃ a, x = .ok a ∧ f a = .ok b := by
  cases x with
  | error e => simp [bind, Except.bind] at h
  | ok a => exact ⟨a, rfl, h⟩

theorem pyMap_mem {α β : Type _} {f : α → Py β} : ∀ {l : List α} {r : List β}, pyMap f l = .ok r → ∀ a ∈ l, ∃ b, f a = .ok b
  | [], _, _, a, ha => by simp at ha
  | x :: l, r, h, a, ha => by
    rw [pyMap] at h
    obtain ⟨b, h1, h2⟩ := bind_inv h
    obtain ⟨bs, h3, h4⟩ := bind_inv h2
    rcases List.mem_cons.1 ha with rfl | ha
    · exact ⟨b, h1⟩
    · exact pyMap_mem h3 a ha

theorem pts_lt {len e x : Nat} (h : x ∈ pts len e) : x < len := by
  unfold pts at h
  split at h
  · exact List.mem_range.1 (List.mem_of_mem_filter h)
  · exact List.mem_range.1 h

theorem pts_nodup (len e : Nat) : (pts len e).Nodup := by
  unfold pts
  split
  · exact List.nodup_range.filter _
  · exact List.nodup_range

/-- What the verifier checks of the last component. -/
theorem last_iff (blake : Bytes → Bytes) (fuel : Nat) (root : Bytes) (w : Zp p) (n : Nat) (hn : 0 < n) (hw : orderOf w = n) (hf : n ≤ fuel)
    (d e : Nat) (last : List Bytes) :
    verifyLast fuel blake root w d e last = .ok () ↔ d ≤ 16 ∧
      (∃ m, Merkle.merkelize blake (last.map fun b => .int (fromBytes b)) = .ok m ∧ m[1]? = some root) ∧
      (∀ x ∈ pts last.length e, x < n) ∧
      ∃ P : (Zp p)[X], P.degree < d ∧ ∀ x ∈ pts last.length e, ∀ b, last[x]? = some b → P.eval (w ^ x) = dec b := by
  have hpc : Utils.getPowerCycle fuel w = .ok ((List.range n).map (w ^ ·)) := by
    have := Utils.getPowerCycle_ok w (by omega) fuel (by omega)
    rwa [hw] at this
  have hdl : (last.map fromBytes).length = last.length := by simp
  have hmm : (last.map fromBytes).map (fun n : Nat => Merkle.Leaf.int (n : Int)) = last.map fun b => .int (fromBytes b) := by
    rw [List.map_map]; rfl
  -- reading a power and a datum
  have hpow : ∀ x < n, pyIdx ((List.range n).map (w ^ ·)) x = .ok (w ^ x) := by
    intro x hx
    simp [pyIdx, hx]
  have hpow' : ∀ x b, pyIdx ((List.range n).map (w ^ ·)) x = .ok b → x < n := by
    intro x b h
    by_contra hx
    simp [pyIdx, hx] at h
  have hdat : ∀ x < last.length, pyIdx (last.map fromBytes) x = .ok ((last.map fromBytes).getD x 0) := by
    intro x hx
    rw [Merkle.pyIdx_ok (by simpa using hx)]
    simp [hx]
  have hdec : ∀ x b, last[x]? = some b → (Zp.ofInt (((last.map fromBytes).getD x 0 : Nat) : Int) : Zp p) = dec b := by
    intro x b h
    rw [List.getD_eq_getElem?_getD, List.getElem?_map, h]
    rfl
  set Q := pts last.length e with hQ
  have hQl : ∀ x ∈ Q, x < last.length := fun x hx => pts_lt hx
  have hQn : Q.Nodup := pts_nodup _ _
  -- the interpolation, when every index is in range
  have hinterp : (∀ x ∈ Q, x < n) → ∃ r, lagrangeInterp ((Q.take d).map (w ^ ·))
      (((Q.take d).map fun x => (last.map fromBytes).getD x 0).map fun n : Nat => (Zp.ofInt (n : Int) : Zp p)) = .ok r ∧
      (toPoly r).degree < (Q.take d).length ∧ ∀ x ∈ Q.take d, (toPoly r).eval (w ^ x) = Zp.ofInt (((last.map fromBytes).getD x 0 : Nat) : Int) := by
    intro hall
    have hnd : ((Q.take d).map (w ^ ·)).Nodup := by
      apply List.Nodup.map_on _ (hQn.sublist (List.take_sublist _ _))
      intro a ha b hb h
      exact pow_inj_of_order hw a b (hall a (List.mem_of_mem_take ha)) (hall b (List.mem_of_mem_take hb)) h
    obtain ⟨r, h1, -, h2, h3⟩ := Props.C20_lagrange_interp ((Q.take d).map (w ^ ·))
      (((Q.take d).map fun x => (last.map fromBytes).getD x 0).map fun n : Nat => (Zp.ofInt (n : Int) : Zp p)) hnd (by simp)
    refine ⟨r, h1, by simpa using h2.1, ?_⟩
    have e := h2.2
    simp only [List.map_map] at e
    intro x hx
    exact List.map_inj_left.1 e x hx
  have hxs : (∀ x ∈ Q, x < n) → pyMap (fun x => pyIdx ((List.range n).map (w ^ ·)) x) (Q.take d) = .ok ((Q.take d).map (w ^ ·)) := by
    intro hall
    exact pyMap_ok _ _ _ fun x hx => hpow x (hall x (List.mem_of_mem_take hx))
  have hys : pyMap (fun x => pyIdx (last.map fromBytes) x) (Q.take d) = .ok ((Q.take d).map fun x => (last.map fromBytes).getD x 0) :=
    pyMap_ok _ _ _ fun x hx => hdat x (hQl x (List.mem_of_mem_take hx))
  constructor
  · intro h
    unfold verifyLast at h
    simp only [hdl] at h
    obtain ⟨u, h1, h⟩ := bind_inv h
    rw [pyAssert_iff, decide_eq_true_eq] at h1
    obtain ⟨m, h2, h⟩ := bind_inv h
    obtain ⟨mroot, h3, h⟩ := bind_inv h
    obtain ⟨u, h4, h⟩ := bind_inv h
    rw [pyAssert_iff, beq_iff_eq] at h4
    obtain ⟨powers, h5, h⟩ := bind_inv h
    rw [hpc] at h5
    cases h5
    obtain ⟨xs, h6, h⟩ := bind_inv h
    obtain ⟨ys, h7, h⟩ := bind_inv h
    obtain ⟨f, h8, h⟩ := bind_inv h
    obtain ⟨us, h9, h⟩ := bind_inv h
    rw [← hQ] at h6 h7 h9
    have hall : ∀ x ∈ Q, x < n := by
      intro x hx
      rw [← List.take_append_drop d Q, List.mem_append] at hx
      rcases hx with hx | hx
      · obtain ⟨b, hb⟩ := pyMap_mem h6 x hx
        exact hpow' x b hb
      · obtain ⟨b, hb⟩ := pyMap_mem h9 x hx
        obtain ⟨a, ha, -⟩ := bind_inv hb
        exact hpow' x a ha
    rw [hxs hall] at h6
    cases h6
    rw [hys] at h7
    cases h7
    obtain ⟨r, g1, g2, g3⟩ := hinterp hall
    rw [g1] at h8
    cases h8
    refine ⟨h1, ⟨m, by rw [← hmm]; exact h2, ?_⟩, hall, toPoly f, ?_, ?_⟩
    · rw [← h4]
      unfold pyIdx at h3
      cases hm1 : m[1]? with
      | none => rw [hm1] at h3; cases h3
      | some a => rw [hm1] at h3; cases h3; rfl
    · refine lt_of_lt_of_le g2 ?_
      have : (Q.take d).length ≤ d := by simp
      exact_mod_cast this
    · intro x hx b hb
      rw [← hdec x b hb]
      rw [← List.take_append_drop d Q, List.mem_append] at hx
      rcases hx with hx | hx
      · exact g3 x hx
      · have hxQ := List.mem_of_mem_drop hx
        obtain ⟨u, hu⟩ := pyMap_mem h9 x hx
        obtain ⟨a, ha, hu⟩ := bind_inv hu
        rw [hpow x (hall x hxQ)] at ha
        cases ha
        obtain ⟨c, hc, hu⟩ := bind_inv hu
        rw [hdat x (hQl x hxQ)] at hc
        cases hc
        rw [pyAssert_iff, decide_eq_true_eq] at hu
        rw [← call_eq_eval]
        exact hu
  · rintro ⟨h1, ⟨m, h2, h3⟩, hall, P, hP, hPx⟩
    obtain ⟨r, g1, g2, g3⟩ := hinterp hall
    have hpi : pyIdx m 1 = .ok root := by simp [pyIdx, h3]
    unfold verifyLast
    simp only [hdl]
    rw [← hQ]
    refine bind_to (a := ()) (by rw [pyAssert_iff]; simpa using h1) (bind_to (by rw [hmm]; exact h2) (bind_to hpi
      (bind_to (a := ()) (by rw [pyAssert_iff]; simp) (bind_to hpc (bind_to (hxs hall) (bind_to hys (bind_to g1
      (bind_to (a := (Q.drop d).map fun _ => ()) ?_ rfl))))))))
    apply pyMap_ok
    intro x hx
    have hxQ := List.mem_of_mem_drop hx
    have hlen : (Q.take d).length = d := by
      have : 0 < (Q.drop d).length := List.length_pos_of_mem hx
      simp only [List.length_drop] at this
      simp only [List.length_take]
      omega
    have hPr : toPoly r = P := by
      have hnd : ((Q.take d).map (w ^ ·)).Nodup := by
        apply List.Nodup.map_on _ (hQn.sublist (List.take_sublist _ _))
        intro a ha b hb h
        exact pow_inj_of_order hw a b (hall a (List.mem_of_mem_take ha)) (hall b (List.mem_of_mem_take hb)) h
      apply interp_unique hnd (by simpa only [List.length_map] using g2) (by rw [List.length_map, hlen]; exact hP)
      intro y hy
      obtain ⟨z, hz, rfl⟩ := List.mem_map.1 hy
      have hzQ := List.mem_of_mem_take hz
      have hzl := hQl z hzQ
      rw [g3 z hz, hPx z hzQ _ (List.getElem?_eq_getElem hzl), hdec z _ (List.getElem?_eq_getElem hzl)]
    refine bind_to (hpow x (hall x hxQ)) (bind_to (hdat x (hQl x hxQ)) ?_)
    rw [pyAssert_iff, decide_eq_true_eq, call_eq_eval, hPr, hPx x hxQ _ (List.getElem?_eq_getElem (hQl x hxQ)),
      hdec x _ (List.getElem?_eq_getElem (hQl x hxQ))]

/-! ### The verifier -/

theorem rou_ok : ∀ (k fuel : Nat) (t : Zp p) (r : Nat), orderOf t = 2 ^ k → k < fuel → rouLoop fuel t r = .ok (r * 2 ^ k)
  | 0, fuel, t, r, ht, hf => by
    obtain ⟨f, rfl⟩ : ∃ f, fuel = f + 1 := ⟨fuel - 1, by omega⟩
    have : t = 1 := orderOf_eq_one_iff.1 (by simpa using ht)
    simp [rouLoop, this]
  | k + 1, fuel, t, r, ht, hf => by
    obtain ⟨f, rfl⟩ : ∃ f, fuel = f + 1 := ⟨fuel - 1, by omega⟩
    have h1 : t ≠ 1 := by
      intro h
      rw [h, orderOf_one, pow_succ] at ht
      have : 0 < 2 ^ k := by positivity
      omega
    have h2 : orderOf (t * t) = 2 ^ k := by
      rw [← pow_two]
      exact order_sq (by rw [ht, pow_succ]; ring)
    rw [rouLoop, if_pos h1, rou_ok k f (t * t) (r * 2) h2 (by omega), pow_succ]
    congr 1
    ring

theorem quartic_eq (w : Zp p) (k : Nat) (hk : 2 ≤ k) : quartic w (2 ^ k) = (List.range 4).map fun j => w ^ (2 ^ k / 4 * j) := by
  obtain ⟨k0, rfl⟩ : ∃ k0, k = k0 + 2 := ⟨k - 2, by omega⟩
  have h4 : 2 ^ (k0 + 2) = 4 * 2 ^ k0 := by rw [pow_add]; ring
  rw [h4]
  generalize 2 ^ k0 = q
  unfold quartic
  rw [show 4 * q / 4 = q by omega, show 4 * q / 2 = q * 2 by omega, show 4 * q * 3 / 4 = q * 3 by omega]
  simp [show List.range 4 = [0, 1, 2, 3] from rfl]

theorem verify_of (blake : Bytes → Bytes) (fuel : Nat) (w : Zp p) (k : Nat) (hk : 2 ≤ k) (hw : orderOf w = 2 ^ k) (hf : 2 ^ k ≤ fuel)
    (items : List Item) (last : List Bytes) (root root' : Bytes) (w' : Zp p) (d d' e fv : Nat)
    (h1 : verifyLayers blake ((List.range 4).map fun j => w ^ (2 ^ k / 4 * j)) e fv items root w d (2 ^ k) = .ok (root', w', d'))
    (h2 : verifyLast fuel blake root' w' d' e last = .ok ()) : verify fuel blake (items, last) root w d e fv = .ok true := by
  have hr : rouLoop fuel w 1 = .ok (2 ^ k) := by
    have := rou_ok k fuel w 1 hw (by have := @Nat.lt_two_pow_self k; omega)
    rwa [one_mul] at this
  unfold verify
  rw [← quartic_eq w k hk] at h1
  exact bind_to hr (bind_to h1 (bind_to h2 rfl))

theorem int_leaf (b : Bytes) (hb : b.length = 32) : (Merkle.Leaf.int ((fromBytes b : Nat) : Int)).encode = .ok b := by
  have h1 := fromBytes_lt b
  rw [hb] at h1
  have h2 := beDigits_fromBytes b
  rw [hb] at h2
  have h3 : ¬ (((fromBytes b : Nat) : Int) < 0 ∨ (256 ^ 32 : Int) ≤ ((fromBytes b : Nat) : Int)) := by
    rintro (h | h)
    · omega
    · exact absurd h1 (not_lt.2 (by exact_mod_cast h))
  simp only [Merkle.Leaf.encode, intToBytes]
  rw [if_neg h3, Int.toNat_natCast, h2]

/-- The integers of the last component hash to the same tree as the field elements. -/
theorem ints_tree (hp2 : p ≤ 2 ^ 256) (blake : Bytes → Bytes) (V : List (Zp p)) :
    Merkle.merkelize blake ((V.map encB).map fun b => .int (fromBytes b)) = Merkle.merkelize blake (V.map fun a => .elt (enc a)) := by
  apply merkelize_congr
  rw [List.map_map, List.map_map, List.map_map]
  apply List.map_congr_left
  intro a _
  simp only [Function.comp_apply]
  rw [int_leaf _ (encB_length a), ← enc_eq hp2]
  rfl

/-- The honest proof is accepted. -/
theorem complete (hp2 : p ≤ 2 ^ 256) (blake : Bytes → Bytes) (hbl : ∀ x, (blake x).length = 32) (w : Zp p) (k : Nat) (hk : 2 ≤ k)
    (hk2 : k < 26) (hw : orderOf w = 2 ^ k) (fuel : Nat) (hf : 2 ^ k ≤ fuel) (f : List (Zp p)) (hl : f.length ≤ 2 ^ k) (d : Nat)
    (hd : d ≤ 2 ^ k) (hQ : Quarters d) (hdeg : (toPoly f).degree < d) (e : Nat) (he : e = 0 ∨ 2 ≤ e) (F fv : Nat)
    (hF : 16 < d → fv ≤ F) (h40 : 16 < d / 4 → fv ≤ 40) (m : List Bytes) (root : Bytes)
    (hm : Merkle.merkelize blake ((dft w (2 ^ k) f).map fun a => .elt (enc a)) = .ok m) (hroot : m[1]? = some root) :
    ∃ pf, prove fuel blake f w d e F = .ok pf ∧ verify fuel blake pf root w d e fv = .ok true := by
  obtain ⟨items, V, k', w', d', m', root', i1, i2, i3, i4, i5, i6, i7, i8, i9, i10, i11, i12, -⟩ := prove_chain hp2 blake hbl fuel e he fv (d + 1)
    f w d k F m root (by omega) hk hk2 hw hf hl hd hF h40 hm hroot
  obtain ⟨G, g1, g2⟩ := i12 hQ hdeg
  have hk' : 2 ^ k' ≤ 2 ^ k := Nat.pow_le_pow_right (by omega) i7
  refine ⟨_, i1, verify_of blake fuel w k hk hw hf items _ root root' w' d d' e fv (i2 _ rfl) ?_⟩
  rw [last_iff blake fuel root' w' (2 ^ k') (by positivity) i8 (by omega)]
  have hlen : (V.map encB).length = 2 ^ k' := by rw [List.length_map, i9]
  refine ⟨i3, ⟨m', by rw [ints_tree hp2]; exact i10, i11⟩, fun x hx => by rw [← hlen]; exact pts_lt hx, G, g1, ?_⟩
  intro x hx b hb
  have hx' : x < 2 ^ k' := by rw [← hlen]; exact pts_lt hx
  rw [List.getElem?_map, g2 x hx'] at hb
  rw [← Option.some.inj hb, dec_encB hp2]

/-- The four nodes at depth two of a tree are the leaves of a tree with the same root. -/
theorem inner_nodes (hp2 : p ≤ 2 ^ 256) (blake : Bytes → Bytes) (hbl : ∀ x, (blake x).length = 32) (V : List (Zp p)) (k : Nat)
    (hk : 2 ≤ k) (hV : V.length = 2 ^ k) (m : List Bytes) (root : Bytes)
    (hm : Merkle.merkelize blake (V.map fun a => .elt (enc a)) = .ok m) (hroot : m[1]? = some root) :
    ∃ last : List Bytes, last.length = 4 ∧ ∃ m', Merkle.merkelize blake (last.map fun b => .int (fromBytes b)) = .ok m' ∧ m'[1]? = some root := by
  have h4 : 4 ∣ 2 ^ k := by
    obtain ⟨j, rfl⟩ := Nat.exists_eq_add_of_le hk
    exact ⟨2 ^ j, by rw [pow_add]; norm_num⟩
  have h4' : 4 ≤ 2 ^ k := Nat.le_of_dvd (by positivity) h4
  have hl : (V.map fun a => Merkle.Leaf.elt (enc a)).length = 2 ^ k := by rw [List.length_map, hV]
  obtain ⟨m2, s1, s2, s3, s4⟩ := Merkle.merkelize_spec blake (V.map fun a => .elt (enc a)) (V.map encB) (by rw [hl]; exact h4)
    (by intro h; rw [h] at hl; simp at hl; omega)
    (by
      simp only [List.map_map]
      apply List.map_congr_left
      intro a _
      simpa [Merkle.Leaf.encode] using enc_eq hp2 a)
  rw [hm] at s1
  cases s1
  rw [hl] at s2 s3 s4
  -- every node from position two on has 32 bytes
  have h32 : ∀ j b, 1 ≤ j → m[j]? = some b → b.length = 32 := by
    intro j b hj hb
    by_cases hj2 : j < 2 ^ k
    · obtain ⟨x, y, -, -, e⟩ := s4 j hj hj2
      rw [hb, Option.some.injEq] at e
      rw [e, hbl]
    · obtain ⟨hjl, -⟩ := List.getElem?_eq_some_iff.1 hb
      have hsurj : ∃ x, x < 2 ^ k ∧ Merkle.perm (2 ^ k) x = j - 2 ^ k := by
        have hf : Function.Surjective (fun x : Fin (2 ^ k) => (⟨Merkle.perm (2 ^ k) x, Merkle.perm_lt h4 x.2⟩ : Fin (2 ^ k))) := by
          apply Finite.surjective_of_injective
          intro x y hxy
          exact Fin.ext (Merkle.perm_inj h4 x.2 y.2 (by simpa using hxy))
        obtain ⟨x, hx⟩ := hf ⟨j - 2 ^ k, by omega⟩
        exact ⟨x, x.2, by simpa using hx⟩
      obtain ⟨x, hx, e⟩ := hsurj
      have := s3 x hx
      rw [e, show 2 ^ k + (j - 2 ^ k) = j by omega, hb, List.getElem?_map] at this
      obtain ⟨a, -, ha⟩ := Option.map_eq_some_iff.1 this.symm
      rw [← ha, encB_length]
  obtain ⟨n2, n3, a2, a3, a1⟩ := s4 1 (by omega) (by omega)
  obtain ⟨n4, n5, b4, b5, b2⟩ := s4 2 (by omega) (by omega)
  obtain ⟨n6, n7, b6, b7, b3⟩ := s4 3 (by omega) (by omega)
  rw [hroot, Option.some.injEq] at a1
  rw [show 2 * 1 = 2 from rfl] at a2
  rw [show 2 * 1 + 1 = 3 from rfl] at a3
  rw [a2, Option.some.injEq] at b2
  rw [a3, Option.some.injEq] at b3
  refine ⟨[n4, n5, n6, n7], rfl, ?_⟩
  obtain ⟨m', t1, t2, t3, t4⟩ := Merkle.merkelize_spec blake ([n4, n5, n6, n7].map fun b => .int (fromBytes b)) [n4, n5, n6, n7]
    (by simp) (by simp)
    (by
      simp only [List.map_cons, List.map_nil]
      rw [int_leaf n4 (h32 _ _ (by omega) b4), int_leaf n5 (h32 _ _ (by omega) b5), int_leaf n6 (h32 _ _ (by omega) b6),
        int_leaf n7 (h32 _ _ (by omega) b7)])
  refine ⟨m', t1, ?_⟩
  have hlen : ([n4, n5, n6, n7].map fun b => Merkle.Leaf.int (fromBytes b)).length = 4 := rfl
  rw [hlen] at t3 t4
  have l0 : m'[4]? = some n4 := t3 0 (by omega)
  have l1 : m'[5]? = some n5 := t3 1 (by omega)
  have l2 : m'[6]? = some n6 := t3 2 (by omega)
  have l3 : m'[7]? = some n7 := t3 3 (by omega)
  obtain ⟨x1, y1, c1, c2, c3⟩ := t4 1 (by omega) (by omega)
  obtain ⟨x2, y2, d1, d2, d3⟩ := t4 2 (by omega) (by omega)
  obtain ⟨x3, y3, e1, e2, e3⟩ := t4 3 (by omega) (by omega)
  rw [show 2 * 2 = 4 from rfl, l0, Option.some.injEq] at d1
  rw [show 2 * 2 + 1 = 5 from rfl, l1, Option.some.injEq] at d2
  rw [show 2 * 3 = 6 from rfl, l2, Option.some.injEq] at e1
  rw [show 2 * 3 + 1 = 7 from rfl, l3, Option.some.injEq] at e2
  rw [show 2 * 1 = 2 from rfl, d3, Option.some.injEq] at c1
  rw [show 2 * 1 + 1 = 3 from rfl, e3, Option.some.injEq] at c2
  rw [c3, a1, ← c1, ← c2, ← d1, ← d2, ← e1, ← e2, b2, b3]

/-- For every vector of values there is an accepted proof. -/
theorem forge (hp2 : p ≤ 2 ^ 256) (blake : Bytes → Bytes) (hbl : ∀ x, (blake x).length = 32) (w : Zp p) (k : Nat) (hk : 2 ≤ k)
    (hk2 : k < 26) (hw : orderOf w = 2 ^ k) (fuel : Nat) (hf : 2 ^ k ≤ fuel) (V : List (Zp p)) (hV : V.length = 2 ^ k) (d : Nat)
    (hd4 : 4 ≤ d) (hd : d ≤ 2 ^ k) (e : Nat) (he : e = 0 ∨ 2 ≤ e) (fv : Nat) (h40 : 16 < d / 4 → fv ≤ 40) (m : List Bytes)
    (root : Bytes) (hm : Merkle.merkelize blake (V.map fun a => .elt (enc a)) = .ok m) (hroot : m[1]? = some root) :
    ∃ pf, verify fuel blake pf root w d e fv = .ok true := by
  obtain ⟨g, -, gl, gv⟩ := inv_spec w k hw fuel hf V hV
  obtain ⟨items, V', k', w', d', m', root', i1, i2, i3, i4, i5, i6, i7, i8, i9, i10, i11, -⟩ := prove_chain hp2 blake hbl fuel e he fv (d + 1)
    g w d k fv m root (by omega) hk hk2 hw hf gl hd (fun _ => le_rfl) h40 (by rw [gv]; exact hm) hroot
  have hk' : 2 ^ k' ≤ 2 ^ k := Nat.pow_le_pow_right (by omega) i7
  have hk4 : 4 ≤ 2 ^ k' := by
    calc 4 = 2 ^ 2 := rfl
      _ ≤ _ := Nat.pow_le_pow_right (by omega) i6
  obtain ⟨last, l1, l2⟩ := inner_nodes hp2 blake hbl V' k' i6 i9 m' root' i10 i11
  refine ⟨_, verify_of blake fuel w k hk hw hf items last root root' w' d d' e fv (i2 _ rfl) ?_⟩
  rw [last_iff blake fuel root' w' (2 ^ k') (by positivity) i8 (by omega)]
  have hall : ∀ x ∈ pts last.length e, x < 2 ^ k' := fun x hx => by
    have := pts_lt hx
    omega
  refine ⟨i3, l2, hall, ?_⟩
  -- at most four points: some polynomial goes through them
  have hnd : ((pts last.length e).map (w' ^ ·)).Nodup := by
    apply List.Nodup.map_on _ (pts_nodup _ _)
    intro a ha b hb h
    exact pow_inj_of_order i8 a b (hall a ha) (hall b hb) h
  obtain ⟨r, -, -, ⟨r1, r2⟩, -⟩ := Props.C20_lagrange_interp ((pts last.length e).map (w' ^ ·))
    ((pts last.length e).map fun x => (dec (last.getD x []) : Zp p)) hnd (by simp)
  refine ⟨toPoly r, lt_of_lt_of_le r1 ?_, ?_⟩
  · have h4 : (pts last.length e).length ≤ 4 := by
      have h := (pts_nodup last.length e).subperm (l₂ := List.range 4) (fun x hx => List.mem_range.2 (by rw [← l1]; exact pts_lt hx))
      simpa using h.length_le
    rw [List.length_map]
    exact_mod_cast le_trans h4 (by omega)
  · intro x hx b hb
    simp only [List.map_map] at r2
    have := List.map_inj_left.1 r2 x hx
    rw [List.getD_eq_getElem?_getD, hb] at this
    exact this

end Verif.SmoothFri
