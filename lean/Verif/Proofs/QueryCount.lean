import Verif.Spec.QueryCount
import Verif.Spec.Compression
import Verif.Model.SmoothFri
import Verif.Proofs.Merkle
import Mathlib.Algebra.BigOperators.Group.List.Basic
import Mathlib.Tactic.Ring
/-!
# The number of hash values the verifiers depend on
-/

namespace Verif.QueryCount
open Verif.Spec Verif.PolyUtils Verif.Compression

variable {α β : Type _} {blake : Bytes → Bytes}

theorem _root_.Verif.Spec.Determined.const (a : α) (n : Nat) : Determined (fun _ => a) blake n := ⟨[], by simp, fun _ _ => rfl⟩

theorem _root_.Verif.Spec.Determined.mono {f : (Bytes → Bytes) → α} {n m : Nat} (h : Determined f blake n) (hm : n ≤ m) : Determined f blake m := by
  obtain ⟨Q, h1, h2⟩ := h
  exact ⟨Q, h1.trans hm, h2⟩

theorem _root_.Verif.Spec.Determined.map {f : (Bytes → Bytes) → α} {n : Nat} (h : Determined f blake n) (g : α → β) : Determined (fun b => g (f b)) blake n := by
  obtain ⟨Q, h1, h2⟩ := h
  exact ⟨Q, h1, fun b hb => congrArg g (h2 b hb)⟩

theorem _root_.Verif.Spec.Determined.call (x : Bytes) : Determined (fun b => b x) blake 1 := ⟨[x], by simp, fun b hb => hb x (by simp)⟩

theorem _root_.Verif.Spec.Determined.seq {f : (Bytes → Bytes) → α} {g : (Bytes → Bytes) → α → β} {n m : Nat} (hf : Determined f blake n)
    (hg : Determined (fun b => g b (f blake)) blake m) : Determined (fun b => g b (f b)) blake (n + m) := by
  obtain ⟨Q, h1, h2⟩ := hf
  obtain ⟨R, h3, h4⟩ := hg
  refine ⟨Q ++ R, by simp; omega, fun b hb => ?_⟩
  have e1 := h2 b fun x hx => hb x (List.mem_append_left _ hx)
  have e2 := h4 b fun x hx => hb x (List.mem_append_right _ hx)
  simp only at e2 ⊢
  rw [e1, e2]

theorem _root_.Verif.Spec.Determined.bind {f : (Bytes → Bytes) → Py α} {g : (Bytes → Bytes) → α → Py β} {n m : Nat} (hf : Determined f blake n)
    (hg : ∀ a, f blake = .ok a → Determined (fun b => g b a) blake m) : Determined (fun b => f b >>= g b) blake (n + m) := by
  refine Determined.seq (g := fun b x => x >>= g b) hf ?_
  cases h : f blake with
  | error e => exact Determined.const _ _
  | ok a => exact hg a h

theorem _root_.Verif.Spec.Determined.pyMap {f : (Bytes → Bytes) → α → Py β} (n : α → Nat) (l : List α)
    (h : ∀ a ∈ l, Determined (fun b => f b a) blake (n a)) : Determined (fun b => PolyUtils.pyMap (f b) l) blake (l.map n).sum := by
  induction l with
  | nil => exact Determined.const _ _
  | cons a l ih =>
    rw [List.map_cons, List.sum_cons]
    refine Determined.bind (h a (by simp)) fun x _ => ?_
    exact Determined.bind (n := (l.map n).sum) (m := 0) (ih fun a ha => h a (List.mem_cons_of_mem _ ha)) fun y _ => Determined.const _ _

theorem verifyLoop_determined : ∀ (ps : List Bytes) (i : Nat) (v : Bytes), Determined (fun b => Merkle.verifyLoop b ps i v) blake ps.length
  | [], _, _ => Determined.const _ _
  | p :: ps, i, v => by
    have : Determined (fun b : Bytes → Bytes => if i % 2 = 1 then b (p ++ v) else b (v ++ p)) blake 1 := by
      split
      · exact Determined.call _
      · exact Determined.call _
    have := Determined.seq (g := fun b x => Merkle.verifyLoop b ps (i / 2) x) this (verifyLoop_determined ps (i / 2) _)
    exact this.mono (by simp; omega)

theorem verifyBranch_determined (root : Bytes) (i : Nat) (proof : List Bytes) :
    Determined (fun b => Merkle.verifyBranch b root i proof) blake (proof.length - 1) := by
  simp only [Merkle.verifyBranch]
  refine (Determined.bind (n := 0) (m := proof.length - 1) (Determined.const _ _) fun a _ => ?_).mono (by omega)
  cases proof with
  | nil => exact Determined.const _ _
  | cons v ps => exact (verifyLoop_determined ps _ v).map fun x => (do pyAssert (x == root); .ok v : Py Bytes)

theorem verifyBranchInt_determined (root : Bytes) (i : Nat) (proof : List Bytes) :
    Determined (fun b => Merkle.verifyBranchInt b root i proof) blake (proof.length - 1) :=
  (verifyBranch_determined root i proof).map fun x => (do let v ← x; .ok (fromBytes v) : Py Nat)

theorem merkleLoop_determined : ∀ (i : Nat) (nodes : List Bytes), Determined (fun b => Merkle.merkleLoop b i nodes) blake i
  | 0, _ => Determined.const _ _
  | i + 1, nodes => by
    simp only [Merkle.merkleLoop]
    refine (Determined.bind (n := 0) (m := i + 1) (Determined.const _ _) fun x _ => ?_).mono (by omega)
    refine (Determined.bind (n := 0) (m := i + 1) (Determined.const _ _) fun y _ => ?_).mono (by omega)
    exact (Determined.seq (g := fun b z => Merkle.merkleLoop b i (nodes.set (i + 1) z)) (Determined.call (x ++ y))
      (merkleLoop_determined i _)).mono (by omega)

theorem permute4_length {γ : Type _} {l P : List γ} (h : Merkle.permute4 l = .ok P) : P.length ≤ l.length := by
  obtain ⟨P', h1, h2, _⟩ := Merkle.permute4_spec l
  rw [h1] at h
  cases h
  omega

theorem merkelize_determined (L : List Merkle.Leaf) : Determined (fun b => Merkle.merkelize b L) blake (L.length - 1) := by
  simp only [Merkle.merkelize]
  refine (Determined.bind (n := 0) (m := L.length - 1) (Determined.const _ _) fun P hP => ?_).mono (by omega)
  refine (Determined.bind (n := 0) (m := L.length - 1) (Determined.const _ _) fun nodes _ => ?_).mono (by omega)
  have := permute4_length hP
  exact (merkleLoop_determined (P.length - 1) nodes).mono (by omega)

theorem extendData_determined (hbl : ∀ x, (blake x).length = 32) (need : Int) : ∀ (fuel : Nat) (data : Bytes) (n : Nat),
    need ≤ data.length + 32 * n → Determined (fun b => Utils.extendData b need fuel data) blake n
  | 0, _, _, _ => Determined.const _ _
  | fuel + 1, data, n, h => by
    simp only [Utils.extendData]
    by_cases hl : (data.length : Int) < need
    · simp only [hl, if_true]
      cases n with
      | zero => omega
      | succ n =>
        refine (Determined.seq (g := fun b x => Utils.extendData b need fuel (data ++ x)) (Determined.call _)
          (extendData_determined hbl need fuel _ n ?_)).mono (by omega)
        simp only [List.length_append, hbl]
        push_cast at h ⊢
        omega
    · simp only [hl, if_false]
      exact Determined.const _ _

theorem indices_determined (hbl : ∀ x, (blake x).length = 32) (entropy : Bytes) (modulus e : Int) (count : Nat) :
    Determined (fun b => Utils.getPseudorandomIndices b entropy modulus count e) blake ((count + 7) / 8) := by
  simp only [Utils.getPseudorandomIndices]
  refine (Determined.bind (n := 0) (m := (count + 7) / 8) (Determined.const _ _) fun _ _ => ?_).mono (by omega)
  refine (Determined.bind (n := (count + 7) / 8) (m := 0) (extendData_determined hbl _ _ _ _ (by push_cast; omega)) fun _ _ => ?_).mono (by omega)
  exact Determined.const _ _

/-! ## The proximity test -/

variable {p : Nat} [Fact p.Prime]

theorem zip_sum (g : List Bytes → Nat) : ∀ (l : List Nat) (bs : List (List Bytes)), ((l.zip bs).map fun jb => g jb.2).sum ≤ (bs.map g).sum
  | [], _ => by simp
  | _ :: _, [] => by simp
  | _ :: l, b :: bs => by
    simp only [List.zip_cons_cons, List.map_cons, List.sum_cons]
    have := zip_sum g l bs
    omega

theorem query_determined (root root2 : Bytes) (w : Zp p) (qr : List (Zp p)) (rq : Nat) (branches : List (List (List Bytes))) (i y : Nat) :
    Determined (fun b => SmoothFri.query b root root2 w qr rq branches i y) blake ((branches[i]?).elim 0 fun br => (br.map List.length).sum) := by
  simp only [SmoothFri.query]
  cases hb : branches[i]? with
  | none => simp only [pyIdx, hb]; exact Determined.const _ _
  | some br =>
    have e : pyIdx branches i = .ok br := by simp [pyIdx, hb]
    simp only [e, Option.elim_some]
    have hrow : Determined (fun b => PolyUtils.pyMap (fun jb : Nat × List Bytes => Merkle.verifyBranchInt b root (y + rq * jb.1) jb.2)
        ((List.range 4).zip br.tail)) blake (br.tail.map List.length).sum :=
      (Determined.pyMap (fun jb : Nat × List Bytes => jb.2.length) _ fun jb _ => (verifyBranchInt_determined _ _ _).mono (by omega)).mono
        (zip_sum List.length _ _)
    cases br with
    | nil =>
      refine Determined.bind (n := 0) (m := 0) (Determined.const _ _) fun br' hbr => ?_
      cases hbr
      refine Determined.bind (n := 0) (m := 0) hrow fun _ _ => ?_
      exact Determined.const _ _
    | cons b0 bs =>
      have e2 : ((b0 :: bs).map List.length).sum = 0 + ((bs.map List.length).sum + (0 + b0.length)) := by simp; omega
      rw [e2]
      refine Determined.bind (Determined.const _ _) fun br' hbr => ?_
      cases hbr
      refine Determined.bind hrow fun _ _ => ?_
      refine Determined.bind (Determined.const _ _) fun b hb => ?_
      cases hb
      exact (Determined.bind (n := b0.length) (m := 0) ((verifyBranchInt_determined _ _ _).mono (by omega)) fun _ _ => Determined.const _ _)

theorem zipIdx_sum {γ δ : Type _} (g : γ → Nat) (B : List γ) : ∀ (l : List δ) (k : Nat),
    ((l.zipIdx k).map fun yi => (B[yi.2]?).elim 0 g).sum ≤ ((B.drop k).map g).sum
  | [], _ => by simp
  | a :: l, k => by
    have ih := zipIdx_sum g B l (k + 1)
    simp only [List.zipIdx_cons, List.map_cons, List.sum_cons]
    by_cases hk : k < B.length
    · rw [List.drop_eq_getElem_cons hk, List.map_cons, List.sum_cons, List.getElem?_eq_getElem hk]
      simp only [Option.elim_some]
      omega
    · have e1 : B[k]? = none := List.getElem?_eq_none (by omega)
      have e2 : B.drop (k + 1) = [] := List.drop_eq_nil_of_le (by omega)
      rw [e2] at ih
      simp only [e1, Option.elim_none]
      simp only [List.map_nil, List.sum_nil] at ih
      omega

theorem flatten_length (br : List (List Bytes)) : br.flatten.length = (br.map List.length).sum := by simp [List.length_flatten]

theorem layer_determined (hbl : ∀ x, (blake x).length = 32) (qr : List (Zp p)) (root : Bytes) (w : Zp p) (r e F : Nat)
    (it : Item) :
    Determined (fun b => SmoothFri.verifyLayer b qr root w r e F it) blake ((F + 7) / 8 + it.2.flatten.flatten.length) := by
  simp only [SmoothFri.verifyLayer]
  refine Determined.bind (indices_determined hbl _ _ _ F) fun ys _ => ?_
  have hq : Determined (fun b => PolyUtils.pyMap (fun yi : Int × Nat => SmoothFri.query b root it.1 w qr (r / 4) it.2 yi.2 yi.1.toNat) ys.zipIdx)
      blake it.2.flatten.flatten.length := by
    refine (Determined.pyMap (fun yi : Int × Nat => (it.2[yi.2]?).elim 0 fun br => (br.map List.length).sum) _
      fun yi _ => query_determined _ _ _ _ _ _ _ _).mono ?_
    refine (zipIdx_sum _ it.2 ys 0).trans (le_of_eq ?_)
    rw [List.drop_zero, List.length_flatten, List.map_flatten, List.sum_flatten, List.map_map]
    rfl
  exact Determined.bind (m := 0) hq fun _ _ => Determined.const _ _

theorem layers_determined (hbl : ∀ x, (blake x).length = 32) (qr : List (Zp p)) (e F : Nat) : ∀ (its : List Item)
    (root : Bytes) (w : Zp p) (d r : Nat), Determined (fun b => SmoothFri.verifyLayers b qr e F its root w d r) blake
      ((its.map fun it => (F + 7) / 8 + it.2.flatten.flatten.length).sum)
  | [], _, _, _, _ => Determined.const _ _
  | it :: its, root, w, d, r => by
    simp only [SmoothFri.verifyLayers, List.map_cons, List.sum_cons]
    exact Determined.bind (layer_determined hbl qr root w r e F it) fun _ _ => layers_determined hbl qr e F its _ _ _ _

theorem last_determined (fuel : Nat) (root : Bytes) (w : Zp p) (d e : Nat) (last : List Bytes) :
    Determined (fun b => SmoothFri.verifyLast fuel b root w d e last) blake last.length := by
  simp only [SmoothFri.verifyLast]
  refine (Determined.bind (n := 0) (m := last.length) (Determined.const _ _) fun _ _ => ?_).mono (by omega)
  refine (Determined.bind (n := last.length) (m := 0) ((merkelize_determined _).mono (by simp)) fun _ _ => ?_).mono (by omega)
  exact Determined.const _ _

theorem objects_length (prf : FriProof) :
    (friObjects prf).length = (prf.1.map fun it => 1 + it.2.flatten.flatten.length).sum + prf.2.length := by
  simp only [friObjects, List.length_append, List.length_flatMap, List.length_cons]
  congr 2
  refine List.map_congr_left fun it _ => ?_
  exact Nat.add_comm _ _

theorem sum_add_const (c : Nat) (g : Item → Nat) : ∀ its : List Item, (its.map fun it => c + g it).sum = its.length * c + (its.map g).sum
  | [] => by simp
  | it :: its => by
    simp only [List.map_cons, List.sum_cons, List.length_cons, sum_add_const c g its]
    ring

theorem fri_determined (hbl : ∀ x, (blake x).length = 32) (fuel : Nat) (prf : FriProof) (root : Bytes) (w : Zp p) (d e F : Nat) :
    Determined (fun b => SmoothFri.verify fuel b prf root w d e F) blake (prf.1.length * ((F + 7) / 8) + (friObjects prf).length) := by
  simp only [SmoothFri.verify]
  rw [objects_length]
  have e1 := sum_add_const ((F + 7) / 8) (fun it => it.2.flatten.flatten.length) prf.1
  have e2 := sum_add_const 1 (fun it => it.2.flatten.flatten.length) prf.1
  refine (Determined.bind (n := 0) (m := (prf.1.map fun it => (F + 7) / 8 + it.2.flatten.flatten.length).sum + prf.2.length)
    (Determined.const _ _) fun r _ => ?_).mono (by omega)
  refine Determined.bind (layers_determined hbl _ e F prf.1 root w d r) fun x _ => ?_
  exact Determined.bind (m := 0) (last_determined fuel _ _ _ e prf.2) fun _ _ => Determined.const _ _

/-! ## The whole verifier -/

variable {φ : Type _}

theorem verifyAt_determined (S : Stark.Params (Zp p)) (witness : List (List (Zp p))) (boundary : List (Nat × Nat × Zp p))
    (pr : Stark.Proof φ) (i pos : Nat) : Determined (fun b => Stark.verifyAt b S witness boundary pr i pos) blake
      ((pr.branches[3 * i]?).elim 0 List.length + ((pr.branches[3 * i + 1]?).elim 0 List.length + (pr.branches[3 * i + 2]?).elim 0 List.length)) := by
  have hb : ∀ {γ : Type _} (root : Bytes) (pos j : Nat) (f : (Bytes → Bytes) → List Bytes → Py γ) (g : (Bytes → Bytes) → γ → Py Unit) (m : Nat),
      (∀ br, Determined (fun b => f b br) blake br.length) → (∀ x, Determined (fun b => g b x) blake m) →
      Determined (fun b => do let br ← pyIdx pr.branches j; let l ← f b br; g b l) blake ((pr.branches[j]?).elim 0 List.length + m) := by
    intro γ root pos j f g m hf hg
    cases h : pr.branches[j]? with
    | none => simp only [pyIdx, h]; exact Determined.const _ _
    | some br =>
      have e : pyIdx pr.branches j = .ok br := by simp [pyIdx, h]
      simp only [e]
      refine (Determined.bind (n := 0) (m := br.length + m) (Determined.const _ _) fun br' hbr => ?_).mono (by simp)
      cases hbr
      exact Determined.bind (hf br) fun x _ => hg x
  have e : ∀ k, i * 3 + k = 3 * i + k := fun k => by omega
  simp only [Stark.verifyAt, mul_comm i 3]
  refine hb pr.mRoot pos _ _ (fun b leaf1 => _) _ (fun br => (verifyBranch_determined _ _ _).mono (by omega)) fun leaf1 => ?_
  refine hb pr.mRoot pos _ _ (fun b leaf2 => _) _ (fun br => (verifyBranch_determined _ _ _).mono (by omega)) fun leaf2 => ?_
  refine (hb pr.lRoot pos _ _ (fun b l => _) 0 (fun br => (verifyBranchInt_determined _ _ _).mono (by omega)) fun l => ?_)
  exact Determined.const _ _

theorem zipIdx_sum3 {γ δ : Type _} (g : γ → Nat) (B : List γ) : ∀ (l : List δ) (k : Nat),
    ((l.zipIdx k).map fun yi => (B[3 * yi.2]?).elim 0 g + ((B[3 * yi.2 + 1]?).elim 0 g + (B[3 * yi.2 + 2]?).elim 0 g)).sum ≤
      ((B.drop (3 * k)).map g).sum
  | [], _ => by simp
  | a :: l, k => by
    have ih := zipIdx_sum3 g B l (k + 1)
    simp only [List.zipIdx_cons, List.map_cons, List.sum_cons]
    have step : ∀ j, ((B.drop j).map g).sum = (B[j]?).elim 0 g + ((B.drop (j + 1)).map g).sum := by
      intro j
      by_cases hj : j < B.length
      · rw [List.drop_eq_getElem_cons hj, List.map_cons, List.sum_cons, List.getElem?_eq_getElem hj]
        rfl
      · have e1 : B[j]? = none := List.getElem?_eq_none (by omega)
        have e2 : B.drop (j + 1) = [] := List.drop_eq_nil_of_le (by omega)
        have e3 : B.drop j = [] := List.drop_eq_nil_of_le (by omega)
        simp [e1, e2, e3]
    have e := step (3 * k)
    have e1 := step (3 * k + 1)
    have e2 := step (3 * k + 1 + 1)
    have : 3 * (k + 1) = 3 * k + 1 + 1 + 1 := by omega
    rw [this] at ih
    rw [e, e1, e2]
    have : 3 * k + 2 = 3 * k + 1 + 1 := by omega
    rw [this]
    omega

theorem stark_determined (hbl : ∀ x, (blake x).length = 32) (friVerify : (Bytes → Bytes) → φ → Bytes → Zp p → Nat → Nat → Py Bool)
    (S : Stark.Params (Zp p)) (witness : List (List (Zp p))) (boundary : List (Nat × Nat × Zp p)) (pr : Stark.Proof φ) (n : Nat)
    (hn : ∀ d, Determined (fun b => friVerify b pr.fri pr.lRoot S.G2 d S.ext) blake n) :
    Determined (fun b => Stark.verifyProof b (friVerify b) S witness boundary pr) blake
      (n + ((S.factor + 7) / 8 + (pr.branches.map List.length).sum)) := by
  simp only [Stark.verifyProof]
  refine (Determined.bind (n := 0) (Determined.const _ _) fun deg _ => ?_).mono (le_of_eq (Nat.zero_add _))
  refine Determined.bind (hn _) fun ok _ => ?_
  refine (Determined.bind (n := 0) (Determined.const _ _) fun _ _ => ?_).mono (le_of_eq (Nat.zero_add _))
  refine Determined.bind (indices_determined hbl _ _ _ S.factor) fun ps _ => ?_
  refine Determined.bind (m := 0) ?_ fun _ _ => Determined.const _ _
  refine (Determined.pyMap (fun ip : Int × Nat => (pr.branches[3 * ip.2]?).elim 0 List.length + ((pr.branches[3 * ip.2 + 1]?).elim 0 List.length +
    (pr.branches[3 * ip.2 + 2]?).elim 0 List.length)) _ fun ip _ => verifyAt_determined S witness boundary pr _ _).mono ?_
  exact zipIdx_sum3 List.length pr.branches ps 0

end Verif.QueryCount
