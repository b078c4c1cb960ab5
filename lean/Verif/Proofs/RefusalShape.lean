import Verif.Proofs.Refusal
import Verif.Proofs.StarkProtocol
import Verif.Proofs.ProverCount
import Verif.Proofs.GeneratedProofs
import Verif.Props.Merkle
import Verif.Spec.Refusal
/-!
# Proofs of the right shape
-/

namespace Verif.Refusals
open Verif.Poly Verif.PolyUtils Verif.Stark Verif.SmoothFri Verif.Compression Verif.Spec FFT

/-- Whatever `x` raises is an `AssertionError`. -/
def Firm {α : Type _} (x : Py α) : Prop := ∀ e, x = .error e → e = .assertion

section basic
variable {α β : Type _}

theorem firm_ok (a : α) : Firm (.ok a : Py α) := fun e h => by cases h

theorem firm_of {x : Py α} (h : ∃ a, x = .ok a) : Firm x := by
  obtain ⟨a, rfl⟩ := h
  exact firm_ok a

theorem firm_bind {x : Py α} {f : α → Py β} (hx : Firm x) (hf : ∀ a, x = .ok a → Firm (f a)) : Firm (x >>= f) := by
  intro e h
  cases hxx : x with
  | error e' =>
    rw [hxx] at h
    cases h
    exact hx _ hxx
  | ok a =>
    rw [hxx] at h
    exact hf a hxx e h

theorem firm_idx {l : List α} {i : Nat} (h : i < l.length) : Firm (pyIdx l i) := by
  rw [Merkle.pyIdx_ok h]
  exact firm_ok _

theorem firm_assert (c : Bool) : Firm (pyAssert c) := by
  intro e h
  rw [pyAssert] at h
  split at h
  · cases h
  · cases h; rfl

theorem firm_map {f : α → Py β} : ∀ l : List α, (∀ a ∈ l, Firm (f a)) → Firm (pyMap f l)
  | [], _ => firm_ok _
  | a :: l, h => by
    rw [pyMap]
    exact firm_bind (h a (by simp)) fun b _ => firm_bind (firm_map l fun a ha => h a (by simp [ha])) fun _ _ => firm_ok _

end basic

theorem firm_branch (H : Bytes → Bytes) (root : Bytes) (i : Nat) (pr : List Bytes) (h : 3 ≤ pr.length) : Firm (Merkle.verifyBranch H root i pr) := by
  rw [Merkle.verifyBranch]
  have h8 : 4 ≤ 2 ^ pr.length / 2 := by
    obtain ⟨n, hn⟩ := Nat.exists_eq_add_of_le h
    have : 1 ≤ 2 ^ n := Nat.one_le_two_pow
    have e : 2 ^ pr.length = 8 * 2 ^ n := by rw [hn, pow_add]; norm_num
    omega
  rw [Merkle.getIndex_ok h8]
  cases pr with
  | nil => simp at h
  | cons v ps => exact firm_bind (firm_ok _) fun _ _ => firm_bind (firm_assert _) fun _ _ => firm_ok _

theorem firm_branchInt (H : Bytes → Bytes) (root : Bytes) (i : Nat) (pr : List Bytes) (h : 3 ≤ pr.length) : Firm (Merkle.verifyBranchInt H root i pr) :=
  firm_bind (firm_branch H root i pr h) fun _ _ => firm_ok _

variable {p : Nat} [hp : Fact p.Prime]

theorem firm_query (blake : Bytes → Bytes) (root root2 : Bytes) (w : Zp p) (qr : List (Zp p)) (rq : Nat) (brs : List (List (List Bytes))) (i y : Nat)
    (hi : i < brs.length) (hb : ∀ br ∈ brs, 5 ≤ br.length ∧ ∀ s ∈ br, 3 ≤ s.length) : Firm (query blake root root2 w qr rq brs i y) := by
  have hbr := hb _ (List.getElem_mem hi)
  rw [query, Merkle.pyIdx_ok hi]
  refine firm_bind (firm_ok _) fun br hbr' => ?_
  cases hbr'
  refine firm_bind (firm_map _ fun jb hjb => firm_branchInt _ _ _ _ (hbr.2 _ (List.mem_of_mem_tail (List.of_mem_zip hjb).2))) fun _ _ =>
    firm_bind (firm_idx (by omega)) fun b0 hb0 => firm_bind (firm_branchInt _ _ _ _ ?_) fun _ _ => firm_ok _
  rw [Merkle.pyIdx_ok (by omega)] at hb0
  cases hb0
  exact hbr.2 _ (List.getElem_mem _)

theorem query_out {blake : Bytes → Bytes} {root root2 : Bytes} {w : Zp p} {qr : List (Zp p)} {rq : Nat} {brs : List (List (List Bytes))} {i y : Nat}
    {o : List (Zp p) × List (Zp p) × Zp p} (h : query blake root root2 w qr rq brs i y = .ok o)
    (hb : ∀ br ∈ brs, 5 ≤ br.length) : o.1 = qr.map (fun u => u * w ^ y) ∧ o.2.1.length = 4 := by
  rw [query] at h
  obtain ⟨br, h1, h⟩ := bind_inv h
  obtain ⟨row, h2, h⟩ := bind_inv h
  obtain ⟨_, _, h⟩ := bind_inv h
  obtain ⟨_, _, h⟩ := bind_inv h
  cases h
  have hm : br ∈ brs := by
    rw [pyIdx] at h1
    split at h1
    · rename_i hx
      cases h1
      exact List.mem_of_getElem? hx
    · cases h1
  have := hb br hm
  have hl := (Air.pyMap_iff _ _ _).1 h2
  refine ⟨rfl, ?_⟩
  have : row.length = ((List.range 4).zip br.tail).length := by
    exact hl.1
  simp only [List.length_map, this, List.length_zip, List.length_range, List.length_tail]
  omega

theorem pow_lt_24 {k : Nat} (h : k < 24) : 2 ^ k < 2 ^ 24 := Nat.pow_lt_pow_right (by norm_num) h

theorem firm_layer (blake : Bytes → Bytes) (hbl : ∀ x, (blake x).length = 32) (qr : List (Zp p)) (hq4 : qr.length = 4) (hqr : qr.Nodup) (root : Bytes)
    (w : Zp p) (hw : w ≠ 0) (q : Nat) (hq : 2 ≤ q) (hq2 : q < 2 ^ 24) (e f : Nat) (he : e = 0 ∨ 2 ≤ e) (it : Item) (hF : f ≤ it.2.length)
    (hb : ∀ br ∈ it.2, 5 ≤ br.length ∧ ∀ s ∈ br, 3 ≤ s.length) : Firm (verifyLayer blake qr root w (4 * q) e f it) := by
  rw [verifyLayer, show 4 * q / 4 = q by omega]
  obtain ⟨ys, h1, h2, h3⟩ := indices_ok blake hbl it.1 q e f hq hq2 he
  rw [h1]
  refine firm_bind (firm_ok _) fun ys' hys => ?_
  cases hys
  refine firm_bind (firm_map _ fun yi hyi => firm_query _ _ _ _ _ _ _ _ _ ?_ hb) fun qs hqs => ?_
  · obtain ⟨-, h4, -⟩ := List.mem_zipIdx hyi
    omega
  · have hout := fun b hb' => ProverCount.pyMap_from hqs b hb'
    have hx : ∀ s ∈ qs.map (·.1), s.length = 4 ∧ s.Nodup := by
      intro s hs
      obtain ⟨o, ho, rfl⟩ := List.mem_map.1 hs
      obtain ⟨yi, -, hyi⟩ := hout o ho
      rw [(query_out hyi fun br hbr => (hb br hbr).1).1]
      refine ⟨by simp [hq4], hqr.map fun a b hab => ?_⟩
      exact mul_right_cancel₀ (pow_ne_zero _ hw) hab
    have hy : ∀ s ∈ qs.map (·.2.1), s.length = 4 := by
      intro s hs
      obtain ⟨o, ho, rfl⟩ := List.mem_map.1 hs
      obtain ⟨yi, -, hyi⟩ := hout o ho
      exact (query_out hyi fun br hbr => (hb br hbr).1).2
    obtain ⟨rs, hrs, -⟩ := multi4 (qs.map (·.1)) (qs.map (·.2.1)) (by simp) hx hy
    exact firm_bind (firm_of ⟨rs, hrs⟩) fun _ _ => firm_bind (firm_map _ fun _ _ => firm_assert _) fun _ _ => firm_ok _

theorem firm_layers (blake : Bytes → Bytes) (hbl : ∀ x, (blake x).length = 32) (qr : List (Zp p)) (hq4 : qr.length = 4) (hqr : qr.Nodup)
    (e f : Nat) (he : e = 0 ∨ 2 ≤ e) (l : List Item) : ∀ (root : Bytes) (w : Zp p), w ≠ 0 → ∀ (d k : Nat), 2 * l.length + 2 ≤ k → k < 26 →
    (∀ it ∈ l, f ≤ it.2.length) → (∀ it ∈ l, ∀ br ∈ it.2, 5 ≤ br.length ∧ ∀ s ∈ br, 3 ≤ s.length) →
    Firm (verifyLayers blake qr e f l root w d (2 ^ k)) := by
  induction l with
  | nil => intro root w hw d k _ _ _ _; exact firm_ok _
  | cons it l ih =>
    intro root w hw d k hk hk2 hF hb
    obtain ⟨j, rfl⟩ : ∃ j, k = j + 2 := ⟨k - 2, by omega⟩
    simp only [List.length_cons] at hk
    have h4 : 2 ^ (j + 2) = 4 * 2 ^ j := by rw [pow_add]; ring
    have hj : 2 ≤ 2 ^ j := by
      calc 2 = 2 ^ 1 := rfl
        _ ≤ 2 ^ j := Nat.pow_le_pow_right (by omega) (by omega)
    rw [verifyLayers, h4, show 4 * 2 ^ j / 4 = 2 ^ j by omega]
    exact firm_bind (firm_layer blake hbl qr hq4 hqr root w hw _ hj (pow_lt_24 (by omega)) e f he it (hF it (by simp)) (hb it (by simp)))
      fun _ _ => ih _ _ (pow_ne_zero _ hw) _ j (by omega) (by omega) (fun it h => hF it (by simp [h])) fun it h => hb it (by simp [h])

theorem layers_root (blake : Bytes → Bytes) (qr : List (Zp p)) (e f : Nat) (l : List Item) : ∀ (root : Bytes) (w : Zp p) (d r : Nat) (o : Bytes × Zp p × Nat),
    verifyLayers blake qr e f l root w d r = .ok o → o.2.1 = w ^ (4 ^ l.length) := by
  induction l with
  | nil =>
    intro root w d r o h
    cases h
    exact (pow_one w).symm
  | cons it l ih =>
    intro root w d r o h
    rw [verifyLayers] at h
    obtain ⟨_, _, h⟩ := bind_inv h
    rw [ih _ _ _ _ o h, ← pow_mul, List.length_cons, pow_succ']

theorem fromBytes_lt_32 (b : Bytes) (h : b.length ≤ 32) : ((fromBytes b : Nat) : Int) < 256 ^ 32 := by
  have h1 := fromBytes_lt b
  have h2 : 256 ^ b.length ≤ 256 ^ 32 := Nat.pow_le_pow_right (by norm_num) h
  exact_mod_cast lt_of_lt_of_le h1 h2

theorem firm_last (fuel : Nat) (blake : Bytes → Bytes) (root : Bytes) (w : Zp p) (d e k : Nat) (hk : 2 ≤ k) (last : List Bytes) (ho : orderOf w = 2 ^ k)
    (hf : 2 ^ k ≤ fuel) (hl : last.length = 2 ^ k) (hb : ∀ b ∈ last, b.length ≤ 32) : Firm (verifyLast fuel blake root w d e last) := by
  have h0 : 0 < 2 ^ k := by positivity
  obtain ⟨j, hj⟩ : ∃ j, k = j + 2 := ⟨k - 2, by omega⟩
  have h4 : 2 ^ k = 4 * 2 ^ j := by rw [hj, pow_add]; ring
  have hpc : Utils.getPowerCycle fuel w = .ok ((List.range (2 ^ k)).map (w ^ ·)) := by
    have := Utils.getPowerCycle_ok w (by omega) fuel (by omega)
    rwa [ho] at this
  have hQ : ∀ x ∈ pts (last.map fromBytes).length e, x < 2 ^ k := fun x hx => by
    have := pts_lt hx
    rw [List.length_map] at this
    omega
  rw [verifyLast, hpc]
  have hm : ∃ m, Merkle.merkelize blake ((last.map fromBytes).map fun n : Nat => .int (n : Int)) = .ok m ∧ m.length = 2 * 2 ^ k := by
    have henc : ∃ bs : List Bytes, (((last.map fromBytes).map fun n : Nat => Merkle.Leaf.int (n : Int)).map Merkle.Leaf.encode) = bs.map .ok := by
      have : ∀ x ∈ (last.map fromBytes).map (fun n : Nat => Merkle.Leaf.int (n : Int)), ∃ b, x.encode = .ok b := by
        intro x hx
        simp only [List.map_map, List.mem_map, Function.comp] at hx
        obtain ⟨b, hb', rfl⟩ := hx
        obtain ⟨b', h, -⟩ := (Props.C29_leaf_encoding (fromBytes b : Nat) [] (.ok [])).1 (by positivity)
          (by have := fromBytes_lt_32 b (hb b hb'); norm_num at this ⊢; exact this)
        exact ⟨b', h⟩
      revert this
      generalize (last.map fromBytes).map (fun n : Nat => Merkle.Leaf.int (n : Int)) = l
      induction l with
      | nil => intro _; exact ⟨[], rfl⟩
      | cons a l ih =>
        intro h
        obtain ⟨b, hb⟩ := h a (by simp)
        obtain ⟨bs, hbs⟩ := ih fun x hx => h x (by simp [hx])
        exact ⟨b :: bs, by simp [hb, hbs]⟩
    obtain ⟨bs, hbs⟩ := henc
    obtain ⟨m, h1, h2, -⟩ := Props.C29_merkelize_structure blake _ bs (by simp [hl, h4]) (by
      intro h
      have := congrArg List.length h
      simp [hl] at this) hbs
    exact ⟨m, h1, by simpa [hl] using h2⟩
  obtain ⟨m, hm1, hm2⟩ := hm
  refine firm_bind (firm_assert _) fun _ _ => firm_bind (firm_of ⟨m, hm1⟩) fun m' hm' => ?_
  rw [hm1] at hm'
  cases hm'
  refine firm_bind (firm_idx (by omega)) fun _ _ =>
    firm_bind (firm_assert _) fun _ _ => firm_bind (firm_ok _) fun pw hpw => ?_
  cases hpw
  have hpow : ∀ x < 2 ^ k, pyIdx ((List.range (2 ^ k)).map (w ^ ·)) x = .ok (w ^ x) := by
    intro x hx
    simp [pyIdx, hx]
  have hxs := pyMap_ok (fun x => pyIdx ((List.range (2 ^ k)).map (w ^ ·)) x) (w ^ ·) ((pts (last.map fromBytes).length e).take d)
    fun x hx => hpow x (hQ x (List.mem_of_mem_take hx))
  rw [hxs]
  refine firm_bind (firm_ok _) fun xs hxs' => ?_
  cases hxs'
  refine firm_bind (firm_map _ fun x hx => firm_idx (by have := hQ x (List.mem_of_mem_take hx); simpa [hl] using this)) fun ys hys => ?_
  have hyl : ys.length = ((pts (last.map fromBytes).length e).take d).length := ((Air.pyMap_iff _ _ _).1 hys).1
  have hnd : (((pts (last.map fromBytes).length e).take d).map (w ^ ·)).Nodup := by
    apply List.Nodup.map_on _ ((pts_nodup _ _).sublist (List.take_sublist _ _))
    intro a ha b hb h
    exact pow_inj_of_order ho a b (hQ a (List.mem_of_mem_take ha)) (hQ b (List.mem_of_mem_take hb)) h
  obtain ⟨r, hr, -⟩ := Props.C20_lagrange_interp (((pts (last.map fromBytes).length e).take d).map (w ^ ·))
    (ys.map fun n : Nat => (Zp.ofInt (n : Int) : Zp p)) hnd (by simp [hyl])
  refine firm_bind (firm_of ⟨r, hr⟩) fun _ _ => firm_bind (firm_map _ fun x hx => ?_) fun _ _ => firm_ok _
  have hx' := hQ x (List.mem_of_mem_drop hx)
  exact firm_bind (firm_idx (by simpa using hx')) fun _ _ => firm_bind (firm_idx (by simpa [hl] using hx')) fun _ _ => firm_assert _

theorem firm_verify (fuel : Nat) (blake : Bytes → Bytes) (hbl : ∀ x, (blake x).length = 32) (prf : FriProof) (root : Bytes) (w : Zp p) (k : Nat) (hk2 : k < 26)
    (hw : orderOf w = 2 ^ k) (hf : 2 ^ k ≤ fuel) (d e f : Nat) (he : e = 0 ∨ 2 ≤ e) (hs : FriShape k f prf) : Firm (verify fuel blake prf root w d e f) := by
  have hk : 2 ≤ k := by have := hs.depth; omega
  obtain ⟨j, hj⟩ : ∃ j, k = j + 2 := ⟨k - 2, by omega⟩
  have h4 : 2 ^ k = 4 * 2 ^ j := by rw [hj, pow_add]; ring
  have hw0 : w ≠ 0 := by
    rintro rfl
    have h0 : orderOf (0 : Zp p) = 0 := orderOf_eq_zero_iff'.2 fun n hn => by rw [zero_pow (by omega)]; exact zero_ne_one
    rw [h0] at hw
    have : 0 < 2 ^ k := by positivity
    omega
  rw [verify, rou_ok k fuel w 1 hw (lt_of_lt_of_le Nat.lt_two_pow_self hf), one_mul]
  refine firm_bind (firm_ok _) fun r hr => ?_
  cases hr
  rw [quartic_eq w k hk]
  have hnd : ((List.range 4).map fun j => w ^ (2 ^ k / 4 * j)).Nodup := by
    have := four_nodup (q := 2 ^ j) (by positivity) (by rw [hw, h4]) 0 (by positivity)
    rw [h4, show 4 * 2 ^ j / 4 = 2 ^ j by omega]
    simpa using this
  refine firm_bind (firm_layers blake hbl _ (by simp) hnd e f he prf.1 root w hw0 d k hs.depth hk2 hs.groups hs.branches) fun o ho => ?_
  have hr := layers_root _ _ _ _ _ _ _ _ _ _ ho
  obtain ⟨root', w', d'⟩ := o
  simp only at hr
  have hord : orderOf w' = 2 ^ (k - 2 * prf.1.length) := by
    have h2 : (4 : Nat) ^ prf.1.length = 2 ^ (2 * prf.1.length) := by rw [pow_mul]; norm_num
    rw [hr, h2, orderOf_pow' _ (by positivity), hw]
    have hle : 2 * prf.1.length ≤ k := by have := hs.depth; omega
    rw [Nat.gcd_eq_right (pow_dvd_pow 2 hle), Nat.pow_div hle (by norm_num)]
  refine firm_bind (firm_last fuel blake _ _ _ _ (k - 2 * prf.1.length) (by have := hs.depth; omega) _ hord ?_ hs.values hs.bytes) fun _ _ => firm_ok _
  exact le_trans (Nat.pow_le_pow_right (by norm_num) (Nat.sub_le _ _)) hf

/-! ### Honest proofs -/

theorem proveRec_shape (hp2 : p ≤ 2 ^ 256) (blake : Bytes → Bytes) (hbl : ∀ x, (blake x).length = 32) (fuel : Nat) (e : Nat)
    (he : e = 0 ∨ 2 ≤ e) : ∀ (depth : Nat) (f : List (Zp p)) (w : Zp p) (d k F : Nat) (prf : FriProof),
      F ≤ 40 → 2 ≤ k → k < 26 → orderOf w = 2 ^ k → 2 ^ k ≤ fuel → f.length ≤ 2 ^ k → d ≤ 2 ^ k →
      proveRec fuel blake depth f w d e F = .ok prf → FriShape k F prf
  | 0, _, _, _, _, _, _, _, _, _, _, _, _, _, h => by cases h
  | depth + 1, f, w, d, k, F, prf, hF, hk, hk26, hw, hf, hl, hd, h => by
    have hfwd := fwd_spec w k hw fuel hf f hl
    by_cases h16 : d ≤ 16
    · rw [prove_base hp2 blake fuel w k hw hf f hl d h16 e F depth] at h
      cases h
      refine ⟨by simpa using hk, by simp [dft], fun b hb => ?_, by simp, by simp⟩
      obtain ⟨a, -, rfl⟩ := List.mem_map.1 hb
      rw [encB_length]
    · have hk5 : 5 ≤ k := by
        by_contra hlt
        have : 2 ^ k ≤ 2 ^ 4 := Nat.pow_le_pow_right (by omega) (by omega)
        omega
      obtain ⟨k0, rfl⟩ : ∃ k0, k = k0 + 2 := ⟨k - 2, by omega⟩
      have h4 : 2 ^ (k0 + 2) = 4 * 2 ^ k0 := by rw [pow_add]; ring
      have hw' : orderOf w = 4 * 2 ^ k0 := by rw [hw, h4]
      have hw4 := order_four hw'
      obtain ⟨m, root, t1, t2, -⟩ := tree_of hp2 blake (dft w (2 ^ (k0 + 2)) f) (k0 + 2) (by omega) (by simp)
      obtain ⟨C', m2, c1, c2, c3⟩ := fold_ok hp2 blake w k0 (by omega) hw' fuel (by omega) (dft w (2 ^ (k0 + 2)) f) (by simp [h4]) m root t1 t2
      obtain ⟨g, i1, i2, i3⟩ := inv_spec (w ^ 4) k0 hw4 fuel (by omega) C' c2.1
      rw [proveRec] at h
      obtain ⟨values, hv, h⟩ := bind_inv h
      rw [hfwd] at hv
      cases hv
      rw [if_neg h16] at h
      obtain ⟨fo, hfold, h⟩ := bind_inv h
      rw [c1] at hfold
      cases hfold
      obtain ⟨root2, hr, h⟩ := bind_inv h
      obtain ⟨ys, hys, h⟩ := bind_inv h
      obtain ⟨branches, hb, h⟩ := bind_inv h
      obtain ⟨g', hg, h⟩ := bind_inv h
      rw [i1] at hg
      cases hg
      obtain ⟨rest, hrest, h⟩ := bind_inv h
      cases h
      have h2k : 2 ≤ 2 ^ k0 := by
        calc 2 = 2 ^ 1 := rfl
          _ ≤ _ := Nat.pow_le_pow_right (by omega) (by omega)
      have h24 : 2 ^ k0 < 2 ^ 24 := Nat.pow_lt_pow_right (by omega) (by omega)
      obtain ⟨ys', y1, y2, -⟩ := indices_ok blake hbl root2 (2 ^ k0) e F h2k h24 he
      rw [c2.1, y1] at hys
      cases hys
      have ih := proveRec_shape hp2 blake hbl fuel e he depth g (w ^ 4) (d / 4) k0 40 rest le_rfl (by omega) (by omega) hw4 (by omega) i2 (by omega)
        hrest
      have l1 := tree_length hp2 blake (dft w (2 ^ (k0 + 2)) f) (k0 + 2) (by omega) (by simp) m t1
      have l2 := tree_length hp2 blake C' k0 (by omega) c2.1 m2 c3
      obtain ⟨s1, s2, s3, s4, s5⟩ := ih
      refine ⟨by simp only [List.length_cons]; omega, ?_, s3, ?_, ?_⟩
      · simp only [List.length_cons]
        rw [s2, show k0 + 2 - 2 * (rest.1.length + 1) = k0 - 2 * rest.1.length by omega]
      · intro it hit
        rcases List.mem_cons.1 hit with rfl | hit
        · have e1 := pyMap_len hb
          simp only
          omega
        · exact le_trans hF (s4 it hit)
      · intro it hit
        rcases List.mem_cons.1 hit with rfl | hit
        · intro yp hyp
          obtain ⟨y, -, hy⟩ := pyMap_out hb yp hyp
          obtain ⟨b0, hb0, hy⟩ := bind_inv hy
          obtain ⟨bs, hbs, hy⟩ := bind_inv hy
          cases hy
          refine ⟨by rw [List.length_cons, pyMap_len hbs, List.length_range], fun s hs => ?_⟩
          rcases List.mem_cons.1 hs with rfl | hs
          · rw [mkBranch_len l2 hb0]
            omega
          · obtain ⟨j, -, hj⟩ := pyMap_out hbs s hs
            rw [mkBranch_len l1 hj]
            omega
        · exact s5 it hit

/-! ### STARKs -/

theorem firm_at {φ : Type} (blake : Bytes → Bytes) (S : Params (Zp p)) (hn : S.n = S.width) (hpl : S.width ≤ S.polys.length)
    (hwf : ∀ f ∈ S.polys, Mv.WF S.width f) (h1 : S.last ≠ 1) (W : List (List (Zp p))) (hW : S.width ≤ W.length) (hW0 : ∀ col ∈ W, col ≠ [])
    (boundary : List (Nat × Nat × Zp p)) (hB : S.width ≤ boundary.length) (pr : Proof φ) (hb : ∀ br ∈ pr.branches, 3 ≤ br.length) (i pos : Nat)
    (hi : 3 * i + 2 < pr.branches.length) (hx : S.G2 ^ pos ≠ S.last) : Firm (verifyAt blake S W boundary pr i pos) := by
  have get : ∀ j, j < pr.branches.length → ∀ br, pyIdx pr.branches j = .ok br → 3 ≤ br.length := by
    intro j hj br h
    rw [Merkle.pyIdx_ok hj] at h
    cases h
    exact hb _ (List.getElem_mem _)
  rw [verifyAt]
  refine firm_bind (firm_idx (by omega)) fun br1 hb1 => firm_bind (firm_branch _ _ _ _ (get _ (by omega) _ hb1)) fun leaf1 _ =>
    firm_bind (firm_idx (by omega)) fun br2 hb2 => firm_bind (firm_branch _ _ _ _ (get _ (by omega) _ hb2)) fun leaf2 _ =>
    firm_bind (firm_idx (by omega)) fun br3 hb3 => firm_bind (firm_branchInt _ _ _ _ (get _ (by omega) _ hb3)) fun _ _ => firm_bind ?_ fun z _ => ?_
  · rw [pyDiv, if_neg (sub_ne_zero.2 hx)]
    exact firm_ok _
  · rw [fst_eq, fst_eq, hn]
    obtain ⟨y, hy, hyl⟩ := Air.nextState_total hwf hpl ((List.range S.width).map (blk leaf1)) (by simp)
    rw [hy]
    refine firm_bind (firm_ok _) fun y' hy' => ?_
    cases hy'
    refine firm_bind (firm_map _ fun d hd => ?_) fun _ _ => firm_bind (firm_map _ fun d hd => ?_) fun _ _ => firm_ok _
    · rw [List.mem_range] at hd
      rw [checkTransition]
      refine firm_bind (firm_idx (by simpa using hd)) fun _ _ => firm_bind (firm_idx ?_) fun _ _ => firm_bind (firm_idx (by omega)) fun _ _ => firm_assert _
      exact (List.getElem?_eq_some_iff.1 (snd_getElem leaf1 S.width d hd)).1
    · rw [List.mem_range] at hd
      rw [checkBoundary]
      refine firm_bind (firm_idx (by omega)) fun con _ => firm_bind (firm_idx (by omega)) fun row hrow => firm_bind ?_ fun out _ =>
        firm_bind ?_ fun _ _ => firm_bind (firm_idx (by simpa using hd)) fun _ _ => firm_bind (firm_idx ?_) fun _ _ => firm_assert _
      · have hr : row ∈ W := by
          rw [Merkle.pyIdx_ok (by omega : d < W.length)] at hrow
          cases hrow
          exact List.getElem_mem _
        rw [pyLast, List.getLast?_eq_getLast_of_ne_nil (hW0 row hr)]
        exact firm_ok _
      · obtain ⟨r, hr, -⟩ := lagrangeInterp2_spec 1 S.last con.2.2 out h1.symm
        exact firm_of ⟨r, hr⟩
      · exact (List.getElem?_eq_some_iff.1 (thd_getElem leaf1 S.width d hd)).1

theorem firm_stark {φ : Type} (blake : Bytes → Bytes) (hbl : ∀ x, (blake x).length = 32) (fv : φ → Bytes → Zp p → Nat → Nat → Py Bool) (S : Params (Zp p))
    (h0 : 0 < S.width) (hn : S.n = S.width) (hpl : S.width ≤ S.polys.length) (hwf : ∀ f ∈ S.polys, Mv.WF S.width f) (hs : 2 ≤ S.steps) (he : 2 ≤ S.ext)
    (hpr : S.precision = S.steps * S.ext) (hpr2 : S.precision < 2 ^ 24) (hG2 : orderOf S.G2 = S.steps * S.ext) (hG1 : S.G1 = S.G2 ^ S.ext)
    (hlast : S.last = S.G1 ^ (S.steps - 1)) (W : List (List (Zp p))) (hW : S.width ≤ W.length) (hW0 : ∀ col ∈ W, col ≠ [])
    (boundary : List (Nat × Nat × Zp p)) (hB : S.width ≤ boundary.length) (pr : Proof φ) (hc : 3 * S.factor ≤ pr.branches.length)
    (hb : ∀ br ∈ pr.branches, 3 ≤ br.length) (hf : ∀ root d, Firm (fv pr.fri root S.G2 d S.ext)) : Firm (verifyProof blake fv S W boundary pr) := by
  have hl : S.last = S.G2 ^ (S.ext * (S.steps - 1)) := by rw [hlast, hG1, ← pow_mul]
  have hpos : 0 < S.steps * S.ext := Nat.mul_pos (by omega) (by omega)
  have hlt : S.ext * (S.steps - 1) < S.steps * S.ext := by
    rw [mul_comm S.steps]
    exact Nat.mul_lt_mul_of_pos_left (by omega) (by omega)
  have h1 : S.last ≠ 1 := by
    rw [hl]
    intro h
    have hd := orderOf_dvd_of_pow_eq_one h
    rw [hG2] at hd
    have := Nat.le_of_dvd (Nat.mul_pos (by omega) (by omega)) hd
    omega
  have h2p : 2 ≤ S.precision := by
    rw [hpr]
    calc 2 ≤ 2 * 2 := by norm_num
      _ ≤ S.steps * S.ext := Nat.mul_le_mul hs he
  rw [verifyProof]
  refine firm_bind ?_ fun _ _ => firm_bind (hf _ _) fun _ _ => firm_bind (firm_assert _) fun _ _ => ?_
  · rw [Air.getDegree]
    cases h : S.polys with
    | nil => rw [h, List.length_nil] at hpl; omega
    | cons a l => exact firm_ok _
  · obtain ⟨o, o1, o2, o3⟩ := Props.C36_indices_exclude blake hbl pr.lRoot S.precision S.factor S.ext (by exact_mod_cast h2p) (by exact_mod_cast hpr2)
      (by exact_mod_cast he)
    rw [o1]
    refine firm_bind (firm_ok _) fun o' ho' => ?_
    cases ho'
    refine firm_bind (firm_map _ fun ip hip => ?_) fun _ _ => firm_ok _
    obtain ⟨-, m1, m2⟩ := List.mem_zipIdx hip
    have hm : ip.1 ∈ o := by rw [m2]; exact List.getElem_mem _
    obtain ⟨a1, a2, a3⟩ := o3 _ hm
    refine firm_at blake S hn hpl hwf h1 W hW hW0 boundary hB pr hb _ _ (by omega) ?_
    rw [hl]
    intro h
    have := pow_inj_of_order hG2 _ _ (by omega) hlt h
    apply a3
    have h5 : ip.1 = (S.ext : Int) * ((S.steps - 1 : Nat) : Int) := by
      have : ((ip.1.toNat : Nat) : Int) = ((S.ext * (S.steps - 1) : Nat) : Int) := by rw [this]
      rw [Int.toNat_of_nonneg a1] at this
      rw [this]
      push_cast
      ring
    exact ⟨_, h5⟩

end Verif.Refusals
