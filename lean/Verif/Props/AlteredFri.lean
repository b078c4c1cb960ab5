import Verif.Props.Altered
import Verif.Props.Roots
import Verif.Props.SmoothFri
import Verif.Proofs.SmoothFriSound
import Verif.Spec.AlteredFri
/-!
# C165: proofs of proximity
-/

namespace Verif.Props
open Poly Merkle SmoothFri Compression Stark

theorem drawWords_length (data : Bytes) (m : Int) : ∀ (n k : Nat) {o : List Int}, Utils.drawWords data m n k = .ok o → o.length = n
  | 0, _, o, h => by cases h; rfl
  | n + 1, k, o, h => by
    rw [Utils.drawWords] at h
    obtain ⟨x, -, h⟩ := bind_inv h
    obtain ⟨xs, h1, h⟩ := bind_inv h
    cases h
    rw [List.length_cons, drawWords_length data m n _ h1]

theorem spread_length (e : Int) : ∀ (l : List Int) {o : List Int}, Utils.spread e l = .ok o → o.length = l.length
  | [], o, h => by cases h; rfl
  | x :: l, o, h => by
    rw [Utils.spread] at h
    obtain ⟨_, -, h⟩ := bind_inv h
    obtain ⟨xs, h1, h⟩ := bind_inv h
    cases h
    rw [List.length_cons, List.length_cons, spread_length e l h1]

theorem positions_length {blake : Bytes → Bytes} {entropy : Bytes} {modulus e : Int} {count : Nat} {o : List Int}
    (h : Utils.getPseudorandomIndices blake entropy modulus count e = .ok o) : o.length = count := by
  unfold Utils.getPseudorandomIndices at h
  obtain ⟨_, -, h⟩ := bind_inv h
  obtain ⟨data, -, h⟩ := bind_inv h
  split at h
  · simpa using drawWords_length _ _ _ _ h
  · obtain ⟨qr, -, h⟩ := bind_inv h
    obtain ⟨l, h1, h⟩ := bind_inv h
    rw [spread_length _ _ h, drawWords_length _ _ _ _ h1]
    simp

variable {p : Nat} [Fact p.Prime]

theorem layer_opened {blake : Bytes → Bytes} {qr : List (Zp p)} {root : Bytes} {w : Zp p} {r e factor : Nat} {it : Item}
    (h : verifyLayer blake qr root w r e factor it = .ok ()) :
    ∃ ys, Utils.getPseudorandomIndices blake it.1 ((r / 4 : Nat) : Int) factor e = .ok ys ∧ ys.length = factor ∧
      ∀ (i : Nat) (y : Int), ys[i]? = some y → ∃ opened, it.2[i]? = some opened ∧
        ∀ j < 5, ∀ br, opened[j]? = some br → ∃ leaf, verifyBranch blake (if j = 0 then it.1 else root)
          (if j = 0 then y.toNat else y.toNat + r / 4 * (j - 1)) br = .ok leaf := by
  unfold verifyLayer at h
  obtain ⟨ys, h1, h⟩ := bind_inv h
  obtain ⟨qs, h2, h⟩ := bind_inv h
  refine ⟨ys, h1, positions_length h1, fun i y hi => ?_⟩
  obtain ⟨e1, e2⟩ := (Air.pyMap_iff _ _ _).1 h2
  obtain ⟨q, -, hq⟩ := e2 i (y, i) (by simp [hi])
  dsimp only at hq
  unfold query at hq
  obtain ⟨opened, q1, hq⟩ := bind_inv hq
  obtain ⟨row, q2, hq⟩ := bind_inv hq
  obtain ⟨b0, q3, hq⟩ := bind_inv hq
  obtain ⟨c, q4, hq⟩ := bind_inv hq
  refine ⟨opened, pyIdx_inv q1, fun j hj br hbr => ?_⟩
  by_cases h0 : j = 0
  · subst h0
    rw [pyIdx_inv q3, Option.some.injEq] at hbr
    subst hbr
    obtain ⟨leaf, l1, -⟩ := branchInt_inv q4
    exact ⟨leaf, by simpa using l1⟩
  · obtain ⟨f1, f2⟩ := (Air.pyMap_iff _ _ _).1 q2
    obtain ⟨j, rfl⟩ := Nat.exists_eq_succ_of_ne_zero h0
    have hz : ((List.range 4).zip opened.tail)[j]? = some (j, br) := by
      rw [List.getElem?_zip_eq_some]
      refine ⟨List.getElem?_range (by omega), ?_⟩
      rw [List.getElem?_tail]
      exact hbr
    obtain ⟨n, -, g2⟩ := f2 j _ hz
    obtain ⟨leaf, l1, -⟩ := branchInt_inv g2
    exact ⟨leaf, by simpa using l1⟩

/-- Two components of accepted proofs agree in what is read. -/
theorem layer_same {blake : Bytes → Bytes} (hbl : ∀ x, (blake x).length = 32) {qr : List (Zp p)} {root : Bytes} {w : Zp p}
    {r e factor : Nat} {it it' : Item} (hroot : it.1 = it'.1)
    (hsize : ∀ i < factor, ((it.2[i]?).map (List.take 5)).map (List.map (List.map List.length)) =
      ((it'.2[i]?).map (List.take 5)).map (List.map (List.map List.length)))
    (h : verifyLayer blake qr root w r e factor it = .ok ()) (h' : verifyLayer blake qr root w r e factor it' = .ok ())
    (hc : ∀ opened ∈ it.2, ∀ opened' ∈ it'.2, ∀ br ∈ opened, ∀ br' ∈ opened', ∀ x, ∀ s ∈ hashedByVerification blake x br,
      ∀ t ∈ hashedByVerification blake x br', blake s = blake t → s = t) :
    ∀ i < factor, (it.2[i]?).map (List.take 5) = (it'.2[i]?).map (List.take 5) := by
  obtain ⟨ys, y1, y2, y3⟩ := layer_opened h
  obtain ⟨ys', y1', -, y3'⟩ := layer_opened h'
  rw [← hroot, y1] at y1'
  cases y1'
  intro i hi
  have hy : ys[i]? = some (ys[i]'(by omega)) := List.getElem?_eq_getElem _
  obtain ⟨opened, o1, o2⟩ := y3 i _ hy
  obtain ⟨opened', o1', o2'⟩ := y3' i _ hy
  rw [← hroot] at o2'
  have hs := hsize i hi
  rw [o1, o1'] at hs ⊢
  simp only [Option.map_some, Option.some.injEq] at hs ⊢
  apply List.ext_getElem?
  intro j
  have hsj := congrArg (·[j]?) hs
  simp only [List.getElem?_map] at hsj
  rw [List.getElem?_take, List.getElem?_take] at hsj ⊢
  split at hsj <;> rename_i hj
  · rw [if_pos hj, if_pos hj]
    rcases hb : opened[j]? with _ | br
    · rcases hb' : opened'[j]? with _ | br'
      · rfl
      · rw [hb, hb'] at hsj; cases hsj
    · rcases hb' : opened'[j]? with _ | br'
      · rw [hb, hb'] at hsj; cases hsj
      · rw [hb, hb', Option.map_some, Option.map_some, Option.some.injEq] at hsj
        obtain ⟨l, hl⟩ := o2 j hj br hb
        obtain ⟨l', hl'⟩ := o2' j hj br' hb'
        rcases C165_branch_partial blake 32 hbl _ _ br br' l l' hsj hl hl' with rfl | ⟨s, s1, t, t1, hne, hst⟩
        · rfl
        · exact absurd (hc opened (List.mem_of_getElem? o1) opened' (List.mem_of_getElem? o1') br (List.mem_of_getElem? hb) br'
            (List.mem_of_getElem? hb') _ s s1 t t1 hst) hne
  · rw [if_neg hj, if_neg hj]

theorem layers_same {blake : Bytes → Bytes} (hbl : ∀ x, (blake x).length = 32) {qr : List (Zp p)} {e factor : Nat} :
    ∀ (its its' : List Item) (root : Bytes) (w : Zp p) (d r : Nat) (o o' : Bytes × Zp p × Nat), its.map Prod.fst = its'.map Prod.fst →
    (∀ k : Nat, ∀ i < factor, ((its[k]?).bind fun it : Item => (it.2[i]?).map (List.take 5)).map (List.map (List.map List.length)) =
      ((its'[k]?).bind fun it : Item => (it.2[i]?).map (List.take 5)).map (List.map (List.map List.length))) →
    verifyLayers blake qr e factor its root w d r = .ok o → verifyLayers blake qr e factor its' root w d r = .ok o' →
    (∀ it ∈ its, ∀ it' ∈ its', ∀ opened ∈ it.2, ∀ opened' ∈ it'.2, ∀ br ∈ opened, ∀ br' ∈ opened', ∀ x,
      ∀ s ∈ hashedByVerification blake x br, ∀ t ∈ hashedByVerification blake x br', blake s = blake t → s = t) →
    o = o' ∧ ∀ k : Nat, ∀ i < factor, ((its[k]?).bind fun it : Item => (it.2[i]?).map (List.take 5)) =
      ((its'[k]?).bind fun it : Item => (it.2[i]?).map (List.take 5)) := by
  intro its
  induction its with
  | nil =>
    intro its' root w d r o o' hr _ h h' _
    cases its' with
    | nil =>
      rw [verifyLayers] at h h'
      exact ⟨Except.ok.inj (h.symm.trans h'), fun _ _ _ => rfl⟩
    | cons => simp at hr
  | cons it its ih =>
    intro its' root w d r o o' hr hs h h' hc
    cases its' with
    | nil => simp at hr
    | cons it' its' =>
      rw [verifyLayers] at h h'
      obtain ⟨_, h1, h⟩ := bind_inv h
      obtain ⟨_, h1', h'⟩ := bind_inv h'
      simp only [List.map_cons, List.cons.injEq] at hr
      rw [← hr.1] at h'
      obtain ⟨a, b⟩ := ih its' _ _ _ _ o o' hr.2 (fun k => hs (k + 1)) h h'
        (fun a ha b hb => hc a (List.mem_cons_of_mem _ ha) b (List.mem_cons_of_mem _ hb))
      have hl := layer_same hbl hr.1 (fun i hi => hs 0 i hi) h1 h1' (hc it (by simp) it' (by simp))
      refine ⟨a, fun k i hi => ?_⟩
      cases k with
      | zero => exact hl i hi
      | succ k => exact b k i hi

/-- **C165** for proofs of proximity: two accepted proofs with the same roots, whose strings have the same sizes, agree in everything that
is read, or two different strings hashed in checking them have the same hash. -/
theorem C165_fri_partial (blake : Bytes → Bytes) (hbl : ∀ x, (blake x).length = 32) (fuel : Nat) (root : Bytes) (w : Zp p)
    (d e factor : Nat) (proof proof' : FriProof) (hr : proof.1.map Prod.fst = proof'.1.map Prod.fst)
    (hsize : ∀ k, ∀ i < factor, (readOf proof k i).map (List.map (List.map List.length)) =
      (readOf proof' k i).map (List.map (List.map List.length)))
    (h4 : 4 ∣ proof.2.length) (h32 : ∀ b ∈ proof.2, b.length ≤ 32) (hlast : proof.2.map List.length = proof'.2.map List.length)
    (h : verify fuel blake proof root w d e factor = .ok true) (h' : verify fuel blake proof' root w d e factor = .ok true) :
    (proof.2 = proof'.2 ∧ ∀ k, ∀ i < factor, readOf proof k i = readOf proof' k i) ∨
      ∃ s t, HashedInFri blake proof s ∧ HashedInFri blake proof' t ∧ s ≠ t ∧ blake s = blake t := by
  by_cases hcol : ∃ s t, HashedInFri blake proof s ∧ HashedInFri blake proof' t ∧ s ≠ t ∧ blake s = blake t
  · exact .inr hcol
  left
  unfold verify at h h'
  obtain ⟨r, v1, h⟩ := bind_inv h
  obtain ⟨o, v2, h⟩ := bind_inv h
  obtain ⟨_, v3, h⟩ := bind_inv h
  obtain ⟨r', w1, h'⟩ := bind_inv h'
  obtain ⟨o', w2, h'⟩ := bind_inv h'
  obtain ⟨_, w3, h'⟩ := bind_inv h'
  rw [v1] at w1
  cases w1
  obtain ⟨ho, hread⟩ := layers_same hbl proof.1 proof'.1 root w d r o o' hr hsize v2 w2
    (fun it hit it' hit' op hop op' hop' br hbr br' hbr' x s hs t ht hst => by
      by_contra hne
      exact hcol ⟨s, t, .inl ⟨it, hit, op, hop, br, hbr, x, hs⟩, .inl ⟨it', hit', op', hop', br', hbr', x, ht⟩, hne, hst⟩)
  subst ho
  refine ⟨?_, hread⟩
  unfold verifyLast at v3 w3
  obtain ⟨_, -, v3⟩ := bind_inv v3
  obtain ⟨tree, a1, v3⟩ := bind_inv v3
  obtain ⟨mroot, a2, v3⟩ := bind_inv v3
  obtain ⟨_, a3, -⟩ := bind_inv v3
  obtain ⟨_, -, w3⟩ := bind_inv w3
  obtain ⟨tree', b1, w3⟩ := bind_inv w3
  obtain ⟨mroot', b2, w3⟩ := bind_inv w3
  obtain ⟨_, b3, -⟩ := bind_inv w3
  have e : ∀ l : List Bytes, (l.map fromBytes).map (fun n : Nat => Leaf.int (n : Int)) = (l.map fun b => (fromBytes b : Int)).map .int := by
    intro l; simp
  have e' : ∀ l : List Bytes, (l.map fun b => (fromBytes b : Int)).map Leaf.int = l.map fun b => .int (fromBytes b) := by
    intro l; simp
  rw [e] at a1 b1
  have hlen : proof.2.length = proof'.2.length := by simpa using congrArg List.length hlast
  have hm : mroot = mroot' := by
    have x1 : mroot = o.1 := by simpa [pyAssert] using a3
    have x2 : mroot' = o.1 := by simpa [pyAssert] using b3
    rw [x1, x2]
  have h32' : ∀ b ∈ proof'.2, b.length ≤ 32 := by
    intro b hb
    have : b.length ∈ proof.2.map List.length := by rw [hlast]; exact List.mem_map_of_mem hb
    obtain ⟨c, hc, hcl⟩ := List.mem_map.1 this
    rw [← hcl]; exact h32 c hc
  have hlt : ∀ b : Bytes, b.length ≤ 32 → (fromBytes b : Int) < 2 ^ 256 := by
    intro b hb
    have : fromBytes b < 2 ^ 256 := lt_of_lt_of_le (fromBytes_lt b) (by
      calc 256 ^ b.length ≤ 256 ^ 32 := Nat.pow_le_pow_right (by norm_num) hb
        _ = 2 ^ 256 := by norm_num)
    exact_mod_cast this
  rcases C164_ints blake hbl (proof.2.map fun b => (fromBytes b : Int)) (proof'.2.map fun b => (fromBytes b : Int)) (by simpa using h4)
    (by simpa using hlen) (by
      intro z hz
      rcases List.mem_append.1 hz with hz | hz
      · obtain ⟨b, hb, rfl⟩ := List.mem_map.1 hz
        exact ⟨by positivity, hlt b (h32 b hb)⟩
      · obtain ⟨b, hb, rfl⟩ := List.mem_map.1 hz
        exact ⟨by positivity, hlt b (h32' b hb)⟩) tree tree' a1 b1 (by rw [pyIdx_inv a2, pyIdx_inv b2, hm]) with heq | ⟨s, t, hs, ht, hne⟩
  · apply List.ext_getElem hlen
    intro i hi hi'
    have l1 : (proof.2[i]).length = (proof'.2[i]).length := by
      have := congrArg (·[i]?) hlast
      simpa [hi, hi'] using this
    have l2 := congrArg (·[i]?) heq
    simp only [List.getElem?_map, List.getElem?_eq_getElem hi, List.getElem?_eq_getElem hi', Option.map_some, Option.some.injEq] at l2
    exact fromBytes_inj _ _ l1 (by exact_mod_cast l2)
  · rw [e'] at a1 b1
    exact absurd ⟨s, t, .inr ⟨tree, a1, hs⟩, .inr ⟨tree', b1, ht⟩, hne⟩ hcol

/-- **C165** fails for proofs of proximity: the strings of the last component can be preceded by zeros. -/
theorem C165_zeros_refuted (blake : Bytes → Bytes) (fuel : Nat) (root : Bytes) (w : Zp p) (d e factor : Nat) (proof : FriProof)
    (h : verify fuel blake proof root w d e factor = .ok true) (z : Nat) :
    verify fuel blake (proof.1, proof.2.map (List.replicate z 0 ++ ·)) root w d e factor = .ok true := by
  have hz : ∀ b : Bytes, fromBytes (List.replicate z 0 ++ b) = fromBytes b := by
    intro b
    unfold fromBytes
    rw [List.foldl_append]
    congr 1
    induction z with
    | zero => rfl
    | succ z ih => rw [List.replicate_succ, List.foldl_cons]; simpa using ih
  have hm : (proof.2.map (List.replicate z 0 ++ ·)).map fromBytes = proof.2.map fromBytes := by
    rw [List.map_map]
    exact List.map_congr_left fun b _ => hz b
  unfold verify verifyLast at h ⊢
  simpa only [hm] using h

/-- An honest proof of proximity with one round, the same with a branch added to its first opening, and the same with zeros in front of the
strings of the last component: all are accepted; the first two have the same roots and agree in all sizes that are read. This meets the
hypotheses of `C165_fri_partial` and `C165_zeros_refuted`. -/
example : (∀ x, (sqHash x).length = 32) ∧ (do
    let f : List (Zp 97) := [3, 1, 4, 1, 5, 9, 2, 6, 5, 3, 5, 8, 9, 7, 9, 3, 2, 3, 8, 4]
    let vals ← FFT.nbFft 100 97 (28 : Zp 97) f
    let m ← Merkle.merkelize sqHash (vals.map fun a => .elt (enc a))
    let root ← pyIdx m 1
    let pf ← prove 100 sqHash f (28 : Zp 97) 20 4 6
    let more : FriProof := (pf.1.map fun it => (it.1, it.2.map fun opened => opened ++ [[[1]]]), pf.2)
    let zeros : FriProof := (pf.1, pf.2.map (List.replicate 2 0 ++ ·))
    let a ← verify 100 sqHash pf root (28 : Zp 97) 20 4 6
    let b ← verify 100 sqHash more root (28 : Zp 97) 20 4 6
    let c ← verify 100 sqHash zeros root (28 : Zp 97) 20 4 6
    .ok (a, b, c, decide (pf.1.length = 1 ∧ pf.2.length = 8 ∧ more.1.map (·.2) ≠ pf.1.map (·.2) ∧ zeros.2 ≠ pf.2) && decide (∀ b ∈ pf.2, b.length ≤ 32) &&
      (List.range 6).all fun i => (readOf pf 0 i).map (List.map (List.map List.length)) ==
        (readOf more 0 i).map (List.map (List.map List.length))) : Py (Bool × Bool × Bool × Bool)) = .ok (true, true, true, true) :=
  ⟨sqHash_length, by decide +kernel⟩

end Verif.Props
