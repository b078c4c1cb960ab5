import Verif.Proofs.ZeroKnowledge
/-! # Transcripts of the graph isomorphism protocol -/

namespace Verif.ZK
open Spec

theorem sendCopy_eq {n : Nat} {G : Graph} (hG : InRange n G) {perm : List Int} (hp : IsPerm n perm) :
    sendCopy G perm = .ok (rename (relabel perm) G) := by
  apply applyIso_eq
  intro e he
  have := hG e he
  exact ⟨permFun_eq perm e.1 this.1.1 (by rw [(isPerm_length hp)]; exact this.1.2),
    permFun_eq perm e.2 this.2.1 (by rw [(isPerm_length hp)]; exact this.2.2)⟩

/-- What the prover's answer makes of the graph it sent. -/
theorem applyIso_prove {n : Nat} {G : Graph} (hG : InRange n G) {iso perm : List Int} (hi : iso.length = n)
    (hp : IsPerm n perm) (choice : Int) :
    applyIso (rename (relabel perm) G) (proveIso iso perm choice) =
      .ok (if choice = 1 then G else rename (relabel iso) G) := by
  induction G with
  | nil => simp [applyIso, rename, PolyUtils.pyMap]
  | cons e G ih =>
    have he := hG e (by simp)
    have ih := ih fun e h => hG e (by simp [h])
    have i1 := invPermFun_eq hp e.1 he.1.1 he.1.2
    have i2 := invPermFun_eq hp e.2 he.2.1 he.2.2
    have p1 := permFun_eq iso e.1 he.1.1 (by rw [hi]; exact he.1.2)
    have p2 := permFun_eq iso e.2 he.2.1 (by rw [hi]; exact he.2.2)
    unfold applyIso rename at *
    simp only [List.map_cons, PolyUtils.pyMap]
    rw [ih]
    by_cases hc : choice = 1
    · simp [proveIso, hc, i1, i2, bind, Except.bind]
    · simp [proveIso, hc, i1, i2, p1, p2, bind, Except.bind]

theorem init_eq {n : Nat} {G1 G2 : Graph} (h1 : IsTop n G1) (h2 : IsTop n G2) : init G1 G2 = .ok (n : Int) := by
  simp [init, numVertices_eq h1, numVertices_eq h2, bind, Except.bind, pyAssert]

theorem messages_eq {n : Nat} {G1 G2 : Graph} (h1 : IsTop n G1) (h2 : IsTop n G2) (iso : List Int) {perm : List Int}
    (hp : IsPerm n perm) (choice : Int) :
    messages G1 G2 iso perm choice = .ok (rename (relabel perm) G1, choice, proveIso iso perm choice) := by
  simp [messages, init_eq h1 h2, sendCopy_eq h1.1 hp, bind, Except.bind]

theorem simulate_eq {n : Nat} {G1 G2 G : Graph} {choice : Int} (hc : choice = 1 ∧ G = G1 ∨ choice = 2 ∧ G = G2) (hG : IsTop n G)
    {perm : List Int} (hp : IsPerm n perm) :
    simulate G1 G2 perm choice = .ok (rename (relabel perm) G, choice, permFun perm) := by
  have hidx : pyIdxI [G1, G2] (choice - 1) = .ok G := by
    rcases hc with ⟨rfl, rfl⟩ | ⟨rfl, rfl⟩ <;> rfl
  have hs := sendCopy_eq hG.1 hp
  unfold sendCopy at hs
  simp [simulate, hidx, numVertices_eq hG, hs, bind, Except.bind]

/-- The list of `relabel L ∘ relabel iso`. -/
def compose (L iso : List Int) : List Int := iso.map fun k => relabel L (k + 1) - 1

theorem relabel_compose {n : Nat} {L iso : List Int} (hi : iso.length = n) (v : Int) (h1 : 1 ≤ v) (h2 : v ≤ n) :
    relabel (compose L iso) v = relabel L (relabel iso v) := by
  have hv : (v - 1).toNat < iso.length := by omega
  have e : relabel iso v = iso[(v - 1).toNat] + 1 := by unfold relabel; rw [List.getD_eq_getElem _ _ hv]
  rw [e]
  generalize hf : relabel L = f
  have : (compose L iso).getD (v - 1).toNat 0 = f (iso[(v - 1).toNat] + 1) - 1 := by
    unfold compose
    rw [List.getD_eq_getElem _ _ (by simpa using hv), List.getElem_map, hf]
  unfold relabel
  omega

theorem relabel_ext {n : Nat} {L M : List Int} (hL : L.length = n) (hM : M.length = n)
    (h : ∀ v : Int, 1 ≤ v → v ≤ n → relabel L v = relabel M v) : L = M := by
  apply List.ext_getElem (by omega)
  intro i h1 h2
  have := h ((i : Int) + 1) (by omega) (by omega)
  unfold relabel at this
  rw [show ((i : Int) + 1 - 1).toNat = i by omega, List.getD_eq_getElem _ _ h1, List.getD_eq_getElem _ _ h2] at this
  omega

/-- A list of length `n` whose entries are `0, …, n - 1` without repetition is a permutation. -/
theorem isPerm_of {n : Nat} {L : List Int} (hl : L.length = n) (hr : ∀ v : Int, 1 ≤ v → v ≤ n → 1 ≤ relabel L v ∧ relabel L v ≤ n)
    (hi : ∀ v w : Int, 1 ≤ v → v ≤ n → 1 ≤ w → w ≤ n → relabel L v = relabel L w → v = w) : IsPerm n L := by
  have hnd : L.Nodup := by
    rw [List.nodup_iff_injective_getElem]
    intro i j hij
    have := hi ((i : Nat) + 1) ((j : Nat) + 1) (by omega) (by omega) (by omega) (by omega) (by
      unfold relabel
      rw [show (((i : Nat) : Int) + 1 - 1).toNat = i by omega, show (((j : Nat) : Int) + 1 - 1).toNat = j by omega,
        List.getD_eq_getElem _ _ i.2, List.getD_eq_getElem _ _ j.2]
      simpa using hij)
    ext; omega
  unfold IsPerm
  refine List.Subperm.perm_of_length_le (List.subperm_of_subset hnd ?_) (by simp [hl])
  intro a ha
  obtain ⟨i, h, rfl⟩ := List.getElem_of_mem ha
  have := hr ((i : Int) + 1) (by omega) (by omega)
  unfold relabel at this
  rw [show ((i : Int) + 1 - 1).toNat = i by omega, List.getD_eq_getElem _ _ h] at this
  rw [List.mem_map]
  exact ⟨(L[i]).toNat, by simp; omega, by simp; omega⟩

theorem compose_isPerm {n : Nat} {L iso : List Int} (hL : IsPerm n L) (hi : IsPerm n iso) : IsPerm n (compose L iso) := by
  have hl : iso.length = n := isPerm_length hi
  refine isPerm_of (by simp [compose, hl]) ?_ ?_
  · intro v h1 h2
    rw [relabel_compose hl v h1 h2]
    have := relabel_range hi v h1 h2
    exact relabel_range hL _ this.1 this.2
  · intro v w h1 h2 h3 h4 e
    rw [relabel_compose hl v h1 h2, relabel_compose hl w h3 h4] at e
    have a := relabel_range hi v h1 h2
    have b := relabel_range hi w h3 h4
    exact relabel_inj hi v w h1 h2 h3 h4 (relabel_inj hL _ _ a.1 a.2 b.1 b.2 e)

theorem relabel_surj {n : Nat} {L : List Int} (hL : IsPerm n L) (w : Int) (h1 : 1 ≤ w) (h2 : w ≤ n) :
    ∃ v : Int, 1 ≤ v ∧ v ≤ n ∧ relabel L v = w := by
  obtain ⟨k, hk, e⟩ := List.getElem_of_mem ((isPerm_mem hL (w - 1)).mpr (by omega))
  have := isPerm_length hL
  refine ⟨(k : Int) + 1, by omega, by omega, ?_⟩
  unfold relabel
  rw [show ((k : Int) + 1 - 1).toNat = k by omega, List.getD_eq_getElem _ _ hk, e]; omega

/-- The permutation undoing `iso`. -/
def inverse (n : Nat) (iso : List Int) : List Int := (List.range n).map fun i : Nat => ((iso.idxOf (i : Int) : Nat) : Int)

theorem relabel_inverse {n : Nat} {iso : List Int} (hi : IsPerm n iso) (v : Int) (h1 : 1 ≤ v) (h2 : v ≤ n) :
    relabel (inverse n iso) (relabel iso v) = v := by
  have hl := isPerm_length hi
  have hr := relabel_range hi v h1 h2
  have hv : (v - 1).toNat < iso.length := by omega
  have e : iso[(v - 1).toNat] = relabel iso v - 1 := by
    unfold relabel; rw [List.getD_eq_getElem _ _ hv]; omega
  unfold inverse
  generalize hw : relabel iso v = w at *
  unfold relabel
  rw [List.getD_eq_getElem _ _ (by rw [List.length_map, List.length_range]; omega), List.getElem_map, List.getElem_range,
    show (((w - 1).toNat : Nat) : Int) = iso[(v - 1).toNat] by omega,
    List.Nodup.idxOf_getElem (isPerm_nodup hi)]
  omega

theorem inverse_isPerm {n : Nat} {iso : List Int} (hi : IsPerm n iso) : IsPerm n (inverse n iso) := by
  refine isPerm_of (by simp [inverse]) ?_ ?_
  · intro w h1 h2
    obtain ⟨v, a, b, rfl⟩ := relabel_surj hi w h1 h2
    rw [relabel_inverse hi v a b]; exact ⟨a, b⟩
  · intro w w' h1 h2 h3 h4 e
    obtain ⟨v, a, b, rfl⟩ := relabel_surj hi w h1 h2
    obtain ⟨v', a', b', rfl⟩ := relabel_surj hi w' h3 h4
    rw [relabel_inverse hi v a b, relabel_inverse hi v' a' b'] at e
    rw [e]

theorem vertex_range {n : Nat} {G : Graph} (hG : InRange n G) (v : Int) (hv : Vertex G v) : 1 ≤ v ∧ v ≤ n := by
  obtain ⟨e, he, h⟩ := hv
  have := hG e he
  rcases h with rfl | rfl
  · exact this.1
  · exact this.2

/-- `num_vertices` for vertices of any sign. -/
theorem numVertices_of {n : Int} {G : Graph} (hr : ∀ e ∈ G, e.1 ≤ n ∧ e.2 ≤ n) (hn : Vertex G n) : numVertices G = .ok n := by
  obtain ⟨e, he, hn⟩ := hn
  unfold numVertices pyMaxI
  have hmem : n ∈ G.flatMap fun e => [e.1, e.2] := by
    rw [List.mem_flatMap]
    exact ⟨e, he, by rcases hn with h | h <;> simp [h]⟩
  have hle : ∀ x ∈ G.flatMap (fun e => [e.1, e.2]), x ≤ n := by
    intro x hx
    rw [List.mem_flatMap] at hx
    obtain ⟨e, he, hx⟩ := hx
    have := hr e he
    simp at hx
    rcases hx with rfl | rfl <;> omega
  generalize G.flatMap (fun e => [e.1, e.2]) = l at hmem hle
  match l with
  | [] => simp at hmem
  | a :: l =>
    obtain ⟨h1, h2⟩ := foldl_max_spec a l
    have := h1 _ hmem
    have := hle _ h2
    simp only [Except.ok.injEq]; omega

end Verif.ZK

