import Verif.Model.ZeroKnowledge
import Verif.Spec.Graph
import Verif.Proofs.Air
import Mathlib.SetTheory.Cardinal.Arithmetic
/-! # The graph isomorphism protocol -/

namespace Verif.ZK
open Spec

theorem pyIdxI_nonneg {α : Type _} (l : List α) (i : Int) (h : 0 ≤ i) : pyIdxI l i = pyIdx l i.toNat := if_pos h

theorem permFun_eq (L : List Int) (v : Int) (h1 : 1 ≤ v) (h2 : v ≤ L.length) : permFun L v = .ok (relabel L v) := by
  unfold permFun relabel
  rw [pyIdxI_nonneg _ _ (by omega)]
  have h : (v - 1).toNat < L.length := by omega
  unfold pyIdx
  rw [List.getElem?_eq_getElem h, List.getD_eq_getElem _ _ h]; rfl

theorem isPerm_length {n : Nat} {L : List Int} (h : IsPerm n L) : L.length = n := by
  have := h.length_eq; simpa using this

theorem isPerm_nodup {n : Nat} {L : List Int} (h : IsPerm n L) : L.Nodup := by
  refine h.nodup_iff.mpr ?_
  exact List.Nodup.map (fun a b h => by simpa using h) List.nodup_range

theorem isPerm_mem {n : Nat} {L : List Int} (h : IsPerm n L) (a : Int) : a ∈ L ↔ 0 ≤ a ∧ a < n := by
  rw [h.mem_iff, List.mem_map]
  constructor
  · rintro ⟨i, hi, rfl⟩; simp at hi; simp [hi]
  · rintro ⟨h0, h1⟩; exact ⟨a.toNat, by simp; omega, Int.toNat_of_nonneg h0⟩

theorem relabel_range {n : Nat} {L : List Int} (h : IsPerm n L) (v : Int) (h1 : 1 ≤ v) (h2 : v ≤ n) :
    1 ≤ relabel L v ∧ relabel L v ≤ n := by
  have hl := (isPerm_length h)
  have hv : (v - 1).toNat < L.length := by omega
  have : L.getD (v - 1).toNat 0 ∈ L := by
    rw [List.getD_eq_getElem _ _ hv]; exact List.getElem_mem hv
  have := (isPerm_mem h _).mp this
  unfold relabel; omega

theorem relabel_inj {n : Nat} {L : List Int} (h : IsPerm n L) (v w : Int) (h1 : 1 ≤ v) (h2 : v ≤ n) (h3 : 1 ≤ w) (h4 : w ≤ n)
    (e : relabel L v = relabel L w) : v = w := by
  have hl := (isPerm_length h)
  have hv : (v - 1).toNat < L.length := by omega
  have hw : (w - 1).toNat < L.length := by omega
  unfold relabel at e
  rw [List.getD_eq_getElem _ _ hv, List.getD_eq_getElem _ _ hw] at e
  have := (List.Nodup.getElem_inj_iff (isPerm_nodup h)).mp (by omega : L[(v-1).toNat] = L[(w-1).toNat])
  omega

theorem invPermFun_eq {n : Nat} {L : List Int} (h : IsPerm n L) (v : Int) (h1 : 1 ≤ v) (h2 : v ≤ n) :
    invPermFun L (relabel L v) = .ok v := by
  have hl := (isPerm_length h)
  have hv : (v - 1).toNat < L.length := by omega
  unfold invPermFun relabel
  rw [List.getD_eq_getElem _ _ hv]
  have e : L[(v - 1).toNat] + 1 - 1 = L[(v - 1).toNat] := by omega
  rw [e]
  have hm : L[(v - 1).toNat] ∈ L := List.getElem_mem hv
  have hi : List.idxOf? L[(v - 1).toNat] L = some (v - 1).toNat := by
    rw [List.idxOf?_eq_some_iff]
    refine ⟨hv, by simp, ?_⟩
    intro j hj hjv
    have := (List.Nodup.getElem_inj_iff (isPerm_nodup h)).mp (by simpa using hjv : L[j] = L[(v-1).toNat])
    omega
  rw [hi]
  show Except.ok (1 + ((v - 1).toNat : Int)) = Except.ok v
  congr 1; omega

theorem applyIso_eq (G : Graph) (f : Int → Py Int) (g : Int → Int)
    (h : ∀ e ∈ G, f e.1 = .ok (g e.1) ∧ f e.2 = .ok (g e.2)) : applyIso G f = .ok (rename g G) := by
  induction G with
  | nil => rfl
  | cons e G ih =>
    obtain ⟨h1, h2⟩ := h e (by simp)
    have ih := ih (fun e he => h e (by simp [he]))
    unfold applyIso at ih ⊢
    simp only [PolyUtils.pyMap, h1, h2, bind, Except.bind] at ih ⊢
    rw [ih]; rfl

/-- When `applyIso` returns, it is a renaming by the values `f` returned. -/
theorem applyIso_ok (G K : Graph) (f : Int → Py Int) (h : applyIso G f = .ok K) :
    ∃ g : Int → Int, (∀ v, Vertex G v → f v = .ok (g v)) ∧ K = rename g G := by
  refine ⟨fun v => match f v with | .ok a => a | .error _ => 0, ?_, ?_⟩
  · rintro v ⟨e, he, hv⟩
    obtain ⟨i, hi⟩ := List.getElem?_of_mem he
    obtain ⟨b, -, hb⟩ := (Air.pyMap_iff _ _ _).mp h |>.2 i e hi
    simp only [Air.bind_iff] at hb
    obtain ⟨a, ha, c, hc, -⟩ := hb
    rcases hv with rfl | rfl
    · simp [ha]
    · simp [hc]
  · obtain ⟨hl, hp⟩ := (Air.pyMap_iff _ _ _).mp h
    apply List.ext_getElem?
    intro i
    unfold rename
    rw [List.getElem?_map]
    cases hi : G[i]? with
    | none =>
      rw [List.getElem?_eq_none_iff] at hi
      simp only [Option.map_none, List.getElem?_eq_none_iff]; omega
    | some e =>
      obtain ⟨b, hb, hc⟩ := hp i e hi
      simp only [Air.bind_iff] at hc
      obtain ⟨a, ha, c, hc, hd⟩ := hc
      rw [hb]
      simp only [Except.ok.injEq] at hd
      simp [ha, hc, hd]

theorem rename_comp (g k : Int → Int) (G : Graph) : rename g (rename k G) = rename (g ∘ k) G := by
  simp [rename, Function.comp_def]

theorem rename_congr (g k : Int → Int) (G : Graph) (h : ∀ v, Vertex G v → g v = k v) : rename g G = rename k G := by
  apply List.map_congr_left
  intro e he
  rw [h e.1 ⟨e, he, Or.inl rfl⟩, h e.2 ⟨e, he, Or.inr rfl⟩]

theorem rename_id (G : Graph) : rename id G = G := by simp [rename]

theorem rename_inj_iff (g k : Int → Int) (G : Graph) : rename g G = rename k G ↔ ∀ v, Vertex G v → g v = k v := by
  refine ⟨fun h v hv => ?_, rename_congr g k G⟩
  obtain ⟨e, he, hv⟩ := hv
  have := List.map_inj_left.mp h e he
  simp only [Prod.mk.injEq] at this
  rcases hv with rfl | rfl
  · exact this.1
  · exact this.2

/-- A renaming injective on the vertices gives an isomorphic graph. -/
theorem isomorphic_of_rename (g : Int → Int) (G : Graph) (hg : ∀ v w, Vertex G v → Vertex G w → g v = g w → v = w) :
    Isomorphic G (rename g G) := by
  classical
  let s : Set Int := {v | Vertex G v}
  have hs : s.Finite := by
    refine Set.Finite.subset (List.finite_toSet (G.flatMap fun e => [e.1, e.2])) ?_
    rintro v ⟨e, he, hv⟩
    simp only [Set.mem_ofPred_eq, List.mem_flatMap]
    exact ⟨e, he, by simp [hv]⟩
  let emb : s ↪ Int := ⟨fun v => g v.1, fun v w h => Subtype.ext (hg v.1 w.1 v.2 w.2 h)⟩
  obtain ⟨σ, hσ⟩ := Cardinal.extend_function_of_lt emb (by
    rw [Cardinal.mk_int]
    exact Cardinal.lt_aleph0_iff_set_finite.mpr hs) ⟨Equiv.refl _⟩
  have hσ' : ∀ v, Vertex G v → σ v = g v := fun v hv => hσ ⟨v, hv⟩
  have e : rename g G = rename σ G := rename_congr _ _ _ fun v hv => (hσ' v hv).symm
  refine ⟨σ, fun a b => ?_⟩
  rw [e]
  have key : ∀ a b, (a, b) ∈ G ↔ (σ a, σ b) ∈ rename σ G := by
    intro a b
    unfold rename
    rw [List.mem_map]
    constructor
    · intro h; exact ⟨(a, b), h, rfl⟩
    · rintro ⟨⟨c, d⟩, h, h'⟩
      simp only [Prod.mk.injEq, EmbeddingLike.apply_eq_iff_eq] at h'
      obtain ⟨rfl, rfl⟩ := h'
      exact h
  unfold Adj
  rw [key a b, key b a]

theorem foldl_max_spec (a : Int) (l : List Int) : (∀ x ∈ a :: l, x ≤ l.foldl max a) ∧ l.foldl max a ∈ a :: l := by
  induction l generalizing a with
  | nil => simp
  | cons b l ih =>
    obtain ⟨h1, h2⟩ := ih (max a b)
    have h0 := h1 (max a b) (by simp)
    refine ⟨?_, ?_⟩
    · intro x hx
      simp only [List.foldl_cons]
      rcases List.mem_cons.mp hx with rfl | hx
      · omega
      · rcases List.mem_cons.mp hx with rfl | hx
        · omega
        · exact h1 x (by simp [hx])
    · simp only [List.foldl_cons]
      rcases List.mem_cons.mp h2 with h | h
      · rw [h]; rcases max_choice a b with h | h <;> simp [h]
      · simp [h]

theorem numVertices_eq {n : Nat} {G : Graph} (h : IsTop n G) : numVertices G = .ok n := by
  obtain ⟨hr, e, he, hn⟩ := h
  unfold numVertices pyMaxI
  have hmem : (n : Int) ∈ G.flatMap fun e => [e.1, e.2] := by
    rw [List.mem_flatMap]
    exact ⟨e, he, by rcases hn with h | h <;> simp [h]⟩
  have hle : ∀ x ∈ G.flatMap (fun e => [e.1, e.2]), x ≤ (n : Int) := by
    intro x hx
    rw [List.mem_flatMap] at hx
    obtain ⟨e, he, hx⟩ := hx
    have := hr e he
    simp at hx
    rcases hx with rfl | rfl <;> omega
  generalize G.flatMap (fun e => [e.1, e.2]) = l at hmem hle
  match l with
  | [] => simp at hmem
  | a :: l =>
    obtain ⟨h1, h2⟩ := foldl_max_spec a l
    have := h1 _ hmem
    have := hle _ h2
    simp only [Except.ok.injEq]; omega

/-- The honest run, when the two graphs have the same largest vertex. -/
theorem run_honest {n : Nat} {G : Graph} (hG : IsTop n G) {iso perm : List Int} (hi : IsPerm n iso) (hp : IsPerm n perm)
    (hG2 : IsTop n (rename (relabel iso) G)) (choice : Int) (hc : choice = 1 ∨ choice = 2) :
    runProtocol G (rename (relabel iso) G) iso perm choice = .ok true := by
  have hinit : init G (rename (relabel iso) G) = .ok (n : Int) := by
    simp [init, numVertices_eq hG, numVertices_eq hG2, bind, Except.bind, pyAssert]
  have hsend : sendCopy G perm = .ok (rename (relabel perm) G) := by
    apply applyIso_eq
    intro e he
    have := hG.1 e he
    exact ⟨permFun_eq perm e.1 this.1.1 (by rw [(isPerm_length hp)]; exact this.1.2),
      permFun_eq perm e.2 this.2.1 (by rw [(isPerm_length hp)]; exact this.2.2)⟩
  have hv : ∀ v, Vertex G v → 1 ≤ v ∧ v ≤ n := by
    rintro v ⟨e, he, h⟩
    have := hG.1 e he
    rcases h with rfl | rfl
    · exact this.1
    · exact this.2
  -- a one-sided inverse of `relabel perm`
  let inv : Int → Int := fun w => match invPermFun perm w with | .ok a => a | .error _ => 0
  have hinv : ∀ v, Vertex G v → invPermFun perm (relabel perm v) = .ok v := fun v h => invPermFun_eq hp v (hv v h).1 (hv v h).2
  have hverts : ∀ w, Vertex (rename (relabel perm) G) w → ∃ v, Vertex G v ∧ w = relabel perm v := by
    rintro w ⟨e, he, h⟩
    unfold rename at he
    rw [List.mem_map] at he
    obtain ⟨d, hd, rfl⟩ := he
    rcases h with rfl | rfl
    · exact ⟨d.1, ⟨d, hd, Or.inl rfl⟩, rfl⟩
    · exact ⟨d.2, ⟨d, hd, Or.inr rfl⟩, rfl⟩
  unfold runProtocol
  simp only [hinit, hsend, bind, Except.bind]
  rcases hc with rfl | rfl
  · have : applyIso (rename (relabel perm) G) (proveIso iso perm 1) = .ok (rename inv (rename (relabel perm) G)) := by
      apply applyIso_eq
      intro e he
      obtain ⟨v, hv1, h1⟩ := hverts e.1 ⟨e, he, Or.inl rfl⟩
      obtain ⟨w, hw1, h2⟩ := hverts e.2 ⟨e, he, Or.inr rfl⟩
      rw [h1, h2]
      simp [proveIso, inv, hinv v hv1, hinv w hw1]
    unfold accepts
    rw [this, rename_comp]
    have e : rename (inv ∘ relabel perm) G = G := by
      rw [rename_congr _ id, rename_id]
      intro v h
      simp [inv, hinv v h]
    simp [pyIdxI, pyIdx, bind, Except.bind, e]
  · have : applyIso (rename (relabel perm) G) (proveIso iso perm 2) =
        .ok (rename (relabel iso ∘ inv) (rename (relabel perm) G)) := by
      apply applyIso_eq
      intro e he
      obtain ⟨v, hv1, h1⟩ := hverts e.1 ⟨e, he, Or.inl rfl⟩
      obtain ⟨w, hw1, h2⟩ := hverts e.2 ⟨e, he, Or.inr rfl⟩
      rw [h1, h2]
      have p1 := permFun_eq iso v (hv v hv1).1 (by rw [(isPerm_length hi)]; exact (hv v hv1).2)
      have p2 := permFun_eq iso w (hv w hw1).1 (by rw [(isPerm_length hi)]; exact (hv w hw1).2)
      simp [proveIso, inv, hinv v hv1, hinv w hw1, bind, Except.bind, p1, p2]
    unfold accepts
    rw [this, rename_comp]
    have e : rename ((relabel iso ∘ inv) ∘ relabel perm) G = rename (relabel iso) G := by
      apply rename_congr
      intro v h
      simp [inv, hinv v h]
    simp [pyIdxI, pyIdx, bind, Except.bind, e]

end Verif.ZK
