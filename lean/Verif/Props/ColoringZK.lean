import Verif.Proofs.ColoringZK
/-! # C141: what the verifier of the 3-colouring protocol learns

The dictionary `coloring` gives every vertex `v` in `1, …, n` the colour `color v`, one of 0, 1, 2. What is drawn in one round is a
permutation of the colours (`IsPerm 3 perm`) and two secrets for every vertex. -/

namespace Verif.Props
open Spec
open Verif.Commit Verif.Bbs

variable {S T : Type} [DecidableEq T]

/-- **C141.** The two colours opened on an edge are a uniformly random pair of different colours, whatever the proper colouring and
the secrets: for every such pair `x ≠ y` exactly one of the six permutations makes the verifier decode `x` and `y`. -/
theorem C141_colors (owp : S → T) (hp : S → Nat) {n : Nat} {G : List (Int × Int)} (hG : IsTop n G)
    (coloring : List (Int × Int)) (hk : (coloring.map Prod.fst).Nodup) (color : Int → Fin 3)
    (hc : ∀ v : Int, 1 ≤ v → v ≤ n → (v, ((color v : Nat) : Int)) ∈ coloring) (hpr : Proper G color)
    (r : Fin n → S × S) (e : Int × Int) (he : e ∈ G) (x y : Fin 3) (hxy : x ≠ y) :
    ∃! perm : List Int, IsPerm 3 perm ∧ ∃ committed revealed c1 c2,
      Color.commitColoring owp hp G coloring perm (drawn r) = .ok committed ∧
      Color.revealColors G (drawn r) e.1 e.2 = .ok revealed ∧
      Color.lookup committed (min e.1 e.2) = .ok c1 ∧ decodeInt hp 2 revealed.1 c1 = .ok (x : Nat) ∧
      Color.lookup committed (max e.1 e.2) = .ok c2 ∧ decodeInt hp 2 revealed.2 c2 = .ok (y : Nat) := by
  have hr := hG.1 e he
  have hn : 0 < n := by omega
  have hu : 1 ≤ min e.1 e.2 ∧ min e.1 e.2 ≤ n := by omega
  have hv : 1 ≤ max e.1 e.2 ∧ max e.1 e.2 ≤ n := by omega
  have hne : color (min e.1 e.2) ≠ color (max e.1 e.2) := by
    rcases le_total e.1 e.2 with h | h
    · rw [min_eq_left h, max_eq_right h]; exact hpr e he
    · rw [min_eq_right h, max_eq_left h]; exact (hpr e he).symm
  -- which permutations these are
  have key : ∀ perm, (IsPerm 3 perm ∧ ∃ committed revealed c1 c2,
      Color.commitColoring owp hp G coloring perm (drawn r) = .ok committed ∧
      Color.revealColors G (drawn r) e.1 e.2 = .ok revealed ∧
      Color.lookup committed (min e.1 e.2) = .ok c1 ∧ decodeInt hp 2 revealed.1 c1 = .ok (x : Nat) ∧
      Color.lookup committed (max e.1 e.2) = .ok c2 ∧ decodeInt hp 2 revealed.2 c2 = .ok (y : Nat)) ↔
      (IsPerm 3 perm ∧ perm.getD (color (min e.1 e.2)) 0 = (x : Nat) ∧ perm.getD (color (max e.1 e.2)) 0 = (y : Nat)) := by
    intro perm
    refine and_congr_right fun hp3 => ?_
    have e1 := Color.commitColoring_eq owp hp hG coloring hk color hc perm hp3 (drawn r) (Color.secOf hn r)
      (fun v a b => Color.drawn_eq hn r v a b)
    have e2 := Color.revealColors_eq hG (drawn r) e he
    have e3 := Color.lookup_vertices n (fun v => Color.cells owp hp (Color.secOf hn r v) (perm.getD (color v) 0)) _ hu
    have e4 := Color.lookup_vertices n (fun v => Color.cells owp hp (Color.secOf hn r v) (perm.getD (color v) 0)) _ hv
    have b1 := Color.perm_entry perm hp3 (color (min e.1 e.2))
    have b2 := Color.perm_entry perm hp3 (color (max e.1 e.2))
    have d1 := Color.decode_cells owp hp (Color.secOf hn r (min e.1 e.2)) _ b1.1 b1.2
    have d2 := Color.decode_cells owp hp (Color.secOf hn r (max e.1 e.2)) _ b2.1 b2.2
    rw [← Color.drawn_eq hn r _ hu.1 hu.2] at d1
    rw [← Color.drawn_eq hn r _ hv.1 hv.2] at d2
    constructor
    · rintro ⟨committed, revealed, c1, c2, h1, h2, h3, h4, h5, h6⟩
      rw [e1] at h1; cases h1
      rw [e2] at h2; cases h2
      rw [e3] at h3; cases h3
      rw [e4] at h5; cases h5
      rw [d1] at h4
      rw [d2] at h6
      have := Except.ok.inj h4
      have := Except.ok.inj h6
      omega
    · rintro ⟨h1, h2⟩
      refine ⟨_, _, _, _, e1, e2, e3, ?_, e4, ?_⟩
      · rw [d1, h1]; rfl
      · rw [d2, h2]; rfl
  obtain ⟨L, hL, huniq⟩ := Color.perm_unique _ _ x y hne hxy
  exact ⟨L, (key L).mpr hL, fun M hM => huniq M ((key M).mp hM)⟩

omit [DecidableEq T] in
/-- **C141.** The verifier learns nothing else, if the commitments hide perfectly (the secrets come in pairs that the one-way
function does not tell apart and that the predicate does): everything the verifier receives in a round, the commitments and the
opening of the edge it chose, arises from equally many draws for any two proper colourings. The scheme the code builds hides only as
far as squaring is hard to invert: its secrets are squares, on which squaring is injective, see `C141_injective_refuted`. -/
theorem C141_zero_knowledge_partial [Finite S] (owp : S → T) (hp : S → Nat) (hb : ∀ s, hp s ≤ 1) (flip : S → S)
    (hi : ∀ s, flip (flip s) = s) (hf : ∀ s, owp (flip s) = owp s ∧ hp (flip s) ≠ hp s)
    {n : Nat} {G : List (Int × Int)} (hG : IsTop n G)
    (coloring coloring' : List (Int × Int)) (hk : (coloring.map Prod.fst).Nodup) (hk' : (coloring'.map Prod.fst).Nodup)
    (color color' : Int → Fin 3) (hc : ∀ v : Int, 1 ≤ v → v ≤ n → (v, ((color v : Nat) : Int)) ∈ coloring)
    (hc' : ∀ v : Int, 1 ≤ v → v ≤ n → (v, ((color' v : Nat) : Int)) ∈ coloring') (hpr : Proper G color) (hpr' : Proper G color')
    (e : Int × Int) (he : e ∈ G) (committed : List (Int × List (T × Nat))) (revealed : List S × List S) :
    {x : List Int × (Fin n → S × S) | IsPerm 3 x.1 ∧ Color.commitColoring owp hp G coloring x.1 (drawn x.2) = .ok committed ∧
      Color.revealColors G (drawn x.2) e.1 e.2 = .ok revealed}.ncard =
    {x : List Int × (Fin n → S × S) | IsPerm 3 x.1 ∧ Color.commitColoring owp hp G coloring' x.1 (drawn x.2) = .ok committed ∧
      Color.revealColors G (drawn x.2) e.1 e.2 = .ok revealed}.ncard :=
  le_antisymm
    (Color.views_le owp hp hb flip hf hi hG coloring coloring' hk hk' color color' hc hc' hpr hpr' e he committed revealed)
    (Color.views_le owp hp hb flip hf hi hG coloring' coloring hk' hk color' color hc' hc hpr' hpr e he committed revealed)

/-- **C141.** Nothing but edges is opened: a query for two vertices that are not joined by an edge raises. -/
theorem C141_non_edge {n : Nat} {G : List (Int × Int)} (hG : IsTop n G) (secrets : Int → List S) (u v : Int) (h : ¬ Adj G u v) :
    Color.revealColors G secrets u v = .error .exception := by
  unfold Color.revealColors
  rw [ZK.numVertices_eq hG]
  show (if (min u v, max u v) ∈ Color.sortEdges G then _ else _) = _
  rw [if_neg]
  intro hm
  obtain ⟨e, he, heq⟩ := List.mem_map.mp hm
  simp only [Prod.mk.injEq] at heq
  apply h
  have : e.1 = u ∧ e.2 = v ∨ e.1 = v ∧ e.2 = u := by omega
  rcases this with ⟨rfl, rfl⟩ | ⟨rfl, rfl⟩
  · exact Or.inl he
  · exact Or.inr he

/-- **C141 is false** of a verifier that asks more than once: the prover opens every edge it is asked for under one commitment, and
the openings of all edges give a proper colouring of the graph. -/
theorem C141_queries_refuted (owp : S → T) (hp : S → Nat) {n : Nat} {G : List (Int × Int)} (hG : IsTop n G)
    (coloring : List (Int × Int)) (hk : (coloring.map Prod.fst).Nodup) (color : Int → Fin 3)
    (hc : ∀ v : Int, 1 ≤ v → v ≤ n → (v, ((color v : Nat) : Int)) ∈ coloring) (hpr : Proper G color)
    (perm : List Int) (hp3 : IsPerm 3 perm) (r : Fin n → S × S) :
    ∃ committed, Color.commitColoring owp hp G coloring perm (drawn r) = .ok committed ∧
      ∃ learned : Int → Nat, Proper G learned ∧ (∀ v, learned v < 3) ∧ ∀ e ∈ G, ∃ revealed c1 c2,
        Color.revealColors G (drawn r) e.1 e.2 = .ok revealed ∧
        Color.lookup committed (min e.1 e.2) = .ok c1 ∧ decodeInt hp 2 revealed.1 c1 = .ok (learned (min e.1 e.2)) ∧
        Color.lookup committed (max e.1 e.2) = .ok c2 ∧ decodeInt hp 2 revealed.2 c2 = .ok (learned (max e.1 e.2)) := by
  have hn : 0 < n := by
    obtain ⟨hr, e, he, -⟩ := hG
    have := hr e he
    omega
  refine ⟨_, Color.commitColoring_eq owp hp hG coloring hk color hc perm hp3 (drawn r) (Color.secOf hn r)
      (fun v a b => Color.drawn_eq hn r v a b), fun v => (perm.getD (color v) 0).toNat, ?_, ?_, ?_⟩
  · intro e he heq
    have a := Color.perm_entry perm hp3 (color e.1)
    have b := Color.perm_entry perm hp3 (color e.2)
    have hl := ZK.isPerm_length hp3
    have l1 : (color e.1 : Nat) < perm.length := by have := (color e.1).isLt; omega
    have l2 : (color e.2 : Nat) < perm.length := by have := (color e.2).isLt; omega
    have heq : perm.getD (color e.1) 0 = perm.getD (color e.2) 0 := by simp only at heq; omega
    rw [List.getD_eq_getElem _ _ l1, List.getD_eq_getElem _ _ l2] at heq
    exact hpr e he (Fin.ext ((List.Nodup.getElem_inj_iff (ZK.isPerm_nodup hp3)).mp heq))
  · intro v
    have := Color.perm_entry perm hp3 (color v)
    simp only
    omega
  · intro e he
    have hr := hG.1 e he
    have hu : 1 ≤ min e.1 e.2 ∧ min e.1 e.2 ≤ n := by omega
    have hv : 1 ≤ max e.1 e.2 ∧ max e.1 e.2 ≤ n := by omega
    have b1 := Color.perm_entry perm hp3 (color (min e.1 e.2))
    have b2 := Color.perm_entry perm hp3 (color (max e.1 e.2))
    have d1 := Color.decode_cells owp hp (Color.secOf hn r (min e.1 e.2)) _ b1.1 b1.2
    have d2 := Color.decode_cells owp hp (Color.secOf hn r (max e.1 e.2)) _ b2.1 b2.2
    rw [← Color.drawn_eq hn r _ hu.1 hu.2] at d1
    rw [← Color.drawn_eq hn r _ hv.1 hv.2] at d2
    exact ⟨_, _, _, Color.revealColors_eq hG (drawn r) e he, Color.lookup_vertices n _ _ hu, d1, Color.lookup_vertices n _ _ hv, d2⟩

omit [DecidableEq T] in
/-- **C141 is false** without the condition on the commitments: if the one-way function is injective, the commitments alone
determine the colouring up to the names of the colours, so no two colourings that differ otherwise share a single view. -/
theorem C141_injective_refuted (owp : S → T) (hinj : Function.Injective owp) (hp : S → Nat) {n : Nat} {G : List (Int × Int)}
    (hG : IsTop n G)
    (coloring coloring' : List (Int × Int)) (hk : (coloring.map Prod.fst).Nodup) (hk' : (coloring'.map Prod.fst).Nodup)
    (color color' : Int → Fin 3) (hc : ∀ v : Int, 1 ≤ v → v ≤ n → (v, ((color v : Nat) : Int)) ∈ coloring)
    (hc' : ∀ v : Int, 1 ≤ v → v ≤ n → (v, ((color' v : Nat) : Int)) ∈ coloring') (perm perm' : List Int) (hp3 : IsPerm 3 perm)
    (hp3' : IsPerm 3 perm') (r r' : Fin n → S × S)
    (h : Color.commitColoring owp hp G coloring perm (drawn r) = Color.commitColoring owp hp G coloring' perm' (drawn r'))
    (v w : Int) (hv : 1 ≤ v ∧ v ≤ n) (hw : 1 ≤ w ∧ w ≤ n) : color v = color w ↔ color' v = color' w := by
  have hn : 0 < n := by omega
  rw [Color.commitColoring_eq owp hp hG coloring hk color hc perm hp3 (drawn r) (Color.secOf hn r)
      (fun v a b => Color.drawn_eq hn r v a b),
    Color.commitColoring_eq owp hp hG coloring' hk' color' hc' perm' hp3' (drawn r') (Color.secOf hn r')
      (fun v a b => Color.drawn_eq hn r' v a b)] at h
  have h := Except.ok.inj h
  have key : ∀ v : Int, 1 ≤ v ∧ v ≤ n → perm.getD (color v) 0 = perm'.getD (color' v) 0 := by
    intro v hv
    have := List.map_inj_left.mp h v ((Color.mem_vertices n v).mpr hv)
    simp only [Color.cells, Prod.mk.injEq, List.cons.injEq, true_and, and_true] at this
    obtain ⟨⟨h1, h2⟩, h3, h4⟩ := this
    rw [hinj h1] at h2
    rw [hinj h3] at h4
    have h2 := Nat.xor_right_injective h2
    have h4 := Nat.xor_right_injective h4
    have := Color.perm_entry perm hp3 (color v)
    have := Color.perm_entry perm' hp3' (color' v)
    omega
  have hinjL : ∀ L : List Int, IsPerm 3 L → ∀ a b : Fin 3, L.getD a 0 = L.getD b 0 → a = b := by
    intro L hL a b hab
    have hl := ZK.isPerm_length hL
    have l1 : (a : Nat) < L.length := by omega
    have l2 : (b : Nat) < L.length := by omega
    rw [List.getD_eq_getElem _ _ l1, List.getD_eq_getElem _ _ l2] at hab
    exact Fin.ext ((List.Nodup.getElem_inj_iff (ZK.isPerm_nodup hL)).mp hab)
  constructor
  · intro hvw
    apply hinjL perm' hp3'
    rw [← key v hv, ← key w hw, hvw]
  · intro hvw
    apply hinjL perm hp3
    rw [key v hv, key w hw, hvw]

/-- A graph with two proper colourings that are not renamings of each other. -/
example : IsTop 4 [(1, 2), (2, 3), (4, 3)] ∧
    Proper [(1, 2), (2, 3), (4, 3)] (fun v : Int => if v = 1 ∨ v = 3 then (0 : Fin 3) else 1) ∧
    Proper [(1, 2), (2, 3), (4, 3)] (fun v : Int => if v = 1 then (0 : Fin 3) else if v = 2 then 1 else if v = 3 then 2 else 0) := by
  refine ⟨⟨by unfold InRange; decide, (4, 3), by decide, by decide⟩, by unfold Proper; decide, by unfold Proper; decide⟩

/-- Commitments that hide perfectly: of a secret of two bits, one is shown and the other masks the bit. This and the graph above meet
the hypotheses of `C141_zero_knowledge_partial`, and the views counted exist. -/
example : (∀ s : Fin 4, s.val % 2 ≤ 1) ∧ (∀ s : Fin 4, 3 - (3 - s) = s) ∧
    ∀ s : Fin 4, (fun s : Fin 4 => (s.val + 1) / 2 % 2) (3 - s) = (s.val + 1) / 2 % 2 ∧ (3 - s).val % 2 ≠ s.val % 2 := by decide

/-- This meets the hypotheses of `C141_colors`, `C141_queries_refuted`: the edge (4, 3) opened with the colours 2 and 0. -/
example : Color.commitColoring (fun s : Nat => bbs 77 s) parityNat [(1, 2), (2, 3), (4, 3)] [(1, 0), (2, 1), (3, 0), (4, 1)] [2, 0, 1]
      (drawn (fun i : Fin 4 => ((i : Nat), (i : Nat) + 4))) =
      .ok [(1, [(0, 1), (16, 1)]), (2, [(1, 1), (25, 0)]), (3, [(4, 0), (36, 0)]), (4, [(9, 0), (49, 1)])] ∧
    Color.revealColors [(1, 2), (2, 3), (4, 3)] (drawn (fun i : Fin 4 => ((i : Nat), (i : Nat) + 4))) 4 3 = .ok ([2, 6], [3, 7]) ∧
    decodeInt parityNat 2 [2, 6] [((4 : Int), 0), (36, 0)] = .ok 2 := by
  decide +kernel

/-- This meets the hypotheses of `C141_non_edge`. -/
example : ¬ Adj [(1, 2), (2, 3), (4, 3)] 1 3 := by unfold Adj; decide

/-- This meets the hypotheses of `C141_injective_refuted`: two draws with the same commitments, for two colourings that only name
the colours differently. -/
example : Function.Injective (id : Nat → Nat) ∧
    Color.commitColoring (id : Nat → Nat) parityNat [(1, 2), (2, 3)] [(1, 0), (2, 1), (3, 0)] [0, 1, 2] (drawn fun i : Fin 3 => (i.val, 5)) =
      Color.commitColoring id parityNat [(1, 2), (2, 3)] [(1, 1), (2, 2), (3, 1)] [2, 0, 1] (drawn fun i : Fin 3 => (i.val, 5)) := by
  refine ⟨Function.injective_id, by decide +kernel⟩

end Verif.Props
