import Verif.Spec.SecretIsomorphism
import Verif.Proofs.ZKTranscripts
import Verif.Props.ZeroKnowledge
/-!
# C145: the isomorphism is a secret of the prover

The full property: what the verifier of the isomorphism protocol knows, the two graphs and the messages of the runs, does not let
anyone compute the isomorphism or take the prover's place. It is false: the two graphs are compared as **lists** of edges
(zero_knowledge.py:136-137), so the runs are accepted only for a pair of graphs listed in corresponding order, and then the
isomorphism can be read off the two lists.
-/

namespace Verif.Props
open Spec
open Verif.ZK (runProtocol accepts messages)

theorem zipMap {α β : Type} (f : α → β) : (l : List α) → l.zip (l.map f) = l.map fun a => (a, f a)
  | [] => rfl
  | a :: l => by simp [zipMap f l]

theorem opposite_rename (g : Int → Int) (G : List (Int × Int)) (v : Int) (h : Vertex G v) : opposite G (rename g G) v = g v := by
  obtain ⟨e, he, hv⟩ := h
  unfold opposite
  have hz : G.zip (rename g G) = G.map fun e => (e, (g e.1, g e.2)) := by
    exact zipMap _ G
  rw [hz]
  cases hf : (G.map fun e => (e, (g e.1, g e.2))).find? fun ed => decide (v = ed.1.1 ∨ v = ed.1.2) with
  | none =>
    rw [List.find?_eq_none] at hf
    exact absurd (by simpa using hv) (hf (e, (g e.1, g e.2)) (List.mem_map.mpr ⟨e, he, rfl⟩))
  | some ed =>
    have hm := List.mem_of_find?_eq_some hf
    have hp := List.find?_some hf
    obtain ⟨d, hd, rfl⟩ := List.mem_map.mp hm
    simp only [decide_eq_true_eq] at hp
    by_cases h1 : v = d.1
    · simp [h1]
    · rcases hp with hp | hp
      · exact absurd hp h1
      · simp only [if_neg h1]; rw [hp]

/-- **C145 is false.** Whoever has seen the two graphs can write down the images of all vertices that are the end of an edge. This is
so for every pair of graphs for which the prover of the list `iso` is accepted on challenge 2. -/
theorem C145_secret_refuted {n : Nat} {G1 G2 : List (Int × Int)} (h1 : IsTop n G1) (h2 : IsTop n G2) {iso perm : List Int}
    (hi : iso.length = n) (hp : IsPerm n perm) (ha : runProtocol G1 G2 iso perm 2 = .ok true) (v : Int) (hv : Vertex G1 v) :
    opposite G1 G2 v = relabel iso v := by
  have hG : G2 = rename (relabel iso) G1 := by
    unfold runProtocol accepts at ha
    rw [ZK.init_eq h1 h2, ZK.sendCopy_eq h1.1 hp] at ha
    simp only [bind, Except.bind] at ha
    rw [ZK.applyIso_prove h1.1 hi hp] at ha
    simpa [ZK.pyIdxI, pyIdx] using ha
  rw [hG]
  exact opposite_rename _ _ _ hv

/-- **C145 is false.** Whoever has seen the two graphs can take the prover's place: the prover of the list read off the graphs
is accepted, whatever permutation it draws and whichever graph the verifier chooses. -/
theorem C145_impostor_refuted {n : Nat} {G1 G2 : List (Int × Int)} (h1 : IsTop n G1) (h2 : IsTop n G2) {iso : List Int}
    (hG : G2 = rename (relabel iso) G1) (perm : List Int) (hp : IsPerm n perm) (choice : Int) (hc : choice = 1 ∨ choice = 2) :
    runProtocol G1 G2 (guess n G1 G2) perm choice = .ok true := by
  have hrel : ∀ v, Vertex G1 v → relabel (guess n G1 G2) v = relabel iso v := by
    intro v hv
    obtain ⟨e, he, hev⟩ := hv
    have hr := h1.1 e he
    have hr : 1 ≤ v ∧ v ≤ n := by rcases hev with rfl | rfl; exacts [hr.1, hr.2]
    have hk : (v - 1).toNat < (guess n G1 G2).length := by simp [guess]; omega
    rw [← opposite_rename (relabel iso) G1 v ⟨e, he, hev⟩, ← hG]
    unfold relabel
    rw [List.getD_eq_getElem _ _ hk]
    simp only [guess, List.getElem_map, List.getElem_range]
    rw [show (((v - 1).toNat : Nat) : Int) + 1 = v by omega]; ring
  unfold runProtocol accepts
  rw [ZK.init_eq h1 h2, ZK.sendCopy_eq h1.1 hp]
  simp only [bind, Except.bind]
  rw [ZK.applyIso_prove h1.1 (by simp [guess]) hp, ZK.rename_congr _ _ _ hrel, ← hG]
  rcases hc with rfl | rfl <;> simp [ZK.pyIdxI, pyIdx]

/-- **C145**, what stays secret. Two permutations lead to the same public graph exactly when they agree on the vertices that are
the end of an edge, and then the messages of every run are the same for both: nothing ever depends on the images of the others. -/
theorem C145_isolated_partial {n : Nat} {G1 : List (Int × Int)} (h1 : IsTop n G1) {iso iso' : List Int} (hi : IsPerm n iso)
    (hi' : IsPerm n iso') :
    (rename (relabel iso) G1 = rename (relabel iso') G1 ↔ ∀ v, Vertex G1 v → relabel iso v = relabel iso' v) ∧
    ∀ G2, G2 = rename (relabel iso) G1 → G2 = rename (relabel iso') G1 → IsTop n G2 → ∀ perm choice, IsPerm n perm →
      ∃ H w w', messages G1 G2 iso perm choice = .ok (H, choice, w) ∧ messages G1 G2 iso' perm choice = .ok (H, choice, w') ∧
        ∀ u, Vertex H u → w u = w' u := by
  refine ⟨ZK.rename_inj_iff _ _ _, ?_⟩
  intro G2 e e' h2 perm choice hp
  refine ⟨_, _, _, ZK.messages_eq h1 h2 iso hp choice, ZK.messages_eq h1 h2 iso' hp choice, ?_⟩
  rintro u ⟨e0, he0, hu⟩
  obtain ⟨d, hd, rfl⟩ := List.mem_map.mp he0
  have hv : ∃ v, Vertex G1 v ∧ u = relabel perm v := by
    rcases hu with rfl | rfl
    · exact ⟨d.1, ⟨d, hd, Or.inl rfl⟩, rfl⟩
    · exact ⟨d.2, ⟨d, hd, Or.inr rfl⟩, rfl⟩
  obtain ⟨v, hv, rfl⟩ := hv
  have hr : 1 ≤ v ∧ v ≤ n := by
    obtain ⟨e1, he1, h⟩ := hv
    have := h1.1 e1 he1
    rcases h with rfl | rfl; exacts [this.1, this.2]
  have hagree := (ZK.rename_inj_iff _ _ _).mp (e.symm.trans e') v hv
  unfold ZK.proveIso
  split_ifs
  · rfl
  · simp only [ZK.invPermFun_eq hp v hr.1 hr.2, bind, Except.bind]
    rw [ZK.permFun_eq iso v hr.1 (by rw [ZK.isPerm_length hi]; exact hr.2),
      ZK.permFun_eq iso' v hr.1 (by rw [ZK.isPerm_length hi']; exact hr.2), hagree]

/-- The triangle with a tail. This meets the hypotheses of `C145_secret_refuted` and `C145_impostor_refuted`. -/
example : IsTop 4 tailG ∧ IsTop 4 (rename (relabel [2, 0, 3, 1]) tailG) ∧
    runProtocol tailG (rename (relabel [2, 0, 3, 1]) tailG) [2, 0, 3, 1] [3, 0, 1, 2] 2 = .ok true ∧
    guess 4 tailG (rename (relabel [2, 0, 3, 1]) tailG) = [2, 0, 3, 1] :=
  ⟨tailG_top, ⟨by unfold InRange; decide, (4, 3), by decide, by decide⟩, by decide, by decide⟩

/-- A graph with two isolated vertices, sent to two different places: the public graph is the same. This meets the hypotheses of
`C145_isolated_partial`. -/
example : IsTop 4 [(1, 4)] ∧ IsPerm 4 [0, 1, 2, 3] ∧ IsPerm 4 [0, 2, 1, 3] ∧
    rename (relabel [0, 1, 2, 3]) [(1, 4)] = rename (relabel [0, 2, 1, 3]) [(1, 4)] ∧
    IsTop 4 (rename (relabel [0, 1, 2, 3]) [(1, 4)]) :=
  ⟨⟨by unfold InRange; decide, (1, 4), by decide, by decide⟩, by unfold IsPerm; decide, by unfold IsPerm; decide, by decide,
    ⟨by unfold InRange; decide, (1, 4), by decide, by decide⟩⟩

end Verif.Props
