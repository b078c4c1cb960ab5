import Verif.Proofs.ZKTranscripts
import Verif.Props.ZeroKnowledge
import Mathlib.Data.Set.Card
/-! # C59, C60, C123: transcripts of the isomorphism protocol, numbers out of range -/

namespace Verif.Props
open Spec
open Verif.ZK (runProtocol accepts simulate messages)

/-- **C59**, exactly: between two graphs with the same largest vertex `n`, and for any list `iso` of `n` numbers, a run with challenge 1 is
accepted, and a run with challenge 2 returns whether `iso` renames the first edge list to the second. -/
theorem C59_exact_partial {n : Nat} {G1 G2 : List (Int × Int)} (h1 : IsTop n G1) (h2 : IsTop n G2) {iso : List Int}
    (hi : iso.length = n) (perm : List Int) (hp : IsPerm n perm) :
    runProtocol G1 G2 iso perm 1 = .ok true ∧
      runProtocol G1 G2 iso perm 2 = .ok (decide (G2 = rename (relabel iso) G1)) := by
  unfold runProtocol accepts
  rw [ZK.init_eq h1 h2, ZK.sendCopy_eq h1.1 hp]
  simp only [bind, Except.bind]
  rw [ZK.applyIso_prove h1.1 hi hp, ZK.applyIso_prove h1.1 hi hp]
  simp [ZK.pyIdxI, pyIdx]

/-- A list that is not an isomorphism: both outcomes occur. -/
example : runProtocol tailG tailG [1, 0, 2, 3] [3, 0, 1, 2] 2 = .ok false ∧ IsTop 4 tailG ∧
    tailG ≠ rename (relabel [1, 0, 2, 3]) tailG := ⟨rfl, tailG_top, by decide⟩

/-- **C59 is false** for graphs whose vertices are numbered from 0: then a run with challenge 1 is rejected whatever the permutation drawn. -/
theorem C59_zero_vertex_refuted (n : Nat) (hn : 1 ≤ n) (G1 G2 : List (Int × Int))
    (h1 : ∀ e ∈ G1, (0 ≤ e.1 ∧ e.1 ≤ n) ∧ (0 ≤ e.2 ∧ e.2 ≤ n)) (hz : Vertex G1 0) (hv1 : Vertex G1 n)
    (h2 : ∀ e ∈ G2, e.1 ≤ n ∧ e.2 ≤ n) (hv2 : Vertex G2 n) (iso perm : List Int) (hp : IsPerm n perm) :
    runProtocol G1 G2 iso perm 1 = .ok false := by
  have hm1 : ZK.numVertices G1 = .ok (n : Int) := ZK.numVertices_of (fun e he => ⟨(h1 e he).1.2, (h1 e he).2.2⟩) hv1
  have hm2 : ZK.numVertices G2 = .ok (n : Int) := ZK.numVertices_of h2 hv2
  have hl := ZK.isPerm_length hp
  -- where a vertex goes: vertex 0 goes where vertex `n` goes
  let im : Int → Int := fun v => relabel perm (if v = 0 then n else v)
  have him : ∀ v : Int, 0 ≤ v → v ≤ n → ZK.permFun perm v = .ok (im v) := by
    intro v a b
    by_cases hv : v = 0
    · subst hv
      unfold ZK.permFun ZK.pyIdxI
      rw [if_neg (by omega), if_pos (by omega)]
      have : ((perm.length : Int) + (0 - 1)).toNat = ((n : Int) - 1).toNat := by omega
      rw [this]
      simp only [im, if_true]
      unfold relabel pyIdx
      rw [List.getElem?_eq_getElem (by omega), List.getD_eq_getElem _ _ (by omega)]; rfl
    · simp only [im, if_neg hv]
      exact ZK.permFun_eq perm v (by omega) (by omega)
  have hsend : ZK.sendCopy G1 perm = .ok (rename im G1) :=
    ZK.applyIso_eq _ _ _ fun e he => ⟨him _ (h1 e he).1.1 (h1 e he).1.2, him _ (h1 e he).2.1 (h1 e he).2.2⟩
  let back : Int → Int := fun v => if v = 0 then n else v
  have hback : ZK.applyIso (rename im G1) (ZK.proveIso iso perm 1) = .ok (rename back G1) := by
    have : ∀ v : Int, 0 ≤ v → v ≤ n → ZK.proveIso iso perm 1 (im v) = .ok (back v) := by
      intro v a b
      have : 1 ≤ back v ∧ back v ≤ n := by simp only [back]; split <;> omega
      simpa [ZK.proveIso, im, back] using ZK.invPermFun_eq hp (back v) this.1 this.2
    clear hsend hz hm1 hv1
    induction G1 with
    | nil => rfl
    | cons e G ih =>
      have ih := ih fun e h => h1 e (by simp [h])
      have he := h1 e (by simp)
      unfold ZK.applyIso rename at *
      simp only [List.map_cons, PolyUtils.pyMap]
      rw [ih, this _ he.1.1 he.1.2, this _ he.2.1 he.2.2]
      rfl
  have hne : G1 ≠ rename back G1 := by
    intro h
    obtain ⟨e, he, hv⟩ := hz
    rw [h] at he
    unfold rename at he
    obtain ⟨d, -, rfl⟩ := List.mem_map.mp he
    have : ∀ v, back v ≠ 0 := by intro v; simp only [back]; split <;> omega
    rcases hv with hv | hv
    · exact this _ hv.symm
    · exact this _ hv.symm
  have hinit : ZK.init G1 G2 = .ok (n : Int) := by simp [ZK.init, hm1, hm2, bind, Except.bind, pyAssert]
  unfold runProtocol accepts
  rw [hinit, hsend]
  simp only [bind, Except.bind]
  rw [hback]
  simp [ZK.pyIdxI, pyIdx, hne]

/-- The path 0 – 1 – 2 and itself, with the identity. -/
example : runProtocol [(0, 1), (1, 2)] [(0, 1), (1, 2)] [0, 1] [1, 0] 1 = .ok false ∧
    Vertex [(0, 1), (1, 2)] 0 ∧ Vertex [(0, 1), (1, 2)] ((2 : Nat) : Int) :=
  ⟨rfl, ⟨(0, 1), by decide, by decide⟩, ⟨(1, 2), by decide, by decide⟩⟩

/-- **C60**: the challenges 0 and -1 are answered like 2 and 1, and every other one raises `IndexError`. -/
theorem C60_challenges (G1 G2 H : List (Int × Int)) (f : Int → Py Int) (c : Int) :
    accepts G1 G2 f c H = if c = 1 ∨ c = -1 then accepts G1 G2 f 1 H else if c = 2 ∨ c = 0 then accepts G1 G2 f 2 H
      else .error .indexError := by
  have key : ∀ c : Int, ZK.pyIdxI [G1, G2] (c - 1) = if c = 1 ∨ c = -1 then .ok G1 else if c = 2 ∨ c = 0 then .ok G2
      else .error .indexError := by
    intro c
    by_cases h1 : c = 1
    · subst h1; rfl
    by_cases h2 : c = -1
    · subst h2; rfl
    by_cases h3 : c = 2
    · subst h3; rfl
    by_cases h4 : c = 0
    · subst h4; rfl
    rw [if_neg (by omega), if_neg (by omega)]
    unfold ZK.pyIdxI
    split
    · have : (c - 1).toNat ≥ 2 := by omega
      unfold pyIdx
      rw [List.getElem?_eq_none (by simpa using this)]
    · rw [if_neg (by simp; omega)]
  unfold accepts
  rw [key c]
  by_cases h1 : c = 1 ∨ c = -1
  · rw [if_pos h1, if_pos h1]; rfl
  · rw [if_neg h1, if_neg h1]
    by_cases h2 : c = 2 ∨ c = 0
    · rw [if_pos h2, if_pos h2]; rfl
    · rw [if_neg h2, if_neg h2]; rfl

example : accepts starG pathG (fun v => .ok v) 0 pathG = .ok true ∧ accepts starG pathG (fun v => .ok v) 3 pathG = .error .indexError :=
  ⟨rfl, rfl⟩

/-- **C123.** The transcript of an honest run: the verifier accepts it, for every permutation drawn and both challenges. -/
theorem C123_transcript_accepted {n : Nat} {G1 G2 : List (Int × Int)} (h1 : IsTop n G1) (h2 : IsTop n G2) {iso : List Int}
    (hi : IsPerm n iso) (hG : G2 = rename (relabel iso) G1) (perm : List Int) (hp : IsPerm n perm) (choice : Int)
    (hc : choice = 1 ∨ choice = 2) : ∃ w, messages G1 G2 iso perm choice = .ok (rename (relabel perm) G1, choice, w) ∧
      accepts G1 G2 w choice (rename (relabel perm) G1) = .ok true := by
  refine ⟨_, ZK.messages_eq h1 h2 iso hp choice, ?_⟩
  unfold accepts
  rw [ZK.applyIso_prove h1.1 (ZK.isPerm_length hi) hp]
  rcases hc with rfl | rfl
  · simp [ZK.pyIdxI, pyIdx, bind, Except.bind]
  · simp [ZK.pyIdxI, pyIdx, bind, Except.bind, hG]

/-- **C123.** The graph sent reveals nothing: for each challenge and every graph `H`, as many permutations make the honest protocol send `H`
as make the simulator, which does not know the isomorphism, send `H`. Missing from the full property: the witness, see
`C123_distribution_refuted`. -/
theorem C123_sent_graph_partial {n : Nat} {G1 G2 : List (Int × Int)} (h1 : IsTop n G1) (h2 : IsTop n G2) {iso : List Int}
    (hi : IsPerm n iso) (hG : G2 = rename (relabel iso) G1) (choice : Int) (hc : choice = 1 ∨ choice = 2) (H : List (Int × Int)) :
    {perm : List Int | IsPerm n perm ∧ ∃ w, messages G1 G2 iso perm choice = .ok (H, choice, w)}.ncard =
      {perm : List Int | IsPerm n perm ∧ ∃ w, simulate G1 G2 perm choice = .ok (H, choice, w)}.ncard := by
  have hm : ∀ perm, IsPerm n perm → ((∃ w, messages G1 G2 iso perm choice = .ok (H, choice, w)) ↔ rename (relabel perm) G1 = H) := by
    intro perm hp
    rw [ZK.messages_eq h1 h2 iso hp choice]
    simp
  rcases hc with rfl | rfl
  · congr 1
    ext perm
    refine and_congr_right fun hp => ?_
    rw [hm perm hp, ZK.simulate_eq (Or.inl ⟨rfl, rfl⟩) h1 hp]
    simp
  · have hs : ∀ perm, IsPerm n perm → ((∃ w, simulate G1 G2 perm 2 = .ok (H, 2, w)) ↔ rename (relabel perm) G2 = H) := by
      intro perm hp
      rw [ZK.simulate_eq (Or.inr ⟨rfl, rfl⟩) h2 hp]
      simp
    have hl := ZK.isPerm_length hi
    have hcomp : ∀ L, rename (relabel (ZK.compose L iso)) G1 = rename (relabel L) G2 := by
      intro L
      rw [hG, ZK.rename_comp]
      exact ZK.rename_congr _ _ _ fun v hv =>
        ZK.relabel_compose hl v (ZK.vertex_range h1.1 v hv).1 (ZK.vertex_range h1.1 v hv).2
    symm
    refine Set.ncard_congr (fun L _ => ZK.compose L iso) ?_ ?_ ?_
    · rintro L ⟨hL, h⟩
      have hc := ZK.compose_isPerm hL hi
      refine ⟨hc, (hm _ hc).mpr ?_⟩
      rw [hcomp]; exact (hs _ hL).mp h
    · rintro L M ⟨hL, -⟩ ⟨hM, -⟩ e
      refine ZK.relabel_ext (ZK.isPerm_length hL) (ZK.isPerm_length hM) fun w a b => ?_
      obtain ⟨v, p, q, rfl⟩ := ZK.relabel_surj hi w a b
      rw [← ZK.relabel_compose hl v p q, ← ZK.relabel_compose hl v p q]
      exact congrArg (relabel · v) e
    · rintro P ⟨hP, h⟩
      have hv := ZK.inverse_isPerm hi
      have hL := ZK.compose_isPerm hP hv
      have hPe : ZK.compose (ZK.compose P (ZK.inverse n iso)) iso = P := by
        refine ZK.relabel_ext (n := n) (by simp [ZK.compose, hl]) (ZK.isPerm_length hP) fun v a b => ?_
        have := ZK.relabel_range hi v a b
        rw [ZK.relabel_compose hl v a b, ZK.relabel_compose (ZK.isPerm_length hv) _ this.1 this.2, ZK.relabel_inverse hi v a b]
      refine ⟨_, ⟨hL, (hs _ hL).mpr ?_⟩, hPe⟩
      rw [← hcomp, hPe]
      exact (hm _ hP).mp h

/-- The sets counted in `C123_sent_graph_partial` are not empty. This meets the hypotheses of `C123_transcript_accepted`. -/
example : ∃ w, messages tailG (rename (relabel [2, 0, 3, 1]) tailG) [2, 0, 3, 1] [3, 0, 1, 2] 2 = .ok ([(4, 1), (1, 2), (2, 4), (2, 3)], 2, w) :=
  ⟨_, rfl⟩

/-- **C123 is false** of whole transcripts: here is one of the simulator's, whose witness differs, on a vertex of the graph sent, from the
witness of every honest transcript with the same graph and challenge. -/
theorem C123_distribution_refuted : ∃ (G1 G2 : List (Int × Int)) (iso perm : List Int) (H : List (Int × Int)) (w : Int → Py Int),
    IsTop 3 G1 ∧ IsTop 3 G2 ∧ IsPerm 3 iso ∧ G2 = rename (relabel iso) G1 ∧ IsPerm 3 perm ∧ simulate G1 G2 perm 1 = .ok (H, 1, w) ∧
      ∀ perm' w', IsPerm 3 perm' → messages G1 G2 iso perm' 1 = .ok (H, 1, w') → ∃ v, Vertex H v ∧ w v ≠ w' v := by
  have t : IsTop 3 [((1 : Int), (2 : Int)), (2, 3)] := ⟨by unfold InRange; decide, (2, 3), by decide, by decide⟩
  have hi : IsPerm 3 [0, 1, 2] := by unfold IsPerm; decide
  have hp : IsPerm 3 [1, 2, 0] := by unfold IsPerm; decide
  have hG : [((1 : Int), (2 : Int)), (2, 3)] = rename (relabel [0, 1, 2]) [(1, 2), (2, 3)] := by decide
  refine ⟨[(1, 2), (2, 3)], [(1, 2), (2, 3)], [0, 1, 2], [1, 2, 0], [(2, 3), (3, 1)], ZK.permFun [1, 2, 0], t, t, hi, hG, hp, rfl, ?_⟩
  intro perm' w' hp' hm
  obtain ⟨w'', hm', ha⟩ := C123_transcript_accepted t t hi hG perm' hp' 1 (Or.inl rfl)
  rw [hm] at hm'
  simp only [Except.ok.injEq, Prod.mk.injEq] at hm'
  obtain ⟨hH, -, rfl⟩ := hm'
  by_contra hne
  push Not at hne
  rw [← hH] at ha
  have e : ZK.applyIso [(2, 3), (3, 1)] w' = ZK.applyIso [(2, 3), (3, 1)] (ZK.permFun [1, 2, 0]) := by
    have v1 := hne 1 ⟨(3, 1), by decide, by decide⟩
    have v2 := hne 2 ⟨(2, 3), by decide, by decide⟩
    have v3 := hne 3 ⟨(2, 3), by decide, by decide⟩
    simp only [ZK.applyIso, PolyUtils.pyMap, ← v1, ← v2, ← v3]
  unfold accepts at ha
  rw [e] at ha
  exact absurd ha (by decide)

end Verif.Props
