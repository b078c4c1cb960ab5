import Verif.Proofs.ColoringSession
/-! # C143: the objects of the 3-colouring protocol over any history of calls

`after owp hp (P, V) calls` are the prover `P` and the verifier `V` after the calls, which come in any order and with any arguments. -/

namespace Verif.Props
open Spec
open Verif.Commit Verif.Bbs Verif.Color

variable {S T : Type} [DecidableEq T]

omit [DecidableEq T] in
/-- **C143.** Whatever was called before, `reveal_colors` opens an edge with the secrets of the last `commit_to_coloring`, and raises
`TypeError` if there was none; it opens nothing but edges. -/
theorem C143_opens_last (owp : S → T) (hp : S → Nat) {n : Nat} {G : List (Int × Int)} (hG : IsTop n G) (coloring : List (Int × Int))
    (P : Prover S) (hP : Prover.new G coloring = .ok P) (V : Verifier T) (u v : Int) :
    (Adj G u v → ∀ a b perm secrets, (∀ x ∈ b, ¬ x.IsCommit) →
      (after owp hp (P, V) (a ++ .commit perm secrets :: b)).1.reveal u v = .ok (secrets (min u v), secrets (max u v))) ∧
    (Adj G u v → ∀ calls, (∀ x ∈ calls, ¬ x.IsCommit) → (after owp hp (P, V) calls).1.reveal u v = .error .typeError) ∧
    (¬ Adj G u v → ∀ calls, (after owp hp (P, V) calls).1.reveal u v = .error .exception) := by
  unfold Prover.new at hP
  rw [ZK.numVertices_eq hG] at hP
  cases hP
  refine ⟨fun h a b perm secrets hb => ?_, fun h calls hc => ?_, fun h calls => ?_⟩
  · rw [schemes_after owp hp _ a b perm secrets hb]
    exact reveal_edge hG secrets u v h
  · rw [after_prover owp hp calls _ hc]
    exact if_pos ((mem_sortEdges u v).2 h)
  · obtain ⟨h1, -, -⟩ := after_args owp hp calls (⟨G, coloring, none⟩, V)
    have h' : (min u v, max u v) ∉ sortEdges G := fun hm => h ((mem_sortEdges u v).1 hm)
    unfold Prover.reveal
    rw [h1]
    split
    · exact if_neg h'
    · unfold revealColors
      rw [ZK.numVertices_eq hG]
      exact if_neg h'

omit [DecidableEq T] in
theorem sec_cases (color : Int → Fin 3) {n : Nat} {coloring : List (Int × Int)}
    (hc : ∀ v : Int, 1 ≤ v → v ≤ n → (v, ((color v : Nat) : Int)) ∈ coloring) :
    ∀ v : Int, 1 ≤ v → v ≤ n → (v, ((color v : Nat) : Int)) ∈ coloring ∧ (0 : Int) ≤ (color v : Nat) ∧ ((color v : Nat) : Int) ≤ 2 := by
  intro v h1 h2
  have := (color v).isLt
  exact ⟨hc v h1 h2, by omega, by omega⟩

/-- **C143.** With a proper colouring: if the prover's last commitment is the one the verifier was given last, the opening of the edge the verifier
chose is accepted, whatever was called before, between and after these two calls. -/
theorem C143_accepted (owp : S → T) (hp : S → Nat) {n : Nat} {G : List (Int × Int)} (hG : IsTop n G) (coloring : List (Int × Int))
    (hk : (coloring.map Prod.fst).Nodup) (color : Int → Fin 3)
    (hc : ∀ v : Int, 1 ≤ v → v ≤ n → (v, ((color v : Nat) : Int)) ∈ coloring) (hpr : Proper G color)
    (P : Prover S) (hP : Prover.new G coloring = .ok P) (a b : List (Color.Call S T)) (perm : List Int) (hp3 : IsPerm 3 perm)
    (sec : Int → S × S) (hb : ∀ x ∈ b, ¬ x.IsCommit) :
    let s := after owp hp (P, Verifier.new G)
    ∃ c, ((s a).1.commit owp hp perm (two sec)).2 = .ok c ∧
      ∀ calls g g' draw, calls = a ++ .commit perm (two sec) :: b → calls = g ++ .choose c draw :: g' → (∀ x ∈ g', ¬ x.IsChoose) →
        ∃ e r, ((s g).2.choose c draw).2 = .ok e ∧ Adj G e.1 e.2 ∧ (s calls).1.reveal e.1 e.2 = .ok r ∧
          (s calls).2.accepts owp hp r = .ok true := by
  intro s
  have hG0 : G ≠ [] := by
    obtain ⟨-, e, he, -⟩ := hG
    exact List.ne_nil_of_mem he
  have hP' := hP
  unfold Prover.new at hP
  rw [ZK.numVertices_eq hG] at hP
  cases hP
  have hcm := commitColoring_eq owp hp hG coloring hk color hc perm hp3 (two sec) sec fun v _ _ => rfl
  refine ⟨(vertices n).map fun v => (v, cells owp hp (sec v) (perm.getD (color v) 0)), ?_, ?_⟩
  · obtain ⟨h1, h2, -⟩ := after_args owp hp a (⟨G, coloring, none⟩, Verifier.new G)
    show commitColoring owp hp (s a).1.graph (s a).1.coloring perm (two sec) = _
    rw [h1, h2]
    exact hcm
  · intro calls g g' draw e1 e2 hg'
    obtain ⟨e, he, h1, h2⟩ := chosen_after owp hp (⟨G, coloring, none⟩, Verifier.new G) g g' _ draw hG0 hg'
    have hadj : Adj G (min e.1 e.2) (max e.1 e.2) := by
      rcases le_total e.1 e.2 with h | h
      · rw [min_eq_left h, max_eq_right h]; exact .inl he
      · rw [min_eq_right h, max_eq_left h]; exact .inr he
    have hr := (C143_opens_last owp hp hG coloring _ hP' (Verifier.new G : Verifier T) (min e.1 e.2) (max e.1 e.2)).1 hadj a b perm (two sec) hb
    rw [← e1] at hr
    refine ⟨_, _, h1, hadj, hr, ?_⟩
    have hm : (min e.1 e.2, max e.1 e.2) ∈ sortEdges G := List.mem_map.2 ⟨e, he, rfl⟩
    have run := run_honest owp hp hG coloring hk (fun v => ((color v : Nat) : Int)) (sec_cases color hc) perm hp3 (two sec) (fun _ => rfl) _ hm
    unfold runProtocol at run
    rw [hcm, reveal_edge hG _ _ _ hadj] at run
    show (after owp hp (⟨G, coloring, none⟩, Verifier.new G) calls).2.accepts owp hp _ = _
    rw [e2, h2]
    show accepts owp hp _ _ _ = _
    simp only [bind, Except.bind] at run
    split at run
    · cases run
    split at run
    · cases run
    split at run
    · cases run
    split at run
    · cases run
    rw [run]
    congr 1
    rw [decide_eq_true_iff]
    rcases le_total e.1 e.2 with h | h
    · have := hpr e he
      simp only [min_eq_left h, max_eq_right h]
      intro heq
      exact this (Fin.ext (by exact_mod_cast heq))
    · have := hpr e he
      simp only [min_eq_right h, max_eq_left h]
      intro heq
      exact this (Fin.ext (by exact_mod_cast heq.symm))

/-- **C143.** Commitments of different rounds do not mix: if the prover has committed again, with secrets that the one-way function tells apart from the
old ones on the chosen edge, the opening it then gives is rejected. -/
theorem C143_stale (owp : S → T) (hp : S → Nat) (hbit : ∀ s, hp s ≤ 1) {n : Nat} {G : List (Int × Int)} (hG : IsTop n G)
    (coloring : List (Int × Int)) (hk : (coloring.map Prod.fst).Nodup) (color : Int → Fin 3)
    (hc : ∀ v : Int, 1 ≤ v → v ≤ n → (v, ((color v : Nat) : Int)) ∈ coloring)
    (P : Prover S) (hP : Prover.new G coloring = .ok P) (perm : List Int) (hp3 : IsPerm 3 perm) (sec : Int → S × S)
    (c : List (Int × List (T × Nat))) (hcm : (P.commit owp hp perm (two sec)).2 = .ok c) (a b : List (Color.Call S T)) (perm' : List Int)
    (sec' : Int → S × S) (hb : ∀ x ∈ b, ¬ x.IsCommit) (calls g g' : List (Color.Call S T)) (draw : Nat)
    (h1 : calls = a ++ .commit perm' (two sec') :: b) (h2 : calls = g ++ .choose c draw :: g') (hg' : ∀ x ∈ g', ¬ x.IsChoose)
    (hne : ∀ v : Int, (two sec v).map owp ≠ (two sec' v).map owp) :
    let s := after owp hp (P, Verifier.new G)
    ∃ e r, ((s g).2.choose c draw).2 = .ok e ∧ Adj G e.1 e.2 ∧ (s calls).1.reveal e.1 e.2 = .ok r ∧
      (s calls).2.accepts owp hp r = .ok false := by
  intro s
  have hG0 : G ≠ [] := by
    obtain ⟨-, e, he, -⟩ := hG
    exact List.ne_nil_of_mem he
  have hP' := hP
  unfold Prover.new at hP
  rw [ZK.numVertices_eq hG] at hP
  cases hP
  have hcc := commitColoring_eq owp hp hG coloring hk color hc perm hp3 (two sec) sec fun v _ _ => rfl
  have : c = (vertices n).map fun v => (v, cells owp hp (sec v) (perm.getD (color v) 0)) := by
    have h : commitColoring owp hp G coloring perm (two sec) = .ok c := hcm
    rw [hcc] at h
    exact (Except.ok.inj h).symm
  subst this
  obtain ⟨e, he, k1, k2⟩ := chosen_after owp hp (⟨G, coloring, none⟩, Verifier.new G) g g' _ draw hG0 hg'
  have hadj : Adj G (min e.1 e.2) (max e.1 e.2) := by
    rcases le_total e.1 e.2 with h | h
    · rw [min_eq_left h, max_eq_right h]; exact .inl he
    · rw [min_eq_right h, max_eq_left h]; exact .inr he
  have hr := (C143_opens_last owp hp hG coloring _ hP' (Verifier.new G : Verifier T) (min e.1 e.2) (max e.1 e.2)).1 hadj a b perm' (two sec') hb
  rw [← h1] at hr
  refine ⟨_, _, k1, hadj, hr, ?_⟩
  show (after owp hp (⟨G, coloring, none⟩, Verifier.new G) calls).2.accepts owp hp _ = _
  rw [h2, k2]
  have hin := hG.1 e he
  have hmm : min (min e.1 e.2) (max e.1 e.2) = min e.1 e.2 ∧ max (min e.1 e.2) (max e.1 e.2) = max e.1 e.2 := by omega
  rw [hmm.1, hmm.2]
  exact accepts_stale owp hp hbit n _ (fun v => perm_entry perm hp3 (color v)) sec sec' (min e.1 e.2, max e.1 e.2) (by omega)
    ⟨_, .inl rfl, hne _⟩

/-- **C143.** Before the first `choose_edge`, `accepts` raises `AttributeError`. -/
theorem C143_no_edge_chosen (owp : S → T) (hp : S → Nat) (G : List (Int × Int)) (P : Prover S) (calls : List (Color.Call S T))
    (h : ∀ x ∈ calls, ¬ x.IsChoose) (r : List S × List S) :
    (after owp hp (P, Verifier.new G) calls).2.accepts owp hp r = .error .attributeError := by
  rw [after_verifier owp hp calls _ h]
  rfl

omit [DecidableEq T] in
/-- **C143.** If some vertex has no colour, `commit_to_coloring` raises `KeyError`, but it has stored new secrets, which `reveal_colors` hands out. -/
theorem C143_failed_commit (owp : S → T) (hp : S → Nat) {n : Nat} {G : List (Int × Int)} (hG : IsTop n G) (coloring : List (Int × Int))
    (hk : (coloring.map Prod.fst).Nodup) (P : Prover S) (hP : Prover.new G coloring = .ok P) (perm : List Int) (hp3 : IsPerm 3 perm)
    (secrets : Int → List S) (hcol : ∀ v : Int, 1 ≤ v → v ≤ n → v ∉ coloring.map Prod.fst ∨ ∃ x : Fin 3, (v, ((x : Nat) : Int)) ∈ coloring)
    (hmiss : ∃ v : Int, 1 ≤ v ∧ v ≤ n ∧ v ∉ coloring.map Prod.fst) (u v : Int) (hadj : Adj G u v) :
    (P.commit owp hp perm secrets).2 = .error .keyError ∧
      (P.commit owp hp perm secrets).1.reveal u v = .ok (secrets (min u v), secrets (max u v)) := by
  unfold Prover.new at hP
  rw [ZK.numVertices_eq hG] at hP
  cases hP
  refine ⟨?_, reveal_edge hG secrets u v hadj⟩
  show commitColoring owp hp G coloring perm secrets = _
  have hlook : ∀ w : Int, w ∉ coloring.map Prod.fst → lookup coloring w = .error .keyError := by
    intro w hw
    unfold lookup
    rw [List.find?_eq_none.2]
    intro e he heq
    exact hw (List.mem_map.2 ⟨e, he, by simpa using heq⟩)
  have hf := pyMap_keyError (f := fun v => do
    let c ← lookup coloring v
    let d ← ZK.pyIdxI perm c
    Except.ok (v, d)) (e := .keyError) (l := vertices n) (by
      intro w hw
      have hw := (mem_vertices n w).1 hw
      rcases hcol w hw.1 hw.2 with h | ⟨x, hx⟩
      · right
        show Except.bind _ _ = _
        rw [hlook w h]
        rfl
      · left
        have hlt : (x : Nat) < perm.length := by rw [ZK.isPerm_length hp3]; exact x.isLt
        refine ⟨(w, perm[(x : Nat)]), ?_⟩
        show Except.bind _ _ = _
        rw [lookup_of_mem coloring hk w _ hx]
        show Except.bind (ZK.pyIdxI perm ((x : Nat) : Int)) _ = _
        rw [ZK.pyIdxI_nonneg _ _ (by omega), Int.toNat_natCast, pyIdx, List.getElem?_eq_getElem hlt]
        rfl) (by
      obtain ⟨w, h1, h2, h3⟩ := hmiss
      refine ⟨w, (mem_vertices n w).2 ⟨h1, h2⟩, ?_⟩
      show Except.bind _ _ = _
      rw [hlook w h3]
      rfl)
  unfold commitColoring
  rw [ZK.numVertices_eq hG]
  simp only [bind, Except.bind] at hf ⊢
  rw [hf]

/-- Two rounds on a triangle with a tail, calls in disorder between them, and the opening of the edge chosen in the second. This meets the hypotheses of
`C143_opens_last`, `C143_accepted`, `C143_no_edge_chosen`. -/
example : let G : List (Int × Int) := [(1, 2), (2, 3), (3, 1), (4, 3)]
    let col : List (Int × Int) := [(1, 0), (2, 1), (3, 2), (4, 0)]
    let owp : Nat → Int := fun s => bbs 77 s
    let sec : Int → Nat × Nat := fun v => (v.toNat + 1, v.toNat + 5)
    let sec' : Int → Nat × Nat := fun v => (v.toNat + 10, v.toNat + 20)
    IsTop 4 G ∧ Proper G (fun v : Int => ([0, 1, 2, 0] : List (Fin 3)).getD (v - 1).toNat 0) ∧ IsPerm 3 [2, 0, 1] ∧
    (do
      let P ← Prover.new G col
      let c ← (P.commit owp parityNat [0, 1, 2] (two sec)).2
      let c' ← (P.commit owp parityNat [2, 0, 1] (two sec')).2
      let s := after owp parityNat (P, Verifier.new G) [.commit [0, 1, 2] (two sec), .choose c 1, .reveal 3 4, .commit [2, 0, 1] (two sec'),
        .accepts ([1], []), .choose c' 3, .reveal 1 2]
      let r ← s.1.reveal 4 3
      let good ← s.2.accepts owp parityNat r
      let t := after owp parityNat (P, Verifier.new G) [.commit [0, 1, 2] (two sec), .choose c 3, .commit [2, 0, 1] (two sec')]
      let r' ← t.1.reveal 4 3
      let stale ← t.2.accepts owp parityNat r'
      .ok (s.2.chosen, good, stale) : Py (Option (Int × Int) × Bool × Bool)).toOption = some (some (3, 4), true, false) := by
  refine ⟨⟨by unfold InRange; decide, (4, 3), by decide, by decide⟩, by unfold Proper; decide, by unfold IsPerm; decide, by decide +kernel⟩

/-- Secrets that the identity tells apart for every vertex. This meets the hypotheses of `C143_stale`. -/
example : (∀ s, parityNat s ≤ 1) ∧ ∀ v : Int, (two (fun _ => ((1 : Nat), (2 : Nat))) v).map id ≠ (two (fun _ => (3, 4)) v).map id := by
  refine ⟨fun s => by unfold parityNat; omega, fun v => by simp [two]⟩

/-- A colouring without a colour for vertex 3. This meets the hypotheses of `C143_failed_commit`. -/
example : IsTop 3 [(1, 2), (2, 3)] ∧ (3 : Int) ∉ ([(1, 0), (2, 1)] : List (Int × Int)).map Prod.fst ∧ Adj [(1, 2), (2, 3)] 2 3 ∧
    (do
      let P ← Prover.new [(1, 2), (2, 3)] [(1, 0), (2, 1)]
      .ok ((P.commit id parityNat [0, 1, 2] (two fun v => (v.toNat, v.toNat + 1))).1.reveal 2 3).toOption : Py _).toOption =
      some (some ([2, 3], [3, 4])) := by
  refine ⟨⟨by unfold InRange; decide, (2, 3), by decide, by decide⟩, by decide, by unfold Adj; decide, by decide +kernel⟩

end Verif.Props
