import Verif.Proofs.Commitment
import Verif.Proofs.ZeroKnowledge
/-! # The 3-colouring protocol -/

namespace Verif.Color
open Commit Bbs Spec

variable {S T : Type} [DecidableEq T]

omit [DecidableEq T] in
theorem lookup_of_mem {V : Type} (d : List (Int × V)) (hd : (d.map Prod.fst).Nodup) (k : Int) (v : V) (h : (k, v) ∈ d) :
    lookup d k = .ok v := by
  induction d with
  | nil => simp at h
  | cons e d ih =>
    unfold lookup
    rw [List.find?_cons]
    rw [List.map_cons, List.nodup_cons] at hd
    rcases List.mem_cons.mp h with h | h
    · subst h; simp
    · have hne : (e.1 == k) = false := by
        rw [beq_eq_false_iff_ne]
        rintro rfl
        exact hd.1 (List.mem_map.mpr ⟨_, h, rfl⟩)
      rw [hne]
      have := ih hd.2 h
      unfold lookup at this
      exact this

theorem mem_vertices (n : Nat) (v : Int) : v ∈ vertices n ↔ 1 ≤ v ∧ v ≤ n := by
  unfold vertices
  rw [List.mem_map]
  constructor
  · rintro ⟨i, hi, rfl⟩
    rw [List.mem_range] at hi
    have : Int.ofNat i = (i : Int) := rfl
    omega
  · rintro ⟨h1, h2⟩
    refine ⟨(v - 1).toNat, by rw [List.mem_range]; omega, ?_⟩
    have : Int.ofNat (v - 1).toNat = ((v - 1).toNat : Int) := rfl
    omega

theorem vertices_nodup (n : Int) : (vertices n).Nodup := by
  unfold vertices
  refine List.Nodup.map (fun a b h => ?_) List.nodup_range
  have : Int.ofNat a = Int.ofNat b := by simpa using h
  exact Int.ofNat.inj this

theorem pyMap_fun {α β : Type _} (f : α → Py β) (g : α → β) (l : List α) (h : ∀ a ∈ l, f a = .ok (g a)) :
    PolyUtils.pyMap f l = .ok (l.map g) := by
  induction l with
  | nil => rfl
  | cons a l ih =>
    have h1 := h a (by simp)
    have h2 := ih (fun b hb => h b (by simp [hb]))
    simp only [PolyUtils.pyMap, h1, h2, bind, Except.bind]; rfl

/-- Facts about the commitment to one colour. -/
theorem commit_color (owp : S → T) (hp : S → Nat) (secrets : List S) (hs : secrets.length = 2) (x : Int) (h0 : 0 ≤ x) (h2 : x ≤ 3) :
    ∃ c, commitInt owp hp secrets x = .ok c ∧ decodeInt hp 2 secrets c = .ok x.toNat ∧ verifyInt owp hp 2 secrets c = true := by
  obtain ⟨bits, hb, h1, h2', h3, h4, h5⟩ := zfill_spec secrets.length x.toNat
  have hlen : bits.length = 2 := by
    rw [h5, hs]
    have : x.toNat < 4 := by omega
    have : Nat.log 2 x.toNat < 2 := by
      rcases Nat.eq_zero_or_pos x.toNat with h | h
      · rw [h]; simp
      · exact Nat.log_lt_of_lt_pow (by omega) (by omega)
    omega
  refine ⟨List.zipWith (commitBit owp hp) secrets bits, ?_, ?_, ?_⟩
  · have := binDigits_nat x.toNat
    rw [Int.toNat_of_nonneg h0] at this
    simp [commitInt, this, bind, Except.bind, hb]
  · unfold decodeInt decodeBits
    rw [decodeBits_commit, List.take_take, List.take_of_length_le (by omega), strDigits_bit _ h3, parseBin_bits _ h2' h3, h4]
  · unfold verifyInt
    rw [List.take_of_length_le (by rw [List.length_zipWith]; omega)]
    exact verify_commit owp hp secrets bits

/-- The honest run on any edge: accepted exactly when the colours differ. -/
theorem run_honest (owp : S → T) (hp : S → Nat) {n : Nat} {G : List (Int × Int)} (hG : IsTop n G)
    (coloring : List (Int × Int)) (hk : (coloring.map Prod.fst).Nodup) (color : Int → Int)
    (hc : ∀ v : Int, 1 ≤ v → v ≤ n → (v, color v) ∈ coloring ∧ 0 ≤ color v ∧ color v ≤ 2)
    (perm : List Int) (hp3 : IsPerm 3 perm) (secrets : Int → List S) (hs : ∀ v, (secrets v).length = 2)
    (edge : Int × Int) (he : edge ∈ sortEdges G) :
    runProtocol owp hp G coloring perm secrets edge = .ok (decide (color edge.1 ≠ color edge.2)) := by
  classical
  -- the permuted colour of a vertex
  have hpl := ZK.isPerm_length hp3
  have hperm : ∀ v : Int, 1 ≤ v → v ≤ n → ZK.pyIdxI perm (color v) = .ok (perm.getD (color v).toNat 0) ∧
      0 ≤ perm.getD (color v).toNat 0 ∧ perm.getD (color v).toNat 0 < 3 := by
    intro v h1 h2
    obtain ⟨-, h3, h4⟩ := hc v h1 h2
    have hlt : (color v).toNat < perm.length := by omega
    have hm : perm.getD (color v).toNat 0 ∈ perm := by
      rw [List.getD_eq_getElem _ _ hlt]; exact List.getElem_mem hlt
    have := (ZK.isPerm_mem hp3 _).mp hm
    refine ⟨?_, this.1, by simpa using this.2⟩
    rw [ZK.pyIdxI_nonneg _ _ h3, pyIdx, List.getElem?_eq_getElem hlt, List.getD_eq_getElem _ _ hlt]
  let pc : Int → Int := fun v => perm.getD (color v).toNat 0
  have hpc : ∀ v : Int, 1 ≤ v → v ≤ n → 0 ≤ pc v ∧ pc v < 3 := fun v h1 h2 => (hperm v h1 h2).2
  have hcom : ∀ v : Int, ∃ c, 1 ≤ v → v ≤ n → commitInt owp hp (secrets v) (pc v) = .ok c ∧
      decodeInt hp 2 (secrets v) c = .ok (pc v).toNat ∧ verifyInt owp hp 2 (secrets v) c = true := by
    intro v
    by_cases hv : 1 ≤ v ∧ v ≤ n
    · obtain ⟨c, hc⟩ := commit_color owp hp (secrets v) (hs v) (pc v) (hpc v hv.1 hv.2).1 (by have := (hpc v hv.1 hv.2).2; omega)
      exact ⟨c, fun _ _ => hc⟩
    · exact ⟨[], fun h1 h2 => absurd ⟨h1, h2⟩ hv⟩
  choose com hcom using hcom
  have hcommit : commitColoring owp hp G coloring perm secrets = .ok ((vertices n).map fun v => (v, com v)) := by
    unfold commitColoring
    rw [ZK.numVertices_eq hG]
    have e1 := pyMap_fun (fun v => do
      let c ← lookup coloring v
      let d ← ZK.pyIdxI perm c
      Except.ok (v, d)) (fun v => (v, pc v)) (vertices n) (by
        intro v hv
        have hv := (mem_vertices n v).mp hv
        show Except.bind _ _ = _
        rw [lookup_of_mem coloring hk v _ (hc v hv.1 hv.2).1]
        show Except.bind (ZK.pyIdxI perm (color v)) _ = _
        rw [(hperm v hv.1 hv.2).1]; rfl)
    have e2 := pyMap_fun (fun vd : Int × Int => do
      let c ← commitInt owp hp (secrets vd.1) vd.2
      Except.ok (vd.1, c)) (fun vd => (vd.1, com vd.1)) ((vertices n).map fun v => (v, pc v)) (by
        intro vd hvd
        rw [List.mem_map] at hvd
        obtain ⟨v, hv, rfl⟩ := hvd
        have hv := (mem_vertices n v).mp hv
        show Except.bind _ _ = _
        rw [(hcom v hv.1 hv.2).1]; rfl)
    simp only [bind, Except.bind] at e1 e2 ⊢
    rw [e1]
    simp only
    rw [e2, List.map_map]; rfl
  obtain ⟨e, heG, hee⟩ := List.mem_map.mp he
  have hr := hG.1 e heG
  have h1 : 1 ≤ edge.1 ∧ edge.1 ≤ n := by rw [← hee]; simp only; omega
  have h2 : 1 ≤ edge.2 ∧ edge.2 ≤ n := by rw [← hee]; simp only; omega
  have hle : edge.1 ≤ edge.2 := by rw [← hee]; simp only; omega
  have hlook : ∀ {V : Type} (f : Int → V) (v : Int), 1 ≤ v ∧ v ≤ n → lookup ((vertices n).map fun w => (w, f w)) v = .ok (f v) := by
    intro V f v hv
    apply lookup_of_mem
    · rw [List.map_map]
      simpa [Function.comp_def] using vertices_nodup n
    · exact List.mem_map.mpr ⟨v, (mem_vertices n v).mpr hv, rfl⟩
  have hrev : revealColors G secrets edge.1 edge.2 = .ok (secrets edge.1, secrets edge.2) := by
    unfold revealColors
    rw [ZK.numVertices_eq hG]
    show (if (min edge.1 edge.2, max edge.1 edge.2) ∈ sortEdges G then _ else _) = _
    rw [min_eq_left hle, max_eq_right hle, if_pos he, hlook _ _ h1, hlook _ _ h2]; rfl
  obtain ⟨-, d1, v1⟩ := hcom edge.1 h1.1 h1.2
  obtain ⟨-, d2, v2⟩ := hcom edge.2 h2.1 h2.2
  have hneq : (pc edge.1).toNat ≠ (pc edge.2).toNat ↔ color edge.1 ≠ color edge.2 := by
    rw [not_iff_not]
    constructor
    · intro h
      have a1 := hpc _ h1.1 h1.2
      have a2 := hpc _ h2.1 h2.2
      have h : pc edge.1 = pc edge.2 := by omega
      have c1 := hc _ h1.1 h1.2
      have c2 := hc _ h2.1 h2.2
      have l1 : (color edge.1).toNat < perm.length := by omega
      have l2 : (color edge.2).toNat < perm.length := by omega
      simp only [pc] at h
      rw [List.getD_eq_getElem _ _ l1, List.getD_eq_getElem _ _ l2] at h
      have := (List.Nodup.getElem_inj_iff (ZK.isPerm_nodup hp3)).mp h
      omega
    · intro h
      simp only [pc, h]
  unfold runProtocol
  rw [hcommit, hrev]
  simp only [bind, Except.bind]
  rw [hlook com _ h1, hlook com _ h2]
  simp only
  rw [d1, d2]
  simp only
  unfold accepts
  simp only [bind, Except.bind]
  rw [hlook com _ h1, hlook com _ h2]
  simp only
  rw [d1, d2, v1, v2]
  simp only [if_true]
  congr 1
  rw [Bool.eq_iff_iff, bne_iff_ne, decide_eq_true_iff]
  exact hneq

end Verif.Color
