import Verif.Proofs.Coloring
import Verif.Spec.Coloring
import Mathlib.GroupTheory.Perm.Fin
import Mathlib.Data.Set.Card
import Mathlib.Data.List.Permutation
import Mathlib.Tactic.FinCases
/-! # What the verifier of the 3-colouring protocol sees -/

namespace Verif.Color
open Commit Bbs Spec

variable {S T : Type} [DecidableEq T]

theorem isPerm_three (L : List Int) : IsPerm 3 L ↔ L ∈ [[0, 1, 2], [1, 0, 2], [1, 2, 0], [0, 2, 1], [2, 0, 1], [2, 1, 0]] := by
  unfold IsPerm
  have h : (List.range 3).map Int.ofNat = [0, 1, 2] := by decide
  rw [h, ← List.mem_permutations']
  have : ([0, 1, 2] : List Int).permutations' = [[0, 1, 2], [1, 0, 2], [1, 2, 0], [0, 2, 1], [2, 0, 1], [2, 1, 0]] := by decide
  rw [this]

/-- The six permutations with the entries moved by `τ`. -/
def move (τ : Equiv.Perm (Fin 3)) (L : List Int) : List Int := [L.getD (τ 0) 0, L.getD (τ 1) 0, L.getD (τ 2) 0]

theorem move_isPerm (τ : Equiv.Perm (Fin 3)) (L : List Int) (h : IsPerm 3 L) : IsPerm 3 (move τ L) := by
  rw [isPerm_three] at h ⊢
  revert L τ
  decide +kernel

theorem move_getD (τ : Equiv.Perm (Fin 3)) (L : List Int) (i : Fin 3) : (move τ L).getD i 0 = L.getD (τ i) 0 := by
  fin_cases i <;> rfl

theorem move_inj (τ : Equiv.Perm (Fin 3)) (L M : List Int) (hL : IsPerm 3 L) (hM : IsPerm 3 M) (h : move τ L = move τ M) : L = M := by
  rw [isPerm_three] at hL hM
  have key : ∀ τ : Equiv.Perm (Fin 3),
    ∀ L ∈ ([[0, 1, 2], [1, 0, 2], [1, 2, 0], [0, 2, 1], [2, 0, 1], [2, 1, 0]] : List (List Int)),
    ∀ M ∈ ([[0, 1, 2], [1, 0, 2], [1, 2, 0], [0, 2, 1], [2, 0, 1], [2, 1, 0]] : List (List Int)),
      move τ L = move τ M → L = M := by decide +kernel
  exact key τ L hL M hM h

theorem exists_move (a b a' b' : Fin 3) (h : a ≠ b) (h' : a' ≠ b') : ∃ τ : Equiv.Perm (Fin 3), τ a' = a ∧ τ b' = b := by
  revert a b a' b'
  decide

theorem perm_unique (a b x y : Fin 3) (h : a ≠ b) (h' : x ≠ y) :
    ∃ L : List Int, (IsPerm 3 L ∧ L.getD a 0 = (x : Nat) ∧ L.getD b 0 = (y : Nat)) ∧
      ∀ M, IsPerm 3 M ∧ M.getD a 0 = (x : Nat) ∧ M.getD b 0 = (y : Nat) → M = L := by
  have key : ∀ a b x y : Fin 3, a ≠ b → x ≠ y →
    ∃ L ∈ ([[0, 1, 2], [1, 0, 2], [1, 2, 0], [0, 2, 1], [2, 0, 1], [2, 1, 0]] : List (List Int)),
      (L.getD a 0 = (x : Nat) ∧ L.getD b 0 = (y : Nat)) ∧
      ∀ M ∈ ([[0, 1, 2], [1, 0, 2], [1, 2, 0], [0, 2, 1], [2, 0, 1], [2, 1, 0]] : List (List Int)),
        M.getD a 0 = (x : Nat) → M.getD b 0 = (y : Nat) → M = L := by decide +kernel
  obtain ⟨L, hL, h1, h2⟩ := key a b x y h h'
  exact ⟨L, ⟨(isPerm_three L).mpr hL, h1⟩, fun M hM => h2 M ((isPerm_three M).mp hM.1) hM.2.1 hM.2.2⟩

theorem perm_entry (L : List Int) (h : IsPerm 3 L) (i : Fin 3) : 0 ≤ L.getD i 0 ∧ L.getD i 0 ≤ 2 := by
  rw [isPerm_three] at h
  revert L i
  decide +kernel

omit [DecidableEq T] in
theorem commitInt_color (owp : S → T) (hp : S → Nat) (s : S × S) (x : Int) (h0 : 0 ≤ x) (h2 : x ≤ 2) :
    commitInt owp hp [s.1, s.2] x = .ok [(owp s.1, hp s.1 ^^^ (x / 2).toNat), (owp s.2, hp s.2 ^^^ (x % 2).toNat)] := by
  have : x = 0 ∨ x = 1 ∨ x = 2 := by omega
  rcases this with rfl | rfl | rfl <;> rfl

/-- The commitments to a colour. -/
def cells (owp : S → T) (hp : S → Nat) (s : S × S) (x : Int) : List (T × Nat) :=
  [(owp s.1, hp s.1 ^^^ (x / 2).toNat), (owp s.2, hp s.2 ^^^ (x % 2).toNat)]

theorem decode_cells (owp : S → T) (hp : S → Nat) (s : S × S) (x : Int) (h0 : 0 ≤ x) (h2 : x ≤ 2) :
    decodeInt hp 2 [s.1, s.2] (cells owp hp s x) = .ok x.toNat := by
  obtain ⟨c, hc, hd, -⟩ := commit_color owp hp [s.1, s.2] rfl x h0 (by omega)
  rw [commitInt_color owp hp s x h0 h2] at hc
  cases hc
  exact hd

omit [DecidableEq T] in
/-- What `commit_to_coloring` returns. -/
theorem commitColoring_eq (owp : S → T) (hp : S → Nat) {n : Nat} {G : List (Int × Int)} (hG : IsTop n G)
    (coloring : List (Int × Int)) (hk : (coloring.map Prod.fst).Nodup) (color : Int → Fin 3)
    (hc : ∀ v : Int, 1 ≤ v → v ≤ n → (v, ((color v : Nat) : Int)) ∈ coloring) (perm : List Int) (hp3 : IsPerm 3 perm)
    (secrets : Int → List S) (sec : Int → S × S) (hs : ∀ v : Int, 1 ≤ v → v ≤ n → secrets v = [(sec v).1, (sec v).2]) :
    commitColoring owp hp G coloring perm secrets =
      .ok ((vertices n).map fun v => (v, cells owp hp (sec v) (perm.getD (color v) 0))) := by
  unfold commitColoring
  rw [ZK.numVertices_eq hG]
  have e1 := pyMap_fun (fun v => do
    let c ← lookup coloring v
    let d ← ZK.pyIdxI perm c
    Except.ok (v, d)) (fun v => (v, perm.getD (color v) 0)) (vertices n) (by
      intro v hv
      have hv := (mem_vertices n v).mp hv
      show Except.bind _ _ = _
      rw [lookup_of_mem coloring hk v _ (hc v hv.1 hv.2)]
      show Except.bind (ZK.pyIdxI perm ((color v : Nat) : Int)) _ = _
      have hlt : (color v : Nat) < perm.length := by rw [ZK.isPerm_length hp3]; exact (color v).isLt
      rw [ZK.pyIdxI_nonneg _ _ (by omega), Int.toNat_natCast, pyIdx, List.getElem?_eq_getElem hlt, List.getD_eq_getElem _ _ hlt]
      rfl)
  have e2 := pyMap_fun (fun vd : Int × Int => do
    let c ← commitInt owp hp (secrets vd.1) vd.2
    Except.ok (vd.1, c)) (fun vd => (vd.1, cells owp hp (sec vd.1) vd.2)) ((vertices n).map fun v => (v, perm.getD (color v) 0)) (by
      intro vd hvd
      rw [List.mem_map] at hvd
      obtain ⟨v, hv, rfl⟩ := hvd
      have hv := (mem_vertices n v).mp hv
      have := perm_entry perm hp3 (color v)
      show Except.bind _ _ = _
      simp only
      rw [hs v hv.1 hv.2, commitInt_color owp hp _ _ this.1 this.2]; rfl)
  simp only [bind, Except.bind] at e1 e2 ⊢
  rw [e1]
  simp only
  rw [e2, List.map_map]; rfl

omit [DecidableEq T] in
theorem lookup_vertices {V : Type} (n : Nat) (f : Int → V) (v : Int) (hv : 1 ≤ v ∧ v ≤ n) :
    lookup ((vertices n).map fun w => (w, f w)) v = .ok (f v) := by
  apply lookup_of_mem
  · rw [List.map_map]
    simpa [Function.comp_def] using vertices_nodup n
  · exact List.mem_map.mpr ⟨v, (mem_vertices n v).mpr hv, rfl⟩

omit [DecidableEq T] in
/-- What `reveal_colors` returns on an edge. -/
theorem revealColors_eq {n : Nat} {G : List (Int × Int)} (hG : IsTop n G) (secrets : Int → List S) (e : Int × Int) (he : e ∈ G) :
    revealColors G secrets e.1 e.2 = .ok (secrets (min e.1 e.2), secrets (max e.1 e.2)) := by
  have hr := hG.1 e he
  unfold revealColors
  rw [ZK.numVertices_eq hG]
  show (if (min e.1 e.2, max e.1 e.2) ∈ sortEdges G then _ else _) = _
  have hm : (min e.1 e.2, max e.1 e.2) ∈ sortEdges G := List.mem_map.mpr ⟨e, he, rfl⟩
  rw [if_pos hm, lookup_vertices _ _ _ (by omega), lookup_vertices _ _ _ (by omega)]
  rfl

/-- The secrets drawn for `v` as a pair. -/
def secOf {n : Nat} (hn : 0 < n) (r : Fin n → S × S) (v : Int) : S × S := r ⟨min (v - 1).toNat (n - 1), by omega⟩

omit [DecidableEq T] in
theorem drawn_eq {n : Nat} (hn : 0 < n) (r : Fin n → S × S) (v : Int) (h1 : 1 ≤ v) (h2 : v ≤ n) :
    drawn r v = [(secOf hn r v).1, (secOf hn r v).2] := by
  have e : (⟨min (v - 1).toNat (n - 1), by omega⟩ : Fin n) = ⟨(v - 1).toNat, by omega⟩ := Fin.ext (by simp only; omega)
  unfold drawn secOf
  rw [dif_pos ⟨h1, h2⟩, e]

/-- The secret that shows the same commitment to the bit `b` as `s` to the bit `a`. -/
def adjust (flip : S → S) (a b : Int) (s : S) : S := if a = b then s else flip s

omit [DecidableEq T] in
theorem adjust_cell (owp : S → T) (hp : S → Nat) (hb : ∀ s, hp s ≤ 1) (flip : S → S)
    (hf : ∀ s, owp (flip s) = owp s ∧ hp (flip s) ≠ hp s) (a b : Int) (ha : 0 ≤ a ∧ a ≤ 1) (hb' : 0 ≤ b ∧ b ≤ 1) (s : S) :
    (owp (adjust flip a b s), hp (adjust flip a b s) ^^^ b.toNat) = (owp s, hp s ^^^ a.toNat) := by
  unfold adjust
  split_ifs with h
  · rw [h]
  · rw [(hf s).1]
    congr 1
    have h1 := (hf s).2
    have h2 := hb s
    have h3 := hb (flip s)
    generalize hp (flip s) = y at *
    generalize hp s = x at *
    have hab : a = 0 ∧ b = 1 ∨ a = 1 ∧ b = 0 := by omega
    have hxy : x = 0 ∧ y = 1 ∨ x = 1 ∧ y = 0 := by omega
    rcases hab with ⟨rfl, rfl⟩ | ⟨rfl, rfl⟩ <;> rcases hxy with ⟨rfl, rfl⟩ | ⟨rfl, rfl⟩ <;> rfl

omit [DecidableEq T] in
theorem adjust_cells (owp : S → T) (hp : S → Nat) (hb : ∀ s, hp s ≤ 1) (flip : S → S)
    (hf : ∀ s, owp (flip s) = owp s ∧ hp (flip s) ≠ hp s) (x y : Int) (hx : 0 ≤ x ∧ x ≤ 2) (hy : 0 ≤ y ∧ y ≤ 2) (s : S × S) :
    cells owp hp (adjust flip (x / 2) (y / 2) s.1, adjust flip (x % 2) (y % 2) s.2) y = cells owp hp s x := by
  unfold cells
  rw [adjust_cell owp hp hb flip hf _ _ (by omega) (by omega), adjust_cell owp hp hb flip hf _ _ (by omega) (by omega)]

omit [DecidableEq T] in
theorem adjust_inj (flip : S → S) (hi : ∀ s, flip (flip s) = s) (a b : Int) (s t : S) (h : adjust flip a b s = adjust flip a b t) :
    s = t := by
  unfold adjust at h
  split_ifs at h
  · exact h
  · rw [← hi s, h, hi]

omit [DecidableEq T] in
/-- One half of the equality of the two counts. -/
theorem views_le [Finite S] (owp : S → T) (hp : S → Nat) (hb : ∀ s, hp s ≤ 1) (flip : S → S)
    (hf : ∀ s, owp (flip s) = owp s ∧ hp (flip s) ≠ hp s) (hi : ∀ s, flip (flip s) = s) {n : Nat} {G : List (Int × Int)}
    (hG : IsTop n G)
    (d d' : List (Int × Int)) (hk : (d.map Prod.fst).Nodup) (hk' : (d'.map Prod.fst).Nodup) (c c' : Int → Fin 3)
    (hc : ∀ v : Int, 1 ≤ v → v ≤ n → (v, ((c v : Nat) : Int)) ∈ d) (hc' : ∀ v : Int, 1 ≤ v → v ≤ n → (v, ((c' v : Nat) : Int)) ∈ d')
    (hpr : Proper G c) (hpr' : Proper G c') (e : Int × Int) (he : e ∈ G) (committed : List (Int × List (T × Nat)))
    (revealed : List S × List S) :
    {x : List Int × (Fin n → S × S) | IsPerm 3 x.1 ∧ commitColoring owp hp G d x.1 (drawn x.2) = .ok committed ∧
      revealColors G (drawn x.2) e.1 e.2 = .ok revealed}.ncard ≤
    {x : List Int × (Fin n → S × S) | IsPerm 3 x.1 ∧ commitColoring owp hp G d' x.1 (drawn x.2) = .ok committed ∧
      revealColors G (drawn x.2) e.1 e.2 = .ok revealed}.ncard := by
  have hr := hG.1 e he
  have hn : 0 < n := by omega
  obtain ⟨τ, h1, h2⟩ := exists_move (c e.1) (c e.2) (c' e.1) (c' e.2) (hpr e he) (hpr' e he)
  let x : List Int → Int → Int := fun L v => L.getD (c v) 0
  let y : List Int → Int → Int := fun L v => (move τ L).getD (c' v) 0
  have hxy : ∀ L, x L e.1 = y L e.1 ∧ x L e.2 = y L e.2 := by
    intro L
    simp only [x, y]
    rw [move_getD, move_getD, h1, h2]
    exact ⟨rfl, rfl⟩
  let F : List Int × (Fin n → S × S) → List Int × (Fin n → S × S) := fun p => (move τ p.1, fun i =>
    (adjust flip (x p.1 ((i : Nat) + 1 : Int) / 2) (y p.1 ((i : Nat) + 1 : Int) / 2) (p.2 i).1,
      adjust flip (x p.1 ((i : Nat) + 1 : Int) % 2) (y p.1 ((i : Nat) + 1 : Int) % 2) (p.2 i).2))
  have hsec : ∀ p (v : Int), 1 ≤ v → v ≤ n → secOf hn (F p).2 v =
      (adjust flip (x p.1 v / 2) (y p.1 v / 2) (secOf hn p.2 v).1, adjust flip (x p.1 v % 2) (y p.1 v % 2) (secOf hn p.2 v).2) := by
    intro p v h1 h2
    have e : ((min (v - 1).toNat (n - 1) : Nat) : Int) + 1 = v := by omega
    simp only [secOf, F, e]
  have hend : ∀ p (v : Int), 1 ≤ v → v ≤ n → x p.1 v = y p.1 v → drawn (F p).2 v = drawn p.2 v := by
    intro p v h1 h2 hv
    rw [drawn_eq hn _ _ h1 h2, drawn_eq hn _ _ h1 h2, hsec p v h1 h2, hv]
    simp [adjust]
  refine Set.ncard_le_ncard_of_injOn F ?_ ?_ ?_
  · rintro p ⟨hp3, hcom, hrev⟩
    have hp3' := move_isPerm τ p.1 hp3
    refine ⟨hp3', ?_, ?_⟩
    · rw [← hcom, commitColoring_eq owp hp hG d hk c hc p.1 hp3 (drawn p.2) (secOf hn p.2) (fun v a b => drawn_eq hn _ v a b),
        commitColoring_eq owp hp hG d' hk' c' hc' (F p).1 hp3' (drawn (F p).2) (secOf hn (F p).2) (fun v a b => drawn_eq hn _ v a b)]
      congr 1
      refine List.map_congr_left fun v hv => ?_
      have hv := (mem_vertices n v).mp hv
      rw [hsec p v hv.1 hv.2]
      congr 1
      exact adjust_cells owp hp hb flip hf _ _ (perm_entry p.1 hp3 (c v)) (perm_entry _ hp3' (c' v)) _
    · rw [← hrev, revealColors_eq hG _ e he, revealColors_eq hG _ e he]
      have a := hend p e.1 hr.1.1 hr.1.2 (hxy p.1).1
      have b := hend p e.2 hr.2.1 hr.2.2 (hxy p.1).2
      rcases le_total e.1 e.2 with h | h
      · rw [min_eq_left h, max_eq_right h, a, b]
      · rw [min_eq_right h, max_eq_left h, a, b]
  · rintro p ⟨hp3, -, -⟩ q ⟨hq3, -, -⟩ hpq
    have hL : p.1 = q.1 := move_inj τ _ _ hp3 hq3 (congrArg Prod.fst hpq)
    refine Prod.ext hL (funext fun i => ?_)
    have := congrFun (congrArg Prod.snd hpq) i
    simp only [F, hL, Prod.mk.injEq] at this
    exact Prod.ext (adjust_inj flip hi _ _ _ _ this.1) (adjust_inj flip hi _ _ _ _ this.2)
  · refine Set.Finite.subset (Set.Finite.prod (s := {L | IsPerm 3 L}) (t := Set.univ) ?_ Set.finite_univ) ?_
    · refine Set.Finite.subset (List.finite_toSet [[0, 1, 2], [1, 0, 2], [1, 2, 0], [0, 2, 1], [2, 0, 1], [2, 1, 0]]) ?_
      intro L hL
      exact (isPerm_three L).mp hL
    · rintro p ⟨h, -⟩
      exact ⟨h, trivial⟩

end Verif.Color
