import Verif.Proofs.Coloring
import Mathlib.Tactic.FinCases
/-! # C64, C82: the 3-colouring protocol -/

namespace Verif.Props
open Spec
open Verif.Commit Verif.Bbs

variable {S T : Type} [DecidableEq T]

/-- **C64.** The outcome of the honest protocol on every edge: `coloring` is a dictionary that gives each of the vertices
`1, …, n` a colour 0, 1 or 2. For any two functions, secrets, permutation of the colours and edge chosen from the graph, the
verifier's answer is whether the two colours differ. -/
theorem C64_outcome (owp : S → T) (hp : S → Nat) {n : Nat} {G : List (Int × Int)} (hG : IsTop n G)
    (coloring : List (Int × Int)) (hk : (coloring.map Prod.fst).Nodup) (color : Int → Int)
    (hc : ∀ v : Int, 1 ≤ v → v ≤ n → (v, color v) ∈ coloring ∧ 0 ≤ color v ∧ color v ≤ 2)
    (perm : List Int) (hp3 : IsPerm 3 perm) (secrets : Int → List S) (hs : ∀ v, (secrets v).length = 2)
    (edge : Int × Int) (he : ∃ e ∈ G, edge = (min e.1 e.2, max e.1 e.2)) :
    Color.runProtocol owp hp G coloring perm secrets edge = .ok (decide (color edge.1 ≠ color edge.2)) := by
  obtain ⟨e, he, rfl⟩ := he
  exact Color.run_honest owp hp hG coloring hk color hc perm hp3 secrets hs _ (List.mem_map.mpr ⟨e, he, rfl⟩)

/-- **C64.** With a proper colouring the verifier accepts, whatever is drawn. -/
theorem C64_completeness (owp : S → T) (hp : S → Nat) {n : Nat} {G : List (Int × Int)} (hG : IsTop n G)
    (coloring : List (Int × Int)) (hk : (coloring.map Prod.fst).Nodup) (color : Int → Int)
    (hc : ∀ v : Int, 1 ≤ v → v ≤ n → (v, color v) ∈ coloring ∧ 0 ≤ color v ∧ color v ≤ 2) (hpr : Proper G color)
    (perm : List Int) (hp3 : IsPerm 3 perm) (secrets : Int → List S) (hs : ∀ v, (secrets v).length = 2)
    (edge : Int × Int) (he : ∃ e ∈ G, edge = (min e.1 e.2, max e.1 e.2)) :
    Color.runProtocol owp hp G coloring perm secrets edge = .ok true := by
  rw [C64_outcome owp hp hG coloring hk color hc perm hp3 secrets hs edge he]
  obtain ⟨e, he, rfl⟩ := he
  congr 1
  rw [decide_eq_true_iff]
  rcases le_total e.1 e.2 with h | h
  · simpa only [min_eq_left h, max_eq_right h] using hpr e he
  · simpa only [min_eq_right h, max_eq_left h] using (hpr e he).symm

/-- **C64.** If the colouring is not proper, some edge makes the verifier reject the honest opening, whatever is drawn. -/
theorem C64_improper_rejected (owp : S → T) (hp : S → Nat) {n : Nat} {G : List (Int × Int)} (hG : IsTop n G)
    (coloring : List (Int × Int)) (hk : (coloring.map Prod.fst).Nodup) (color : Int → Int)
    (hc : ∀ v : Int, 1 ≤ v → v ≤ n → (v, color v) ∈ coloring ∧ 0 ≤ color v ∧ color v ≤ 2) (hpr : ¬ Proper G color) :
    ∃ edge, (∃ e ∈ G, edge = (min e.1 e.2, max e.1 e.2)) ∧ ∀ (perm : List Int), IsPerm 3 perm →
      ∀ (secrets : Int → List S), (∀ v, (secrets v).length = 2) →
      Color.runProtocol owp hp G coloring perm secrets edge = .ok false := by
  unfold Proper at hpr
  push Not at hpr
  obtain ⟨e, he, heq⟩ := hpr
  refine ⟨(min e.1 e.2, max e.1 e.2), ⟨e, he, rfl⟩, fun perm hp3 secrets hs => ?_⟩
  rw [C64_outcome owp hp hG coloring hk color hc perm hp3 secrets hs _ ⟨e, he, rfl⟩]
  congr 1
  rw [decide_eq_false_iff_not, not_not]
  rcases le_total e.1 e.2 with h | h
  · simpa only [min_eq_left h, max_eq_right h] using heq
  · simpa only [min_eq_right h, max_eq_left h] using heq.symm

/-- The graph and colouring of the repository's test meet the hypotheses. This meets the hypotheses of `C64_outcome`, `C64_completeness`. -/
example : IsTop 6 [(1, 2), (1, 4), (1, 3), (2, 5), (2, 5), (3, 6), (5, 6)] ∧
    Proper [(1, 2), (1, 4), (1, 3), (2, 5), (2, 5), (3, 6), (5, 6)] (fun v : Int => [0, 1, 2, 1, 2, 0].getD (v - 1).toNat (0 : Int)) ∧
    IsPerm 3 [2, 0, 1] := by
  refine ⟨⟨by unfold InRange; decide, (5, 6), by decide, by decide⟩, by unfold Proper; decide, by unfold IsPerm; decide⟩

example : Color.runProtocol (fun s : Nat => bbs 77 s) parityNat [(2, 1), (1, 3), (3, 2)] [(1, 0), (2, 1), (3, 2)] [2, 0, 1]
    (fun v => [v.toNat, v.toNat + 1]) (1, 3) = .ok true := by decide

/-- **C82 is false**, whatever the two functions are (even if the commitment to a bit is perfectly binding): for every graph
without loops, 3-colourable or not, there are one commitment and one opening of every vertex such that the verifier accepts
every edge. The committed "bits" may be any ints, and are joined as decimal strings. -/
theorem C82_soundness_refuted [Inhabited S] (owp : S → T) (hp : S → Nat) {n : Nat} {G : List (Int × Int)} (hG : InRange n G)
    (hl : ∀ e ∈ G, e.1 ≠ e.2) :
    ∃ (committed : List (Int × List (T × Nat))) (secrets : Int → List S), (∀ v, (secrets v).length = 2) ∧
      ∀ e ∈ G, Color.accepts owp hp committed (min e.1 e.2, max e.1 e.2)
        (secrets (min e.1 e.2), secrets (max e.1 e.2)) = .ok true := by
  let s : S := default
  -- the int whose decimal digits are the binary digits of `v`
  let enc : Nat → Nat := fun v => Nat.ofDigits 10 (Nat.digits 2 v)
  have hdig : ∀ v : Nat, Nat.digits 10 (enc v) = Nat.digits 2 v := by
    intro v
    rcases Nat.eq_zero_or_pos v with rfl | hv
    · rfl
    · refine Nat.digits_ofDigits 10 (by norm_num) _ (fun d hd => ?_) (fun h => ?_)
      · have := Nat.digits_lt_base (by norm_num : 1 < 2) hd
        omega
      · exact Nat.getLast_digit_ne_zero 2 (by omega)
  have hstr : ∀ v : Nat, 1 ≤ v → strDigits (enc v) = (Nat.digits 2 v).reverse := by
    intro v hv
    unfold strDigits
    by_cases h : enc v < 10
    · rw [if_pos h, ← hdig v]
      have h0 : enc v ≠ 0 := by
        intro h0
        have := hdig v
        rw [h0, Nat.digits_zero, Nat.digits_def' (by norm_num) hv] at this
        simp at this
      rw [Nat.digits_of_lt 10 _ h0 h]; rfl
    · rw [if_neg h, hdig]
  have hval : ∀ l : List Nat, val l.reverse = Nat.ofDigits 2 l := by
    intro l
    induction l with
    | nil => rfl
    | cons d l ih => rw [List.reverse_cons, val_snoc, ih, Nat.ofDigits_cons]; ring
  let com : Int → List (T × Nat) := fun v => [(owp s, hp s ^^^ 0), (owp s, hp s ^^^ enc v.toNat)]
  have hdec : ∀ v : Int, 1 ≤ v → decodeInt hp 2 [s, s] (com v) = .ok v.toNat := by
    intro v hv
    have e : decodeBits hp 2 [s, s] (com v) = [0, enc v.toNat] := by
      have h1 := decode_commit owp hp s 0
      have h2 := decode_commit owp hp s (enc v.toNat)
      show [decodeBit hp s (commitBit owp hp s 0), decodeBit hp s (commitBit owp hp s (enc v.toNat))] = _
      rw [h1, h2]
    unfold decodeInt
    rw [e]
    have e2 : [0, enc v.toNat].flatMap strDigits = 0 :: (Nat.digits 2 v.toNat).reverse := by
      rw [List.flatMap_cons, List.flatMap_cons, hstr _ (by omega)]
      simp [strDigits]
    rw [e2, parseBin_bits _ (by simp)]
    · congr 1
      have := val_append [0] (Nat.digits 2 v.toNat).reverse
      rw [List.singleton_append] at this
      rw [this, hval, Nat.ofDigits_digits]
      simp [val]
    · intro d hd
      rcases List.mem_cons.mp hd with rfl | hd
      · omega
      · have := Nat.digits_lt_base (by norm_num : 1 < 2) (List.mem_reverse.mp hd)
        omega
  have hver : ∀ v : Int, verifyInt owp hp 2 [s, s] (com v) = true := by
    intro v
    have h : ∀ b, verifyBit owp hp s (owp s, b) = true := fun b => (verifyBit_iff owp hp s _).mpr rfl
    simp [verifyInt, com, h]
  have hlook : ∀ v : Int, 1 ≤ v ∧ v ≤ n → Color.lookup ((Color.vertices n).map fun w => (w, com w)) v = .ok (com v) := by
    intro v hv
    apply Color.lookup_of_mem
    · rw [List.map_map]
      simpa [Function.comp_def] using Color.vertices_nodup n
    · exact List.mem_map.mpr ⟨v, (Color.mem_vertices n v).mpr hv, rfl⟩
  refine ⟨(Color.vertices n).map fun w => (w, com w), fun _ => [s, s], fun _ => rfl, fun e he => ?_⟩
  have hr := hG e he
  have hne := hl e he
  unfold Color.accepts
  simp only [bind, Except.bind]
  rw [hlook _ (by omega), hlook _ (by omega)]
  simp only
  rw [hdec _ (by omega), hdec _ (by omega), hver, hver]
  simp only [if_true]
  congr 1
  rw [bne_iff_ne]
  omega

/-- The complete graph on four vertices, which cannot be 3-coloured, is such a graph. -/
def k4 : List (Int × Int) := [(1, 2), (1, 3), (1, 4), (2, 3), (2, 4), (3, 4)]
example : InRange 4 k4 ∧ (∀ e ∈ k4, e.1 ≠ e.2) ∧ ¬ Colorable 3 k4 := by
  refine ⟨by unfold InRange; decide, by decide, ?_⟩
  rintro ⟨c, hc⟩
  have h12 := hc (1, 2) (by decide)
  have h13 := hc (1, 3) (by decide)
  have h14 := hc (1, 4) (by decide)
  have h23 := hc (2, 3) (by decide)
  have h24 := hc (2, 4) (by decide)
  have h34 := hc (3, 4) (by decide)
  simp only at h12 h13 h14 h23 h24 h34
  have := (c 1).isLt; have := (c 2).isLt; have := (c 3).isLt; have := (c 4).isLt
  rw [Ne, Fin.ext_iff] at h12 h13 h14 h23 h24 h34
  omega

/-- **C82 is false** for the commitment scheme the code builds even if the committed values are bits: for every modulus and every
graph (with loops or not) one fixed commitment can be opened acceptably on every edge. -/
theorem C82_bbs_forgery_refuted (M : Nat) (hM : 1 ≤ M) (n : Nat) : ∃ committed : List (Int × List (Int × Nat)),
    (∀ v c, (v, c) ∈ committed → c.length = 2 ∧ ∀ b ∈ c, b.2 ≤ 1) ∧
    ∀ G : List (Int × Int), InRange n G → ∀ e ∈ G, ∃ revealed : List Nat × List Nat, revealed.1.length = 2 ∧ revealed.2.length = 2 ∧
      Color.accepts (fun s : Nat => bbs M s) parityNat committed (min e.1 e.2, max e.1 e.2) revealed = .ok true := by
  obtain ⟨t, h1, -, h2⟩ := exists_flip M 0 hM
  have h2 : parityNat t = 1 := by rw [h2]; rfl
  let cell : Int × Nat := (bbs M (0 : Nat), 0)
  have hcell : ∀ x ∈ [0, t], verifyBit (fun s : Nat => bbs M s) parityNat x cell = true := by
    intro x hx
    rw [verifyBit_iff]
    rcases List.mem_pair.mp hx with rfl | rfl
    · rfl
    · exact bbs_congr M 0 x h1.symm
  refine ⟨(Color.vertices n).map fun w => (w, [cell, cell]), ?_, ?_⟩
  · intro v c hvc
    rw [List.mem_map] at hvc
    obtain ⟨w, -, h⟩ := hvc
    simp only [Prod.mk.injEq] at h
    obtain ⟨rfl, rfl⟩ := h
    exact ⟨rfl, by simp [cell]⟩
  · intro G hG e he
    refine ⟨([0, 0], [0, t]), rfl, rfl, ?_⟩
    have hr := hG e he
    have hlook : ∀ v : Int, 1 ≤ v ∧ v ≤ n → Color.lookup ((Color.vertices n).map fun w => (w, [cell, cell])) v = .ok [cell, cell] := by
      intro v hv
      apply Color.lookup_of_mem
      · rw [List.map_map]
        simpa [Function.comp_def] using Color.vertices_nodup n
      · exact List.mem_map.mpr ⟨v, (Color.mem_vertices n v).mpr hv, rfl⟩
    have hp0 : parityNat 0 = 0 := rfl
    have d1 : decodeInt parityNat 2 [0, 0] [cell, cell] = .ok 0 := by
      simp [decodeInt, decodeBits, decodeBit, cell, hp0, strDigits, parseBin]
    have d2 : decodeInt parityNat 2 [0, t] [cell, cell] = .ok 1 := by
      simp [decodeInt, decodeBits, decodeBit, cell, hp0, h2, strDigits, parseBin]
    have v1 : verifyInt (fun s : Nat => bbs M s) parityNat 2 [0, 0] [cell, cell] = true := by
      simp [verifyInt, hcell 0 (by simp)]
    have v2 : verifyInt (fun s : Nat => bbs M s) parityNat 2 [0, t] [cell, cell] = true := by
      simp [verifyInt, hcell 0 (by simp), hcell t (by simp)]
    unfold Color.accepts
    simp only [bind, Except.bind]
    rw [hlook _ (by omega), hlook _ (by omega)]
    simp only
    rw [d1, d2, v1, v2]
    rfl

example : 1 ≤ 7 * 11 ∧ InRange 4 [(1, 2), (2, 3), (4, 1)] := by
  refine ⟨by decide, ?_⟩
  intro e he
  fin_cases he <;> decide

/-- **C82.** What acceptance does give: if the one-way function is injective, the predicate and the committed values are bits, two
per vertex, and every edge can be opened acceptably with at least two secrets per vertex, the graph can be coloured
with four colours. -/
theorem C82_soundness_partial (owp : S → T) (hi : Function.Injective owp) (hp : S → Nat) (hb : ∀ s, hp s ≤ 1)
    (committed : List (Int × List (T × Nat))) (hc : ∀ v c, Color.lookup committed v = .ok c → c.length = 2 ∧ ∀ b ∈ c, b.2 ≤ 1)
    (G : List (Int × Int)) (h : ∀ e ∈ G, ∃ revealed : List S × List S, 2 ≤ revealed.1.length ∧ 2 ≤ revealed.2.length ∧
      Color.accepts owp hp committed (min e.1 e.2, max e.1 e.2) revealed = .ok true) : Colorable 4 G := by
  classical
  -- an opening of a vertex determines its colour
  let Opens : Int → Nat → Prop := fun v a => ∃ c r, Color.lookup committed v = .ok c ∧ 2 ≤ List.length r ∧
    decodeInt hp 2 r c = .ok a ∧ verifyInt owp hp 2 r c = true
  have hshape : ∀ v a, Opens v a → ∃ c1 c2 s1 s2, Color.lookup committed v = .ok [c1, c2] ∧ c1.1 = owp s1 ∧ c2.1 = owp s2 ∧
      a = 2 * (c1.2 ^^^ hp s1) + (c2.2 ^^^ hp s2) ∧ c1.2 ^^^ hp s1 ≤ 1 ∧ c2.2 ^^^ hp s2 ≤ 1 := by
    rintro v a ⟨c, r, hl, hr, hd, hv⟩
    obtain ⟨hlen, hbits⟩ := hc v c hl
    match c, hlen, r, hr with
    | [c1, c2], _, s1 :: s2 :: r, _ =>
      have xor_le : ∀ x y : Nat, x ≤ 1 → y ≤ 1 → x ^^^ y ≤ 1 := by
        intro x y hx hy
        have hx : x = 0 ∨ x = 1 := by omega
        have hy : y = 0 ∨ y = 1 := by omega
        rcases hx with rfl | rfl <;> rcases hy with rfl | rfl <;> decide
      have b1 := xor_le _ _ (hbits c1 (by simp)) (hb s1)
      have b2 := xor_le _ _ (hbits c2 (by simp)) (hb s2)
      refine ⟨c1, c2, s1, s2, hl, ?_, ?_, ?_, b1, b2⟩
      · simp only [verifyInt, List.zipWith_cons_cons, List.zipWith_nil_right, List.take_succ_cons, List.take_zero, List.all_cons,
          List.all_nil, Bool.and_true, id, Bool.and_eq_true] at hv
        exact (verifyBit_iff _ _ _ _).mp hv.1
      · simp only [verifyInt, List.zipWith_cons_cons, List.zipWith_nil_right, List.take_succ_cons, List.take_zero, List.all_cons,
          List.all_nil, Bool.and_true, id, Bool.and_eq_true] at hv
        exact (verifyBit_iff _ _ _ _).mp hv.2
      · have hdb : decodeBits hp 2 (s1 :: s2 :: r) [c1, c2] = [c1.2 ^^^ hp s1, c2.2 ^^^ hp s2] := by
          simp [decodeBits, decodeBit]
        have hle : ∀ d ∈ [c1.2 ^^^ hp s1, c2.2 ^^^ hp s2], d ≤ 1 := by
          intro d hd
          rcases List.mem_pair.mp hd with rfl | rfl
          · exact b1
          · exact b2
        unfold decodeInt at hd
        rw [hdb, strDigits_bit _ hle, parseBin_bits _ (by simp) hle] at hd
        simp only [Except.ok.injEq] at hd
        rw [← hd]; simp [val]
  have huniq : ∀ v a b, Opens v a → Opens v b → a = b := by
    intro v a b ha hb'
    obtain ⟨c1, c2, s1, s2, hl, h1, h2, h3, -, -⟩ := hshape v a ha
    obtain ⟨d1, d2, t1, t2, hl', h1', h2', h3', -, -⟩ := hshape v b hb'
    rw [hl] at hl'
    simp only [Except.ok.injEq, List.cons.injEq, and_true] at hl'
    obtain ⟨rfl, rfl⟩ := hl'
    have e1 : s1 = t1 := hi (h1.symm.trans h1')
    have e2 : s2 = t2 := hi (h2.symm.trans h2')
    rw [h3, h3', e1, e2]
  have hlt : ∀ v a, Opens v a → a < 4 := by
    intro v a ha
    obtain ⟨c1, c2, s1, s2, -, -, -, h3, h4, h5⟩ := hshape v a ha
    omega
  have hedge : ∀ e ∈ G, ∃ a b, Opens (min e.1 e.2) a ∧ Opens (max e.1 e.2) b ∧ a ≠ b := by
    intro e he
    obtain ⟨rev, l1, l2, hacc⟩ := h e he
    unfold Color.accepts at hacc
    simp only [Air.bind_iff] at hacc
    obtain ⟨c1, hc1, a, ha, hacc⟩ := hacc
    split at hacc
    · rename_i v1
      simp only [Air.bind_iff] at hacc
      obtain ⟨c2, hc2, b, hb2, hacc⟩ := hacc
      split at hacc
      · rename_i v2
        simp only [Except.ok.injEq, bne_iff_ne] at hacc
        exact ⟨a, b, ⟨c1, rev.1, hc1, l1, ha, v1⟩, ⟨c2, rev.2, hc2, l2, hb2, v2⟩, hacc⟩
      · simp at hacc
    · simp at hacc
  refine ⟨fun v => if hv : ∃ a, Opens v a then ⟨hv.choose, hlt v _ hv.choose_spec⟩ else 0, fun e he => ?_⟩
  obtain ⟨a, b, ha, hb2, hab⟩ := hedge e he
  have hcol : ∀ v a (ha : Opens v a), (if hv : ∃ a, Opens v a then (⟨hv.choose, hlt v _ hv.choose_spec⟩ : Fin 4) else 0) =
      ⟨a, hlt v a ha⟩ := by
    intro v a ha
    have hv : ∃ a, Opens v a := ⟨a, ha⟩
    rw [dif_pos hv]
    exact Fin.ext (huniq v _ _ hv.choose_spec ha)
  simp only
  rcases le_total e.1 e.2 with hle | hle
  · rw [min_eq_left hle] at ha
    rw [max_eq_right hle] at hb2
    rw [hcol _ a ha, hcol _ b hb2]
    simpa [Fin.ext_iff] using hab
  · rw [min_eq_right hle] at ha
    rw [max_eq_left hle] at hb2
    rw [hcol _ b hb2, hcol _ a ha]
    simpa [Fin.ext_iff] using hab.symm

/-- The hypotheses of the partial theorem are met by K4 coloured with four colours: the claim cannot be improved to three. -/
example : ∀ e ∈ k4, Color.accepts (fun s : Nat => s) (fun s => s % 2)
    [(1, [(0, 0), (0, 0)]), (2, [(0, 0), (0, 1)]), (3, [(0, 1), (0, 0)]), (4, [(0, 1), (0, 1)])] (min e.1 e.2, max e.1 e.2)
    ([0, 0], [0, 0]) = .ok true := by decide

end Verif.Props
