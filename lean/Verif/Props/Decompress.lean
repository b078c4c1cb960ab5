import Verif.Proofs.Decompress
import Verif.Spec.Decompress
/-!
# C139: decompressing data from an untrusted sender

`StandsFor`, `wire` and `Entry` are in `Spec/Decompress`, `friEntries`, `friCount`, `friObjects` and `Clean` in `Spec/Compression`.
-/

namespace Verif.Props
open Verif.Compression Verif.SmoothFri

theorem standsFor_of {c : List Bytes} {i : Nat} {x : Bytes} (h : getObj c i = .ok x) : StandsFor c i x := by
  simp only [getObj] at h
  obtain ⟨e, h1, h⟩ := bind_inv h
  have he : c[i]? = some e := by
    unfold pyIdx at h1
    split at h1
    · cases h1; assumption
    · cases h1
  split at h
  · rename_i hl
    obtain ⟨a, b, rfl⟩ := List.length_eq_two.1 hl
    refine .inr ⟨a, b, he, ?_⟩
    unfold pyIdx at h
    split at h
    · cases h
      rename_i hx
      have : fromBytes [a, b] = 256 * a.toNat + b.toNat := by simp [fromBytes]; omega
      rw [← this]
      exact hx
    · cases h
  · rename_i hl
    cases h
    exact .inl ⟨he, hl⟩

/-- **C139** (proofs). What `decompress_fri` returns, written out with its separators, is the data read entry by entry: it has as many entries, and
each of them stands for the one at its place. -/
theorem C139_fri (c : List Bytes) (prf : List (Bytes × List (List (List Bytes))) × List Bytes) (h : decompressFri c = .ok prf) :
    c.length = friCount prf ∧ ∀ (i : Nat) (x : Bytes), (friEntries prf)[i]? = some x → StandsFor c i x := by
  obtain ⟨h1, h2⟩ := decompressFri_inv h
  refine ⟨by rw [h1, friEntries_length], fun i x hx => ?_⟩
  have := h2 i x hx
  rw [Nat.zero_add] at this
  exact standsFor_of this

theorem standsFor_mem {c : List Bytes} {i : Nat} {x : Bytes} (h : StandsFor c i x) : x ∈ c := by
  rcases h with ⟨h, _⟩ | ⟨a, b, _, h⟩
  · exact List.mem_of_getElem? h
  · exact List.mem_of_getElem? h

theorem friObjects_entries (prf : List (Bytes × List (List (List Bytes))) × List Bytes) : ∀ x ∈ friObjects prf, x ∈ friEntries prf := by
  intro x hx
  simp only [friObjects, friEntries, List.mem_append, List.mem_flatMap, List.mem_cons, List.mem_flatten] at hx ⊢
  rcases hx with ⟨it, hit, rfl | ⟨b, ⟨y, hy, hb⟩, hx⟩⟩ | hx
  · exact .inl ⟨it, hit, .inr (.inl rfl)⟩
  · exact .inl ⟨it, hit, .inr (.inr ⟨y, hy, .inl ⟨b, hb, .inl hx⟩⟩)⟩
  · exact .inr (.inr hx)

/-- **C139** (content). Every byte string in the returned proof is one of those in the data, and there are no more of them than the data has
entries. -/
theorem C139_fri_objects (c : List Bytes) (prf : List (Bytes × List (List (List Bytes))) × List Bytes) (h : decompressFri c = .ok prf) :
    (∀ x ∈ friObjects prf, x ∈ c) ∧ (friObjects prf).length ≤ c.length := by
  obtain ⟨h1, h2⟩ := C139_fri c prf h
  constructor
  · intro x hx
    obtain ⟨i, hi⟩ := List.getElem?_of_mem (friObjects_entries prf x hx)
    exact standsFor_mem (h2 i x hi)
  · rw [h1]
    have hb : ∀ y : List (List Bytes), y.flatten.length ≤ 1 + (y.map fun b => b.length + 1).sum := by
      intro y
      induction y with
      | nil => simp
      | cons b y ih => simp only [List.flatten_cons, List.length_append, List.map_cons, List.sum_cons]; omega
    have hy : ∀ ys : List (List (List Bytes)), ys.flatten.flatten.length ≤ (ys.map fun y => 1 + (y.map fun b => b.length + 1).sum).sum := by
      intro ys
      induction ys with
      | nil => simp
      | cons y ys ih =>
        have := hb y
        simp only [List.flatten_cons, List.flatten_append, List.length_append, List.map_cons, List.sum_cons]
        omega
    have : ∀ its : List (Bytes × List (List (List Bytes))), (its.flatMap fun it => it.1 :: it.2.flatten.flatten).length ≤
        (its.map fun it => 2 + (it.2.map fun y => 1 + (y.map fun b => b.length + 1).sum).sum).sum := by
      intro its
      induction its with
      | nil => simp
      | cons it its ih =>
        have := hy it.2
        simp only [List.flatMap_cons, List.length_append, List.length_cons, List.map_cons, List.sum_cons]
        omega
    have := this prf.1
    simp only [friObjects, friCount, List.length_append]
    omega

/-- **C139** (branches). What `decompress_branches` returns, written out with its separators, is the data read entry by entry; the last
separator may be missing. -/
theorem C139_branches (c : List Bytes) (bs : List (List Bytes)) (h : decompressBranches c = .ok bs) :
    (c.length = (branchEntries bs).length ∨ c.length + 1 = (branchEntries bs).length) ∧
      ∀ (i : Nat) (x : Bytes), i < c.length → (branchEntries bs)[i]? = some x → StandsFor c i x := by
  obtain ⟨bs', e1, e2, e3⟩ := readBranches_inv c _ 0 [] bs (by omega) h
  simp only [List.nil_append] at e1
  subst e1
  refine ⟨by omega, fun i x hi hx => ?_⟩
  have := e2 i x (by rw [List.getElem?_take]; simp [hi, hx])
  rw [Nat.zero_add] at this
  exact standsFor_of this

/-- **C139** (exceptions). Nothing is raised but `IndexError` and, by `decompress_fri`, `AssertionError`; in particular the loops
end (the model's `PyErr.diverge` is ruled out as well). -/
theorem C139_exceptions (c : List Bytes) (e : PyErr) :
    (decompressFri c = .error e → e = .indexError ∨ e = .assertion) ∧ (decompressBranches c = .error e → e = .indexError) :=
  ⟨decompressFri_error, decompressBranches_error⟩

/-- **C139** (uniqueness is false). Different data are decompressed to the same proof: a proof written out in full, without references, is
accepted as well as its compressed form — for every proof in which anything (a separator counts) is repeated. -/
theorem C139_unique_refuted (prf : List (Bytes × List (List (List Bytes))) × List Bytes) (hclean : ∀ x ∈ friObjects prf, Clean x)
    (hsize : friCount prf ≤ 65536) (hrep : ¬ (friEntries prf).Nodup) :
    ∃ c, compressFri prf = .ok c ∧ c ≠ friEntries prf ∧ decompressFri c = .ok prf ∧ decompressFri (friEntries prf) = .ok prf := by
  obtain ⟨its, last⟩ := prf
  have hn : Referable (friEntries (its, last)) := referable_of_length (by rw [friEntries_length]; exact hsize)
  obtain ⟨c, h1, h2⟩ := compressFri_roundtrip (its, last) hclean hn
  have hobj : ∀ x ∈ friObjects (its, []), Clean x := fun x hx => hclean x (by
    simp only [friObjects, List.append_nil] at hx ⊢; exact List.mem_append_left _ hx)
  have hlast : ∀ x ∈ last, Clean x := fun x hx => hclean x (by simp [friObjects, hx])
  have htok : ∀ t ∈ itemsTokens its, t.length ≠ 2 ∧ t ≠ slash := by
    intro t ht
    rcases mem_itemsTokens ht with rfl | rfl | rfl | h
    · decide
    · decide
    · decide
    · have := (clean_iff t).1 (hobj t h); exact ⟨this.1, this.2.2.2.2⟩
  have hall : ∀ t ∈ itemsTokens its ++ slash :: last, t.length ≠ 2 := by
    intro t ht
    simp only [List.mem_append, List.mem_cons] at ht
    rcases ht with h | rfl | h
    · exact (htok t h).1
    · decide
    · exact (hlast t h).1
  refine ⟨c, h1, ?_, h2, ?_⟩
  · have hf := (fits_nil_iff _).2 hn
    simp only [compressFri, addItems_eq] at h1
    obtain ⟨s1, g1, h1⟩ := bind_inv h1
    obtain ⟨s2, g2, h1⟩ := bind_inv h1
    obtain ⟨s3, g3, h1⟩ := bind_inv h1
    obtain ⟨d, g4, h1⟩ := bind_inv h1
    obtain ⟨_, g5, h1⟩ := bind_inv h1
    cases h1
    have hA : addAll ⟨[], []⟩ (friEntries (its, last)) = .ok s3 := by
      rw [friEntries_eq, addAll_append, g1]
      simp only [Except.bind, addAll, g2, bind]
      exact g3
    have hd : ∃ pos x, (friEntries (its, last))[pos]? = some x ∧ x ∈ [] ++ (friEntries (its, last)).take pos := by
      rw [List.nodup_iff_getElem?_ne_getElem?] at hrep
      push Not at hrep
      obtain ⟨i, j, hij, hj, e⟩ := hrep
      refine ⟨j, (friEntries (its, last))[j], List.getElem?_eq_getElem hj, ?_⟩
      rw [List.nil_append]
      rw [List.getElem?_eq_getElem hj] at e
      refine List.mem_of_getElem? (i := i) ?_
      rw [List.getElem?_take]
      simp [hij, e]
    obtain ⟨b, hb, hb2⟩ := addAll_short _ Enc.nil hf hd s3 hA
    intro he
    rw [he, friEntries_eq] at hb
    exact hall b hb hb2
  · have hdec : Decodes (itemsTokens its ++ slash :: last) (itemsTokens its ++ slash :: last) := ⟨rfl, fun pos t ht => by
      have := hall t (List.mem_of_getElem? ht)
      simp [getObj, pyIdx, ht, bind, Except.bind, this]⟩
    rw [friEntries_eq]
    refine decompressFri_spec its last hdec ?_ ?_ (by simp)
    · intro it hit y hy b hb x hx
      have := (clean_iff x).1 (hobj x (by
        simp only [friObjects, List.append_nil, List.mem_flatMap, List.mem_cons, List.mem_flatten]
        exact ⟨it, hit, Or.inr ⟨b, ⟨y, hy, hb⟩, hx⟩⟩))
      exact ⟨this.2.2.1, this.2.2.2.1, this.2.1, this.2.2.2.2⟩
    · intro pos hpos hcon
      rw [List.getElem?_append_left hpos, List.getElem?_eq_getElem hpos] at hcon
      injection hcon with hcon
      exact (htok _ (List.getElem_mem hpos)).2 hcon

/-- **C139** (the size is not bounded by the data). For every factor there are data which are decompressed to a proof that is larger by that
factor. -/
theorem C139_expansion_refuted (k : Nat) :
    ∃ c prf, decompressFri c = .ok prf ∧ k * binLength c < ((friObjects prf).map List.length).sum := by
  let B := 4 * k + 5
  let x : Bytes := List.replicate B 0
  have hx : x.length = B := by simp [x]
  refine ⟨slash :: x :: List.replicate B [0, 1], ([], x :: List.replicate B x), ?_, ?_⟩
  · have hT : Decodes (slash :: x :: List.replicate B [0, 1]) (itemsTokens [] ++ slash :: (x :: List.replicate B x)) := by
      refine ⟨by simp [itemsTokens], fun pos t ht => ?_⟩
      simp only [itemsTokens, List.flatMap_nil, List.nil_append] at ht
      match pos, ht with
      | 0, ht =>
        simp only [List.getElem?_cons_zero, Option.some.injEq] at ht
        subst ht
        rfl
      | 1, ht =>
        simp only [List.getElem?_cons_succ, List.getElem?_cons_zero, Option.some.injEq] at ht
        subst ht
        have : x.length ≠ 2 := by omega
        simp [getObj, pyIdx, bind, Except.bind, this]
      | pos + 2, ht =>
        simp only [List.getElem?_cons_succ] at ht
        rw [List.getElem?_replicate] at ht
        split at ht
        · rename_i hlt
          injection ht with ht
          subst ht
          simp [getObj, pyIdx, bind, Except.bind, hlt, fromBytes]
        · cases ht
    exact decompressFri_spec [] _ hT (by simp) (by simp [itemsTokens]) (by simp [itemsTokens])
  · have e1 : binLength (slash :: x :: List.replicate B [0, 1]) = 4 + B + 2 * B := by
      have hB : B ≠ 32 := by omega
      have hr : ∀ n : Nat, (List.replicate n ([0, 1] : Bytes)).flatten.length = 2 * n := by
        intro n
        simp [Nat.mul_comm]
      simp [binLength, slash, hx, hB, Nat.mul_comm]
      omega
    have e2 : ((friObjects ([], x :: List.replicate B x)).map List.length).sum = B + B * B := by
      simp [friObjects, hx]
    rw [e1, e2]
    simp only [B]
    nlinarith

/-- **C139** (the counted bytes). Lists of 32-byte strings, separators and references to the first 11051 entries are determined by the bytes that
`bin_length` counts. -/
theorem C139_wire_partial : ∀ c c' : List Bytes, (∀ x ∈ c, Entry x) → (∀ x ∈ c', Entry x) → wire c = wire c' → c = c' := by
  have hne : ∀ x, Entry x → ∃ b t, (if x.length = 32 then [255] else []) ++ x = b :: t := by
    intro x hx
    by_cases h : x.length = 32
    · simp [h]
    · simp only [h, if_false, List.nil_append]
      cases x with
      | nil =>
        rcases hx with h | ⟨c, _, h⟩ | ⟨a, b, h, _⟩
        · simp at h
        · simp at h
        · cases h
      | cons b t => exact ⟨b, t, rfl⟩
  have hsep : ∀ c ∈ ['-', '+', '=', '/'], ∃ v : UInt8, 43 ≤ v.toNat ∧ v.toNat ≤ 61 ∧ List.replicate 4 (UInt8.ofNat c.toNat) = [v, v, v, v] := by
    intro c hc
    exact ⟨UInt8.ofNat c.toNat, by revert c; decide, by revert c; decide, rfl⟩
  have key : ∀ x y (s t : Bytes), Entry x → Entry y → (if x.length = 32 then [255] else []) ++ x ++ s = (if y.length = 32 then [255] else []) ++ y ++ t →
      x.length = y.length := by
    have asym : ∀ x y (s t : Bytes), Entry x → Entry y → (if x.length = 32 then [255] else []) ++ x ++ s = (if y.length = 32 then [255] else []) ++ y ++ t →
        x.length = 32 → y.length = 32 := by
      intro x y s t _ hy h hx
      rcases hy with h1 | ⟨c, hc, h1⟩ | ⟨a, b, h1, h2⟩
      · exact h1
      · obtain ⟨v, v1, v2, v3⟩ := hsep c hc
        rw [v3] at h1
        subst h1
        simp [hx] at h
        obtain ⟨h, -⟩ := h
        subst h
        simp at v2
      · subst h1
        simp [hx] at h
        obtain ⟨h, -⟩ := h
        subst h
        simp at h2
        omega
    have mixed : ∀ x y (s t : Bytes), (∃ c ∈ ['-', '+', '=', '/'], x = List.replicate 4 (UInt8.ofNat c.toNat)) →
        (∃ a b : UInt8, y = [a, b] ∧ 256 * a.toNat + b.toNat < 11051) → x ++ s = y ++ t → False := by
      rintro x y s t ⟨c, hc, h1⟩ ⟨a, b, h3, h4⟩ h
      obtain ⟨v, v1, v2, v3⟩ := hsep c hc
      rw [v3] at h1
      subst h1
      subst h3
      simp only [List.cons_append, List.nil_append, List.cons.injEq] at h
      obtain ⟨rfl, rfl, -⟩ := h
      omega
    intro x y s t hx hy h
    by_cases h32 : x.length = 32
    · rw [asym x y s t hx hy h h32, h32]
    by_cases h32' : y.length = 32
    · exact absurd (asym y x t s hy hx h.symm h32') h32
    simp only [h32, h32', if_false, List.nil_append] at h
    rcases hx with hx | hx | hx
    · exact absurd hx h32
    · rcases hy with hy | hy | hy
      · exact absurd hy h32'
      · obtain ⟨c, _, rfl⟩ := hx
        obtain ⟨c', _, rfl⟩ := hy
        simp
      · exact (mixed x y s t hx hy h).elim
    · rcases hy with hy | hy | hy
      · exact absurd hy h32'
      · exact (mixed y x t s hy hx h.symm).elim
      · obtain ⟨a, b, rfl, _⟩ := hx
        obtain ⟨a', b', rfl, _⟩ := hy
        rfl
  intro c
  induction c with
  | nil =>
    intro c' _ h' h
    cases c' with
    | nil => rfl
    | cons y c' =>
      obtain ⟨b, t, e⟩ := hne y (h' y (by simp))
      simp only [wire, e] at h
      simp at h
  | cons x c ih =>
    intro c' hc h' h
    cases c' with
    | nil =>
      obtain ⟨b, t, e⟩ := hne x (hc x (by simp))
      simp only [wire, e] at h
      simp at h
    | cons y c' =>
      simp only [wire] at h
      have hl := key x y _ _ (hc x (by simp)) (h' y (by simp)) h
      rw [hl, List.append_assoc, List.append_assoc] at h
      have h := List.append_cancel_left h
      obtain ⟨e1, e2⟩ := List.append_inj h hl
      rw [e1, ih c' (fun z hz => hc z (List.mem_cons_of_mem _ hz)) (fun z hz => h' z (List.mem_cons_of_mem _ hz)) e2]

/-- `bin_length` counts them. -/
theorem C139_wire_length (c : List Bytes) : binLength c = (wire c).length := by
  have : (c.map (fun x => (if x.length = 32 then [255] else []) ++ x)).flatten = wire c := by
    induction c with
    | nil => rfl
    | cons x c ih => simp only [List.map_cons, List.flatten_cons, ih, wire]
  rw [binLength, this]

/-- **C139** (the counted bytes, in general). With more entries they do not: for every list of 11566 strings or more there are two lists with the
same bytes that are decompressed to different branches, because a separator `----` is also two references to entry 11565. -/
theorem C139_wire_refuted (P : List Bytes) (hP : ∀ x ∈ P, Clean x) (y : Bytes) (hy : P[11565]? = some y) :
    ∃ c c' bs bs', wire c = wire c' ∧ decompressBranches c = .ok bs ∧ decompressBranches c' = .ok bs' ∧ bs ≠ bs' := by
  have hlit : ∀ (C : List Bytes) (i : Nat) (t : Bytes), C[i]? = some t → t.length ≠ 2 → getObj C i = .ok t := by
    intro C i t h h2
    simp [getObj, pyIdx, h, bind, Except.bind, h2]
  have hcl : ∀ x ∈ P, x.length ≠ 2 ∧ x ≠ dash := fun x hx => by
    have := (clean_iff x).1 (hP x hx)
    exact ⟨this.1, this.2.1⟩
  have hwire : ∀ (A B B' : List Bytes), wire B = wire B' → wire (A ++ B) = wire (A ++ B') := by
    intro A B B' h
    induction A with
    | nil => exact h
    | cons a A ih => simp only [List.cons_append, wire, ih]
  have hlen : 11565 < P.length := (List.getElem?_eq_some_iff.1 hy).1
  refine ⟨P ++ [dash, dash], P ++ [[45, 45], [45, 45], dash], [P, []], [P ++ [y, y]], hwire _ _ _ (by decide), ?_, ?_, by simp⟩
  · refine decompressBranches_spec [P, []] ⟨by simp, fun pos t ht => ?_⟩ ?_
    · have e : [P, []].flatMap (fun b => b ++ [dash]) = P ++ [dash, dash] := by simp
      rw [e] at ht
      refine hlit _ _ _ ht ?_
      have := List.mem_of_getElem? ht
      simp only [List.mem_append, List.mem_cons, List.not_mem_nil, or_false, or_self] at this
      rcases this with h | rfl
      · exact (hcl t h).1
      · decide
    · intro b hb x hx
      simp only [List.mem_cons, List.not_mem_nil, or_false] at hb
      rcases hb with rfl | rfl
      · exact (hcl x hx).2
      · simp at hx
  · have hym : y ∈ P := List.mem_of_getElem? hy
    refine decompressBranches_spec [P ++ [y, y]] ⟨by simp, fun pos t ht => ?_⟩ ?_
    · have e : [P ++ [y, y]].flatMap (fun b => b ++ [dash]) = P ++ [y, y, dash] := by simp
      rw [e] at ht
      by_cases hp : pos < P.length
      · rw [List.getElem?_append_left hp] at ht
        refine hlit _ _ _ (by rw [List.getElem?_append_left hp]; exact ht) (hcl t (List.mem_of_getElem? ht)).1
      · rw [List.getElem?_append_right (by omega)] at ht
        have href : ∀ i, i < 2 → getObj (P ++ [[45, 45], [45, 45], dash]) (P.length + i) = .ok y := by
          intro i hi
          have e1 : (P ++ [[45, 45], [45, 45], dash])[P.length + i]? = some [45, 45] := by
            rw [List.getElem?_append_right (by omega), Nat.add_sub_cancel_left]
            interval_cases i <;> rfl
          have e2 : (P ++ [[45, 45], [45, 45], dash])[11565]? = some y := by
            rw [List.getElem?_append_left hlen]
            exact hy
          have e3 : fromBytes [45, 45] = 11565 := by decide
          simp [getObj, pyIdx, e1, bind, Except.bind, e3, e2]
        obtain ⟨i, rfl⟩ : ∃ i, pos = P.length + i := ⟨pos - P.length, by omega⟩
        rw [Nat.add_sub_cancel_left] at ht
        match i, ht with
        | 0, ht => cases ht; exact href 0 (by omega)
        | 1, ht => cases ht; exact href 1 (by omega)
        | 2, ht =>
          cases ht
          refine hlit _ _ _ ?_ (by decide)
          rw [List.getElem?_append_right (by omega), Nat.add_sub_cancel_left]
          rfl
        | i + 3, ht => simp at ht
    · intro b hb x hx
      simp only [List.mem_cons, List.not_mem_nil, or_false] at hb
      subst hb
      simp only [List.mem_append, List.mem_cons, List.not_mem_nil, or_false, or_self] at hx
      rcases hx with h | rfl
      · exact (hcl x h).2
      · exact (hcl x hym).2

/-! ## Instances -/

/-- Data with references, some of them to later entries. This meets the hypotheses of `C139_fri`, `C139_fri_objects`. -/
example : decompressFri [[45, 45, 45, 45], [0, 3], [0, 7], [1, 1, 1], [0, 7], [61, 61, 61, 61], [47, 47, 47, 47], [43, 43, 43, 43]] =
    .ok ([([1, 1, 1], [[[], [[1, 1, 1]]]])], [[43, 43, 43, 43]]) := rfl

/-- This meets the hypotheses of `C139_branches`: the second branch has no separator after it. -/
example : decompressBranches [[1], [2, 2, 2], [45, 45, 45, 45], [0, 1]] = .ok [[[1], [2, 2, 2]], [[2, 2, 2]]] := by decide +kernel

/-- This meets the hypotheses of `C139_exceptions`. -/
example : decompressFri [[45, 45, 45, 45]] = .error .indexError ∧ decompressFri [[1]] = .error .assertion ∧
    decompressBranches [[0, 9]] = .error .indexError :=
  ⟨rfl, rfl, by decide +kernel⟩

/-- This meets the hypotheses of `C139_unique_refuted`: two layers without queries. -/
example : ∀ x ∈ friObjects ([([1], []), ([2], [])], [[3]]), Clean x := by
  simp only [friObjects, Clean]
  decide

example : friCount ([([1], []), ([2], [])], [[3]]) ≤ 65536 ∧ ¬ (friEntries ([([1], []), ([2], [])], [[3]])).Nodup := by
  decide +kernel

/-- This meets the hypotheses of `C139_wire_partial`. -/
example : ∀ x ∈ ([List.replicate 32 7, [45, 45, 45, 45], [43, 42], [255 - 250, 255]] : List Bytes), Entry x := by
  intro x hx
  simp only [List.mem_cons, List.not_mem_nil, or_false] at hx
  rcases hx with rfl | rfl | rfl | rfl
  · exact .inl rfl
  · exact .inr (.inl ⟨'-', by simp, rfl⟩)
  · exact .inr (.inr ⟨43, 42, rfl, by decide⟩)
  · exact .inr (.inr ⟨5, 255, rfl, by decide⟩)

/-- This meets the hypotheses of `C139_wire_refuted`. -/
example : (∀ x ∈ List.replicate 11566 ([1] : Bytes), Clean x) ∧ (List.replicate 11566 ([1] : Bytes))[11565]? = some [1] := by
  refine ⟨fun x hx => ?_, by rw [List.getElem?_replicate]; simp⟩
  rw [(List.mem_replicate.1 hx).2]
  simp only [Clean]
  decide

end Verif.Props
