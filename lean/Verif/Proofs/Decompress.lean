import Verif.Proofs.Compression
import Verif.Proofs.SmoothFri
/-!
# What the decompressors make of arbitrary input
-/

namespace Verif.Compression
open Verif.PolyUtils Verif.SmoothFri

/-- The entries from `pos` on are read as `T`. -/
def Seg (c : List Bytes) (pos : Nat) (T : List Bytes) : Prop := ∀ (i : Nat) t, T[i]? = some t → getObj c (pos + i) = .ok t

theorem Seg.nil (c : List Bytes) (pos : Nat) : Seg c pos [] := by intro i t h; simp at h

theorem Seg.cons {c : List Bytes} {pos : Nat} {x : Bytes} {T : List Bytes} (h : getObj c pos = .ok x) (hT : Seg c (pos + 1) T) : Seg c pos (x :: T) := by
  intro i t hi
  cases i with
  | zero =>
    simp only [List.getElem?_cons_zero, Option.some.injEq] at hi
    subst hi
    exact h
  | succ i =>
    rw [List.getElem?_cons_succ] at hi
    have := hT i t hi
    rwa [show pos + (i + 1) = pos + 1 + i by omega]

theorem Seg.append {c : List Bytes} {pos q : Nat} {S T : List Bytes} (h : Seg c pos S) (hq : q = pos + S.length) (hT : Seg c q T) : Seg c pos (S ++ T) := by
  intro i t hi
  by_cases hl : i < S.length
  · rw [List.getElem?_append_left hl] at hi
    exact h i t hi
  · rw [List.getElem?_append_right (by omega)] at hi
    have := hT _ t hi
    rwa [show q + (i - S.length) = pos + i by omega] at this

theorem Seg.left {c : List Bytes} {pos : Nat} {S T : List Bytes} (h : Seg c pos (S ++ T)) : Seg c pos S := fun i t hi =>
  h i t (by rw [List.getElem?_append_left (List.getElem?_eq_some_iff.1 hi).1]; exact hi)

theorem readBranch_inv (c : List Bytes) : ∀ (fuel pos : Nat) (acc b : List Bytes) (q : Nat), readBranch c fuel pos acc = .ok (b, q) →
    ∃ b', b = acc ++ b' ∧ q = pos + b'.length ∧ Seg c pos (b' ++ [plus])
  | 0, _, _, _, _, h => by cases h
  | fuel + 1, pos, acc, b, q, h => by
    simp only [readBranch] at h
    obtain ⟨x, h1, h⟩ := bind_inv h
    split at h
    · obtain ⟨b', e1, e2, e3⟩ := readBranch_inv c fuel _ _ _ _ h
      exact ⟨x :: b', by simp [e1], by simp [e2]; omega, Seg.cons h1 e3⟩
    · rename_i hx
      cases h
      rw [not_not.1 hx] at h1
      exact ⟨[], by simp, by simp, Seg.cons h1 (Seg.nil _ _)⟩

theorem readYproof_inv (c : List Bytes) : ∀ (fuel pos : Nat) (acc y : List (List Bytes)) (q : Nat), readYproof c fuel pos acc = .ok (y, q) →
    ∃ y', y = acc ++ y' ∧ q = pos + (yTokens y').length ∧ Seg c pos (yTokens y' ++ [equal])
  | 0, _, _, _, _, h => by cases h
  | fuel + 1, pos, acc, y, q, h => by
    simp only [readYproof] at h
    obtain ⟨x, h1, h⟩ := bind_inv h
    split at h
    · obtain ⟨r, h2, h⟩ := bind_inv h
      obtain ⟨b', e1, e2, e3⟩ := readBranch_inv c _ _ _ _ _ h2
      obtain ⟨y', f1, f2, f3⟩ := readYproof_inv c fuel _ _ _ _ h
      simp only [List.nil_append] at e1
      have el : (yTokens (r.1 :: y')).length = r.1.length + 1 + (yTokens y').length := by simp [yTokens]; omega
      refine ⟨r.1 :: y', by simp [f1], ?_, ?_⟩
      · rw [el, f2, e2, e1]; omega
      · have e4 : yTokens (r.1 :: y') ++ [equal] = (r.1 ++ [plus]) ++ (yTokens y' ++ [equal]) := by simp [yTokens]
        rw [e4, e1]
        exact e3.append (by simp [e2]; omega) f3
    · rename_i hx
      cases h
      rw [not_not.1 hx] at h1
      exact ⟨[], by simp, by simp [yTokens], Seg.cons h1 (Seg.nil _ _)⟩

theorem readYproofs_inv (c : List Bytes) : ∀ (fuel pos : Nat) (acc ys : List (List (List Bytes))) (q : Nat),
    readYproofs c fuel pos acc = .ok (ys, q) → ∃ ys', ys = acc ++ ys' ∧ q = pos + (ysTokens ys').length ∧ Seg c pos (ysTokens ys')
  | 0, _, _, _, _, h => by cases h
  | fuel + 1, pos, acc, ys, q, h => by
    simp only [readYproofs] at h
    obtain ⟨x, h1, h⟩ := bind_inv h
    split at h
    · obtain ⟨r, h2, h⟩ := bind_inv h
      obtain ⟨y', e1, e2, e3⟩ := readYproof_inv c _ _ _ _ _ h2
      obtain ⟨ys', f1, f2, f3⟩ := readYproofs_inv c fuel _ _ _ _ h
      simp only [List.nil_append] at e1
      have e4 : ysTokens (r.1 :: ys') = (yTokens r.1 ++ [equal]) ++ ysTokens ys' := by simp [ysTokens]
      refine ⟨r.1 :: ys', by simp [f1], ?_, ?_⟩
      · rw [e4, f2, e2, e1]; simp; omega
      · rw [e4, e1]
        exact e3.append (by simp [e2]; omega) f3
    · cases h
      exact ⟨[], by simp, by simp [ysTokens], Seg.nil _ _⟩

theorem readItems_inv (c : List Bytes) : ∀ (fuel pos : Nat) (acc its : List Item) (q : Nat), readItems c fuel pos acc = .ok (its, q) →
    ∃ its', its = acc ++ its' ∧ q = pos + (itemsTokens its').length ∧ Seg c pos (itemsTokens its' ++ [slash]) ∧ c[q]? = some slash
  | 0, _, _, _, _, h => by cases h
  | fuel + 1, pos, acc, its, q, h => by
    simp only [readItems] at h
    obtain ⟨raw, h1, h⟩ := bind_inv h
    split at h
    · obtain ⟨x, h2, h⟩ := bind_inv h
      obtain ⟨_, h3, h⟩ := bind_inv h
      obtain ⟨root, h4, h⟩ := bind_inv h
      obtain ⟨r, h5, h⟩ := bind_inv h
      have hx : x = dash := by
        by_contra hne
        simp [pyAssert, hne] at h3
      rw [hx] at h2
      obtain ⟨ys', e1, e2, e3⟩ := readYproofs_inv c _ _ _ _ _ h5
      obtain ⟨its', f1, f2, f3, f4⟩ := readItems_inv c fuel _ _ _ _ h
      simp only [List.nil_append] at e1
      have e4 : itemsTokens ((root, r.1) :: its') = dash :: root :: (ysTokens r.1 ++ itemsTokens its') := by
        simp [itemsTokens, itemTokens]
      refine ⟨(root, r.1) :: its', by simp [f1], ?_, ?_, f4⟩
      · rw [e4, f2, e2, e1]; simp; omega
      · rw [e4, e1, List.cons_append, List.cons_append, List.append_assoc]
        refine Seg.cons h2 (Seg.cons h4 (Seg.append e3 ?_ f3))
        omega
    · rename_i hx
      cases h
      have hr : c[pos]? = some slash := by
        have := not_not.1 hx
        subst this
        unfold pyIdx at h1
        split at h1
        · cases h1; assumption
        · cases h1
      refine ⟨[], by simp, by simp [itemsTokens], Seg.cons ?_ (Seg.nil _ _), hr⟩
      simp [getObj, pyIdx, hr, bind, Except.bind, slash]

theorem readTail_inv (c : List Bytes) : ∀ (n pos : Nat) (l : List Bytes), readTail c (List.range' pos n) = .ok l → l.length = n ∧ Seg c pos l
  | 0, _, _, h => by cases h; exact ⟨rfl, Seg.nil _ _⟩
  | n + 1, pos, l, h => by
    rw [List.range'_succ, readTail] at h
    obtain ⟨x, h1, h⟩ := bind_inv h
    obtain ⟨xs, h2, h⟩ := bind_inv h
    cases h
    obtain ⟨e1, e2⟩ := readTail_inv c n (pos + 1) xs h2
    exact ⟨by simp [e1], Seg.cons h1 e2⟩

theorem decompressFri_inv {c : List Bytes} {prf : FriProof} (h : decompressFri c = .ok prf) :
    c.length = (friEntries prf).length ∧ Seg c 0 (friEntries prf) := by
  simp only [decompressFri] at h
  obtain ⟨r, h1, h⟩ := bind_inv h
  obtain ⟨last, h2, h⟩ := bind_inv h
  cases h
  obtain ⟨its, e1, e2, e3, e4⟩ := readItems_inv c _ _ _ _ _ h1
  obtain ⟨f1, f2⟩ := readTail_inv c _ _ _ h2
  simp only [List.nil_append] at e1
  have hq : r.2 < c.length := (List.getElem?_eq_some_iff.1 e4).1
  rw [friEntries_eq, e1]
  constructor
  · simp only [List.length_append, List.length_cons]; omega
  · have : itemsTokens its ++ slash :: last = (itemsTokens its ++ [slash]) ++ last := by simp
    rw [this]
    exact e3.append (by simp; omega) f2

/-! ### Branches -/

theorem readToDash_inv (c : List Bytes) : ∀ (fuel pos : Nat) (acc b : List Bytes) (q : Nat), readToDash c fuel pos acc = .ok (b, q) →
    ∃ b', b = acc ++ b' ∧ q = pos + b'.length ∧ Seg c pos b' ∧ (q < c.length → getObj c q = .ok dash) ∧ (pos ≤ c.length → q ≤ c.length)
  | 0, _, _, _, _, h => by cases h
  | fuel + 1, pos, acc, b, q, h => by
    simp only [readToDash] at h
    split at h
    · rename_i hlt
      obtain ⟨x, h1, h⟩ := bind_inv h
      split at h
      · obtain ⟨b', e1, e2, e3, e4, e5⟩ := readToDash_inv c fuel _ _ _ _ h
        exact ⟨x :: b', by simp [e1], by simp [e2]; omega, Seg.cons h1 e3, e4, fun _ => e5 (by omega)⟩
      · rename_i hx
        cases h
        rw [not_not.1 hx] at h1
        exact ⟨[], by simp, by simp, Seg.nil _ _, fun _ => h1, fun h => h⟩
    · rename_i hlt
      cases h
      exact ⟨[], by simp, by simp, Seg.nil _ _, fun h => absurd h hlt, fun h => h⟩

theorem readBranches_inv (c : List Bytes) : ∀ (fuel pos : Nat) (acc bs : List (List Bytes)), pos ≤ c.length → readBranches c fuel pos acc = .ok bs →
    ∃ bs', bs = acc ++ bs' ∧ Seg c pos ((branchEntries bs').take (c.length - pos)) ∧
      (pos + (branchEntries bs').length = c.length ∨ pos + (branchEntries bs').length = c.length + 1)
  | 0, _, _, _, _, h => by cases h
  | fuel + 1, pos, acc, bs, hp, h => by
    simp only [readBranches] at h
    split at h
    · rename_i hlt
      obtain ⟨r, h1, h⟩ := bind_inv h
      obtain ⟨b', e1, e2, e3, e4, e5⟩ := readToDash_inv c _ _ _ _ _ h1
      simp only [List.nil_append] at e1
      by_cases hq : r.2 < c.length
      · obtain ⟨bs', f1, f2, f3⟩ := readBranches_inv c fuel _ _ _ (by omega) h
        have e6 : branchEntries (r.1 :: bs') = (b' ++ [dash]) ++ branchEntries bs' := by
          rw [e1]
          simp only [branchEntries, List.flatMap_cons]
          rfl
        refine ⟨r.1 :: bs', by simp [f1], ?_, ?_⟩
        · have hl : (b' ++ [dash]).length ≤ c.length - pos := by simp; omega
          rw [e6, List.take_append, List.take_of_length_le hl]
          have : Seg c pos (b' ++ [dash]) := e3.append rfl (Seg.cons (by rw [← e2]; exact e4 hq) (Seg.nil _ _))
          refine this.append rfl ?_
          have e7 : pos + (b' ++ [dash]).length = r.2 + 1 := by simp; omega
          rw [e7, show c.length - pos - (b' ++ [dash]).length = c.length - (r.2 + 1) by simp; omega]
          exact f2
        · rw [e6]
          simp only [List.length_append, List.length_singleton]
          omega
      · have hq' : r.2 = c.length := by have := e5 hp; omega
        have hend : bs = acc ++ [r.1] := by
          cases fuel with
          | zero => cases h
          | succ fuel =>
            rw [readBranches, if_neg (by omega)] at h
            cases h
            rfl
        refine ⟨[r.1], hend, ?_, .inr ?_⟩
        · have e6 : branchEntries [r.1] = b' ++ [dash] := by rw [e1]; simp [branchEntries]; rfl
          rw [e6, show c.length - pos = b'.length by omega, List.take_left]
          exact e3
        · have e6 : branchEntries [r.1] = b' ++ [dash] := by rw [e1]; simp [branchEntries]; rfl
          rw [e6]
          simp
          omega
    · cases h
      exact ⟨[], by simp, by simpa [branchEntries] using Seg.nil _ _, .inl (by simp [branchEntries]; omega)⟩

/-! ### Exceptions -/

theorem pyIdx_error {α : Type _} {l : List α} {i : Nat} {e : PyErr} (h : pyIdx l i = .error e) : e = .indexError := by
  unfold pyIdx at h
  split at h
  · cases h
  · cases h; rfl

theorem getObj_error {c : List Bytes} {pos : Nat} {e : PyErr} (h : getObj c pos = .error e) : e = .indexError := by
  simp only [getObj, bind, Except.bind] at h
  split at h
  · rename_i h1
    cases h
    exact pyIdx_error h1
  · split at h
    · exact pyIdx_error h
    · cases h

theorem bind_error {α β : Type _} {x : Py α} {f : α → Py β} {e : PyErr} (h : (x >>= f) = .error e) :
    x = .error e ∨ ∃ a, x = .ok a ∧ f a = .error e := by
  cases x with
  | error e' => exact .inl (by injection h with h; rw [h])
  | ok a => exact .inr ⟨a, rfl, h⟩

theorem readBranch_error (c : List Bytes) : ∀ (fuel pos : Nat) (acc : List Bytes) (e : PyErr), readBranch c fuel pos acc = .error e →
    e = .indexError ∨ e = .diverge
  | 0, _, _, _, h => by cases h; exact .inr rfl
  | fuel + 1, pos, acc, e, h => by
    simp only [readBranch] at h
    rcases bind_error h with h | ⟨x, _, h⟩
    · exact .inl (getObj_error h)
    · split at h
      · exact readBranch_error c fuel _ _ e h
      · cases h

theorem readYproof_error (c : List Bytes) : ∀ (fuel pos : Nat) (acc : List (List Bytes)) (e : PyErr), readYproof c fuel pos acc = .error e →
    e = .indexError ∨ e = .diverge
  | 0, _, _, _, h => by cases h; exact .inr rfl
  | fuel + 1, pos, acc, e, h => by
    simp only [readYproof] at h
    rcases bind_error h with h | ⟨x, _, h⟩
    · exact .inl (getObj_error h)
    · split at h
      · rcases bind_error h with h | ⟨r, _, h⟩
        · exact readBranch_error c _ _ _ e h
        · exact readYproof_error c fuel _ _ e h
      · cases h

theorem readYproofs_error (c : List Bytes) : ∀ (fuel pos : Nat) (acc : List (List (List Bytes))) (e : PyErr), readYproofs c fuel pos acc = .error e →
    e = .indexError ∨ e = .diverge
  | 0, _, _, _, h => by cases h; exact .inr rfl
  | fuel + 1, pos, acc, e, h => by
    simp only [readYproofs] at h
    rcases bind_error h with h | ⟨x, _, h⟩
    · exact .inl (getObj_error h)
    · split at h
      · rcases bind_error h with h | ⟨r, _, h⟩
        · exact readYproof_error c _ _ _ e h
        · exact readYproofs_error c fuel _ _ e h
      · cases h

theorem readItems_error (c : List Bytes) : ∀ (fuel pos : Nat) (acc : List Item) (e : PyErr), readItems c fuel pos acc = .error e →
    e = .indexError ∨ e = .diverge ∨ e = .assertion
  | 0, _, _, _, h => by cases h; exact .inr (.inl rfl)
  | fuel + 1, pos, acc, e, h => by
    simp only [readItems] at h
    rcases bind_error h with h | ⟨raw, _, h⟩
    · exact .inl (pyIdx_error h)
    · split at h
      · rcases bind_error h with h | ⟨x, _, h⟩
        · exact .inl (getObj_error h)
        rcases bind_error h with h | ⟨_, _, h⟩
        · unfold pyAssert at h
          split at h
          · cases h
          · cases h; exact .inr (.inr rfl)
        rcases bind_error h with h | ⟨root, _, h⟩
        · exact .inl (getObj_error h)
        rcases bind_error h with h | ⟨r, _, h⟩
        · rcases readYproofs_error c _ _ _ e h with h | h
          · exact .inl h
          · exact .inr (.inl h)
        · exact readItems_error c fuel _ _ e h
      · cases h

theorem readTail_error (c : List Bytes) : ∀ (ps : List Nat) (e : PyErr), readTail c ps = .error e → e = .indexError
  | [], _, h => by cases h
  | p :: ps, e, h => by
    rw [readTail] at h
    rcases bind_error h with h | ⟨x, _, h⟩
    · exact getObj_error h
    rcases bind_error h with h | ⟨xs, _, h⟩
    · exact readTail_error c ps e h
    · cases h

theorem decompressFri_error {c : List Bytes} {e : PyErr} (h : decompressFri c = .error e) : e = .indexError ∨ e = .assertion := by
  have ht := decompressFri_total c
  have : e ≠ .diverge := fun he => ht (he ▸ h)
  simp only [decompressFri] at h
  rcases bind_error h with h | ⟨r, _, h⟩
  · rcases readItems_error c _ _ _ e h with h | h | h
    · exact .inl h
    · exact absurd h this
    · exact .inr h
  rcases bind_error h with h | ⟨l, _, h⟩
  · exact .inl (readTail_error c _ e h)
  · cases h

theorem readToDash_error (c : List Bytes) : ∀ (fuel pos : Nat) (acc : List Bytes) (e : PyErr), readToDash c fuel pos acc = .error e →
    e = .indexError ∨ e = .diverge
  | 0, _, _, _, h => by cases h; exact .inr rfl
  | fuel + 1, pos, acc, e, h => by
    simp only [readToDash] at h
    split at h
    · rcases bind_error h with h | ⟨x, _, h⟩
      · exact .inl (getObj_error h)
      · split at h
        · exact readToDash_error c fuel _ _ e h
        · cases h
    · cases h

theorem readBranches_error (c : List Bytes) : ∀ (fuel pos : Nat) (acc : List (List Bytes)) (e : PyErr), readBranches c fuel pos acc = .error e →
    e = .indexError ∨ e = .diverge
  | 0, _, _, _, h => by cases h; exact .inr rfl
  | fuel + 1, pos, acc, e, h => by
    simp only [readBranches] at h
    split at h
    · rcases bind_error h with h | ⟨x, _, h⟩
      · exact readToDash_error c _ _ _ e h
      · exact readBranches_error c fuel _ _ e h
    · cases h

theorem decompressBranches_error {c : List Bytes} {e : PyErr} (h : decompressBranches c = .error e) : e = .indexError := by
  have : e ≠ .diverge := fun he => decompressBranches_total c (he ▸ h)
  rcases readBranches_error c _ _ _ e h with h | h
  · exact h
  · exact absurd h this

/-! ### Repeated entries are replaced -/

theorem addAll_short : ∀ (xs : List Bytes) {st : St} {T : List Bytes}, Enc st T → Fits T xs → (∃ pos x, xs[pos]? = some x ∧ x ∈ T ++ xs.take pos) →
    ∀ st', addAll st xs = .ok st' → ∃ b ∈ st'.o, b.length = 2
  | [], _, _, _, _, ⟨pos, x, h, _⟩, _, _ => by simp at h
  | x :: xs, st, T, he, hf, ⟨pos, z, hz, hm⟩, st', h => by
    rw [Fits] at hf
    rw [addAll] at h
    obtain ⟨s1, h1, h⟩ := bind_inv h
    obtain ⟨s1', e1, e2, -, -⟩ := addObj_spec he x hf.1
    rw [h1] at e1
    cases e1
    obtain ⟨s2, e3, -, e4⟩ := addAll_spec xs e2 hf.2
    rw [h] at e3
    cases e3
    by_cases hx : x ∈ T
    · have hl := he.lk x
      rw [if_pos hx] at hl
      simp only [addObj, hl] at h1
      obtain ⟨b, hb, h1⟩ := bind_inv h1
      cases h1
      refine ⟨b, e4.subset (by simp), ?_⟩
      rcases intToBytes_spec (T.idxOf x) 2 with ⟨_, _, b', h2, h3, _⟩ | ⟨_, h2⟩
      · rw [hb] at h2
        cases h2
        exact h3
      · rw [hb] at h2
        cases h2
    · cases pos with
      | zero =>
        simp only [List.getElem?_cons_zero, Option.some.injEq] at hz
        subst hz
        simp at hm
        exact absurd hm hx
      | succ pos =>
        rw [List.getElem?_cons_succ] at hz
        exact addAll_short xs e2 hf.2 ⟨pos, z, hz, by simpa using hm⟩ _ h

end Verif.Compression
