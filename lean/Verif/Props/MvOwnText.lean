import Verif.Props.MvString
/-!
# C107: the library's own texts, and the index 0

`str(p)` for a polynomial over `Z/p` is `mvRepr n (printed l)` (`l` its power tuples and residues in the order of the dictionary).
-/

namespace Verif.Props
open Mv MvString Spec.Sympy
open MvPolynomial (C X)

variable {R : Type} [CommRing R] [DecidableEq R] {n : Nat}

theorem maxSym_tup (t : Tup) : ∀ (k m : Nat) (r : Str), ∃ m',
    maxSym (((t.zipIdx k).map fun e => "*X_".toList ++ strNat (e.2 + 1) ++ "**".toList ++ strNat e.1).flatten ++ r) m = maxSym r m' ∧
      m ≤ m' ∧ (t ≠ [] → 0 < m') := by
  induction t with
  | nil => intro k m r; exact ⟨m, rfl, le_rfl, by simp⟩
  | cons e t ih =>
    intro k m r
    obtain ⟨d, s, hs, h1, h9⟩ := strNat_head (i := k + 1) (by omega)
    have hd := digitChar_spec (show d < 10 by omega)
    have hno : '_' ∉ s := fun h => strNat_no (k + 1) (by rw [hs]; simp [h])
    have e0 : (((e :: t).zipIdx k).map fun e => "*X_".toList ++ strNat (e.2 + 1) ++ "**".toList ++ strNat e.1).flatten ++ r =
        ['*', 'X'] ++ ('_' :: digitChar d :: ((s ++ "**".toList ++ strNat e) ++
          (((t.zipIdx (k + 1)).map fun e => "*X_".toList ++ strNat (e.2 + 1) ++ "**".toList ++ strNat e.1).flatten ++ r))) := by
      simp [List.zipIdx_cons, hs]
    obtain ⟨m', h2, h3, -⟩ := ih (k + 1) (if d > m then d else m) r
    refine ⟨m', ?_, ?_, fun _ => ?_⟩
    · rw [e0, maxSym_skip (by decide), maxSym_us hd.1, hd.2, maxSym_skip (by simp [hno, strNat_no]), h2]
    · split at h3 <;> omega
    · split at h3 <;> omega

/-- The text of one term. -/
def ownTerm (n : Nat) (e : Tup × Nat) : Str := if e.1 ≠ List.replicate n 0 then strNat e.2 ++ ' ' :: tupStr e.1 else strNat e.2

theorem mvRepr_own (n : Nat) {l : List (Tup × Nat)} (h : l ≠ []) : mvRepr n (printed l) = joinPlus (l.map (ownTerm n)) := by
  have : printed l ≠ [] := by simpa [printed] using h
  rw [mvRepr, if_neg this, printed, List.map_map]
  rfl

theorem maxSym_own (e : Tup × Nat) (he : e.1.length = n) (r : Str) (m : Nat) : ∃ m', maxSym (ownTerm n e ++ r) m = maxSym r m' ∧
    m ≤ m' ∧ (e.1 ≠ List.replicate n 0 → 0 < m') := by
  unfold ownTerm
  by_cases h : e.1 ≠ List.replicate n 0
  · obtain ⟨m', h1, h2, h3⟩ := maxSym_tup e.1 0 m r
    refine ⟨m', ?_, h2, fun _ => h3 ?_⟩
    · rw [if_pos h, List.append_assoc, maxSym_skip (strNat_no _), List.cons_append, maxSym_ne (by decide), tupStr, h1]
    · intro h0
      rw [h0] at he h
      simp at he
      subst he
      simp at h
  · exact ⟨m, by rw [if_neg h, maxSym_skip (strNat_no _)], le_rfl, fun h' => absurd h' h⟩

theorem maxSym_join (l : List (Tup × Nat)) : ∀ m, (∀ e ∈ l, e.1.length = n) → ∃ m', maxSym (joinPlus (l.map (ownTerm n))) m = .ok m' ∧
    m ≤ m' ∧ ((∃ e ∈ l, e.1 ≠ List.replicate n 0) → 0 < m') := by
  induction l with
  | nil => intro m _; exact ⟨m, rfl, le_rfl, by simp⟩
  | cons e l ih =>
    intro m hl
    cases l with
    | nil =>
      obtain ⟨m', h1, h2, h3⟩ := maxSym_own e (hl e (by simp)) [] m
      refine ⟨m', ?_, h2, ?_⟩
      · simpa [joinPlus, maxSym] using h1
      · rintro ⟨e', h, h'⟩
        obtain rfl : e' = e := by simpa using h
        exact h3 h'
    | cons e' l =>
      obtain ⟨m1, h1, h2, h3⟩ := maxSym_own e (hl e (by simp)) (" + ".toList ++ joinPlus ((e' :: l).map (ownTerm n))) m
      obtain ⟨m2, h4, h5, h6⟩ := ih m1 fun x hx => hl x (by simp [hx])
      refine ⟨m2, ?_, by omega, ?_⟩
      · rw [List.map_cons, List.map_cons, joinPlus, ← List.map_cons, h1, maxSym_skip (by decide), h4]
        simp
      · rintro ⟨x, h, h'⟩
        rcases List.mem_cons.1 h with rfl | h
        · have := h3 h'
          omega
        · exact h6 ⟨x, h, h'⟩

omit [DecidableEq R] in
theorem outerLoop_number (zero : Tup) (fuel : Nat) (d : Dict R) (c : Nat) (a b : Char) (r : Str) :
    outerLoop zero (fuel + 1) d (strNat c ++ ' ' :: a :: b :: r) = outerLoop zero fuel (assign zero (c : R) d) r := by
  rw [outerLoop_step _ _ _ (by simp)]
  have h := spanDigits_eq (s := strNat c) (r := ' ' :: a :: b :: r) (strNat_digit c) (Stop.cons (by decide))
  simp only [reduceCtorEq, if_false] at h
  simp [h, innerLoop, bind, Except.bind, strNat_ne_nil, natOf_strNat]

omit [DecidableEq R] in
theorem outerLoop_underscore (zero : Tup) (fuel : Nat) (d : Dict R) (r : Str) :
    outerLoop zero (fuel + 1) d ('_' :: r) = .error .valueError := by
  have h_ : isDigit '_' = false := by decide
  simp [outerLoop, spanDigits, innerLoop, factorStep, skipX, h_, bind, Except.bind]

omit [DecidableEq R] in
theorem outerLoop_own (zero : Tup) (l : List (Tup × Nat)) : ∀ (fuel : Nat) (d : Dict R), (∀ e ∈ l, e.1.length = n) →
    (∃ e ∈ l, e.1 ≠ List.replicate n 0) → l.length < fuel →
    outerLoop zero fuel d (joinPlus (l.map (ownTerm n))) = .error .valueError := by
  induction l with
  | nil => intro fuel d _ h; simp at h
  | cons e l ih =>
    intro fuel d hl hv hf
    rw [List.length_cons] at hf
    obtain ⟨fuel, rfl⟩ : ∃ f, fuel = f + 2 := ⟨fuel - 2, by omega⟩
    by_cases h : e.1 ≠ List.replicate n 0
    · have hx : ∃ r, joinPlus ((e :: l).map (ownTerm n)) = strNat e.2 ++ ' ' :: '*' :: 'X' :: '_' :: r := by
        have h1 : ∃ r, ownTerm n e = strNat e.2 ++ ' ' :: '*' :: 'X' :: '_' :: r := by
          obtain ⟨t, c⟩ := e
          cases t with
          | nil =>
            have := hl _ List.mem_cons_self
            simp at this
            subst this
            simp at h
          | cons a t =>
            rw [ownTerm, if_pos h]
            exact ⟨_, by simp [tupStr, List.zipIdx_cons]; rfl⟩
        obtain ⟨r, h1⟩ := h1
        cases l with
        | nil => exact ⟨r, by simpa [joinPlus] using h1⟩
        | cons e' l => exact ⟨_, by rw [List.map_cons, List.map_cons, joinPlus, h1, List.append_assoc]; rfl; simp⟩
      obtain ⟨r, hx⟩ := hx
      rw [hx, outerLoop_number, outerLoop_underscore]
    · cases l with
      | nil =>
        obtain ⟨e', h', h''⟩ := hv
        obtain rfl : e' = e := by simpa using h'
        exact absurd h'' h
      | cons e' l =>
        have hx : joinPlus ((e :: e' :: l).map (ownTerm n)) = strNat e.2 ++ ' ' :: '+' :: ' ' :: joinPlus ((e' :: l).map (ownTerm n)) := by
          rw [List.map_cons, List.map_cons, joinPlus, ← List.map_cons, ownTerm, if_neg h]
          · rfl
          · simp
        rw [hx, outerLoop_number]
        refine ih (fuel + 1) _ (fun x hx => hl x (by simp [hx])) ?_ (by omega)
        obtain ⟨x, h', h''⟩ := hv
        rcases List.mem_cons.1 h' with rfl | h'
        · exact absurd h'' h
        · exact ⟨x, h', h''⟩

theorem joinPlus_length (l : List (Tup × Nat)) : l.length ≤ (joinPlus (l.map (ownTerm n))).length := by
  have h1 : ∀ e : Tup × Nat, 0 < (ownTerm n e).length := by
    intro e
    apply List.length_pos_of_ne_nil
    unfold ownTerm
    split <;> simp [strNat_ne_nil]
  induction l with
  | nil => simp
  | cons e l ih =>
    cases l with
    | nil => exact h1 e
    | cons e' l =>
      have := h1 e
      rw [List.map_cons, List.map_cons, joinPlus, ← List.map_cons]
      · rw [List.length_append, List.length_append, List.length_cons]
        omega
      · simp

/-- **C107** on the texts the library itself prints, in any number of variables: `str(p)` is read as `p` if `p` is constant, and the
reader raises `ValueError` on the text of every other polynomial. -/
theorem C107_own_text_refuted {l : List (Tup × Nat)} (hl : (l.map Prod.fst).Nodup) (hlen : ∀ e ∈ l, e.1.length = n) (s : Nat) :
    ((∀ e ∈ l, e.1 = List.replicate n 0) → ∃ d : Dict R, strToMulti (mvRepr n (printed l)) n = .ok d ∧ WF n d ∧
      toMv n d = terms R n (residues l)) ∧
    ((∃ e ∈ l, e.1 ≠ List.replicate n 0) → strToMulti (R := R) (mvRepr n (printed l)) s = .error .valueError) := by
  constructor
  · intro h
    have key : ∀ c : Nat, mvRepr n (printed l) = strNat c → terms R n (residues l) = C (c : R) →
        ∃ d : Dict R, strToMulti (mvRepr n (printed l)) n = .ok d ∧ WF n d ∧ toMv n d = terms R n (residues l) := by
      intro c h1 h2
      have h3 := strToMulti_const (R := R) n c
      rw [if_neg (by omega), List.nil_append, Int.natAbs_natCast, ← h1] at h3
      refine ⟨_, h3, wf_ofElt n _, ?_⟩
      rw [h2, show ofDict [(List.replicate n 0, (((c : Nat) : Int) : R))] = ofElt n (((c : Nat) : Int) : R) from rfl, toMv_ofElt]
      simp
    match l, hl, h with
    | [], _, _ => exact key 0 rfl (by simp [terms, residues])
    | [e], _, h =>
      have he := h e (by simp)
      refine key e.2 ?_ ?_
      · rw [mvRepr_own n (by simp)]
        simp [joinPlus, ownTerm, he]
      · simp [terms, residues, he, tupF_zero]
    | a :: b :: l, hl, h =>
      have h1 := h a (by simp)
      have h2 := h b (by simp)
      simp [h1, h2] at hl
  · intro hv
    have hne : l ≠ [] := by rintro rfl; simp at hv
    obtain ⟨m, h1, -, h3⟩ := maxSym_join l 0 hlen
    have hm : m ≠ 0 := by have := h3 hv; omega
    rw [mvRepr_own n hne]
    have := outerLoop_own (R := R) (List.replicate (max s m) 0) l ((joinPlus (l.map (ownTerm n))).length + 1) [] hlen hv
      (by have := joinPlus_length (n := n) l; omega)
    simp [strToMulti, h1, hm, this, bind, Except.bind]

/-- Over `Z/7`: `3` and `0` are read back; the text of `3 + 5 X_1^2 X_2` is not. -/
example : (∃ d : Dict (Zp 7), strToMulti "0".toList 2 = .ok d ∧ toMv 2 d = 0) ∧
    strToMulti (R := Zp 7) "3 + 5 *X_1**2*X_2**1".toList 2 = .error .valueError := by
  constructor
  · obtain ⟨d, h1, -, h3⟩ := (C107_own_text_refuted (R := Zp 7) (n := 2) (l := []) (by simp) (by simp) 2).1 (by simp)
    exact ⟨d, h1, by rw [h3]; simp [terms, residues]⟩
  · have h : mvRepr 2 (printed [([0, 0], 3), ([2, 1], 5)]) = "3 + 5 *X_1**2*X_2**1".toList := by decide +kernel
    exact h ▸ (C107_own_text_refuted (R := Zp 7) (n := 2) (l := [([0, 0], 3), ([2, 1], 5)]) (by decide) (by decide) 2).2
      ⟨_, List.mem_cons_of_mem _ List.mem_cons_self, by decide⟩

/-- **C107** on an index that is not that of a variable: `X_0` beside another variable is read as the last variable; there is no
exception. -/
theorem C107_index_zero_refuted (hn : 2 ≤ n) :
    ∃ d : Dict R, strToMulti "X_0*X_1".toList n = .ok d ∧ WF n d ∧ toMv n d = X ⟨n - 1, by omega⟩ * X ⟨0, by omega⟩ := by
  have h : strToMulti (R := R) "X_0*X_1".toList n = .ok (ofDict [(((List.replicate n 0).set (n - 1) 1).set 0 1, 1)]) := by
    have hm : maxSym "X_0*X_1".toList 0 = .ok 1 := rfl
    have hmax : max n 1 = n := by omega
    have hi : innerLoop 8 (List.replicate n 0) "X_0*X_1".toList = .ok (((List.replicate n 0).set (n - 1) 1).set 0 1, []) := by
      have h1 : factorStep (List.replicate n 0) "X_0*X_1".toList = .ok ((List.replicate n 0).set (n - 1) 1, "*X_1".toList) := by
        have h0 : (setPow (List.replicate n 0) 0 1) = .ok ((List.replicate n 0).set (n - 1) 1) := by
          rw [setPow, if_pos rfl, if_neg (by simp; omega), List.length_replicate]
        have : factorStep (List.replicate n 0) "X_0*X_1".toList = (do
          let t' ← setPow (List.replicate n 0) 0 1
          .ok (t', "*X_1".toList)) := rfl
        rw [this, h0]
        rfl
      have h2 : factorStep ((List.replicate n 0).set (n - 1) 1) "*X_1".toList = .ok (((List.replicate n 0).set (n - 1) 1).set 0 1, []) := by
        have h0 : setPow ((List.replicate n 0).set (n - 1) 1) 1 1 = .ok (((List.replicate n 0).set (n - 1) 1).set 0 1) := by
          rw [setPow, if_neg (by decide), if_pos (by simp; omega)]
        have : factorStep ((List.replicate n 0).set (n - 1) 1) "*X_1".toList = (do
          let t' ← setPow ((List.replicate n 0).set (n - 1) 1) 1 1
          .ok (t', [])) := rfl
        rw [this, h0]
        rfl
      rw [show "X_0*X_1".toList = 'X' :: "_0*X_1".toList from rfl] at h1 ⊢
      rw [innerLoop, if_neg (by decide), h1]
      simp only [bind, Except.bind]
      rw [show "*X_1".toList = '*' :: "X_1".toList from rfl] at h2 ⊢
      rw [innerLoop, if_neg (by decide), h2]
      rfl
    have ho : outerLoop (R := R) (List.replicate n 0) 8 [] "X_0*X_1".toList = .ok [(((List.replicate n 0).set (n - 1) 1).set 0 1, 1)] := by
      have hs : spanDigits "X_0*X_1".toList = .ok ([], "X_0*X_1".toList) := rfl
      rw [outerLoop_step _ _ _ (by decide), hs]
      simp only [bind, Except.bind]
      rw [show "X_0*X_1".toList.length + 1 = 8 from rfl, hi]
      simp [assign, outerLoop]
    rw [strToMulti, hm]
    simp only [bind, Except.bind]
    rw [hmax, if_neg (by decide), show "X_0*X_1".toList.length + 1 = 8 from rfl, ho]
  refine ⟨_, h, wf_ofDict ⟨by simp [keys], by simp [keys]⟩, ?_⟩
  rw [toMv_ofDict, toMv_cons, toMv_nil, add_zero]
  have e : tupF n (((List.replicate n 0).set (n - 1) 1).set 0 1) = Finsupp.single ⟨n - 1, by omega⟩ 1 + Finsupp.single ⟨0, by omega⟩ 1 := by
    ext j
    rw [tupF_apply, Finsupp.add_apply, Finsupp.single_apply, Finsupp.single_apply]
    simp only [List.getD_eq_getElem?_getD, List.getElem?_set, Fin.ext_iff, List.length_set, List.length_replicate]
    have := j.2
    rw [List.getElem?_replicate, if_pos this]
    split_ifs <;> simp <;> omega
  rw [e, ← one_mul (1 : R), ← MvPolynomial.monomial_mul]
  rfl

example : ∃ d : Dict Int, strToMulti "X_0*X_1".toList 3 = .ok d ∧ toMv 3 d = X 2 * X 0 := by
  obtain ⟨d, h1, -, h3⟩ := C107_index_zero_refuted (R := Int) (n := 3) (by decide)
  exact ⟨d, h1, h3⟩

end Verif.Props
