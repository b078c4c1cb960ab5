import Verif.Props.MvString
/-!
# C107: texts with repeated monomials
-/

namespace Verif.Props
open Mv MvString Spec.Sympy
open MvPolynomial (C X)

variable {R : Type} [CommRing R] [DecidableEq R] {n : Nat}

theorem get_assign (t : Tup) (c : R) (d : Dict R) (s : Tup) : get (assign t c d) s = if s = t then c else get d s := by
  induction d with
  | nil => rw [assign, get_cons]
  | cons e d ih =>
    obtain ⟨t', c'⟩ := e
    rw [assign]
    by_cases h : t' = t
    · subst h
      rw [if_pos rfl, get_cons, get_cons]
      split <;> rfl
    · rw [if_neg h, get_cons, get_cons, ih]
      by_cases h1 : s = t'
      · subst h1; rw [if_pos rfl, if_pos rfl, if_neg h]
      · rw [if_neg h1, if_neg h1]

omit [CommRing R] [DecidableEq R] in
theorem mem_keys_assign (t : Tup) (c : R) (d : Dict R) (s : Tup) (h : s ∈ keys (assign t c d)) : s = t ∨ s ∈ keys d := by
  induction d with
  | nil => simpa [assign, keys] using h
  | cons e d ih =>
    obtain ⟨t', c'⟩ := e
    rw [assign] at h
    split_ifs at h with h1
    · right; simpa [keys] using h
    · simp only [keys, List.map_cons, List.mem_cons] at h ⊢
      rcases h with h | h
      · exact .inr (.inl h)
      · rcases ih h with h | h
        · exact .inl h
        · exact .inr (.inr h)

omit [CommRing R] [DecidableEq R] in
theorem good_assign {t : Tup} (c : R) {d : Dict R} (ht : t.length = n) (hd : Good n d) : Good n (assign t c d) := by
  induction d with
  | nil => exact ⟨by simp [assign, keys], by simp [assign, keys, ht]⟩
  | cons e d ih =>
    obtain ⟨t', c'⟩ := e
    have hn := List.nodup_cons.1 hd.nodup
    have hd' : Good n d := ⟨hn.2, fun s hs => hd.len s (List.mem_cons_of_mem _ hs)⟩
    have hi := ih hd'
    rw [assign]
    split_ifs with h1
    · exact ⟨hd.nodup, hd.len⟩
    · refine ⟨List.nodup_cons.2 ⟨fun h => ?_, hi.nodup⟩, fun s hs => ?_⟩
      · rcases mem_keys_assign t c d t' h with h | h
        · exact h1 h
        · exact hn.1 h
      · rcases List.mem_cons.1 hs with h | h
        · exact hd.len s (by rw [h]; exact List.mem_cons_self)
        · exact hi.len s h

omit [DecidableEq R] in
theorem outerLoop_all (l : List (Tup × Int)) : ∀ (fuel : Nat) (d : Dict R), (∀ e ∈ l, e.1.length = n) → (body l).length < fuel →
    outerLoop (List.replicate n 0) fuel d (body l) =
      if EndsInNumber l then .error .indexError else .ok (l.foldl (fun d e => assign e.1 (e.2.natAbs : R) d) d) := by
  induction l with
  | nil =>
    intro fuel d _ hf
    obtain ⟨fuel, rfl⟩ : ∃ f, fuel = f + 1 := ⟨fuel - 1, by omega⟩
    rw [if_neg (by simp [EndsInNumber])]
    simp [body, outerLoop]
  | cons e l ih =>
    obtain ⟨t, c⟩ := e
    intro fuel d hl hf
    obtain ⟨fuel, rfl⟩ : ∃ f, fuel = f + 1 := ⟨fuel - 1, by omega⟩
    have hn : t.length = n := hl (t, c) (by simp)
    have hne : body ((t, c) :: l) ≠ [] := by simp [body, term_ne_nil]
    rw [outerLoop_step _ _ _ hne]
    have hb : body ((t, c) :: l) = term t c.natAbs ++ rest l := rfl
    have htp := termParse (t := t) (c := c.natAbs) (rest_tail l)
    rw [hn] at htp
    rw [hb, htp]
    by_cases hr : l = []
    · subst hr
      have : rest [] = [] := rfl
      simp only [this, true_and, ← endsInNumber_single t c]
      by_cases hE : EndsInNumber [(t, c)]
      · simp [hE, bind, Except.bind]
      · have hfu : ∃ f, fuel = f + 1 := by
          have : 0 < (body ((t, c) :: [])).length := List.length_pos_of_ne_nil hne
          exact ⟨fuel - 1, by omega⟩
        obtain ⟨f, rfl⟩ := hfu
        simp only [if_neg hE, bind, Except.bind]
        simp [outerLoop]
    · rw [if_neg (by rw [rest_nil]; exact fun h => hr h.1)]
      simp only [bind, Except.bind, rest_drop]
      rw [ih fuel _ (fun e he => hl e (by simp [he])) ?_]
      · simp only [endsInNumber_cons (t, c) hr]
        simp
      · have h1 : (body l).length ≤ (rest l).length := by rw [← rest_drop, List.length_drop]; omega
        have h2 : 0 < (term t c.natAbs).length := List.length_pos_of_ne_nil (term_ne_nil _ _)
        rw [hb, List.length_append] at hf
        omega

/-- **C107** fails on texts with repeated monomials, such as sympy's unexpanded sums: only the last coefficient of each monomial counts.
For any terms in at most nine variables, of which the first is positive, one has a variable and the last ends in an index, the
coefficient read for a monomial is the absolute value of the last coefficient of that monomial in the text. -/
theorem C107_repeated_refuted (hn : n ≤ 9) {l : List (Tup × Int)} (hl : ∀ e ∈ l, e.1.length = n) (hv : ∃ e ∈ l, e.1 ≠ List.replicate n 0)
    (hp : ∀ e, l.head? = some e → 0 ≤ e.2) (he : ¬ EndsInNumber l) :
    ∃ d : Dict R, strToMulti (poly l) n = .ok d ∧ WF n d ∧ ∀ t : Tup, t.length = n →
      (toMv n d).coeff (tupF n t) = ((l.reverse.find? fun e => e.1 = t).elim 0 fun e => (e.2.natAbs : R)) := by
  obtain ⟨m, h1, -, h3, h4, -⟩ := maxSym_body hn l 0 (by omega) hl
  have hm : 1 ≤ m := h4 (by
    obtain ⟨e, he, h⟩ := hv
    exact ⟨e, he, fun h' => h ((factors_zero (hl e he)).1 h')⟩)
  have key : ∀ (l : List (Tup × Int)) (d : Dict R), (∀ e ∈ l, e.1.length = n) → Good n d →
      Good n (l.foldl (fun d e => assign e.1 (e.2.natAbs : R) d) d) ∧
      ∀ t, get (l.foldl (fun d e => assign e.1 (e.2.natAbs : R) d) d) t =
        ((l.reverse.find? fun e => e.1 = t).elim (get d t) fun e => (e.2.natAbs : R)) := by
    intro l
    induction l with
    | nil => intro d _ hd; exact ⟨hd, fun t => rfl⟩
    | cons e l ih =>
      intro d hl hd
      obtain ⟨a, b⟩ := ih (assign e.1 (e.2.natAbs : R) d) (fun e' he' => hl e' (by simp [he'])) (good_assign _ (hl e (by simp)) hd)
      refine ⟨a, fun t => ?_⟩
      rw [List.foldl_cons, b t, List.reverse_cons, List.find?_append]
      cases h : l.reverse.find? fun e => e.1 = t with
      | some x => rfl
      | none =>
        simp only [Option.none_or, Option.elim_none, get_assign]
        by_cases ht : e.1 = t
        · simp [ht]
        · simp [ht, Ne.symm ht]
  cases l with
  | nil => simp at hv
  | cons e l =>
    obtain ⟨t, c⟩ := e
    have hmax : max n m = n := by omega
    have hc : ¬ c < 0 := by have := hp (t, c) rfl; simp only at this; omega
    have hpb : poly ((t, c) :: l) = body ((t, c) :: l) := by simp [poly, body, hc]
    obtain ⟨ha, hb⟩ := key ((t, c) :: l) [] hl ⟨by simp [keys], by simp [keys]⟩
    refine ⟨ofDict (((t, c) :: l).foldl (fun d e => assign e.1 (e.2.natAbs : R) d) []), ?_, wf_ofDict ha, fun s hs => ?_⟩
    · rw [hpb]
      simp only [strToMulti, h1, bind, Except.bind]
      rw [if_neg (by omega), hmax, outerLoop_all _ _ [] hl (by omega), if_neg he]
    · rw [toMv_ofDict, coeff_toMv ha hs, hb s]
      rfl

/-- `2*X_1 + 3*X_2 + 5*X_1` is read as `5*X_1 + 3*X_2`. -/
example : poly [([1, 0], 2), ([0, 1], 3), ([1, 0], 5)] = "2*X_1 + 3*X_2 + 5*X_1".toList ∧
    ∃ d : Dict Int, strToMulti (poly [([1, 0], 2), ([0, 1], 3), ([1, 0], 5)]) 2 = .ok d ∧ (toMv 2 d).coeff (tupF 2 [1, 0]) = 5 ∧
      (toMv 2 d).coeff (tupF 2 [0, 1]) = 3 := by
  refine ⟨by decide +kernel, ?_⟩
  obtain ⟨d, h1, -, h2⟩ := C107_repeated_refuted (R := Int) (n := 2) (by decide) (l := [([1, 0], 2), ([0, 1], 3), ([1, 0], 5)]) (by decide)
    ⟨_, List.mem_cons_self, by decide⟩ (by simp) (by decide)
  exact ⟨d, h1, (h2 [1, 0] rfl).trans (by decide), (h2 [0, 1] rfl).trans (by decide)⟩

end Verif.Props
