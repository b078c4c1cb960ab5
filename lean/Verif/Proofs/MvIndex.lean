import Verif.Proofs.MvString
/-!
# What the reader accepts uses variables within the size of its power tuples only
-/

namespace Verif.MvString
open Mv Spec.Sympy

theorem bind_ok {α β : Type _} {x : Py α} {g : α → Py β} {b : β} (h : (x >>= g) = .ok b) : ∃ a, x = .ok a ∧ g a = .ok b := by
  cases x with
  | error e => cases h
  | ok a => exact ⟨a, rfl, h⟩

theorem setPow_ok {t t' : Tup} {k e : Nat} (hk : k ≠ 0) (h : setPow t k e = .ok t') : t'.length = t.length ∧ k ≤ t.length := by
  rw [setPow, if_neg hk] at h
  by_cases h1 : k ≤ t.length
  · rw [if_pos h1] at h
    cases h
    exact ⟨by simp, h1⟩
  · rw [if_neg h1] at h
    cases h

theorem factorStep_ok {t : Tup} {k e : Nat} {q : Str} {x : Tup × Str} (hk : k ≠ 0) (h1 : Stop q) (h2 : power q = .ok (1, q))
    (h : factorStep t ('*' :: (factor k e ++ q)) = .ok x) : x.1.length = t.length ∧ k ≤ t.length ∧ x.2 = q := by
  have e0 : ('*' :: (factor k e ++ q)) = '*' :: 'X' :: '_' :: (strNat k ++ ((if e = 1 then [] else '*' :: '*' :: strNat e) ++ q)) := by
    by_cases h : e = 1 <;> simp [factor, h]
  have hstop : Stop ((if e = 1 then [] else '*' :: '*' :: strNat e) ++ q) := by
    by_cases h : e = 1
    · simpa [h] using h1
    · simpa [h] using Stop.cons (by decide)
  rw [e0] at h
  simp only [factorStep, skipX_star] at h
  obtain ⟨r1, hr1, h⟩ := bind_ok h
  cases hr1
  rw [takeWhile_digits (strNat_digit _), hstop.take, List.append_nil, if_neg (strNat_ne_nil _), dropWhile_digits (strNat_digit _),
    hstop.drop, natOf_strNat] at h
  obtain ⟨⟨pow, r2⟩, hp, h⟩ := bind_ok h
  obtain ⟨t', ht, h⟩ := bind_ok h
  cases h
  have hq : r2 = q := by
    by_cases h : e = 1
    · rw [if_pos h, List.nil_append, h2] at hp
      cases hp
      rfl
    · rw [if_neg h, List.cons_append, List.cons_append, power_two h1] at hp
      split at hp
      · cases hp
      · cases hp
        rfl
  exact ⟨(setPow_ok hk ht).1, (setPow_ok hk ht).2, hq⟩

theorem innerLoop_ok (u : Tup) : ∀ (k fuel : Nat) (t : Tup) (r : Str) (x : Tup × Str), Tail r →
    innerLoop fuel t (starStr k u ++ r) = .ok x → x.2 = r ∧ ∀ i, u.getD i 0 ≠ 0 → k + i + 1 ≤ t.length := by
  induction u with
  | nil =>
    intro k fuel t r x hr h
    cases fuel with
    | zero => cases h
    | succ fuel =>
      refine ⟨?_, by simp⟩
      rcases hr with rfl | ⟨s, rfl⟩ <;> simp [starStr, innerLoop] at h <;> rw [← h]
  | cons e u ih =>
    intro k fuel t r x hr h
    by_cases he : e = 0
    · have h' : innerLoop fuel t (starStr (k + 1) u ++ r) = .ok x := by simpa [starStr, he] using h
      obtain ⟨h1, h2⟩ := ih (k + 1) fuel t r x hr h'
      refine ⟨h1, fun i hi => ?_⟩
      cases i with
      | zero => exact absurd (by simpa using he) hi
      | succ i => have := h2 i (by simpa using hi); omega
    · cases fuel with
      | zero => cases h
      | succ fuel =>
        have e1 : starStr k (e :: u) ++ r = '*' :: (factor (k + 1) e ++ (starStr (k + 1) u ++ r)) := by simp [starStr, he]
        rw [e1, innerLoop, if_neg (by decide)] at h
        obtain ⟨⟨t', r'⟩, hf, h⟩ := bind_ok h
        obtain ⟨s1, s2⟩ := tail_shape hr (k + 1) u
        obtain ⟨f1, f2, f3⟩ := factorStep_ok (by omega) s1 s2 hf
        simp only at f1 f3
        subst f3
        obtain ⟨h1, h2⟩ := ih (k + 1) fuel t' r x hr h
        refine ⟨h1, fun i hi => ?_⟩
        cases i with
        | zero => omega
        | succ i => have := h2 i (by simpa using hi); omega

theorem termParse_ok {z t : Tup} {c : Nat} {r : Str} {y : Nat × Tup × Str} (hr : Tail r)
    (h : (do
      let x ← spanDigits (term t c ++ r)
      let y ← innerLoop (x.2.length + 1) z x.2
      .ok (if x.1 = [] then 1 else natOf x.1, y.1, y.2) : Py (Nat × Tup × Str)) = .ok y) :
    y.2.2 = r ∧ ∀ i, t.getD i 0 ≠ 0 → i + 1 ≤ z.length := by
  have hst : Stop r := by
    rcases hr with rfl | ⟨s, rfl⟩
    · exact Stop.nil
    · exact Stop.cons (by decide)
  obtain ⟨x, hx, h⟩ := bind_ok h
  obtain ⟨w, hw, h⟩ := bind_ok h
  cases h
  simp only
  have key : x.2 = starStr 0 t ++ r ∨ (∃ s, x.2 = 'X' :: '_' :: s ∧ starStr 0 t ++ r = '*' :: 'X' :: '_' :: s) := by
    by_cases hfs : factors 0 t = []
    · have hs : starStr 0 t = [] := starStr_nil.2 (factors_nil.1 hfs)
      have ht : term t c = strNat c := by simp [term, hfs]
      rw [ht, spanDigits_eq (strNat_digit c) hst] at hx
      split at hx
      · cases hx
      · cases hx
        left
        rw [hs, List.nil_append]
    · have hstar := starStr_intercalate hfs
      obtain ⟨s, hs⟩ := intercalate_shape hfs
      by_cases h1 : c = 1
      · right
        have ht : term t c = 'X' :: '_' :: s := by rw [term, if_neg hfs, if_pos h1, hs]
        rw [ht] at hx
        have hsp : spanDigits ('X' :: '_' :: s ++ r) = .ok ([], 'X' :: '_' :: s ++ r) := rfl
        rw [hsp] at hx
        cases hx
        exact ⟨s ++ r, rfl, by rw [hstar, hs]; rfl⟩
      · left
        have ht : term t c = strNat c ++ starStr 0 t := by rw [term, if_neg hfs, if_neg h1, hstar]
        rw [ht, List.append_assoc, spanDigits_eq (strNat_digit c) (by rw [hstar]; exact Stop.cons (by decide)),
          if_neg (by rw [hstar]; simp)] at hx
        cases hx
        rfl
  have hw' : ∃ fuel, innerLoop fuel z (starStr 0 t ++ r) = .ok w := by
    rcases key with h | ⟨s, h1, h2⟩
    · exact ⟨_, h ▸ hw⟩
    · refine ⟨x.2.length + 1, ?_⟩
      rw [h2, ← innerLoop_unstar, ← hw, h1]
  obtain ⟨fuel, hw'⟩ := hw'
  obtain ⟨h1, h2⟩ := innerLoop_ok t 0 fuel z r w hr hw'
  exact ⟨h1, fun i hi => by have := h2 i hi; omega⟩

theorem maxSym_le (s : Str) : ∀ m v, m ≤ 9 → maxSym s m = .ok v → v ≤ 9 := by
  induction s with
  | nil => intro m v hm h; cases h; exact hm
  | cons c r ih =>
    intro m v hm h
    by_cases hc : c = '_'
    · subst hc
      cases r with
      | nil => cases h
      | cons d r =>
        have h' : (intChar d >>= fun v => maxSym (d :: r) (if v > m then v else m)) = .ok v := h
        obtain ⟨a, ha, h⟩ := bind_ok h'
        unfold intChar at ha
        split at ha
        · rename_i hd
          cases ha
          have := isDigit_le hd
          exact ih _ _ (by split <;> omega) h
        · cases ha
    · rw [maxSym_ne hc] at h
      exact ih _ _ hm h

variable {R : Type _} [CommRing R] [DecidableEq R]

omit [DecidableEq R] in
theorem outerLoop_ok (z : Tup) (l : List (Tup × Int)) : ∀ (fuel : Nat) (d d' : Dict R), outerLoop z fuel d (body l) = .ok d' →
    ∀ e ∈ l, ∀ i, e.1.getD i 0 ≠ 0 → i + 1 ≤ z.length := by
  induction l with
  | nil => intro _ _ _ _ e he; simp at he
  | cons a l ih =>
    obtain ⟨t, c⟩ := a
    intro fuel d d' h e he i hi
    cases fuel with
    | zero => cases h
    | succ fuel =>
      have hne : body ((t, c) :: l) ≠ [] := by simp [body, term_ne_nil]
      rw [outerLoop_step _ _ _ hne] at h
      obtain ⟨y, hy, h⟩ := bind_ok h
      obtain ⟨h1, h2⟩ := termParse_ok (rest_tail l) hy
      rcases List.mem_cons.1 he with rfl | he
      · exact h2 i hi
      · rw [h1, rest_drop] at h
        exact ih fuel _ _ h e he i hi

theorem body_X {l : List (Tup × Int)} {e : Tup × Int} (he : e ∈ l) (hf : factors 0 e.1 ≠ []) : 'X' ∈ body l := by
  have ht : ∀ t c, factors 0 t ≠ [] → 'X' ∈ term t c := by
    intro t c h
    obtain ⟨s, hs⟩ := intercalate_shape h
    rw [term, if_neg h, hs]
    split <;> simp
  have hr : ∀ l : List (Tup × Int), e ∈ l → 'X' ∈ rest l := by
    intro l
    induction l with
    | nil => simp
    | cons a l ih =>
      obtain ⟨t, c⟩ := a
      intro he
      rcases List.mem_cons.1 he with rfl | he
      · simp [rest, ht _ _ hf]
      · simp [rest, ih he]
  cases l with
  | nil => simp at he
  | cons a l =>
    obtain ⟨t, c⟩ := a
    rcases List.mem_cons.1 he with rfl | he
    · simp [body, ht _ _ hf]
    · simp [body, hr l he]

theorem strToMulti_ok {l : List (Tup × Int)} {s : Nat} {d : Dict R} (h : strToMulti (poly l) s = .ok d) :
    ∀ e ∈ l, ∀ i, e.1.getD i 0 ≠ 0 → i < max s 9 := by
  intro e he i hi
  have hf : factors 0 e.1 ≠ [] := by
    intro h'
    have := factors_nil.1 h'
    have hmem : e.1.getD i 0 ∈ e.1.filter (· ≠ 0) := by
      refine List.mem_filter.2 ⟨?_, by simpa using hi⟩
      by_cases hlt : i < e.1.length
      · rw [List.getD_eq_getElem _ _ hlt]; exact List.getElem_mem hlt
      · exact absurd (List.getD_eq_default _ _ (by omega)) hi
    rw [this] at hmem
    simp at hmem
  obtain ⟨m, hm, h⟩ := bind_ok h
  have hm9 := maxSym_le _ 0 m (by omega) hm
  cases l with
  | nil => simp at he
  | cons a l =>
    obtain ⟨t, c⟩ := a
    have hX : 'X' ∈ poly ((t, c) :: l) := by
      have := body_X he hf
      simp only [body, List.mem_append] at this
      simp only [poly, List.mem_append]
      tauto
    by_cases h0 : m = 0
    · subst h0
      simp only [if_true] at h
      obtain ⟨v, hv, -⟩ := bind_ok h
      rw [pyInt_letter hX (by decide) (by decide) (by decide) (by decide) (by decide)] at hv
      cases hv
    · simp only [if_neg h0] at h
      obtain ⟨d', hd, -⟩ := bind_ok h
      by_cases hc : c < 0
      · have hp : poly ((t, c) :: l) = '-' :: body ((t, c) :: l) := by simp [poly, body, hc]
        rw [hp] at hd
        have hsk : skipX ('-' :: body ((t, c) :: l)) = .ok ('-' :: body ((t, c) :: l)) := rfl
        have hsp : spanDigits ('-' :: body ((t, c) :: l)) = .ok ([], '-' :: body ((t, c) :: l)) := rfl
        have hfs : ∀ z, factorStep z ('-' :: body ((t, c) :: l)) = .error .valueError := by
          intro z
          simp only [factorStep, hsk, bind, Except.bind]
          rw [if_pos (by rfl)]
        rw [outerLoop, hsp] at hd
        obtain ⟨x, hx, hd⟩ := bind_ok hd
        cases hx
        obtain ⟨y, hy, -⟩ := bind_ok hd
        rw [innerLoop, if_neg (by decide), hfs] at hy
        cases hy
      · have hp : poly ((t, c) :: l) = body ((t, c) :: l) := by simp [poly, body, hc]
        rw [hp] at hd
        have := outerLoop_ok _ _ _ _ _ hd e he i hi
        rw [List.length_replicate] at this
        omega

end Verif.MvString
