import Verif.Spec.MvString
import Verif.Proofs.Multivariate
import Mathlib.Algebra.MvPolynomial.Eval
import Mathlib.Data.Nat.Digits.Lemmas
import Mathlib.Data.List.Intervals
import Mathlib.Tactic.IntervalCases
/-! # Lemmas: printing and parsing multivariate polynomials -/

namespace Verif.MvString
open Mv Spec.Sympy

/-! ### Decimal numbers -/

theorem digitChar_spec {d : Nat} (h : d < 10) : isDigit (digitChar d) = true ∧ (digitChar d).toNat - 48 = d := by
  interval_cases d <;> decide

theorem isDigit_ne {c : Char} (h : isDigit c = true) : c ≠ ' ' ∧ c ≠ '*' ∧ c ≠ 'X' ∧ c ≠ '_' ∧ c ≠ ',' ∧ c ≠ 'F' ∧ c ≠ '}' ∧ c ≠ 'x' ∧ c ≠ '-' ∧ c ≠ '+' := by
  refine ⟨?_, ?_, ?_, ?_, ?_, ?_, ?_, ?_, ?_, ?_⟩ <;> rintro rfl <;> revert h <;> decide

theorem strNat_digit (n : Nat) : ∀ c ∈ strNat n, isDigit c = true := by
  intro c hc
  unfold strNat at hc
  split at hc
  · simp at hc; subst hc; decide
  · simp only [List.mem_map, List.mem_reverse] at hc
    obtain ⟨d, hd, rfl⟩ := hc
    exact (digitChar_spec (Nat.digits_lt_base (by norm_num) hd)).1

theorem strNat_ne_nil (n : Nat) : strNat n ≠ [] := by
  unfold strNat
  split
  · simp
  · simpa [Nat.digits_eq_nil_iff_eq_zero]

theorem natOf_snoc (s : Str) (c : Char) : natOf (s ++ [c]) = 10 * natOf s + (c.toNat - 48) := by simp [natOf]

theorem natOf_reverse (l : List Nat) (h : ∀ d ∈ l, d < 10) : natOf (l.reverse.map digitChar) = Nat.ofDigits 10 l := by
  induction l with
  | nil => rfl
  | cons d l ih =>
    rw [List.reverse_cons, List.map_append, List.map_singleton, natOf_snoc, ih fun x hx => h x (by simp [hx]),
      (digitChar_spec (h d (by simp))).2, Nat.ofDigits_cons]
    omega

theorem natOf_strNat (n : Nat) : natOf (strNat n) = n := by
  unfold strNat
  split
  · subst_vars; rfl
  · rw [natOf_reverse _ fun d hd => Nat.digits_lt_base (by norm_num) hd, Nat.ofDigits_digits]

theorem dropWhile_digits {s : Str} (hs : ∀ c ∈ s, isDigit c = true) (r : Str) : (s ++ r).dropWhile isDigit = r.dropWhile isDigit := by
  induction s with
  | nil => rfl
  | cons c s ih => simp [hs c (by simp), ih fun x hx => hs x (by simp [hx])]

theorem takeWhile_digits {s : Str} (hs : ∀ c ∈ s, isDigit c = true) (r : Str) : (s ++ r).takeWhile isDigit = s ++ r.takeWhile isDigit := by
  induction s with
  | nil => rfl
  | cons c s ih => simp [hs c (by simp), ih fun x hx => hs x (by simp [hx])]

/-- A string that does not start with a digit. -/
def Stop (r : Str) : Prop := ∀ c, r.head? = some c → isDigit c = false

theorem Stop.nil : Stop [] := by simp [Stop]
theorem Stop.cons {c : Char} {r : Str} (h : isDigit c = false) : Stop (c :: r) := by simpa [Stop] using h

theorem Stop.drop {r : Str} (h : Stop r) : r.dropWhile isDigit = r := by
  cases r with
  | nil => rfl
  | cons c r => simp [h c rfl]

theorem Stop.take {r : Str} (h : Stop r) : r.takeWhile isDigit = [] := by
  cases r with
  | nil => rfl
  | cons c r => simp [h c rfl]

theorem spanDigits_eq {s r : Str} (hs : ∀ c ∈ s, isDigit c = true) (hr : Stop r) :
    spanDigits (s ++ r) = if r = [] then .error .indexError else .ok (s, r) := by
  unfold spanDigits
  rw [dropWhile_digits hs, takeWhile_digits hs, hr.take, hr.drop]
  cases r <;> simp

/-! ### One monomial -/

/-- The factors of a monomial, each preceded by a star. -/
def starStr : Nat → Tup → Str
  | _, [] => []
  | k, e :: t => if e = 0 then starStr (k + 1) t else '*' :: (factor (k + 1) e ++ starStr (k + 1) t)

theorem starStr_nil {k : Nat} {t : Tup} : starStr k t = [] ↔ t.filter (· ≠ 0) = [] := by
  induction t generalizing k with
  | nil => simp [starStr]
  | cons e t ih =>
    by_cases h : e = 0
    · simp [starStr, h, ih]
    · simp [starStr, h]

theorem factors_nil {k : Nat} {t : Tup} : factors k t = [] ↔ t.filter (· ≠ 0) = [] := by
  induction t generalizing k with
  | nil => simp [factors]
  | cons e t ih =>
    by_cases h : e = 0
    · simp [factors, h, ih]
    · simp [factors, h]

theorem intercalate_cons (a : Str) (l : List Str) :
    ['*'].intercalate (a :: l) = a ++ (l.map fun s => '*' :: s).flatten := by
  induction l generalizing a with
  | nil => simp [List.intercalate]
  | cons b l ih =>
    have := ih b
    simp only [List.intercalate] at this ⊢
    simp [List.intersperse, this]

theorem starStr_eq (k : Nat) (t : Tup) : starStr k t = ((factors k t).map fun s => '*' :: s).flatten := by
  induction t generalizing k with
  | nil => rfl
  | cons e t ih =>
    by_cases h : e = 0
    · simp [starStr, factors, h, ih]
    · simp [starStr, factors, h, ih]

theorem starStr_intercalate {k : Nat} {t : Tup} (h : factors k t ≠ []) : starStr k t = '*' :: ['*'].intercalate (factors k t) := by
  rw [starStr_eq]
  cases hf : factors k t with
  | nil => exact absurd hf h
  | cons a l => rw [intercalate_cons]; simp

theorem starStr_shape (k : Nat) (t : Tup) : starStr k t = [] ∨ ∃ s, starStr k t = '*' :: 'X' :: '_' :: s := by
  induction t generalizing k with
  | nil => exact .inl rfl
  | cons e t ih =>
    by_cases h : e = 0
    · simpa [starStr, h] using ih (k + 1)
    · right
      exact ⟨_, by simp [starStr, h, factor]; rfl⟩

/-- What may follow a term. -/
def Tail (r : Str) : Prop := r = [] ∨ ∃ s, r = ' ' :: s

theorem tail_shape {r : Str} (hr : Tail r) (k : Nat) (t : Tup) :
    Stop (starStr k t ++ r) ∧ power (starStr k t ++ r) = .ok (1, starStr k t ++ r) := by
  rcases starStr_shape k t with h | ⟨s, h⟩
  · rw [h]
    rcases hr with rfl | ⟨s, rfl⟩
    · exact ⟨Stop.nil, rfl⟩
    · exact ⟨Stop.cons (by decide), rfl⟩
  · rw [h]
    exact ⟨Stop.cons (by decide), rfl⟩

theorem setPow_mid (pre : Tup) (m e : Nat) :
    setPow (pre ++ List.replicate (m + 1) 0) (pre.length + 1) e = .ok (pre ++ e :: List.replicate m 0) := by
  simp [setPow, List.replicate_succ]

theorem skipX_star (s : Str) : skipX ('*' :: 'X' :: '_' :: s) = .ok s := rfl

theorem power_two {e : Nat} {r : Str} (hr : Stop r) :
    power ('*' :: '*' :: (strNat e ++ r)) = if r = [] then .error .indexError else .ok (e, r) := by
  simp only [power, spanDigits_eq (strNat_digit e) hr, bind, Except.bind]
  split
  · rename_i h
    split at h
    · cases h; simp_all
    · cases h
  · rename_i h
    split at h
    · cases h
    · cases h
      simp [strNat_ne_nil, natOf_strNat, *]

theorem factorStep_eq (pre : Tup) (m e : Nat) {t : Tup} {r : Str} (hr : Tail r) :
    factorStep (pre ++ List.replicate (m + 1) 0) ('*' :: (factor (pre.length + 1) e ++ (starStr (pre.length + 1) t ++ r))) =
      if e ≠ 1 ∧ starStr (pre.length + 1) t ++ r = [] then .error .indexError
      else .ok (pre ++ e :: List.replicate m 0, starStr (pre.length + 1) t ++ r) := by
  obtain ⟨h1, h2⟩ := tail_shape hr (pre.length + 1) t
  generalize starStr (pre.length + 1) t ++ r = q at h1 h2
  have e0 : ('*' :: (factor (pre.length + 1) e ++ q)) =
      '*' :: 'X' :: '_' :: (strNat (pre.length + 1) ++ ((if e = 1 then [] else '*' :: '*' :: strNat e) ++ q)) := by
    by_cases h : e = 1 <;> simp [factor, h]
  have hstop : Stop ((if e = 1 then [] else '*' :: '*' :: strNat e) ++ q) := by
    by_cases h : e = 1
    · simpa [h] using h1
    · simpa [h] using Stop.cons (by decide)
  rw [e0]
  simp only [factorStep, skipX_star, bind, Except.bind]
  rw [takeWhile_digits (strNat_digit _), hstop.take, List.append_nil, if_neg (strNat_ne_nil _), dropWhile_digits (strNat_digit _), hstop.drop,
    natOf_strNat]
  by_cases h : e = 1
  · subst h
    simp [h2, setPow_mid]
  · simp only [if_neg h, List.cons_append, power_two h1]
    by_cases hq : q = []
    · simp [hq, h]
    · simp [hq, setPow_mid]

theorem innerLoop_eq (u : Tup) : ∀ (pre : Tup) (fuel : Nat) (r : Str), Tail r → (u.filter (· ≠ 0)).length < fuel →
    innerLoop fuel (pre ++ List.replicate u.length 0) (starStr pre.length u ++ r) =
      if r = [] ∧ 1 < (u.filter (· ≠ 0)).getLastD 0 then .error .indexError else .ok (pre ++ u, r) := by
  induction u with
  | nil =>
    intro pre fuel r hr hf
    obtain ⟨fuel, rfl⟩ : ∃ f, fuel = f + 1 := ⟨fuel - 1, by omega⟩
    rcases hr with rfl | ⟨s, rfl⟩ <;> simp [starStr, innerLoop]
  | cons e u ih =>
    intro pre fuel r hr hf
    by_cases h : e = 0
    · have := ih (pre ++ [0]) fuel r hr (by simpa [h] using hf)
      simpa [starStr, h, List.replicate_succ, List.append_assoc] using this
    · obtain ⟨fuel, rfl⟩ : ∃ f, fuel = f + 1 := ⟨fuel - 1, by omega⟩
      have e1 : starStr pre.length (e :: u) ++ r = '*' :: (factor (pre.length + 1) e ++ (starStr (pre.length + 1) u ++ r)) := by
        simp [starStr, h]
      have hlen : (u.filter (· ≠ 0)).length < fuel := by
        rw [List.filter_cons_of_pos (by simpa using h), List.length_cons] at hf
        omega
      rw [e1, innerLoop, if_neg (by decide), List.length_cons, factorStep_eq pre u.length e hr]
      have hl : (pre ++ [e]).length = pre.length + 1 := by simp
      have hih := ih (pre ++ [e]) fuel r hr hlen
      rw [hl] at hih
      have hlast : ((e :: u).filter (· ≠ 0)).getLastD 0 = if u.filter (· ≠ 0) = [] then e else (u.filter (· ≠ 0)).getLastD 0 := by
        rw [List.filter_cons_of_pos (by simpa using h)]
        cases hu : u.filter (· ≠ 0) <;> simp
      by_cases hbad : e ≠ 1 ∧ starStr (pre.length + 1) u ++ r = []
      · rw [if_pos hbad]
        obtain ⟨h1, h2⟩ := hbad
        simp only [List.append_eq_nil_iff, starStr_nil] at h2
        rw [hlast, if_pos h2.1, if_pos ⟨h2.2, by omega⟩]
        rfl
      · rw [if_neg hbad]
        simp only [bind, Except.bind]
        have : innerLoop fuel (pre ++ e :: List.replicate u.length 0) (starStr (pre.length + 1) u ++ r) =
            innerLoop fuel ((pre ++ [e]) ++ List.replicate u.length 0) (starStr (pre.length + 1) u ++ r) := by simp
        rw [this, hih, hlast]
        by_cases hu : u.filter (· ≠ 0) = []
        · rw [if_pos hu, hu]
          have hs : starStr (pre.length + 1) u = [] := starStr_nil.2 hu
          rw [hs, List.nil_append] at hbad
          have hb2 : ¬ (r = [] ∧ 1 < e) := by
            rintro ⟨q1, q2⟩
            exact hbad ⟨by omega, q1⟩
          simp [hb2]
        · rw [if_neg hu]
          simp

theorem innerLoop_unstar (fuel : Nat) (t : Tup) (s : Str) :
    innerLoop fuel t ('X' :: '_' :: s) = innerLoop fuel t ('*' :: 'X' :: '_' :: s) := by
  cases fuel with
  | zero => rfl
  | succ fuel => rfl

/-! ### One term -/

/-- The printed term ends in a number that is not an index. -/
def badEnd (t : Tup) : Bool := decide ((t.filter (· ≠ 0)).getLast? ≠ some 1)

theorem getLast_pos (t : Tup) : ∀ x, (t.filter (· ≠ 0)).getLast? = some x → x ≠ 0 := by
  intro x hx
  have := List.mem_of_getLast? hx
  simpa using (List.mem_filter.1 this).2

theorem starStr_length (k : Nat) (t : Tup) : 3 * (t.filter (· ≠ 0)).length ≤ (starStr k t).length := by
  induction t generalizing k with
  | nil => simp
  | cons e t ih =>
    have := ih (k + 1)
    by_cases h : e = 0
    · simpa [starStr, h] using this
    · rw [List.filter_cons_of_pos (by simpa using h), List.length_cons]
      simp only [starStr, if_neg h, factor, List.length_cons, List.length_append]
      have : "X_".toList.length = 2 := rfl
      omega

theorem termParse {t : Tup} {c : Nat} {r : Str} (hr : Tail r) :
    (do
      let x ← spanDigits (term t c ++ r)
      let y ← innerLoop (x.2.length + 1) (List.replicate t.length 0) x.2
      .ok (if x.1 = [] then 1 else natOf x.1, y.1, y.2) : Py (Nat × Tup × Str)) =
      if r = [] ∧ badEnd t = true then .error .indexError else .ok (c, t, r) := by
  have hst : Stop r := by
    rcases hr with rfl | ⟨s, rfl⟩
    · exact Stop.nil
    · exact Stop.cons (by decide)
  by_cases hfs : factors 0 t = []
  · have ht : term t c = strNat c := by simp [term, hfs]
    have hfil := factors_nil.1 hfs
    have hbe : badEnd t = true := by unfold badEnd; rw [hfil]; rfl
    have ht0 : List.replicate t.length 0 = t := by
      symm
      rw [List.eq_replicate_iff]
      refine ⟨rfl, fun b hb => ?_⟩
      by_contra h
      have : b ∈ t.filter (· ≠ 0) := List.mem_filter.2 ⟨hb, by simpa using h⟩
      rw [hfil] at this
      simp at this
    rw [ht, spanDigits_eq (strNat_digit c) hst]
    by_cases h : r = []
    · simp [h, hbe, bind, Except.bind]
    · rw [if_neg h, if_neg (by simp [h])]
      rcases hr with h' | ⟨s, rfl⟩
      · exact absurd h' h
      · simp [bind, Except.bind, innerLoop, natOf_strNat, strNat_ne_nil, ht0]
  · have hstar := starStr_intercalate hfs
    have hfil : t.filter (· ≠ 0) ≠ [] := fun h => hfs (factors_nil.2 h)
    obtain ⟨x, hx⟩ : ∃ x, (t.filter (· ≠ 0)).getLast? = some x := by
      rw [List.getLast?_eq_some_getLast hfil]; exact ⟨_, rfl⟩
    have hx0 := getLast_pos t x hx
    have hD : (t.filter (· ≠ 0)).getLastD 0 = x := by
      rw [List.getLastD_eq_getLast?, hx]; rfl
    have hbe : badEnd t = decide (1 < x) := by
      simp only [badEnd, hx, Option.some.injEq, ne_eq, decide_eq_decide]
      omega
    have hin : ∀ fuel, (t.filter (· ≠ 0)).length < fuel → innerLoop fuel (List.replicate t.length 0) (starStr 0 t ++ r) =
        if r = [] ∧ badEnd t = true then .error .indexError else .ok (t, r) := by
      intro fuel hf
      have := innerLoop_eq t [] fuel r hr hf
      simpa only [List.nil_append, List.length_nil, hD, hbe, decide_eq_true_eq] using this
    have hlen := starStr_length 0 t
    obtain ⟨s, hs⟩ := (starStr_shape 0 t).resolve_left (fun h => hfil (starStr_nil.1 h))
    have hs2 : ['*'].intercalate (factors 0 t) = 'X' :: '_' :: s := by
      rw [hs] at hstar
      simpa using hstar.symm
    have hlen2 : (starStr 0 t).length = s.length + 3 := by rw [hs]; rfl
    by_cases h1 : c = 1
    · have ht : term t c = 'X' :: '_' :: s := by rw [term, if_neg hfs, if_pos h1, hs2]
      rw [ht]
      have hsp : spanDigits ('X' :: '_' :: s ++ r) = .ok ([], 'X' :: '_' :: s ++ r) := rfl
      rw [hsp]
      simp only [bind, Except.bind, if_true]
      have h2 : innerLoop (('X' :: '_' :: s ++ r).length + 1) (List.replicate t.length 0) ('X' :: '_' :: s ++ r) =
          innerLoop (('X' :: '_' :: s ++ r).length + 1) (List.replicate t.length 0) (starStr 0 t ++ r) := by
        rw [hs]; exact innerLoop_unstar _ _ _
      rw [h2, hin _ (by simp only [List.length_append, List.length_cons]; omega), h1]
      by_cases hb : r = [] ∧ badEnd t = true
      · simp only [if_pos hb]
      · simp only [if_neg hb]
    · have ht : term t c = strNat c ++ starStr 0 t := by rw [term, if_neg hfs, if_neg h1, hstar]
      rw [ht, List.append_assoc]
      rw [spanDigits_eq (strNat_digit c) (by rw [hs]; exact Stop.cons (by decide)), if_neg (by rw [hs]; simp)]
      simp only [bind, Except.bind, natOf_strNat, if_neg (strNat_ne_nil c)]
      rw [hin _ (by simp only [List.length_append]; omega)]
      by_cases hb : r = [] ∧ badEnd t = true
      · simp only [if_pos hb]
      · simp only [if_neg hb]

/-! ### All terms -/

/-- The terms, without the sign of the first. -/
def body : List (Tup × Int) → Str
  | [] => []
  | (t, c) :: l => term t c.natAbs ++ rest l

theorem intercalate_shape {t : Tup} (h : factors 0 t ≠ []) : ∃ s, ['*'].intercalate (factors 0 t) = 'X' :: '_' :: s := by
  have hstar := starStr_intercalate h
  obtain ⟨s, hs⟩ := (starStr_shape 0 t).resolve_left (fun h' => by rw [h'] at hstar; simp at hstar)
  exact ⟨s, by rw [hs] at hstar; simpa using hstar.symm⟩

theorem term_ne_nil (t : Tup) (c : Nat) : term t c ≠ [] := by
  unfold term
  split_ifs with h1 h2
  · exact strNat_ne_nil c
  · obtain ⟨s, hs⟩ := intercalate_shape h1
    rw [hs]; simp
  · simp [strNat_ne_nil]

theorem rest_tail (l : List (Tup × Int)) : Tail (rest l) := by
  cases l with
  | nil => exact .inl rfl
  | cons e l =>
    right
    unfold rest
    split_ifs <;> exact ⟨_, rfl⟩

theorem rest_drop (l : List (Tup × Int)) : (rest l).drop 3 = body l := by
  cases l with
  | nil => rfl
  | cons e l =>
    unfold rest body
    split_ifs <;> rfl

theorem rest_nil {l : List (Tup × Int)} : rest l = [] ↔ l = [] := by
  cases l with
  | nil => simp [rest]
  | cons e l =>
    unfold rest
    split_ifs <;> simp

theorem endsInNumber_single (t : Tup) (c : Int) : EndsInNumber [(t, c)] ↔ badEnd t = true := by
  simp only [EndsInNumber, badEnd, decide_eq_true_eq, List.getLast?_singleton, Option.some.injEq, Prod.mk.injEq]
  constructor
  · rintro ⟨t', c', ⟨rfl, rfl⟩, h⟩; exact h
  · intro h; exact ⟨t, c, ⟨rfl, rfl⟩, h⟩

theorem endsInNumber_cons (e : Tup × Int) {l : List (Tup × Int)} (h : l ≠ []) : EndsInNumber (e :: l) ↔ EndsInNumber l := by
  obtain ⟨a, l, rfl⟩ := List.exists_cons_of_ne_nil h
  simp [EndsInNumber]

section
variable {R : Type _}

theorem assign_new (t : Tup) (c : R) (d : Dict R) (h : t ∉ d.map Prod.fst) : assign t c d = d ++ [(t, c)] := by
  induction d with
  | nil => rfl
  | cons e d ih =>
    simp only [List.map_cons, List.mem_cons, not_or] at h
    rw [assign, if_neg (fun h' => h.1 h'.symm), ih h.2]; rfl

variable [CommRing R] [DecidableEq R]

omit [DecidableEq R] in
theorem outerLoop_step (zero : Tup) (fuel : Nat) (d : Dict R) {st : Str} (h : st ≠ []) :
    outerLoop zero (fuel + 1) d st = (do
      let x ← spanDigits st
      let y ← innerLoop (x.2.length + 1) zero x.2
      .ok (if x.1 = [] then 1 else natOf x.1, y.1, y.2) : Py (Nat × Tup × Str)) >>= fun z =>
        outerLoop zero fuel (assign z.2.1 (z.1 : R) d) (z.2.2.drop 3) := by
  obtain ⟨c, r, rfl⟩ := List.exists_cons_of_ne_nil h
  simp only [outerLoop, bind, Except.bind]
  cases spanDigits (c :: r) with
  | error e => rfl
  | ok x =>
    dsimp only
    cases innerLoop (x.2.length + 1) zero x.2 with
    | error e => rfl
    | ok y => dsimp only; rw [zero_add]

omit [DecidableEq R] in
theorem outerLoop_eq {n : Nat} (l : List (Tup × Int)) : ∀ (fuel : Nat) (d : Dict R), IsPoly n l →
    (∀ e ∈ l, e.1 ∉ d.map Prod.fst) → (body l).length < fuel →
    outerLoop (List.replicate n 0) fuel d (body l) =
      if EndsInNumber l then .error .indexError else .ok (d ++ l.map fun e => (e.1, (e.2.natAbs : R))) := by
  induction l with
  | nil =>
    intro fuel d _ _ hf
    obtain ⟨fuel, rfl⟩ : ∃ f, fuel = f + 1 := ⟨fuel - 1, by omega⟩
    rw [if_neg (by simp [EndsInNumber])]
    simp [body, outerLoop]
  | cons e l ih =>
    obtain ⟨t, c⟩ := e
    intro fuel d hl hd hf
    obtain ⟨fuel, rfl⟩ : ∃ f, fuel = f + 1 := ⟨fuel - 1, by omega⟩
    have hn : t.length = n := (hl.2 (t, c) (by simp)).1
    have hne : body ((t, c) :: l) ≠ [] := by simp [body, term_ne_nil]
    rw [outerLoop_step _ _ _ hne]
    have hb : body ((t, c) :: l) = term t c.natAbs ++ rest l := rfl
    have htp := termParse (t := t) (c := c.natAbs) (rest_tail l)
    rw [hn] at htp
    rw [hb, htp]
    by_cases hr : l = []
    · subst hr
      have : rest [] = [] := rfl
      simp only [this, true_and, ← endsInNumber_single t c]
      by_cases hE : EndsInNumber [(t, c)]
      · simp [hE, bind, Except.bind]
      · have hfu : ∃ f, fuel = f + 1 := by
          have : 0 < (body ((t, c) :: [])).length := List.length_pos_of_ne_nil hne
          exact ⟨fuel - 1, by omega⟩
        obtain ⟨f, rfl⟩ := hfu
        simp only [if_neg hE, bind, Except.bind]
        rw [assign_new _ _ _ (hd (t, c) (by simp))]
        simp [outerLoop]
    · rw [if_neg (by rw [rest_nil]; exact fun h => hr h.1)]
      simp only [bind, Except.bind, rest_drop]
      rw [assign_new _ _ _ (hd (t, c) (by simp)), ih fuel _ ⟨(List.nodup_cons.1 hl.1).2, fun e he => hl.2 e (by simp [he])⟩ ?_ ?_]
      · simp only [endsInNumber_cons (t, c) hr]
        simp
      · intro e he
        have h1 := hd e (by simp [he])
        have h2 := (List.nodup_cons.1 hl.1).1
        simp only [List.map_append, List.map_cons, List.map_nil, List.mem_append, List.mem_singleton, not_or]
        refine ⟨h1, fun h => h2 ?_⟩
        rw [show (t, c).1 = t from rfl, ← h]
        exact List.mem_map_of_mem he
      · have h1 : (body l).length ≤ (rest l).length := by rw [← rest_drop, List.length_drop]; omega
        have h2 : 0 < (term t c.natAbs).length := List.length_pos_of_ne_nil (term_ne_nil _ _)
        rw [hb, List.length_append] at hf
        omega

end

/-! ### The largest index -/

theorem maxSym_ne {c : Char} (h : c ≠ '_') (r : Str) (m : Nat) : maxSym (c :: r) m = maxSym r m := by
  cases r <;> simp [maxSym, h]

theorem maxSym_us {d : Char} (h : isDigit d = true) (r : Str) (m : Nat) :
    maxSym ('_' :: d :: r) m = maxSym r (if d.toNat - 48 > m then d.toNat - 48 else m) := by
  rw [← maxSym_ne (isDigit_ne h).2.2.2.1 r]
  simp [maxSym, intChar, h, bind, Except.bind]

theorem maxSym_skip {s : Str} (h : '_' ∉ s) (r : Str) (m : Nat) : maxSym (s ++ r) m = maxSym r m := by
  induction s with
  | nil => rfl
  | cons c s ih =>
    simp only [List.mem_cons, not_or] at h
    rw [List.cons_append, maxSym_ne (fun h' => h.1 h'.symm), ih h.2]

theorem strNat_no (n : Nat) : '_' ∉ strNat n := fun h => (isDigit_ne (strNat_digit n _ h)).2.2.2.1 rfl

theorem strNat_one {i : Nat} (h : i < 10) : strNat i = [digitChar i] := by
  interval_cases i <;> rfl

theorem maxSym_star (t : Tup) : ∀ (k m : Nat) (r : Str), k + t.length ≤ 9 → ∃ m', maxSym (starStr k t ++ r) m = maxSym r m' ∧
    m ≤ m' ∧ m' ≤ max m (k + t.length) ∧ (starStr k t ≠ [] → 1 ≤ m') ∧ (starStr k t = [] → m' = m) := by
  induction t with
  | nil => intro k m r _; exact ⟨m, rfl, le_refl _, by simp, by simp [starStr], fun _ => rfl⟩
  | cons e t ih =>
    intro k m r hk
    rw [List.length_cons] at hk
    by_cases h : e = 0
    · obtain ⟨m', h1, h2, h3, h4, h5⟩ := ih (k + 1) m r (by omega)
      exact ⟨m', by simpa [starStr, h] using h1, h2, by rw [List.length_cons]; omega, by simpa [starStr, h] using h4, by simpa [starStr, h] using h5⟩
    · obtain ⟨m', h1, h2, h3, h4, h5⟩ := ih (k + 1) (if k + 1 > m then k + 1 else m) r (by omega)
      refine ⟨m', ?_, by split at h2 <;> omega, by rw [List.length_cons]; split at h3 <;> omega, fun _ => by split at h2 <;> omega, fun h' => ?_⟩
      · rw [← h1]
        have e0 : starStr k (e :: t) ++ r = ['*', 'X'] ++ ('_' :: digitChar (k + 1) ::
            ((if e = 1 then [] else "**".toList ++ strNat e) ++ (starStr (k + 1) t ++ r))) := by
          simp [starStr, h, factor, strNat_one (show k + 1 < 10 by omega)]
        have hno : '_' ∉ (if e = 1 then [] else "**".toList ++ strNat e) := by
          split
          · simp
          · simp [strNat_no]
        have hd := digitChar_spec (show k + 1 < 10 by omega)
        rw [e0, maxSym_skip (by decide), maxSym_us hd.1, hd.2, maxSym_skip hno]
      · simp [starStr, h] at h'

theorem maxSym_term {n : Nat} (hn : n ≤ 9) {t : Tup} (ht : t.length = n) (c m : Nat) (hm : m ≤ n) (r : Str) :
    ∃ m', maxSym (term t c ++ r) m = maxSym r m' ∧ m ≤ m' ∧ m' ≤ n ∧ (factors 0 t ≠ [] → 1 ≤ m') ∧ (factors 0 t = [] → m' = m) := by
  have hnil : starStr 0 t = [] ↔ factors 0 t = [] := by rw [starStr_nil, factors_nil]
  obtain ⟨m', h1, h2, h3, h4, h5⟩ := maxSym_star t 0 m r (by omega)
  refine ⟨m', ?_, h2, by omega, fun h => h4 (by rwa [ne_eq, hnil]), fun h => h5 (hnil.2 h)⟩
  rw [← h1]
  by_cases hf : factors 0 t = []
  · rw [term, if_pos hf, maxSym_skip (strNat_no c), hnil.2 hf]; rfl
  · obtain ⟨s, hs⟩ := intercalate_shape hf
    rw [term, if_neg hf, starStr_intercalate hf]
    split
    · rw [List.cons_append, maxSym_ne (c := '*') (by decide)]
    · rw [List.append_assoc, maxSym_skip (strNat_no c)]

theorem maxSym_body {n : Nat} (hn : n ≤ 9) (l : List (Tup × Int)) : ∀ m, m ≤ n → (∀ e ∈ l, e.1.length = n) →
    ∃ m', maxSym (body l) m = .ok m' ∧ m ≤ m' ∧ m' ≤ n ∧ ((∃ e ∈ l, factors 0 e.1 ≠ []) → 1 ≤ m') ∧
      ((∀ e ∈ l, factors 0 e.1 = []) → m' = m) := by
  induction l with
  | nil => intro m hm _; exact ⟨m, rfl, le_refl _, hm, by simp, fun _ => rfl⟩
  | cons e l ih =>
    obtain ⟨t, c⟩ := e
    intro m hm hl
    obtain ⟨m1, h1, h2, h3, h4, h5⟩ := maxSym_term hn (hl (t, c) (by simp)) c.natAbs m hm (rest l)
    obtain ⟨m2, g1, g2, g3, g4, g5⟩ := ih m1 h3 fun e he => hl e (by simp [he])
    refine ⟨m2, ?_, by omega, g3, ?_, ?_⟩
    · rw [body, h1, ← g1]
      cases l with
      | nil => rfl
      | cons e l =>
        unfold rest body
        rw [List.append_assoc]
        split <;> exact maxSym_skip (by decide) _ _
    · rintro ⟨e, he, hf⟩
      rcases List.mem_cons.1 he with rfl | he
      · have := h4 hf; omega
      · exact g4 ⟨e, he, hf⟩
    · intro h
      rw [g5 fun e he => h e (by simp [he]), h5 (h (t, c) (by simp))]

/-! ### Numbers -/

theorem intDigits_digits (s : Str) (hs : ∀ c ∈ s, isDigit c = true) (after : Bool) (acc : Nat) (h : after = true ∨ s ≠ []) :
    intDigits s after acc = .ok (s.foldl (fun a c => 10 * a + (c.toNat - 48)) acc) := by
  induction s generalizing after acc with
  | nil => simp at h; simp [intDigits, h]
  | cons c s ih => rw [intDigits, if_pos (hs c (by simp)), ih (fun x hx => hs x (by simp [hx])) _ _ (.inl rfl)]; rfl

theorem digit_not_space {c : Char} (h : isDigit c = true) : c.isWhitespace = false := by
  simp only [Char.isWhitespace]
  have h1 := isDigit_ne h
  have : c ≠ '\t' ∧ c ≠ '\r' ∧ c ≠ '\n' := by
    refine ⟨?_, ?_, ?_⟩ <;> rintro rfl <;> revert h <;> decide
  simp [h1.1, this]

theorem strip_eq {s : Str} (hs : ∀ c ∈ s, c.isWhitespace = false) :
    ((s.dropWhile fun c => c.isWhitespace).reverse.dropWhile fun c => c.isWhitespace).reverse = s := by
  have key : ∀ u : Str, (∀ c ∈ u, c.isWhitespace = false) → (u.dropWhile fun c => c.isWhitespace) = u := by
    intro u hu
    cases u with
    | nil => rfl
    | cons c u => simp [hu c (by simp)]
  rw [key s hs, key _ (by simpa using hs), List.reverse_reverse]

theorem pyInt_neg (n : Nat) : pyInt ('-' :: strNat n) = .ok (-(n : Int)) := by
  unfold pyInt
  rw [strip_eq (by
    intro c hc
    rcases List.mem_cons.1 hc with rfl | hc
    · decide
    · exact digit_not_space (strNat_digit n c hc))]
  simp only [intDigits_digits _ (strNat_digit n) _ _ (.inr (strNat_ne_nil n)), bind, Except.bind]
  have := natOf_strNat n
  unfold natOf at this
  rw [this]

theorem pyInt_pos (n : Nat) : pyInt (strNat n) = .ok (n : Int) := by
  unfold pyInt
  rw [strip_eq fun c hc => digit_not_space (strNat_digit n c hc)]
  obtain ⟨c, s, hs⟩ := List.exists_cons_of_ne_nil (strNat_ne_nil n)
  have hc : isDigit c = true := strNat_digit n c (by rw [hs]; simp)
  have h1 := isDigit_ne hc
  have h2 := intDigits_digits _ (strNat_digit n) false 0 (.inr (strNat_ne_nil n))
  have h3 := natOf_strNat n
  unfold natOf at h3
  rw [h3] at h2
  rw [hs] at h2 ⊢
  dsimp only
  split
  · rename_i h; cases h; exact absurd rfl h1.2.2.2.2.2.2.2.2.1
  · rename_i h; cases h; exact absurd rfl h1.2.2.2.2.2.2.2.2.2
  · simp [h2, bind, Except.bind]

/-! ### `StrToMulti` -/

section
variable {R : Type _} [CommRing R] [DecidableEq R]

theorem factors_zero {n : Nat} {t : Tup} (ht : t.length = n) : factors 0 t = [] ↔ t = List.replicate n 0 := by
  rw [factors_nil, List.filter_eq_nil_iff, List.eq_replicate_iff]
  simp [ht]

theorem strToMulti_const (n : Nat) (c : Int) :
    strToMulti (R := R) ((if c < 0 then ['-'] else []) ++ strNat c.natAbs) n = .ok (ofDict [(List.replicate n 0, (c : R))]) := by
  have h1 : maxSym ((if c < 0 then ['-'] else []) ++ strNat c.natAbs) 0 = .ok 0 := by
    have := maxSym_skip (s := (if c < 0 then ['-'] else []) ++ strNat c.natAbs) (by
      intro h
      rcases List.mem_append.1 h with h | h
      · split at h <;> simp at h
      · exact strNat_no _ h) [] 0
    rwa [List.append_nil] at this
  have h2 : pyInt ((if c < 0 then ['-'] else []) ++ strNat c.natAbs) = .ok c := by
    split
    · rw [List.singleton_append, pyInt_neg]
      congr 1; omega
    · rw [List.nil_append, pyInt_pos]
      congr 1; omega
  simp [strToMulti, h1, h2, bind, Except.bind]

theorem strToMulti_eq {n : Nat} (hn : n ≤ 9) {l : List (Tup × Int)} (hl : IsPoly n l) (hv : ∃ e ∈ l, e.1 ≠ List.replicate n 0) :
    strToMulti (R := R) (poly l) n =
      if ∃ e, l.head? = some e ∧ e.2 < 0 then .error .valueError
      else if EndsInNumber l then .error .indexError
      else .ok (ofDict (l.map fun e => (e.1, (e.2.natAbs : R)))) := by
  obtain ⟨m, h1, -, h3, h4, -⟩ := maxSym_body hn l 0 (by omega) fun e he => (hl.2 e he).1
  have hm : 1 ≤ m := h4 (by
    obtain ⟨e, he, h⟩ := hv
    exact ⟨e, he, fun h' => h ((factors_zero (hl.2 e he).1).1 h')⟩)
  cases l with
  | nil => simp at hv
  | cons e l =>
    obtain ⟨t, c⟩ := e
    have hmax : max n m = n := by omega
    by_cases hc : c < 0
    · rw [if_pos ⟨(t, c), rfl, hc⟩]
      have hp : poly ((t, c) :: l) = '-' :: body ((t, c) :: l) := by simp [poly, body, hc]
      have hsk : skipX ('-' :: body ((t, c) :: l)) = .ok ('-' :: body ((t, c) :: l)) := rfl
      have hfs : factorStep (List.replicate n 0) ('-' :: body ((t, c) :: l)) = .error .valueError := by
        simp only [factorStep, hsk, bind, Except.bind]
        rw [if_pos (by rfl)]
      have hms : maxSym ('-' :: body ((t, c) :: l)) 0 = .ok m := by rw [maxSym_ne (by decide), h1]
      have hsp : spanDigits ('-' :: body ((t, c) :: l)) = .ok ([], '-' :: body ((t, c) :: l)) := rfl
      rw [hp]
      simp only [strToMulti, hms, bind, Except.bind]
      rw [if_neg (by omega), hmax]
      simp only [outerLoop, hsp, innerLoop, bind, Except.bind]
      rw [if_neg (by decide), hfs]
    · rw [if_neg (by simp [hc])]
      have hp : poly ((t, c) :: l) = body ((t, c) :: l) := by simp [poly, body, hc]
      rw [hp]
      simp only [strToMulti, h1, bind, Except.bind]
      rw [if_neg (by omega), hmax, outerLoop_eq _ _ [] hl (by simp) (by omega)]
      by_cases hE : EndsInNumber ((t, c) :: l)
      · simp [hE]
      · simp [hE]

end

/-! ### Termination -/

theorem intDigits_ne (s : Str) (a : Bool) (acc : Nat) : intDigits s a acc ≠ .error .diverge := by
  induction s generalizing a acc with
  | nil => unfold intDigits; split <;> simp
  | cons c s ih =>
    unfold intDigits
    split
    · exact ih _ _
    · split
      · exact ih _ _
      · simp

theorem intDigits_cases (s : Str) (a : Bool) (acc : Nat) : (∃ v, intDigits s a acc = .ok v) ∨ intDigits s a acc = .error .valueError := by
  induction s generalizing a acc with
  | nil => unfold intDigits; split <;> simp
  | cons c s ih =>
    unfold intDigits
    split
    · exact ih _ _
    · split
      · exact ih _ _
      · exact .inr rfl

theorem pyInt_cases (s : Str) : (∃ v, pyInt s = .ok v) ∨ pyInt s = .error .valueError := by
  unfold pyInt
  generalize ((s.dropWhile fun c => c.isWhitespace).reverse.dropWhile fun c => c.isWhitespace).reverse = t
  dsimp only
  split
  · rename_i r
    rcases intDigits_cases r false 0 with ⟨v, h⟩ | h <;> simp [h, bind, Except.bind]
  · rename_i r
    rcases intDigits_cases r false 0 with ⟨v, h⟩ | h <;> simp [h, bind, Except.bind]
  · rcases intDigits_cases t false 0 with ⟨v, h⟩ | h <;> simp [h, bind, Except.bind]

/-- Letters do not occur in a number. -/
theorem pyInt_letter {s : Str} {c : Char} (hc : c ∈ s) (h1 : c.isWhitespace = false) (h2 : isDigit c = false) (h3 : c ≠ '_')
    (h4 : c ≠ '-') (h5 : c ≠ '+') : pyInt s = .error .valueError := by
  have key : ∀ (r : Str) (a : Bool) (acc : Nat), c ∈ r → intDigits r a acc = .error .valueError := by
    intro r
    induction r with
    | nil => simp
    | cons d r ih =>
      intro a acc hm
      unfold intDigits
      rcases List.mem_cons.1 hm with rfl | hm
      · rw [if_neg (by simp [h2]), if_neg (by simp [h3])]
      · split
        · exact ih _ _ hm
        · split
          · exact ih _ _ hm
          · rfl
  have drop : ∀ r : Str, c ∈ r → c ∈ r.dropWhile fun c => c.isWhitespace := by
    intro r
    induction r with
    | nil => simp
    | cons d r ih =>
      intro hm
      by_cases hd : d.isWhitespace = true
      · rw [List.dropWhile_cons_of_pos hd]
        rcases List.mem_cons.1 hm with rfl | hm
        · simp [h1] at hd
        · exact ih hm
      · rw [List.dropWhile_cons_of_neg hd]; exact hm
  have hm : c ∈ ((s.dropWhile fun c => c.isWhitespace).reverse.dropWhile fun c => c.isWhitespace).reverse :=
    List.mem_reverse.2 (drop _ (List.mem_reverse.2 (drop _ hc)))
  unfold pyInt
  generalize ((s.dropWhile fun c => c.isWhitespace).reverse.dropWhile fun c => c.isWhitespace).reverse = t at hm
  dsimp only
  split
  · rename_i r
    rw [key r _ _ ((List.mem_cons.1 hm).resolve_left h4)]; rfl
  · rename_i r
    rw [key r _ _ ((List.mem_cons.1 hm).resolve_left h5)]; rfl
  · rw [key t _ _ hm]; rfl

theorem maxSym_cases (s : Str) (m : Nat) : (∃ v, maxSym s m = .ok v) ∨ maxSym s m = .error .valueError ∨ maxSym s m = .error .indexError := by
  induction s generalizing m with
  | nil => exact .inl ⟨m, rfl⟩
  | cons c s ih =>
    by_cases h : c = '_'
    · subst h
      cases s with
      | nil => exact .inr (.inr rfl)
      | cons d s =>
        by_cases hd : isDigit d = true
        · rw [maxSym_us hd, ← maxSym_ne (isDigit_ne hd).2.2.2.1 s]
          exact ih _
        · right; left
          simp [maxSym, intChar, hd, bind, Except.bind]
    · rw [maxSym_ne h]
      exact ih m

theorem skipX_length {r r' : Str} (h : skipX r = .ok r') : r'.length ≤ r.length := by
  unfold skipX at h
  split at h
  · split at h
    · cases h
    · cases h; simp; omega
    · cases h; simp
  · split at h
    · cases h
    · split at h
      · cases h
      · cases h; simp; omega
      · cases h; simp
    · cases h; simp
  · cases h; exact le_refl _

theorem spanDigits_length {r : Str} {x : Str × Str} (h : spanDigits r = .ok x) : x.2.length ≤ r.length := by
  unfold spanDigits at h
  split at h
  · cases h
  · rename_i c r' h'
    cases h
    simpa [h'] using (List.dropWhile_suffix (p := isDigit) (l := r)).length_le

theorem power_length {r : Str} {x : Nat × Str} (h : power r = .ok x) : x.2.length ≤ r.length := by
  unfold power at h
  split at h
  · rename_i r'
    cases hs : spanDigits r' with
    | error e => simp [hs, bind, Except.bind] at h
    | ok y =>
      simp only [hs, bind, Except.bind] at h
      split at h
      · cases h
      · cases h
        have := spanDigits_length hs
        simp; omega
  · cases h; exact le_refl _

theorem factorStep_length {t : Tup} {r : Str} {x : Tup × Str} (h : factorStep t r = .ok x) : x.2.length < r.length := by
  unfold factorStep at h
  cases h1 : skipX r with
  | error e => simp [h1, bind, Except.bind] at h
  | ok r1 =>
    simp only [h1, bind, Except.bind] at h
    split at h
    · cases h
    · rename_i hne
      cases h2 : power (r1.dropWhile isDigit) with
      | error e => simp [h2] at h
      | ok y =>
        simp only [h2] at h
        cases h3 : setPow t (natOf (r1.takeWhile isDigit)) y.1 with
        | error e => simp [h3] at h
        | ok t' =>
          simp only [h3] at h
          cases h
          have a1 := skipX_length h1
          have a2 := power_length h2
          have a3 : (r1.takeWhile isDigit).length + (r1.dropWhile isDigit).length = r1.length := by
            rw [← List.length_append, List.takeWhile_append_dropWhile]
          have a4 := List.length_pos_of_ne_nil hne
          dsimp only
          omega

/-- An exception that is neither `ValueError` nor `IndexError`. -/
def ErrOther (b : PyErr) : Prop := .valueError ≠ b ∧ .indexError ≠ b

theorem spanDigits_ne {b : PyErr} (hb : ErrOther b) (r : Str) : spanDigits r ≠ .error b := by
  unfold spanDigits
  split <;> simp [hb.1, hb.2]

theorem factorStep_ne {b : PyErr} (hb : ErrOther b) (t : Tup) (r : Str) : factorStep t r ≠ .error b := by
  unfold factorStep
  have h1 : skipX r ≠ .error b := by
    unfold skipX
    repeat' split
    all_goals simp [hb.1, hb.2]
  cases hs : skipX r with
  | error e => simp only [bind, Except.bind]; rintro h; exact h1 (by cases h; exact hs)
  | ok r1 =>
    simp only [bind, Except.bind]
    split
    · simp [hb.1]
    · have h2 : power (r1.dropWhile isDigit) ≠ .error b := by
        unfold power
        split
        · rename_i r' _
          cases hs : spanDigits r' with
          | error e => simp only [bind, Except.bind]; intro h; exact spanDigits_ne hb r' (by cases h; exact hs)
          | ok y => simp only [bind, Except.bind]; split <;> simp [hb.1, hb.2]
        · simp
      cases hp : power (r1.dropWhile isDigit) with
      | error e => dsimp only; intro h; exact h2 (by cases h; exact hp)
      | ok y =>
        dsimp only
        have h3 : setPow t (natOf (r1.takeWhile isDigit)) y.1 ≠ .error b := by
          unfold setPow
          repeat' split
          all_goals simp [hb.1, hb.2]
        cases hq : setPow t (natOf (r1.takeWhile isDigit)) y.1 with
        | error e => dsimp only; intro h; exact h3 (by cases h; exact hq)
        | ok t' => simp

theorem innerLoop_ne {b : PyErr} (hb : ErrOther b) (fuel : Nat) (t : Tup) (r : Str) (h : r.length < fuel) : innerLoop fuel t r ≠ .error b := by
  induction fuel generalizing t r with
  | zero => omega
  | succ fuel ih =>
    cases r with
    | nil => simp [innerLoop]
    | cons c r =>
      rw [innerLoop]
      split
      · simp
      · cases hs : factorStep t (c :: r) with
        | error e => simp only [bind, Except.bind]; intro h; exact factorStep_ne hb t (c :: r) (by cases h; exact hs)
        | ok x =>
          simp only [bind, Except.bind]
          have := factorStep_length hs
          exact ih _ _ (by omega)

theorem innerLoop_length {fuel : Nat} {t : Tup} {r : Str} {x : Tup × Str} (h : innerLoop fuel t r = .ok x) : x.2.length ≤ r.length := by
  induction fuel generalizing t r with
  | zero => simp [innerLoop] at h
  | succ fuel ih =>
    cases r with
    | nil => simp only [innerLoop] at h; cases h; simp
    | cons c r =>
      rw [innerLoop] at h
      split at h
      · cases h; simp
      · cases hs : factorStep t (c :: r) with
        | error e => simp [hs, bind, Except.bind] at h
        | ok y =>
          simp only [hs, bind, Except.bind] at h
          have h1 := factorStep_length hs
          have h2 := ih h
          omega

section
variable {R : Type _} [CommRing R] [DecidableEq R]

omit [DecidableEq R] in
theorem outerLoop_ne {b : PyErr} (hb : ErrOther b) (zero : Tup) (fuel : Nat) (d : Dict R) (r : Str) (h : r.length < fuel) :
    outerLoop zero fuel d r ≠ .error b := by
  induction fuel generalizing d r with
  | zero => omega
  | succ fuel ih =>
    cases r with
    | nil => simp [outerLoop]
    | cons c r =>
      rw [outerLoop]
      cases hs : spanDigits (c :: r) with
      | error e => simp only [bind, Except.bind]; intro h; exact spanDigits_ne hb (c :: r) (by cases h; exact hs)
      | ok x =>
        simp only [bind, Except.bind]
        cases hi : innerLoop (x.2.length + 1) zero x.2 with
        | error e => dsimp only; intro h; exact innerLoop_ne hb (x.2.length + 1) zero x.2 (by omega) (by cases h; exact hi)
        | ok y =>
          dsimp only
          have h1 := spanDigits_length hs
          have h2 := innerLoop_length hi
          refine ih _ _ ?_
          rw [List.length_drop]
          rw [List.length_cons] at h h1
          omega

theorem strToMulti_ne {b : PyErr} (hb : ErrOther b) (st : Str) (s : Nat) : strToMulti (R := R) st s ≠ .error b := by
  unfold strToMulti
  rcases maxSym_cases st 0 with ⟨m, h⟩ | h | h
  · simp only [h, bind, Except.bind]
    split
    · rcases pyInt_cases st with ⟨v, h⟩ | h <;> simp [h, hb.1]
    · cases ho : outerLoop (R := R) (List.replicate (max s m) 0) (st.length + 1) [] st with
      | error e => dsimp only; intro h; exact outerLoop_ne hb (R := R) (List.replicate (max s m) 0) (st.length + 1) [] st (by omega) (by cases h; exact ho)
      | ok d => simp
  · simp [h, bind, Except.bind, hb.1, hb.2]
  · simp [h, bind, Except.bind, hb.1, hb.2]

end

/-! ### `size_p` -/

theorem sizeLoop_ne {c : Char} (h : c ≠ 'X') (r : Str) (m : Nat) : sizeLoop (c :: r) m = sizeLoop r m := by
  rw [sizeLoop.eq_def]
  split
  · simp_all
  · rename_i h'
    cases h'
    split
    · exact absurd rfl h
    · rfl

theorem sizeLoop_X {d : Char} (h : isDigit d = true) (r : Str) (m : Nat) :
    sizeLoop ('X' :: '_' :: d :: r) m = sizeLoop r (if d.toNat - 48 > m then d.toNat - 48 else m) := by
  rw [← sizeLoop_ne (isDigit_ne h).2.2.1 r, ← sizeLoop_ne (c := '_') (by decide) (d :: r)]
  simp [sizeLoop, intChar, h, bind, Except.bind]

theorem sizeLoop_skip {s : Str} (h : 'X' ∉ s) (r : Str) (m : Nat) : sizeLoop (s ++ r) m = sizeLoop r m := by
  induction s with
  | nil => rfl
  | cons c s ih =>
    simp only [List.mem_cons, not_or] at h
    rw [List.cons_append, sizeLoop_ne (fun h' => h.1 h'.symm), ih h.2]

theorem strNat_noX (n : Nat) : 'X' ∉ strNat n := fun h => (isDigit_ne (strNat_digit n _ h)).2.2.1 rfl

theorem sizeLoop_tup (t : Tup) : ∀ (k m : Nat) (r : Str), k + t.length ≤ 9 → m ≤ 9 →
    sizeLoop (((t.zipIdx k).map fun e => "*X_".toList ++ strNat (e.2 + 1) ++ "**".toList ++ strNat e.1).flatten ++ r) m =
      sizeLoop r (if t = [] then m else max m (k + t.length)) := by
  induction t with
  | nil => intro k m r _ _; rfl
  | cons e t ih =>
    intro k m r hk hm
    rw [List.length_cons] at hk
    have hd := digitChar_spec (show k + 1 < 10 by omega)
    have e0 : (((e :: t).zipIdx k).map fun e => "*X_".toList ++ strNat (e.2 + 1) ++ "**".toList ++ strNat e.1).flatten ++ r =
        ['*'] ++ ('X' :: '_' :: digitChar (k + 1) :: (("**".toList ++ strNat e) ++
          (((t.zipIdx (k + 1)).map fun e => "*X_".toList ++ strNat (e.2 + 1) ++ "**".toList ++ strNat e.1).flatten ++ r))) := by
      simp [List.zipIdx_cons, strNat_one (show k + 1 < 10 by omega)]
    rw [e0, sizeLoop_skip (by decide), sizeLoop_X hd.1, hd.2, sizeLoop_skip (by simp [strNat_noX]),
      ih _ _ _ (by omega) (by split <;> omega)]
    congr 1
    have h' : ¬ (e :: t = []) := by simp
    rw [if_neg h', List.length_cons]
    by_cases ht : t = []
    · subst ht
      rw [if_pos rfl, List.length_nil]
      split <;> omega
    · rw [if_neg ht]
      split <;> omega

theorem sizeLoop_join {n : Nat} (hn : n ≤ 9) (items : List (Tup × Str)) : ∀ m ≤ n, (∀ e ∈ items, e.1.length = n ∧ 'X' ∉ e.2) →
    sizeLoop (joinPlus (items.map fun e => if e.1 ≠ List.replicate n 0 then e.2 ++ ' ' :: tupStr e.1 else e.2)) m =
      .ok (if ∃ e ∈ items, e.1 ≠ List.replicate n 0 then n else m) := by
  have one : ∀ (e : Tup × Str) (r : Str) (m : Nat), m ≤ n → e.1.length = n → 'X' ∉ e.2 →
      sizeLoop ((if e.1 ≠ List.replicate n 0 then e.2 ++ ' ' :: tupStr e.1 else e.2) ++ r) m =
        sizeLoop r (if e.1 ≠ List.replicate n 0 then n else m) := by
    intro e r m hm h1 h2
    by_cases h : e.1 ≠ List.replicate n 0
    · have ht := sizeLoop_tup e.1 0 m r (by omega) (by omega)
      have hne : e.1 ≠ [] := by
        intro h0
        rw [h0] at h1 h
        simp at h1
        subst h1
        simp at h
      rw [if_neg hne] at ht
      rw [if_pos h, if_pos h, List.append_assoc, sizeLoop_skip h2, List.cons_append, sizeLoop_ne (by decide), tupStr, ht]
      congr 1; omega
    · rw [if_neg h, if_neg h, sizeLoop_skip h2]
  induction items with
  | nil => intro m _ _; simp [joinPlus, sizeLoop]
  | cons e items ih =>
    intro m hm hl
    obtain ⟨h1, h2⟩ := hl e (by simp)
    cases items with
    | nil =>
      have := one e [] m hm h1 h2
      rw [List.append_nil] at this
      simp only [List.map_cons, List.map_nil, joinPlus, this, sizeLoop]
      simp
    | cons e' items =>
      have ih' := ih (if e.1 ≠ List.replicate n 0 then n else m) (by split <;> omega) fun x hx => hl x (by simp [hx])
      simp only [List.map_cons, joinPlus] at ih' ⊢
      rw [one e _ m hm h1 h2, sizeLoop_skip (by decide), ih']
      congr 1
      by_cases h : e.1 ≠ List.replicate n 0
      · have hx : ∃ x ∈ e :: e' :: items, x.1 ≠ List.replicate n 0 := ⟨e, by simp, h⟩
        rw [if_pos h, if_pos hx]; simp
      · rw [if_neg h]
        congr 1
        simp [not_not.1 h]

theorem sizeP_eq {n : Nat} (hn : n ≤ 9) {items : List (Tup × Str)} (hl : ∀ e ∈ items, e.1.length = n ∧ 'X' ∉ e.2) :
    sizeP (mvRepr n items) = .ok (if ∃ e ∈ items, e.1 ≠ List.replicate n 0 then n else 0) := by
  unfold sizeP mvRepr
  split
  · subst_vars; rfl
  · exact sizeLoop_join hn items 0 (by omega) hl

/-! ### The quotient in what sympy prints -/

theorem quotientPart_eq {q : Str} (h : ',' ∉ q) (r : Str) : quotientPart ("(Poly(".toList ++ q ++ ',' :: r) = q := by
  have e : ("(Poly(".toList ++ q ++ ',' :: r).drop 6 = q ++ ',' :: r := by
    rw [List.append_assoc]; rfl
  unfold quotientPart
  rw [e]
  induction q with
  | nil => rfl
  | cons c q ih =>
    simp only [List.mem_cons, not_or] at h
    rw [List.cons_append, List.takeWhile_cons_of_pos (by simpa using fun h' : c = ',' => h.1 h'.symm)]
    congr 1
    exact ih h.2 rfl

theorem strNat_noComma (n : Nat) : ',' ∉ strNat n := fun h => (isDigit_ne (strNat_digit n _ h)).2.2.2.2.1 rfl

theorem starStr_noComma (k : Nat) (t : Tup) : ',' ∉ starStr k t := by
  induction t generalizing k with
  | nil => simp [starStr]
  | cons e t ih =>
    by_cases h : e = 0
    · simpa [starStr, h] using ih (k + 1)
    · by_cases h1 : e = 1 <;> simp [starStr, h, h1, factor, strNat_noComma, ih]

theorem term_noComma (t : Tup) (c : Nat) : ',' ∉ term t c := by
  unfold term
  split_ifs with h1 h2
  · exact strNat_noComma c
  · have := starStr_noComma 0 t
    rw [starStr_intercalate h1] at this
    simp at this ⊢
    exact this
  · have := starStr_noComma 0 t
    rw [starStr_intercalate h1] at this
    simp [strNat_noComma] at this ⊢
    exact this

theorem rest_noComma (l : List (Tup × Int)) : ',' ∉ rest l := by
  induction l with
  | nil => simp [rest]
  | cons e l ih =>
    unfold rest
    split <;> simp [term_noComma, ih]

theorem poly_noComma (l : List (Tup × Int)) : ',' ∉ poly l := by
  cases l with
  | nil => decide
  | cons e l =>
    unfold poly
    split <;> simp [term_noComma, rest_noComma]

/-! ### `CheckforDiv` -/

/-- The class name printed after an element. -/
def tag (p m : Nat) : Str := " ∈ F_{".toList ++ strNat p ++ '^' :: strNat m ++ ['}']

theorem tag_eq (p m : Nat) : tag p m = ' ' :: '∈' :: ' ' :: 'F' :: '_' :: '{' :: (strNat p ++ '^' :: strNat m ++ ['}']) := by
  simp [tag]

theorem toBrace_skip {s : Str} (h : '}' ∉ s) (r : Str) : toBrace (s ++ r) = toBrace r := by
  induction s with
  | nil => rfl
  | cons c s ih =>
    simp only [List.mem_cons, not_or] at h
    rw [List.cons_append, toBrace, if_neg (fun h' => h.1 h'.symm), ih h.2]

theorem strNat_noBrace (n : Nat) : '}' ∉ strNat n := fun h => (isDigit_ne (strNat_digit n _ h)).2.2.2.2.2.2.1 rfl

theorem toBrace_tag {g : Str} (hg : '}' ∉ g) (p m : Nat) (r : Str) : toBrace (g ++ (tag p m ++ r)) = .ok ('}' :: r) := by
  have e : tag p m ++ r = (" ∈ F_{".toList ++ strNat p ++ '^' :: strNat m) ++ '}' :: r := by simp [tag]
  rw [toBrace_skip hg, e, toBrace_skip (by simp [strNat_noBrace])]
  rfl

theorem checkLoop_step {c : Char} {r : Str} (h : r[3]? ≠ some 'F') (fuel : Nat) (res : Str) :
    checkLoop (fuel + 1) res (c :: r) = checkLoop fuel (res ++ [c]) r := by
  rw [checkLoop]
  split
  · rename_i h'; exact absurd h' h
  · rfl

/-- Text without `F`, then the class name: the name is dropped. -/
theorem checkLoop_tag {g : Str} (hne : g ≠ []) (hF : 'F' ∉ g) (hB : '}' ∉ g) (p m : Nat) (r : Str) :
    ∀ (fuel : Nat) (res : Str), g.length ≤ fuel →
      checkLoop fuel res (g ++ (tag p m ++ r)) = checkLoop (fuel - g.length) (res ++ g) r := by
  induction g with
  | nil => exact absurd rfl hne
  | cons c g ih =>
    intro fuel res hf
    rw [List.length_cons] at hf
    obtain ⟨fuel, rfl⟩ : ∃ f, fuel = f + 1 := ⟨fuel - 1, by omega⟩
    simp only [List.mem_cons, not_or] at hF hB
    by_cases hg : g = []
    · subst hg
      have h3 : (tag p m ++ r)[3]? = some 'F' := by rw [tag_eq]; rfl
      have htb := toBrace_tag (g := [c]) (by simpa using hB.1) p m r
      simp only [List.singleton_append] at htb ⊢
      rw [checkLoop]
      simp only [h3, htb, bind, Except.bind]
      simp
    · have h3 : (g ++ (tag p m ++ r))[3]? ≠ some 'F' := by
        intro h
        rcases lt_or_ge 3 g.length with hl | hl
        · rw [List.getElem?_append_left hl] at h
          exact hF.2 (List.mem_of_getElem? h)
        · rw [List.getElem?_append_right hl, tag_eq] at h
          have := List.length_pos_of_ne_nil hg
          have h4 : g.length = 1 ∨ g.length = 2 ∨ g.length = 3 := by omega
          rcases h4 with h4 | h4 | h4 <;> rw [h4] at h <;> simp at h
      rw [List.cons_append, checkLoop_step h3, ih hg hF.2 hB.2 fuel _ (by omega), List.length_cons]
      congr 1
      · omega
      · simp

theorem checkLoop_plain {g : Str} (hF : 'F' ∉ g) : ∀ (fuel : Nat) (res : Str), g.length < fuel → checkLoop fuel res g = .ok (res ++ g) := by
  induction g with
  | nil =>
    intro fuel res hf
    obtain ⟨fuel, rfl⟩ : ∃ f, fuel = f + 1 := ⟨fuel - 1, by omega⟩
    simp [checkLoop]
  | cons c g ih =>
    intro fuel res hf
    rw [List.length_cons] at hf
    obtain ⟨fuel, rfl⟩ : ∃ f, fuel = f + 1 := ⟨fuel - 1, by omega⟩
    simp only [List.mem_cons, not_or] at hF
    rw [checkLoop_step (fun h => hF.2 (List.mem_of_getElem? h)), ih hF.2 fuel _ (by omega)]
    simp

/-! ### Polynomials in one variable, printed -/

/-- A term of a printed polynomial, `T` printed after the coefficient. -/
def uterm (T : Str) (k : Nat) (a : List Nat) : Str :=
  if 0 < k then polyRepr (a.map strNat) ++ T ++ " *x**".toList ++ strNat k else polyRepr (a.map strNat) ++ T

/-- The terms from power `k` on. -/
def uterms (T : Str) (k : Nat) (cs : List (List Nat)) : Str := joinPlus ((cs.zipIdx k).map fun e => uterm T e.2 e.1)

theorem uterms_one (T : Str) (k : Nat) (a : List Nat) : uterms T k [a] = uterm T k a := rfl

theorem uterms_const (c : Nat) : uterms [] 0 [[c]] = strNat c := by simp [uterms_one, uterm, polyRepr, joinPlus]

theorem uterms_cons (T : Str) (k : Nat) (a b : List Nat) (cs : List (List Nat)) :
    uterms T k (a :: b :: cs) = uterm T k a ++ (" + ".toList ++ uterms T (k + 1) (b :: cs)) := rfl

theorem polyRepr_fq (p m : Nat) (cs : List (List Nat)) :
    polyRepr (cs.map fun a => fqRepr p m (polyRepr (a.map strNat))) = if cs = [] then ['0'] else uterms (tag p m) 0 cs := by
  by_cases h : cs = []
  · subst h; rfl
  · rw [if_neg h, uterms, polyRepr, if_neg (by simpa using h), List.zipIdx_map, List.map_map]
    congr 1
    apply List.map_congr_left
    intro e _
    simp [uterm, fqRepr, tag]

theorem joinPlus_mem {c : Char} (hc : c ∉ " + ".toList) : ∀ l : List Str, c ∈ joinPlus l ↔ ∃ s ∈ l, c ∈ s
  | [] => by simp [joinPlus]
  | [a] => by simp [joinPlus]
  | a :: b :: l => by
    have := joinPlus_mem hc (b :: l)
    rw [joinPlus, List.mem_append, List.mem_append, this]
    · simp only [hc, false_or, List.mem_cons, exists_eq_or_imp]
    · simp

theorem strNat_digitOnly {n : Nat} {c : Char} (hc : isDigit c = false) : c ∉ strNat n := fun h => by
  rw [strNat_digit n c h] at hc; cases hc

theorem polyRepr_no {c : Char} (hc : isDigit c = false) (h1 : c ∉ " + ".toList) (h2 : c ∉ " *x**".toList) (a : List Nat) :
    c ∉ polyRepr (a.map strNat) := by
  unfold polyRepr
  split
  · intro h
    simp at h
    subst h
    cases hc
  · rw [joinPlus_mem h1]
    rintro ⟨s, hs, h⟩
    obtain ⟨⟨b, k⟩, he, rfl⟩ := List.mem_map.1 hs
    obtain ⟨d, -, hd⟩ := List.mem_map.1 (List.fst_mem_of_mem_zipIdx he)
    subst hd
    dsimp only at h
    split at h <;> simp only [List.mem_append, h2, strNat_digitOnly hc, or_self] at h

theorem polyRepr_ne (a : List Nat) : polyRepr (a.map strNat) ≠ [] := by
  unfold polyRepr
  split
  · simp
  · rename_i h
    match a, h with
    | [c], _ => simpa [joinPlus] using strNat_ne_nil c
    | c :: d :: l, _ => simp [joinPlus]

theorem checkLoop_uterms (p m : Nat) : ∀ (cs : List (List Nat)) (k : Nat) (g res : Str) (fuel : Nat), cs ≠ [] → 'F' ∉ g → '}' ∉ g →
    (g ++ uterms (tag p m) k cs).length < fuel →
    checkLoop fuel res (g ++ uterms (tag p m) k cs) = .ok (res ++ (g ++ uterms [] k cs)) := by
  have key : ∀ (a : List Nat) (k : Nat), ∃ e : Str, 'F' ∉ e ∧ '}' ∉ e ∧ ∀ T, uterm T k a = polyRepr (a.map strNat) ++ (T ++ e) := by
    intro a k
    refine ⟨if 0 < k then " *x**".toList ++ strNat k else [], ?_, ?_, fun T => ?_⟩
    · split
      · simp [strNat_digitOnly (c := 'F') (by decide)]
      · simp
    · split
      · simp [strNat_noBrace]
      · simp
    · unfold uterm
      split <;> simp
  have hA : ∀ a : List Nat, 'F' ∉ polyRepr (a.map strNat) ∧ '}' ∉ polyRepr (a.map strNat) := fun a =>
    ⟨polyRepr_no (by decide) (by decide) (by decide) a, polyRepr_no (by decide) (by decide) (by decide) a⟩
  intro cs
  induction cs with
  | nil => simp
  | cons a cs ih =>
    intro k g res fuel _ hF hB hf
    obtain ⟨e, eF, eB, he⟩ := key a k
    have hne : g ++ polyRepr (a.map strNat) ≠ [] := by simp [polyRepr_ne]
    have hF' : 'F' ∉ g ++ polyRepr (a.map strNat) := by simp [hF, (hA a).1]
    have hB' : '}' ∉ g ++ polyRepr (a.map strNat) := by simp [hB, (hA a).2]
    cases cs with
    | nil =>
      rw [uterms_one, he] at hf ⊢
      rw [uterms_one, he, ← List.append_assoc g, checkLoop_tag hne hF' hB' _ _ _ _ _ (by simp at hf ⊢; omega),
        checkLoop_plain eF _ _ (by simp at hf ⊢; omega)]
      simp
    | cons b cs =>
      rw [uterms_cons, he] at hf ⊢
      have e1 : g ++ (polyRepr (a.map strNat) ++ (tag p m ++ e) ++ (" + ".toList ++ uterms (tag p m) (k + 1) (b :: cs))) =
          (g ++ polyRepr (a.map strNat)) ++ (tag p m ++ ((e ++ " + ".toList) ++ uterms (tag p m) (k + 1) (b :: cs))) := by simp
      rw [e1] at hf ⊢
      rw [checkLoop_tag hne hF' hB' _ _ _ _ _ (by simp at hf ⊢; omega),
        ih _ _ _ _ (by simp) (by simp [eF]) (by simp [eB]) (by simp at hf ⊢; omega), uterms_cons, he]
      simp

theorem hasF_tag (s : Str) (p m : Nat) (r : Str) : hasF (s ++ (tag p m ++ r)) = true := by
  have base : ∀ c s, hasF s = true → hasF (c :: s) = true := by
    intro c s h
    rw [hasF.eq_def]
    split
    · rfl
    · rename_i h'; cases h'; exact h
    · simp_all
  induction s with
  | nil =>
    rw [List.nil_append, tag_eq]
    rfl
  | cons c s ih => exact base c _ ih

/-- What `CheckforDiv` makes of a polynomial over a finite field: the elements' class names go. -/
theorem checkForDiv_fq (p m : Nat) (cs : List (List Nat)) :
    checkForDiv (polyRepr (cs.map fun a => fqRepr p m (polyRepr (a.map strNat)))) =
      .ok (if cs = [] then ['0'] else uterms [] 0 cs) := by
  rw [polyRepr_fq]
  by_cases h : cs = []
  · subst h; rfl
  · rw [if_neg h, if_neg h, checkForDiv]
    have hF : hasF (uterms (tag p m) 0 cs) = true := by
      match cs, h with
      | [a], _ => simpa [uterms_one, uterm] using hasF_tag (polyRepr (a.map strNat)) p m []
      | a :: b :: cs, _ =>
        rw [uterms_cons, uterm, if_neg (by omega), List.append_assoc]
        exact hasF_tag _ _ _ _
    have := checkLoop_uterms p m cs 0 [] [] ((uterms (tag p m) 0 cs).length + 1) h (by simp) (by simp) (by simp)
    simp only [List.nil_append] at this
    rw [if_pos hF, this]

theorem uterms_no {c : Char} (hc : isDigit c = false) (h1 : c ∉ " + ".toList) (h2 : c ∉ " *x**".toList) (k : Nat) (cs : List (List Nat)) :
    c ∉ uterms [] k cs := by
  unfold uterms
  rw [joinPlus_mem h1]
  rintro ⟨s, hs, h⟩
  obtain ⟨⟨b, j⟩, -, rfl⟩ := List.mem_map.1 hs
  unfold uterm at h
  dsimp only at h
  split at h <;>
    simp only [List.mem_append, h2, strNat_digitOnly hc, polyRepr_no hc h1 h2, List.not_mem_nil, or_self] at h

theorem polyRepr_x {a : List Nat} (h : 2 ≤ a.length) : 'x' ∈ polyRepr (a.map strNat) := by
  match a, h with
  | c :: d :: l, _ =>
    unfold polyRepr
    rw [if_neg (by simp), joinPlus_mem (by decide)]
    exact ⟨strNat d ++ " *x**".toList ++ strNat 1, by simp, by simp⟩

theorem uterms_x {cs : List (List Nat)} (h : 2 ≤ cs.length ∨ ∃ a ∈ cs, 2 ≤ a.length) : 'x' ∈ uterms [] 0 cs := by
  unfold uterms
  rw [joinPlus_mem (by decide)]
  rcases h with h | ⟨a, ha, h⟩
  · match cs, h with
    | a :: b :: l, _ => exact ⟨uterm [] 1 b, by simp, by simp [uterm]⟩
  · obtain ⟨i, hi, rfl⟩ := List.getElem_of_mem ha
    refine ⟨uterm [] i cs[i], List.mem_map.2 ⟨(cs[i], i), by simp [List.mem_zipIdx_iff_getElem?, hi], rfl⟩, ?_⟩
    unfold uterm
    split <;> simp [polyRepr_x h]

variable {R : Type _} [CommRing R] [DecidableEq R]

theorem strToMulti_x {s : Str} (hx : 'x' ∈ s) (h_ : '_' ∉ s) (n : Nat) : strToMulti (R := R) s n = .error .valueError := by
  have h1 : maxSym s 0 = .ok 0 := by simpa [maxSym] using maxSym_skip h_ [] 0
  have h2 := pyInt_letter hx (by decide) (by decide) (by decide) (by decide) (by decide)
  simp [strToMulti, h1, h2, bind, Except.bind]

/-! ### Two-digit indices -/

theorem isDigit_le {c : Char} (h : isDigit c = true) : c.toNat - 48 ≤ 9 := by
  simp only [isDigit, Char.isDigit, Bool.and_eq_true, decide_eq_true_eq] at h
  have := UInt32.le_iff_toNat_le.1 h.2
  simp only [Char.toNat]
  have e : ('9' : Char).val.toNat = 57 := rfl
  omega

theorem sizeLoop_le (s : Str) : ∀ m v, m ≤ 9 → sizeLoop s m = .ok v → v ≤ 9 := by
  induction s with
  | nil => intro m v hm h; cases h; exact hm
  | cons c r ih =>
    intro m v hm h
    rw [sizeLoop.eq_def] at h
    split at h
    · simp_all
    · rename_i h'
      cases h'
      split at h
      · rename_i d _
        unfold intChar at h
        by_cases hd : isDigit d = true
        · simp only [hd, if_true, bind, Except.bind] at h
          have := isDigit_le hd
          exact ih _ _ (by split <;> omega) h
        · simp [hd, bind, Except.bind] at h
      · exact ih _ _ hm h

theorem strNat_head {i : Nat} (h : i ≠ 0) : ∃ d s, strNat i = digitChar d :: s ∧ 1 ≤ d ∧ d ≤ 9 := by
  unfold strNat
  rw [if_neg h]
  have hne : Nat.digits 10 i ≠ [] := by simpa [Nat.digits_eq_nil_iff_eq_zero]
  have h1 := Nat.getLast_digit_ne_zero 10 h
  have h2 := Nat.digits_lt_base (b := 10) (by norm_num) (List.getLast_mem hne)
  refine ⟨_, (Nat.digits 10 i).dropLast.reverse.map digitChar, ?_, Nat.one_le_iff_ne_zero.2 h1, by omega⟩
  conv_lhs => rw [← List.dropLast_append_getLast hne]
  simp

theorem strToMulti_two (i s : Nat) (hi : 10 ≤ i) (hs : s ≤ 9) : strToMulti (R := R) (factor i 1) s = .error .indexError := by
  obtain ⟨d, l, h, h1, h9⟩ := strNat_head (i := i) (by omega)
  have hd := digitChar_spec (show d < 10 by omega)
  have hf : factor i 1 = 'X' :: '_' :: strNat i := by simp [factor]
  have hm : maxSym (factor i 1) 0 = .ok d := by
    rw [hf, maxSym_ne (by decide), h, maxSym_us hd.1, hd.2, if_pos (by omega)]
    have := strNat_no i
    rw [h] at this
    simpa [maxSym] using maxSym_skip (s := l) (fun h' => this (by simp [h'])) [] d
  have hdig : ∀ c ∈ strNat i, isDigit c = true := strNat_digit i
  have ht : (strNat i).takeWhile isDigit = strNat i := by simpa using takeWhile_digits hdig []
  have hdr : (strNat i).dropWhile isDigit = [] := by simpa using dropWhile_digits hdig []
  have hX : isDigit 'X' = false := by decide
  have hstep : factorStep (List.replicate (max s d) 0) ('X' :: '_' :: strNat i) = .error .indexError := by
    have : ¬ i ≤ max s d := by omega
    simp [factorStep, skipX, ht, hdr, strNat_ne_nil, power, setPow, natOf_strNat, bind, Except.bind, this]
    rw [if_neg (by omega)]
  have hsp : spanDigits ('X' :: '_' :: strNat i) = .ok ([], 'X' :: '_' :: strNat i) := by simp [spanDigits, hX]
  have hout : outerLoop (R := R) (List.replicate (max s d) 0) ((factor i 1).length + 1) [] (factor i 1) = .error .indexError := by
    rw [hf]
    simp [outerLoop, hsp, innerLoop, hstep, bind, Except.bind]
  have hd0 : d ≠ 0 := by omega
  simp [strToMulti, hm, hd0, hout, bind, Except.bind]

/-! ### Polynomials with integer coefficients and their images -/

theorem toMv_cast (n : Nat) (l : List (Tup × Int)) :
    toMv n (l.map fun e => (e.1, (e.2 : R))) = MvPolynomial.map (Int.castRingHom R) (toMv n l) := by
  induction l with
  | nil => simp
  | cons e l ih => simp [ih]

end Verif.MvString
