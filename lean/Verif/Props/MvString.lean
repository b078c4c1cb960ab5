import Verif.Proofs.MvString
import Verif.Proofs.MvIndex
import Verif.Proofs.FiniteField
import Verif.Proofs.SmallPrimes
/-!
# C107–C109: multivariate polynomials through strings

Division of multivariate polynomials prints the operands, lets sympy divide, and reads the text of sympy's answer.
`Spec.Sympy.poly l` is the text sympy prints for the polynomial with the terms `l`, and `toMv` (`Verif.Spec.Multivariate`) the
polynomial a dictionary denotes.
-/

namespace Verif.Props
open Mv MvString Spec.Sympy
open MvPolynomial (C X)

variable {R : Type} [CommRing R] [DecidableEq R] {n : Nat}

/-- The polynomial over `R` with the integer terms `l`. -/
noncomputable def terms (R : Type) [CommRing R] (n : Nat) (l : List (Tup × Int)) : MvPolynomial (Fin n) R :=
  toMv n (l.map fun e => (e.1, (e.2 : R)))

omit [CommRing R] [DecidableEq R] in
theorem good_abs {l : List (Tup × Int)} (hl : IsPoly n l) (g : Int → R) : Good n (l.map fun e => (e.1, g e.2)) := by
  refine ⟨?_, ?_⟩
  · have : keys (l.map fun e => (e.1, g e.2)) = l.map Prod.fst := by simp [keys, Function.comp_def]
    rw [this]
    exact hl.1
  · intro t ht
    simp only [keys, List.map_map, List.mem_map] at ht
    obtain ⟨e, he, rfl⟩ := ht
    exact (hl.2 e he).1

omit [DecidableEq R] in
theorem abs_eq_iff (c : Int) : ((c.natAbs : Nat) : R) = (c : R) ↔ 0 ≤ c ∨ 2 * (c : R) = 0 := by
  rcases lt_or_ge c 0 with h | h
  · have : ((c.natAbs : Nat) : R) = -(c : R) := by
      have h' : ((c.natAbs : Nat) : Int) = -c := by omega
      rw [← Int.cast_natCast, h', Int.cast_neg]
    rw [this]
    constructor
    · intro e
      right
      linear_combination -e
    · rintro (h' | h')
      · omega
      · rw [two_mul] at h'
        exact (eq_neg_of_add_eq_zero_left h').symm
  · have h' : ((c.natAbs : Nat) : Int) = c := by omega
    simp only [h, true_or, iff_true]
    rw [← Int.cast_natCast, h']

/-! ### C107 -/

/-- **C107** for the polynomials in at most nine variables that are not constant, exactly: the text of a polynomial is read as that
polynomial if and only if the first coefficient is positive, the text does not end in a number other than an index, and every other
negative coefficient is its own negative in `R`.  In every other case the answer is an exception or a different polynomial. -/
theorem C107_reads_partial (hn : n ≤ 9) {l : List (Tup × Int)} (hl : IsPoly n l) (hv : ∃ e ∈ l, e.1 ≠ List.replicate n 0) :
    (∃ d : Dict R, strToMulti (poly l) n = .ok d ∧ WF n d ∧ toMv n d = terms R n l) ↔
      (∀ e, l.head? = some e → 0 < e.2) ∧ ¬ EndsInNumber l ∧ ∀ e ∈ l, e.2 < 0 → 2 * (e.2 : R) = 0 := by
  rw [strToMulti_eq hn hl hv]
  have h0 : (∃ e, l.head? = some e ∧ e.2 < 0) ↔ ¬ ∀ e, l.head? = some e → 0 < e.2 := by
    constructor
    · rintro ⟨e, h1, h2⟩ h3
      have := h3 e h1
      omega
    · intro h
      simp only [not_forall] at h
      obtain ⟨e, h1, h2⟩ := h
      refine ⟨e, h1, ?_⟩
      have := (hl.2 e (List.mem_of_mem_head? h1)).2
      omega
  by_cases c1 : ∃ e, l.head? = some e ∧ e.2 < 0
  · rw [if_pos c1]
    simp only [reduceCtorEq, false_and, exists_false, false_iff]
    exact fun h => (h0.1 c1) h.1
  · rw [if_neg c1]
    by_cases c2 : EndsInNumber l
    · rw [if_pos c2]
      simp only [reduceCtorEq, false_and, exists_false, false_iff]
      exact fun h => h.2.1 c2
    · rw [if_neg c2]
      have hc : ∀ e, l.head? = some e → 0 < e.2 := not_not.1 fun h => c1 (h0.2 h)
      have g1 := good_abs (R := R) hl fun c => ((c.natAbs : Nat) : R)
      have g2 := good_abs (R := R) hl fun c => (c : R)
      have key : toMv n (l.map fun e => (e.1, ((e.2.natAbs : Nat) : R))) = terms R n l ↔ ∀ e ∈ l, e.2 < 0 → 2 * (e.2 : R) = 0 := by
        unfold terms
        constructor
        · intro h e he hneg
          have h1 := coeff_toMv g1 (hl.2 e he).1
          have h2 := coeff_toMv g2 (hl.2 e he).1
          rw [get_eq_of_mem g1 (e := (e.1, ((e.2.natAbs : Nat) : R))) (List.mem_map.2 ⟨e, he, rfl⟩)] at h1
          rw [get_eq_of_mem g2 (e := (e.1, (e.2 : R))) (List.mem_map.2 ⟨e, he, rfl⟩), ← h, h1] at h2
          exact ((abs_eq_iff e.2).1 h2).resolve_left (by omega)
        · intro h
          congr 1
          apply List.map_congr_left
          intro e he
          rw [(abs_eq_iff e.2).2]
          rcases lt_or_ge e.2 0 with h' | h'
          · exact .inr (h e he h')
          · exact .inl h'
      constructor
      · rintro ⟨d, h1, -, h3⟩
        cases h1
        rw [toMv_ofDict] at h3
        exact ⟨hc, c2, key.1 h3⟩
      · rintro ⟨-, -, h⟩
        exact ⟨_, rfl, wf_ofDict g1, by rw [toMv_ofDict]; exact key.2 h⟩

/-- `X_1**2*X_2 + 3*X_2` is read back over the integers, and so is `X_1 - X_2` over `Z/2`. -/
example : (∃ d : Dict Int, strToMulti "X_1**2*X_2 + 3*X_2".toList 2 = .ok d ∧ toMv 2 d = terms Int 2 [([2, 1], 1), ([0, 1], 3)]) ∧
    ∃ d : Dict (Zp 2), strToMulti "X_1 - X_2".toList 2 = .ok d ∧ toMv 2 d = terms (Zp 2) 2 [([1, 0], 1), ([0, 1], -1)] := by
  constructor
  · obtain ⟨d, h1, -, h3⟩ := (C107_reads_partial (R := Int) (n := 2) (by decide) (l := [([2, 1], 1), ([0, 1], 3)])
      ⟨by decide, by decide⟩ ⟨_, List.mem_cons_self, by decide⟩).2 ⟨by simp, by decide, by simp⟩
    exact ⟨d, h1, h3⟩
  · obtain ⟨d, h1, -, h3⟩ := (C107_reads_partial (R := Zp 2) (n := 2) (by decide) (l := [([1, 0], 1), ([0, 1], -1)])
      ⟨by decide, by decide⟩ ⟨_, List.mem_cons_self, by decide⟩).2 ⟨by simp, by decide, by decide⟩
    exact ⟨d, h1, h3⟩

/-- **C107** for constants, in any number of variables: `str(c)` is read as the constant polynomial `c`, whatever its sign. -/
theorem C107_constants (c : Int) :
    ∃ d : Dict R, strToMulti (poly (if c = 0 then [] else [(List.replicate n 0, c)])) n = .ok d ∧ WF n d ∧ toMv n d = C (c : R) := by
  have h : poly (if c = 0 then [] else [(List.replicate n 0, c)]) = (if c < 0 then ['-'] else []) ++ strNat c.natAbs := by
    by_cases h : c = 0
    · subst h; rfl
    · rw [if_neg h]
      have hf : factors 0 (List.replicate n 0) = [] := (factors_zero (n := n) (by simp)).2 rfl
      simp [poly, term, hf, rest]
  rw [h, strToMulti_const]
  exact ⟨_, rfl, wf_ofElt n (c : R), toMv_ofElt n (c : R)⟩

example : ∃ d : Dict Int, strToMulti "-17".toList 12 = .ok d ∧ toMv 12 d = C (-17) := by
  obtain ⟨d, h1, -, h3⟩ := C107_constants (R := Int) (n := 12) (-17)
  exact ⟨d, h1, by simpa using h3⟩

/-- **C107** fails on subtraction: `X_1 - X_2` is read as `X_1 + X_2`. -/
theorem C107_signs_refuted (h2 : (2 : R) ≠ 0) :
    ∃ d : Dict R, strToMulti "X_1 - X_2".toList 2 = .ok d ∧ toMv 2 d = X 0 + X 1 ∧
      terms R 2 [([1, 0], 1), ([0, 1], -1)] = X 0 - X 1 ∧ (X 0 + X 1 : MvPolynomial (Fin 2) R) ≠ X 0 - X 1 := by
  have hX0 : toMv 2 [([1, 0], (1 : R))] = X 0 := by
    have := toMv_xi (R := R) 2 0 (by decide)
    rwa [xi, toMv_ofDict] at this
  have hX1 : toMv 2 [([0, 1], (1 : R))] = X 1 := by
    have := toMv_xi (R := R) 2 1 (by decide)
    rwa [xi, toMv_ofDict] at this
  have h := strToMulti_eq (R := R) (n := 2) (by decide) (l := [([1, 0], 1), ([0, 1], -1)]) ⟨by decide, by decide⟩
    ⟨_, List.mem_cons_self, by decide⟩
  rw [if_neg (by simp), if_neg (by decide)] at h
  refine ⟨_, h, ?_, ?_, ?_⟩
  · rw [toMv_ofDict]
    simp [← hX0, ← hX1]
  · have h3 := toMv_append 2 [([1, 0], (1 : R))] [([0, 1], (-1 : R))]
    have h4 := toMv_map_neg 2 [([0, 1], (1 : R))]
    simp only [List.map_cons, List.map_nil] at h4
    rw [h4, hX0, hX1, ← sub_eq_add_neg] at h3
    simpa [terms] using h3
  · intro e
    have e' := congrArg (MvPolynomial.eval ![(0 : R), 1]) e
    simp at e'
    exact h2 (by linear_combination e')

example : ∃ d : Dict (Zp 7), strToMulti "X_1 - X_2".toList 2 = .ok d ∧ toMv 2 d ≠ terms (Zp 7) 2 [([1, 0], 1), ([0, 1], -1)] := by
  obtain ⟨d, h1, h2, h3, h4⟩ := C107_signs_refuted (R := Zp 7) (by decide)
  exact ⟨d, h1, by rw [h2, h3]; exact h4⟩

/-- **C107** fails on every polynomial whose text ends in a constant or in a power: the reader runs past the end of the string. -/
theorem C107_end_refuted (hn : n ≤ 9) {l : List (Tup × Int)} (hl : IsPoly n l) (hv : ∃ e ∈ l, e.1 ≠ List.replicate n 0)
    (hp : ∀ e, l.head? = some e → 0 < e.2) (he : EndsInNumber l) : strToMulti (R := R) (poly l) n = .error .indexError := by
  rw [strToMulti_eq hn hl hv, if_neg, if_pos he]
  rintro ⟨e, h1, h2⟩
  have := hp e h1
  omega

example : strToMulti (R := Int) "X_1 + 1".toList 1 = .error .indexError ∧ strToMulti (R := Int) "X_1*X_2**2".toList 2 = .error .indexError :=
  ⟨C107_end_refuted (n := 1) (l := [([1], 1), ([0], 1)]) (by decide) ⟨by decide, by decide⟩ ⟨_, List.mem_cons_self, by decide⟩
      (by simp) (by decide),
    C107_end_refuted (n := 2) (l := [([1, 2], 1)]) (by decide) ⟨by decide, by decide⟩ ⟨_, List.mem_cons_self, by decide⟩
      (by simp) (by decide)⟩

/-- **C107** fails on every polynomial with a negative first coefficient: the reader looks for a variable and finds the sign. -/
theorem C107_leading_minus_refuted (hn : n ≤ 9) {l : List (Tup × Int)} (hl : IsPoly n l) (hv : ∃ e ∈ l, e.1 ≠ List.replicate n 0)
    (hp : ∃ e, l.head? = some e ∧ e.2 < 0) : strToMulti (R := R) (poly l) n = .error .valueError := by
  rw [strToMulti_eq hn hl hv, if_pos hp]

example : strToMulti (R := Int) "-X_1*X_2".toList 2 = .error .valueError :=
  have h : poly [([1, 1], -1)] = "-X_1*X_2".toList := by decide +kernel
  h ▸ C107_leading_minus_refuted (n := 2) (l := [([1, 1], -1)]) (by decide) ⟨by decide, by decide⟩ ⟨_, List.mem_cons_self, by decide⟩
    ⟨_, rfl, by decide⟩

/-- **C107** fails on every variable with an index of two digits or more: the reader sizes its power tuples by the first digit of the
indices and by `size_p`, which does the same and so is at most 9. -/
theorem C107_two_digit_index_refuted :
    (∀ (st : Str) (s : Nat), sizeP st = .ok s → s ≤ 9) ∧
    ∀ i s : Nat, 10 ≤ i → s ≤ 9 → strToMulti (R := R) (factor i 1) s = .error .indexError :=
  ⟨fun st s h => sizeLoop_le st 0 s (by omega) h, fun i s hi hs => strToMulti_two i s hi hs⟩

example : sizeP "1 *X_10**1".toList = .ok 1 ∧ strToMulti (R := Int) "X_10".toList 1 = .error .indexError :=
  ⟨by decide, C107_two_digit_index_refuted.2 10 1 (by decide) (by decide)⟩

/-- **C107**: the reader stops on every string; it returns a polynomial, or raises `ValueError` or `IndexError`. -/
theorem C107_terminates (st : Str) (s : Nat) : (∃ d, strToMulti (R := R) st s = .ok d) ∨ strToMulti (R := R) st s = .error .valueError ∨
    strToMulti (R := R) st s = .error .indexError := by
  cases h : strToMulti (R := R) st s with
  | ok d => exact .inl ⟨d, rfl⟩
  | error e =>
    right
    by_contra hc
    refine strToMulti_ne (R := R) (b := e) ⟨fun h' => hc (.inl (by rw [h'])), fun h' => hc (.inr (by rw [h']))⟩ st s h

example : (strToMulti (R := Int) "".toList 1).toOption = none ∧ strToMulti (R := Int) "3*X".toList 1 = .error .valueError ∧
    strToMulti (R := Int) "3*X_1**2 + 5*X_".toList 1 = .error .indexError ∧
    strToMulti (R := Int) "X_1**2 + X".toList 1 = .error .indexError := by
  refine ⟨by decide, rfl, rfl, rfl⟩

/-- **C107** fails on every polynomial, of whatever shape, in which a variable number ten or more occurs: for every size `size_p` can give
(and every other up to 9) the reader raises `ValueError` or `IndexError`. -/
theorem C107_large_index_refuted {l : List (Tup × Int)} {s : Nat} (hs : s ≤ 9) (h : ∃ e ∈ l, ∃ i, 9 ≤ i ∧ e.1.getD i 0 ≠ 0) :
    strToMulti (R := R) (poly l) s = .error .valueError ∨ strToMulti (R := R) (poly l) s = .error .indexError := by
  rcases C107_terminates (R := R) (poly l) s with ⟨d, hd⟩ | h'
  · obtain ⟨e, he, i, hi, hne⟩ := h
    have := strToMulti_ok hd e he i hne
    omega
  · exact h'

/-- `X_1*X_2 + 3*X_2*X_10` -/
example : poly [([1, 1], 1), ([0, 1, 0, 0, 0, 0, 0, 0, 0, 1], 3)] = "X_1*X_2 + 3*X_2*X_10".toList ∧
    (strToMulti (R := Int) (poly [([1, 1], 1), ([0, 1, 0, 0, 0, 0, 0, 0, 0, 1], 3)]) 2 = .error .valueError ∨
      strToMulti (R := Int) (poly [([1, 1], 1), ([0, 1, 0, 0, 0, 0, 0, 0, 0, 1], 3)]) 2 = .error .indexError) :=
  ⟨by decide +kernel, C107_large_index_refuted (by decide) ⟨_, List.mem_cons_of_mem _ List.mem_cons_self, 9, by decide, by decide⟩⟩

/-! ### C108 -/

/-- The printed form of the coefficients of a polynomial over `Z/p`. -/
def printed (l : List (Tup × Nat)) : List (Tup × Str) := l.map fun e => (e.1, strNat e.2)

/-- The integer polynomial sympy reads in the text of a polynomial over `Z/p`: its residues. -/
def residues (l : List (Tup × Nat)) : List (Tup × Int) := l.map fun e => (e.1, (e.2 : Int))

theorem size_printed (hn : n ≤ 9) {l : List (Tup × Nat)} (hl : ∀ e ∈ l, e.1.length = n) :
    sizeP (mvRepr n (printed l)) = .ok (if ∃ e ∈ l, e.1 ≠ List.replicate n 0 then n else 0) := by
  rw [sizeP_eq hn]
  · congr 2
    simp [printed]
  · intro e he
    obtain ⟨e', h', rfl⟩ := List.mem_map.1 he
    exact ⟨hl e' h', strNat_noX _⟩

theorem truediv_eq (hn : n ≤ 9) {x y : List (Tup × Nat)} (hx : ∀ e ∈ x, e.1.length = n) (hy : ∀ e ∈ y, e.1.length = n)
    (hv : ∃ e ∈ x ++ y, e.1 ≠ List.replicate n 0) (sympy : Str → Str → Py Str) {q : List (Tup × Int)} {r : Str}
    (hs : sympy (mvRepr n (printed x)) (mvRepr n (printed y)) = .ok ("(Poly(".toList ++ poly q ++ ',' :: r)) :
    MvString.truediv (R := R) sympy n (printed x) (printed y) = strToMulti (poly q) n := by
  have hmax : max (if ∃ e ∈ x, e.1 ≠ List.replicate n 0 then n else 0) (if ∃ e ∈ y, e.1 ≠ List.replicate n 0 then n else 0) = n := by
    obtain ⟨e, he, h⟩ := hv
    rcases List.mem_append.1 he with he | he
    · rw [if_pos ⟨e, he, h⟩]; split <;> omega
    · have : ∃ e ∈ y, e.1 ≠ List.replicate n 0 := ⟨e, he, h⟩
      rw [if_pos this]; split <;> omega
  simp only [MvString.truediv, size_printed hn hx, size_printed hn hy, hs, quotientPart_eq (poly_noComma q), bind, Except.bind]
  rw [hmax]

/-- **C108** for a division that comes out even over the integers, in at most nine variables, with a quotient the reader can read
(C107): if sympy finds the quotient `q` of the integer polynomials printed, then `x / y` is a polynomial with `(x / y) * y = x`. -/
theorem C108_exact_quotient_partial (hn : n ≤ 9) {x y : List (Tup × Nat)} (hx : ∀ e ∈ x, e.1.length = n) (hy : ∀ e ∈ y, e.1.length = n)
    (hv : ∃ e ∈ x ++ y, e.1 ≠ List.replicate n 0) (sympy : Str → Str → Py Str) {q : List (Tup × Int)} {r : Str}
    (hs : sympy (mvRepr n (printed x)) (mvRepr n (printed y)) = .ok ("(Poly(".toList ++ poly q ++ ',' :: r))
    (hq : toMv n q * toMv n (residues y) = toMv n (residues x)) (hl : IsPoly n q)
    (hpos : ∀ e ∈ q, 0 < e.2) (hend : (∀ e ∈ q, e.1 = List.replicate n 0) ∨ ¬ EndsInNumber q) :
    ∃ d : Dict R, MvString.truediv sympy n (printed x) (printed y) = .ok d ∧ WF n d ∧
      toMv n d * terms R n (residues y) = terms R n (residues x) := by
  rw [truediv_eq hn hx hy hv sympy hs]
  suffices h : ∃ d : Dict R, strToMulti (poly q) n = .ok d ∧ WF n d ∧ toMv n d = terms R n q by
    obtain ⟨d, h1, h2, h3⟩ := h
    refine ⟨d, h1, h2, ?_⟩
    rw [h3]
    unfold terms
    rw [toMv_cast, toMv_cast, toMv_cast, ← map_mul, hq]
  by_cases hc : ∃ e ∈ q, e.1 ≠ List.replicate n 0
  · refine (C107_reads_partial hn hl hc).2 ⟨fun e he => hpos e (List.mem_of_mem_head? he), ?_, fun e he h => ?_⟩
    · refine hend.resolve_left fun h => ?_
      obtain ⟨e, he, h'⟩ := hc
      exact h' (h e he)
    · have := hpos e he
      omega
  · have hall : ∀ e ∈ q, e.1 = List.replicate n 0 := fun e he => not_not.1 fun h => hc ⟨e, he, h⟩
    have hsmall : q.length ≤ 1 := by
      match q, hl, hall with
      | [], _, _ => simp
      | [_], _, _ => simp
      | a :: b :: q, hl, hall =>
        have h1 := hall a (by simp)
        have h2 := hall b (by simp)
        have := hl.1
        simp [h1, h2] at this
    match q, hsmall, hl, hall with
    | [], _, _, _ =>
      obtain ⟨d, h1, h2, h3⟩ := C107_constants (R := R) (n := n) 0
      exact ⟨d, h1, h2, by simpa [terms] using h3⟩
    | [e], _, hl, hall =>
      obtain ⟨t, c⟩ := e
      have ht : t = List.replicate n 0 := hall (t, c) (by simp)
      have hc : c ≠ 0 := (hl.2 (t, c) (by simp)).2
      obtain ⟨d, h1, h2, h3⟩ := C107_constants (R := R) (n := n) c
      rw [if_neg hc] at h1
      subst ht
      exact ⟨d, h1, h2, by rw [h3]; simp [terms, tupF_zero]⟩

/-- What sympy prints for `(X_1*X_2 + X_2**2) / X_2`. -/
def evenDiv : Str := "(Poly(X_1 + X_2, X_1, X_2, domain='ZZ'), Poly(0, X_1, X_2, domain='ZZ'))".toList

/-- `(X_1 X_2 + X_2^2) / X_2` over `Z/7`. -/
example : ∃ d : Dict (Zp 7), MvString.truediv (fun _ _ => .ok evenDiv) 2 (printed [([1, 1], 1), ([0, 2], 1)]) (printed [([0, 1], 1)]) = .ok d ∧
    toMv 2 d * terms (Zp 7) 2 (residues [([0, 1], 1)]) = terms (Zp 7) 2 (residues [([1, 1], 1), ([0, 2], 1)]) := by
  obtain ⟨d, h1, -, h3⟩ := C108_exact_quotient_partial (R := Zp 7) (n := 2) (by decide) (x := [([1, 1], 1), ([0, 2], 1)])
    (y := [([0, 1], 1)]) (by decide) (by decide) ⟨_, List.mem_cons_self, by decide⟩ (fun _ _ => .ok evenDiv)
    (q := [([1, 0], 1), ([0, 1], 1)]) (r := " X_1, X_2, domain='ZZ'), Poly(0, X_1, X_2, domain='ZZ'))".toList) rfl (by
      have e1 : tupF 2 [1, 0] + tupF 2 [0, 1] = tupF 2 [1, 1] := by ext i; fin_cases i <;> rfl
      have e2 : tupF 2 [0, 1] + tupF 2 [0, 1] = tupF 2 [0, 2] := by ext i; fin_cases i <;> rfl
      simp [residues, add_mul, MvPolynomial.monomial_mul, e1, e2])
    ⟨by decide, by decide⟩ (by decide) (.inr (by decide))
  exact ⟨d, h1, h3⟩

/-- What sympy prints for `(X_1**2 + 6*X_2**2) / (X_1 + X_2)`: over the integers, with a remainder. -/
def oddDiv : Str := "(Poly(X_1 - X_2, X_1, X_2, domain='ZZ'), Poly(7*X_2**2, X_1, X_2, domain='ZZ'))".toList

/-- **C108** fails over `Z/7`: `X_1 + X_2` divides `X_1^2 + 6 X_2^2`, but the integer quotient sympy prints is not the quotient, and it
is read without its sign: the answer is `X_1 + X_2`, whose product with the divisor is not the dividend. -/
theorem C108_modular_refuted (sympy : Str → Str → Py Str)
    (hs : sympy "1 *X_1**2*X_2**0 + 6 *X_1**0*X_2**2".toList "1 *X_1**1*X_2**0 + 1 *X_1**0*X_2**1".toList = .ok oddDiv) :
    (∃ d : Dict (Zp 7), MvString.truediv sympy 2 (printed [([2, 0], 1), ([0, 2], 6)]) (printed [([1, 0], 1), ([0, 1], 1)]) = .ok d ∧
      toMv 2 d = X 0 + X 1) ∧
    terms (Zp 7) 2 (residues [([2, 0], 1), ([0, 2], 6)]) = (X 0 + 6 * X 1) * (X 0 + X 1) ∧
    terms (Zp 7) 2 (residues [([1, 0], 1), ([0, 1], 1)]) = X 0 + X 1 ∧
    (X 0 + X 1) * (X 0 + X 1 : MvPolynomial (Fin 2) (Zp 7)) ≠ (X 0 + 6 * X 1) * (X 0 + X 1) := by
  have hX0 : MvPolynomial.monomial (tupF 2 [1, 0]) (1 : Zp 7) = X 0 := by
    rw [show tupF 2 [1, 0] = Finsupp.single 0 1 from by ext i; fin_cases i <;> simp]
    rfl
  have hX1 : MvPolynomial.monomial (tupF 2 [0, 1]) (1 : Zp 7) = X 1 := by
    rw [show tupF 2 [0, 1] = Finsupp.single 1 1 from by ext i; fin_cases i <;> simp]
    rfl
  have e0 : tupF 2 [1, 0] + tupF 2 [1, 0] = tupF 2 [2, 0] := by ext i; fin_cases i <;> rfl
  have e1 : tupF 2 [0, 1] + tupF 2 [0, 1] = tupF 2 [0, 2] := by ext i; fin_cases i <;> rfl
  have s0 : MvPolynomial.monomial (tupF 2 [2, 0]) (1 : Zp 7) = X 0 * X 0 := by
    rw [← hX0, MvPolynomial.monomial_mul, e0, one_mul]
  have s1 : MvPolynomial.monomial (tupF 2 [0, 2]) (6 : Zp 7) = 6 * (X 1 * X 1) := by
    have h6 : (6 : MvPolynomial (Fin 2) (Zp 7)) = C 6 := rfl
    rw [← hX1, MvPolynomial.monomial_mul, e1, one_mul, h6, MvPolynomial.C_mul_monomial, mul_one]
  have h7 : (7 : MvPolynomial (Fin 2) (Zp 7)) = 0 := by
    have : (7 : MvPolynomial (Fin 2) (Zp 7)) = C 7 := rfl
    rw [this, show (7 : Zp 7) = 0 by decide, map_zero]
  refine ⟨?_, ?_, ?_, ?_⟩
  · obtain ⟨d, h1, h2, -⟩ := C107_signs_refuted (R := Zp 7) (by decide)
    refine ⟨d, ?_, h2⟩
    have e1 : mvRepr 2 (printed [([2, 0], 1), ([0, 2], 6)]) = "1 *X_1**2*X_2**0 + 6 *X_1**0*X_2**2".toList := by decide +kernel
    have e2 : mvRepr 2 (printed [([1, 0], 1), ([0, 1], 1)]) = "1 *X_1**1*X_2**0 + 1 *X_1**0*X_2**1".toList := by decide +kernel
    have e3 : oddDiv = "(Poly(".toList ++ poly [([1, 0], 1), ([0, 1], -1)] ++
        ',' :: " X_1, X_2, domain='ZZ'), Poly(7*X_2**2, X_1, X_2, domain='ZZ'))".toList := by decide +kernel
    rw [← e1, ← e2, e3] at hs
    rw [truediv_eq (R := Zp 7) (n := 2) (by decide) (x := [([2, 0], 1), ([0, 2], 6)]) (y := [([1, 0], 1), ([0, 1], 1)]) (by decide) (by decide)
      ⟨_, List.mem_cons_self, by decide⟩ sympy (q := [([1, 0], 1), ([0, 1], -1)])
      (r := " X_1, X_2, domain='ZZ'), Poly(7*X_2**2, X_1, X_2, domain='ZZ'))".toList) hs]
    have e4 : poly [([1, 0], 1), ([0, 1], -1)] = "X_1 - X_2".toList := by decide +kernel
    rw [e4]
    exact h1
  · have : terms (Zp 7) 2 (residues [([2, 0], 1), ([0, 2], 6)]) = X 0 * X 0 + 6 * (X 1 * X 1) := by
      rw [← s0, ← s1]; simp [terms, residues]
    rw [this]
    linear_combination (-(X 0 * X 1)) * h7
  · rw [← hX0, ← hX1]; simp [terms, residues]
  · intro e
    have e' := congrArg (MvPolynomial.eval ![(0 : Zp 7), 1]) e
    simp at e'
    revert e'
    decide

example : ∃ sympy : Str → Str → Py Str,
    sympy "1 *X_1**2*X_2**0 + 6 *X_1**0*X_2**2".toList "1 *X_1**1*X_2**0 + 1 *X_1**0*X_2**1".toList = .ok oddDiv := ⟨fun _ _ => .ok oddDiv, rfl⟩

/-- **C108** fails whenever the quotient ends in a power or a constant; for instance `X_2^3 / X_2`. -/
theorem C108_power_refuted (sympy : Str → Str → Py Str)
    (hs : sympy "1 *X_1**0*X_2**3".toList "1 *X_1**0*X_2**1".toList =
      .ok "(Poly(X_2**2, X_2, domain='ZZ'), Poly(0, X_2, domain='ZZ'))".toList) :
    MvString.truediv (R := R) sympy 2 (printed [([0, 3], 1)]) (printed [([0, 1], 1)]) = .error .indexError ∧
    terms R 2 (residues [([0, 3], 1)]) = X 1 ^ 2 * terms R 2 (residues [([0, 1], 1)]) := by
  refine ⟨?_, ?_⟩
  · rw [truediv_eq (n := 2) (by decide) (x := [([0, 3], 1)]) (y := [([0, 1], 1)]) (by decide) (by decide)
      ⟨_, List.mem_cons_self, by decide⟩ sympy (q := [([0, 2], 1)]) (r := " X_2, domain='ZZ'), Poly(0, X_2, domain='ZZ'))".toList) hs]
    exact C107_end_refuted (n := 2) (by decide) ⟨by decide, by decide⟩ ⟨_, List.mem_cons_self, by decide⟩ (by simp) (by decide)
  · have hX1 : MvPolynomial.monomial (tupF 2 [0, 1]) (1 : R) = X 1 := by
      rw [show tupF 2 [0, 1] = Finsupp.single 1 1 from by ext i; fin_cases i <;> simp]
      rfl
    have e3 : tupF 2 [0, 3] = tupF 2 [0, 1] + tupF 2 [0, 1] + tupF 2 [0, 1] := by ext i; fin_cases i <;> rfl
    have : MvPolynomial.monomial (tupF 2 [0, 3]) (1 : R) = X 1 * X 1 * X 1 := by
      rw [e3, ← hX1, MvPolynomial.monomial_mul, MvPolynomial.monomial_mul]; simp
    simp [terms, residues, hX1, this]
    ring

example : MvString.truediv (R := Zp 7) (fun _ _ => .ok "(Poly(X_2**2, X_2, domain='ZZ'), Poly(0, X_2, domain='ZZ'))".toList) 2
    (printed [([0, 3], 1)]) (printed [([0, 1], 1)]) = .error .indexError := (C108_power_refuted _ rfl).1

/-- **C108** (remainder): `x.div_remainder(y, z)` is `x - y * z`. -/
theorem C108_remainder {x y z : Dict R} (hx : WF n x) (hy : WF n y) (hz : WF n z) :
    WF n (divRemainder x y z) ∧ toMv n (divRemainder x y z) = toMv n x - toMv n y * toMv n z := by
  obtain ⟨h1, h2⟩ := mul_spec hy.good hz.good
  exact ⟨wf_sub hx.good h1.good, by rw [divRemainder, toMv_sub hx.good h1.good, h2]⟩

/-- The remainder of `X_1` by itself with the quotient 3 is `-2 X_1`. -/
example : toMv 1 (divRemainder (ofDict [([1], (1 : Int))]) (ofDict [([1], 1)]) (ofElt 1 3)) = -2 * X 0 := by
  have hw : WF 1 (ofDict [([1], (1 : Int))]) := wf_ofDict ⟨by simp [keys], by simp [keys]⟩
  have hX : toMv 1 (ofDict [([1], (1 : Int))]) = X 0 := toMv_xi 1 0 (by decide)
  rw [(C108_remainder hw hw (wf_ofElt 1 (3 : Int))).2, hX, toMv_ofElt]
  have : (C 3 : MvPolynomial (Fin 1) Int) = 3 := rfl
  rw [this]
  ring

/-! ### C109 -/

/-- The text of a polynomial over `FiniteField(p, m)` with the coefficients `cs`, each the list of the residues that represent it. -/
def fqText (p m : Nat) (cs : List (List Nat)) : Str := polyRepr (cs.map fun a => fqRepr p m (polyRepr (a.map strNat)))

/-- **C109** for constants from the prime field, given a receiver in at most nine variables that is not constant: the polynomial read is
the constant. -/
theorem C109_constants_partial (hn : n ≤ 9) (self : List (Tup × Str)) (hs : ∀ e ∈ self, e.1.length = n ∧ 'X' ∉ e.2)
    (hv : ∃ e ∈ self, e.1 ≠ List.replicate n 0) (p m c : Nat) :
    (∃ d : Dict R, MvString.polyToMulti (mvRepr n self) (fqText p m [[c]]) = .ok d ∧ WF n d ∧ toMv n d = C (c : R)) ∧
    MvString.polyToMulti (R := R) (mvRepr n self) (fqText p m []) = .ok [] := by
  have h1 := sizeP_eq hn hs
  rw [if_pos hv] at h1
  have hc := strToMulti_const (R := R) n c
  rw [if_neg (by omega), List.nil_append, Int.natAbs_natCast, Int.cast_natCast] at hc
  constructor
  · refine ⟨ofElt n (c : R), ?_, wf_ofElt n _, toMv_ofElt n _⟩
    simp only [MvString.polyToMulti, h1, fqText, checkForDiv_fq, bind, Except.bind]
    rw [if_neg (by simp), uterms_const]
    exact hc
  · have h0 := strToMulti_const (R := R) n 0
    simp only [MvString.polyToMulti, h1, fqText, checkForDiv_fq, bind, Except.bind]
    refine h0.trans ?_
    simp [ofDict, removeZero, sortKeys]

/-- The constant 1 over GF(8), from a receiver with one term. -/
example : ∃ d : Dict (Zp 2), MvString.polyToMulti "1 ∈ F_{2^3} *X_1**2*X_2**0".toList "1 ∈ F_{2^3}".toList = .ok d ∧ toMv 2 d = C 1 := by
  obtain ⟨d, h1, -, h3⟩ := (C109_constants_partial (R := Zp 2) (n := 2) (by decide) [([2, 0], "1 ∈ F_{2^3}".toList)] (by decide)
    ⟨_, List.mem_cons_self, by decide⟩ 2 3 1).1
  exact ⟨d, h1, by simpa using h3⟩

/-- **C109** fails on every other polynomial over an extension field: one of degree at least 1, or with a coefficient outside the
prime field, is rejected. -/
theorem C109_refuted {self : Str} {size : Nat} (hs : sizeP self = .ok size) (p m : Nat) (cs : List (List Nat))
    (h : 2 ≤ cs.length ∨ ∃ a ∈ cs, 2 ≤ a.length) : MvString.polyToMulti (R := R) self (fqText p m cs) = .error .valueError := by
  have hne : cs ≠ [] := by
    rintro rfl
    simp at h
  simp only [MvString.polyToMulti, hs, fqText, checkForDiv_fq, bind, Except.bind]
  rw [if_neg hne]
  exact strToMulti_x (uterms_x h) (uterms_no (by decide) (by decide) (by decide) 0 cs) size

/-- The polynomial `x` over GF(8). -/
example : MvString.polyToMulti (R := Zp 2) "1 ∈ F_{2^3} *X_1**2".toList "0 ∈ F_{2^3} + 1 ∈ F_{2^3} *x**1".toList = .error .valueError :=
  C109_refuted (size := 1) (by decide +kernel) 2 3 [[0], [1]] (.inl (by decide))

/-- **C109** fails for a constant receiver: the answer is filed under the empty power tuple, whatever the number of variables. -/
theorem C109_constant_receiver_refuted (hn : 0 < n) (hn' : n ≤ 9) {self : List (Tup × Str)} (hs : ∀ e ∈ self, 'X' ∉ e.2)
    (hv : ∀ e ∈ self, e.1 = List.replicate n 0) (p m : Nat) {c : Nat} (hc : (c : R) ≠ 0) :
    MvString.polyToMulti (R := R) (mvRepr n self) (fqText p m [[c]]) = .ok [([], (c : R))] ∧ ¬ WF n [(([] : Tup), (c : R))] := by
  have h1 := sizeP_eq hn' (items := self) fun e he => ⟨by simp [hv e he], hs e he⟩
  have hno : ¬ ∃ e ∈ self, e.1 ≠ List.replicate n 0 := fun ⟨e, he, h⟩ => h (hv e he)
  rw [if_neg hno] at h1
  have hk := strToMulti_const (R := R) 0 c
  rw [if_neg (by omega), List.nil_append, Int.natAbs_natCast, Int.cast_natCast] at hk
  constructor
  · simp only [MvString.polyToMulti, h1, fqText, checkForDiv_fq, bind, Except.bind]
    rw [if_neg (by simp), uterms_const]
    refine hk.trans ?_
    simp [ofDict, removeZero, sortKeys, hc]
  · intro h
    have := h.len _ (List.mem_singleton_self _)
    simp at this
    omega

example : MvString.polyToMulti (R := Zp 7) "3".toList "5 ∈ F_{7^1}".toList = .ok [([], 5)] :=
  (C109_constant_receiver_refuted (n := 2) (by decide) (by decide) (self := [([0, 0], ['3'])]) (by decide) (by decide) 7 1 (c := 5)
    (by decide)).1

end Verif.Props
