import Verif.Props.MvString
import Verif.Props.Tilde
/-!
# C111: dividing a multivariate polynomial by one in one variable

`division` prints both polynomials, removes the names of the field's class from the texts, and lets sympy divide.  The variable of the
one is printed `x`, those of the other `X_1, …`, so sympy sees polynomials without a common variable.
-/

namespace Verif.Props
open Poly FF Spec Mv MvString Spec.Sympy MvPolynomial Apr

/-! ### The texts -/

/-- A term of a printed multivariate polynomial, `T` printed after the coefficient. -/
def mterm (n : Nat) (T : Str) (e : Tup × List Nat) : Str :=
  polyRepr (e.2.map strNat) ++ (T ++ if e.1 ≠ List.replicate n 0 then ' ' :: tupStr e.1 else [])

theorem tupStr_no {c : Char} (hc : isDigit c = false) (h1 : c ∉ "*X_".toList) (h2 : c ∉ "**".toList) (t : Tup) : c ∉ tupStr t := by
  unfold tupStr
  intro h
  rw [List.mem_flatten] at h
  obtain ⟨s, hs, h⟩ := h
  obtain ⟨e, -, rfl⟩ := List.mem_map.1 hs
  simp only [List.mem_append, h1, h2, strNat_digitOnly hc, or_self] at h

theorem mterms_eq (n : Nat) (p m : Nat) (items : List (Tup × List Nat)) (h : items ≠ []) :
    mvRepr n (items.map fun e => (e.1, fqRepr p m (polyRepr (e.2.map strNat)))) = joinPlus (items.map (mterm n (tag p m))) ∧
    mvRepr n (items.map fun e => (e.1, polyRepr (e.2.map strNat))) = joinPlus (items.map (mterm n [])) := by
  constructor
  · rw [mvRepr, if_neg (by simpa using h), List.map_map]
    congr 1
    apply List.map_congr_left
    intro e _
    simp only [mterm, Function.comp, fqRepr, tag]
    split <;> simp
  · rw [mvRepr, if_neg (by simpa using h), List.map_map]
    congr 1
    apply List.map_congr_left
    intro e _
    simp only [mterm, Function.comp]
    split <;> simp

theorem checkLoop_mterms (n p m : Nat) : ∀ (items : List (Tup × List Nat)) (g res : Str) (fuel : Nat), items ≠ [] → 'F' ∉ g → '}' ∉ g →
    (g ++ joinPlus (items.map (mterm n (tag p m)))).length < fuel →
    checkLoop fuel res (g ++ joinPlus (items.map (mterm n (tag p m)))) = .ok (res ++ (g ++ joinPlus (items.map (mterm n [])))) := by
  intro items
  induction items with
  | nil => simp
  | cons a items ih =>
    intro g res fuel _ hF hB hf
    obtain ⟨e, eF, eB, he⟩ : ∃ e : Str, 'F' ∉ e ∧ '}' ∉ e ∧ ∀ T, mterm n T a = polyRepr (a.2.map strNat) ++ (T ++ e) := by
      refine ⟨if a.1 ≠ List.replicate n 0 then ' ' :: tupStr a.1 else [], ?_, ?_, fun T => rfl⟩
      · split
        · simp [tupStr_no (c := 'F') (by decide) (by decide) (by decide)]
        · simp
      · split
        · simp [tupStr_no (c := '}') (by decide) (by decide) (by decide)]
        · simp
    have hne : g ++ polyRepr (a.2.map strNat) ≠ [] := by simp [polyRepr_ne]
    have hF' : 'F' ∉ g ++ polyRepr (a.2.map strNat) := by simp [hF, polyRepr_no (c := 'F') (by decide) (by decide) (by decide) a.2]
    have hB' : '}' ∉ g ++ polyRepr (a.2.map strNat) := by simp [hB, polyRepr_no (c := '}') (by decide) (by decide) (by decide) a.2]
    cases items with
    | nil =>
      simp only [List.map_cons, List.map_nil, joinPlus, he] at hf ⊢
      rw [← List.append_assoc g, checkLoop_tag hne hF' hB' _ _ _ _ _ (by simp at hf ⊢; omega),
        checkLoop_plain eF _ _ (by simp at hf ⊢; omega)]
      simp
    | cons b items =>
      simp only [List.map_cons, joinPlus, he] at hf ⊢
      have e1 : ∀ r : Str, g ++ (polyRepr (a.2.map strNat) ++ (tag p m ++ e) ++ (" + ".toList ++ r)) =
          (g ++ polyRepr (a.2.map strNat)) ++ (tag p m ++ ((e ++ " + ".toList) ++ r)) := by simp
      rw [e1] at hf ⊢
      have := ih (e ++ " + ".toList) (res ++ (g ++ polyRepr (a.2.map strNat))) (fuel - (g ++ polyRepr (a.2.map strNat)).length)
        (by simp) (by simp [eF]) (by simp [eB])
      simp only [List.map_cons] at this
      rw [checkLoop_tag hne hF' hB' _ _ _ _ _ (by simp at hf ⊢; omega), this (by simp at hf ⊢; omega)]
      simp

/-- What `CheckforDiv` makes of a multivariate polynomial over a finite field: the elements' class names go. -/
theorem checkForDiv_mv (n p m : Nat) {items : List (Tup × List Nat)} (h : items ≠ []) :
    checkForDiv (mvRepr n (items.map fun e => (e.1, fqRepr p m (polyRepr (e.2.map strNat))))) =
      .ok (mvRepr n (items.map fun e => (e.1, polyRepr (e.2.map strNat)))) := by
  obtain ⟨h1, h2⟩ := mterms_eq n p m items h
  rw [h1, h2, checkForDiv]
  have hF : hasF (joinPlus (items.map (mterm n (tag p m)))) = true := by
    match items, h with
    | [a], _ => exact hasF_tag _ _ _ _
    | a :: b :: l, _ =>
      simp only [List.map_cons, joinPlus, mterm, List.append_assoc]
      exact hasF_tag _ _ _ _
  have := checkLoop_mterms n p m items [] [] ((joinPlus (items.map (mterm n (tag p m)))).length + 1) h (by simp) (by simp) (by simp)
  simp only [List.nil_append] at this
  rw [if_pos hF, this]

theorem sizeLoop_tup_ok (t : Tup) : ∀ (k m : Nat) (r : Str), ∃ m',
    sizeLoop (((t.zipIdx k).map fun e => "*X_".toList ++ strNat (e.2 + 1) ++ "**".toList ++ strNat e.1).flatten ++ r) m = sizeLoop r m' := by
  induction t with
  | nil => intro k m r; exact ⟨m, rfl⟩
  | cons e t ih =>
    intro k m r
    obtain ⟨d, s, hd⟩ : ∃ d s, strNat (k + 1) = d :: s := List.exists_cons_of_ne_nil (strNat_ne_nil _)
    have hdig : isDigit d = true := strNat_digit (k + 1) d (by simp [hd])
    have hs : 'X' ∉ s := fun h => strNat_noX (k + 1) (by simp [hd, h])
    have e0 : (((e :: t).zipIdx k).map fun e => "*X_".toList ++ strNat (e.2 + 1) ++ "**".toList ++ strNat e.1).flatten ++ r =
        ['*'] ++ ('X' :: '_' :: d :: ((s ++ "**".toList ++ strNat e) ++
          (((t.zipIdx (k + 1)).map fun e => "*X_".toList ++ strNat (e.2 + 1) ++ "**".toList ++ strNat e.1).flatten ++ r))) := by
      simp [List.zipIdx_cons, hd]
    obtain ⟨m', h⟩ := ih (k + 1) (if d.toNat - 48 > m then d.toNat - 48 else m) r
    exact ⟨m', by rw [e0, sizeLoop_skip (by decide), sizeLoop_X hdig, sizeLoop_skip (by simp [strNat_noX, hs]), h]⟩

/-- `size_p` returns, for any number of variables. -/
theorem sizeP_ok (n : Nat) {items : List (Tup × Str)} (hl : ∀ e ∈ items, 'X' ∉ e.2) : ∃ s, sizeP (mvRepr n items) = .ok s := by
  have one : ∀ (e : Tup × Str) (r : Str) (m : Nat), 'X' ∉ e.2 → ∃ m',
      sizeLoop ((if e.1 ≠ List.replicate n 0 then e.2 ++ ' ' :: tupStr e.1 else e.2) ++ r) m = sizeLoop r m' := by
    intro e r m h2
    split
    · obtain ⟨m', h⟩ := sizeLoop_tup_ok e.1 0 m r
      exact ⟨m', by rw [List.append_assoc, sizeLoop_skip h2, List.cons_append, sizeLoop_ne (by decide), tupStr, h]⟩
    · exact ⟨m, sizeLoop_skip h2 r m⟩
  have all : ∀ (items : List (Tup × Str)) (m : Nat), (∀ e ∈ items, 'X' ∉ e.2) → ∃ s,
      sizeLoop (joinPlus (items.map fun e => if e.1 ≠ List.replicate n 0 then e.2 ++ ' ' :: tupStr e.1 else e.2)) m = .ok s := by
    intro items
    induction items with
    | nil => intro m _; exact ⟨m, rfl⟩
    | cons e items ih =>
      intro m hl
      cases items with
      | nil =>
        obtain ⟨m', h⟩ := one e [] m (hl e (by simp))
        rw [List.append_nil] at h
        exact ⟨m', h⟩
      | cons e' items =>
        simp only [List.map_cons, joinPlus] at ih ⊢
        obtain ⟨m', h⟩ := one e _ m (hl e (by simp))
        rw [h, sizeLoop_skip (by decide)]
        exact ih m' fun x hx => hl x (by simp [hx])
  unfold sizeP mvRepr
  split
  · exact ⟨0, by decide⟩
  · exact all items 0 hl

variable {R : Type} [CommRing R] [DecidableEq R]

/-- **C111** fails for every dividend that is not constant, with coefficients `a` in the prime field, and every divisor that is not
constant: the answer is the zero polynomial, in any number of variables. -/
theorem C111_refuted {sympy : Str → Str → Py Str} (hs : QuotientZero sympy) (n p m : Nat) {a : List (Tup × Nat)}
    (ha : ∀ e ∈ a, e.1.length = n ∧ 0 < e.2) (hv : ∃ e ∈ a, e.1 ≠ List.replicate n 0) {cs : List (List Nat)} (hc : 2 ≤ cs.length)
    (hl : 0 < (cs.getLastD []).getLastD 0) :
    MvString.division (R := R) sympy (mvRepr n (a.map fun e => (e.1, fqRepr p m (polyRepr [strNat e.2])))) (fqText p m cs) = .ok [] := by
  have hne : a ≠ [] := by rintro rfl; simp at hv
  have h1 := checkForDiv_mv n p m (items := a.map fun e => (e.1, [e.2])) (by simpa using hne)
  simp only [List.map_map, Function.comp_def, List.map_cons, List.map_nil] at h1
  have h2 := checkForDiv_fq p m cs
  rw [if_neg (by rintro rfl; simp at hc)] at h2
  obtain ⟨s, h3⟩ := sizeP_ok n (items := a.map fun e => (e.1, fqRepr p m (polyRepr [strNat e.2]))) (by
    intro e he
    obtain ⟨e', -, rfl⟩ := List.mem_map.1 he
    have := polyRepr_no (c := 'X') (by decide) (by decide) (by decide) [e'.2]
    simp only [List.map_cons, List.map_nil] at this
    simp [fqRepr, this, strNat_noX])
  obtain ⟨r, hr⟩ := hs n a cs ha hv hc hl
  have h4 : (a.map fun e => (e.1, polyRepr [strNat e.2])) = a.map fun e => (e.1, strNat e.2) := by
    simp [polyRepr, joinPlus]
  have h5 : uterms [] 0 cs = polyRepr (cs.map fun b => polyRepr (b.map strNat)) := by
    rw [uterms, polyRepr, if_neg (by rintro h; simp at h; simp [h] at hc), List.zipIdx_map, List.map_map]
    congr 1
    apply List.map_congr_left
    intro e _
    simp [uterm]
  have h6 := quotientPart_eq (q := ['0']) (by decide) r
  have h7 : strToMulti (R := R) ['0'] (max s 1) = .ok [] := by
    have := strToMulti_const (R := R) (max s 1) 0
    refine this.trans ?_
    simp [ofDict, removeZero, sortKeys]
  rw [h4] at h1
  simp only [MvString.division, h1, h3, fqText, h2, h5, hr, bind, Except.bind]
  exact (congrArg (fun z => strToMulti (R := R) z (max s 1)) h6).trans h7

/-- Sympy on a division without a common variable. -/
def zeroQuotient : Str := "(Poly(0, X_1, X_2, x, domain='ZZ'), Poly(X_1**2, X_1, X_2, x, domain='ZZ'))".toList

/-- `X_1^2` divided by `x + 1` over GF(8). -/
example : MvString.division (R := Zp 2) (fun _ _ => .ok zeroQuotient) "1 ∈ F_{2^3} *X_1**2*X_2**0".toList
    "1 ∈ F_{2^3} + 1 ∈ F_{2^3} *x**1".toList = .ok [] :=
  C111_refuted (fun _ _ _ _ _ _ _ => ⟨_, rfl⟩) 2 2 3 (a := [([2, 0], 1)]) (by decide) ⟨_, List.mem_cons_self, by decide⟩
    (cs := [[1], [1]]) (by decide) (by decide)

/-- **C111** so fails wherever there is a quotient: `X_1^2 + X_1` divided by `x + 1`, with `x` for `X_1`, should be `X_1`. -/
theorem C111_example_refuted {sympy : Str → Str → Py Str} (hs : QuotientZero sympy) (p m : Nat) [Fact p.Prime] :
    ∃ d : Dict (Zp p), MvString.division sympy (mvRepr 1 [([1], fqRepr p m (polyRepr [strNat 1])), ([2], fqRepr p m (polyRepr [strNat 1]))])
      (fqText p m [[1], [1]]) = .ok d ∧
      toMv 1 d * (X 0 + 1) ≠ X 0 ^ 2 + X 0 ∧ (X 0 : MvPolynomial (Fin 1) (Zp p)) * (X 0 + 1) = X 0 ^ 2 + X 0 := by
  refine ⟨[], C111_refuted hs 1 p m (a := [([1], 1), ([2], 1)]) (by decide) ⟨_, List.mem_cons_self, by decide⟩
    (cs := [[1], [1]]) (by decide) (by decide), ?_, by ring⟩
  intro h
  have := congrArg (aeval fun _ : Fin 1 => (Polynomial.X : Polynomial (Zp p))) h
  simp only [toMv_nil, zero_mul, map_zero, map_add, map_pow, MvPolynomial.aeval_X] at this
  have := congrArg (fun q => Polynomial.coeff q 1) this
  simp [Polynomial.coeff_X_pow] at this

example (p m : Nat) [Fact p.Prime] : ∃ (sympy : Str → Str → Py Str) (d : Dict (Zp p)), QuotientZero sympy ∧
    MvString.division sympy (mvRepr 1 [([1], fqRepr p m (polyRepr [strNat 1])), ([2], fqRepr p m (polyRepr [strNat 1]))])
      (fqText p m [[1], [1]]) = .ok d ∧ toMv 1 d * (X 0 + 1) ≠ X 0 ^ 2 + X 0 :=
  ⟨fun _ _ => .ok zeroQuotient, _, fun _ _ _ _ _ _ _ => ⟨_, rfl⟩,
    (C111_example_refuted (sympy := fun _ _ => .ok zeroQuotient) (fun _ _ _ _ _ _ _ => ⟨_, rfl⟩) p m).choose_spec.1,
    (C111_example_refuted (sympy := fun _ _ => .ok zeroQuotient) (fun _ _ _ _ _ _ _ => ⟨_, rfl⟩) p m).choose_spec.2.1⟩

/-! ### The constraint polynomials with the code's own division -/

section
variable {p : Nat} [hp : Fact p.Prime] {f : List (Zp p)} [hf : IsModulus f]

/-- The residues that represent an element. -/
def residuesOf (a : Fq f) : List Nat := a.1.map fun c => c.1.toNat

/-- multivariate_polynomial.py:283-298 `X_loc_p.division(Z_H0)`, as apr.py:184 calls it over `FiniteField(p, m)`. -/
def codeDivision (sympy : Str → Str → Py Str) (m n : Nat) (a : Dict (Fq f)) (Z : List (Fq f)) : Py (Dict (Fq f)) :=
  MvString.division sympy (mvRepr n (a.map fun e => (e.1, fqRepr p m (polyRepr ((residuesOf e.2).map strNat)))))
    (polyRepr (Z.map fun b => fqRepr p m (polyRepr ((residuesOf b).map strNat))))

theorem residuesOf_ofK (c : Zp p) (h : c ≠ 0) : residuesOf (Fq.ofK c : Fq f) = [c.1.toNat] := by
  have : (Fq.ofK c : Fq f).1 = [c] := ctor_of_canon (by
    intro a h'
    simp at h'
    exact h' ▸ h)
  rw [residuesOf, this]
  rfl

theorem toNat_pos {c : Zp p} (h : c ≠ 0) : 0 < c.1.toNat := by
  have h1 := c.2.1
  have h2 : c.1 ≠ 0 := fun h' => h (Subtype.ext h')
  omega

theorem residuesOf_last {a : Fq f} (h : a ≠ 0) : 0 < (residuesOf a).getLastD 0 := by
  have hne : a.1 ≠ [] := by
    intro h'
    refine h (Subtype.ext (h'.trans ?_))
    change [] = ctor [0]
    simp [ctor, strip, stripLen]
  have h1 : a.1.getLast hne ≠ 0 := a.2.1 _ (List.getLast?_eq_some_getLast hne)
  have h2 : (residuesOf a).getLastD 0 = (a.1.getLast hne).1.toNat := by
    rw [residuesOf, List.getLastD_eq_getLast?, List.getLast?_map, List.getLast?_eq_some_getLast hne]
    rfl
  rw [h2]
  exact toNat_pos h1

theorem neg_one_ofK : (-1 : Fq f) = Fq.ofK (-1) := by
  apply Fq.val_inj
  rw [Fq.val_neg, Fq.val_one, Fq.val_ofK, map_neg, map_one]

/-- The dividend `X_loc (X_loc - 1)`: its coefficients are 1 and -1, and it is not constant. -/
theorem dividend {n : Nat} (hn : 0 < n) :
    (∀ e ∈ Mv.mul (xLoc n) (Mv.sub (xLoc n) (Mv.ofElt n (1 : Fq f))), e.1.length = n ∧ ∃ c : Zp p, c ≠ 0 ∧ e.2 = Fq.ofK c) ∧
    ∃ e ∈ Mv.mul (xLoc n) (Mv.sub (xLoc n) (Mv.ofElt n (1 : Fq f))), e.1 ≠ List.replicate n 0 := by
  obtain ⟨x1, x2⟩ := xLoc_spec (F := Fq f) hn
  obtain ⟨m1, m2⟩ := mul_spec x1.good (wf_sub x1.good (wf_ofElt n (1 : Fq f)).good).good
  rw [toMv_sub x1.good (wf_ofElt n (1 : Fq f)).good, x2, toMv_ofElt] at m2
  generalize Mv.mul (xLoc n) (Mv.sub (xLoc n) (Mv.ofElt n (1 : Fq f))) = D at m1 m2
  have hcoeff : ∀ t : Tup, t.length = n → get D t = (if Finsupp.single ⟨0, hn⟩ 2 = tupF n t then 1 else 0) -
      (if Finsupp.single ⟨0, hn⟩ 1 = tupF n t then 1 else 0) := by
    intro t ht
    rw [← coeff_toMv m1.good ht, m2]
    have : (X ⟨0, hn⟩ * (X ⟨0, hn⟩ - C 1) : MvPolynomial (Fin n) (Fq f)) = X ⟨0, hn⟩ ^ 2 - X ⟨0, hn⟩ := by
      rw [C_1]; ring
    rw [this, coeff_sub, coeff_X_pow, coeff_X]
  constructor
  · intro e he
    have hl := m1.len e he
    refine ⟨hl, ?_⟩
    have h1 := get_eq_of_mem m1.good he
    have h2 := m1.nz e he
    rw [hcoeff _ hl] at h1
    split at h1 <;> split at h1
    · exact absurd (by simpa using h1.symm) h2
    · exact ⟨1, one_ne_zero, by rw [← h1, sub_zero]; rfl⟩
    · exact ⟨-1, neg_ne_zero.2 one_ne_zero, by rw [← h1, zero_sub, neg_one_ofK]⟩
    · exact absurd (by simpa using h1.symm) h2
  · have hl : (2 :: List.replicate (n - 1) 0).length = n := by simp; omega
    have h1 := hcoeff _ hl
    rw [tupF_first hn, if_pos rfl, if_neg (by
      intro h
      have := congrArg (fun s : Fin n →₀ ℕ => s ⟨0, hn⟩) h
      simp at this), sub_zero] at h1
    have h2 := (mem_keys_iff m1 (2 :: List.replicate (n - 1) 0)).2 (by rw [h1]; exact one_ne_zero)
    obtain ⟨e, he, h3⟩ := List.mem_map.1 h2
    refine ⟨e, he, fun h => ?_⟩
    rw [h] at h3
    have := congrArg (fun l : List Nat => l.getD 0 0) h3
    simp at this

theorem codeDivision_eq {sympy : Str → Str → Py Str} (hs : QuotientZero sympy) (m : Nat) {n : Nat} (hn : 0 < n) {Z : List (Fq f)}
    (hZ : Canon Z) (h2 : 2 ≤ Z.length) :
    codeDivision sympy m n (Mv.mul (xLoc n) (Mv.sub (xLoc n) (Mv.ofElt n (1 : Fq f)))) Z = .ok [] := by
  obtain ⟨d1, d2⟩ := dividend (f := f) hn
  generalize Mv.mul (xLoc n) (Mv.sub (xLoc n) (Mv.ofElt n (1 : Fq f))) = D at d1 d2
  have hne : Z ≠ [] := by rintro rfl; simp at h2
  have hres : ∀ e ∈ D, ∃ c : Nat, 0 < c ∧ residuesOf e.2 = [c] := by
    intro e he
    obtain ⟨-, c, hc, h⟩ := d1 e he
    exact ⟨_, toNat_pos hc, by rw [h, residuesOf_ofK c hc]⟩
  have h := C111_refuted (R := Fq f) hs n p m (a := D.map fun e => (e.1, (residuesOf e.2).getD 0 0)) (by
      intro e he
      obtain ⟨e', he', rfl⟩ := List.mem_map.1 he
      obtain ⟨c, hc, h⟩ := hres e' he'
      exact ⟨(d1 e' he').1, by simpa [h] using hc⟩) (by
      obtain ⟨e, he, h⟩ := d2
      exact ⟨_, List.mem_map.2 ⟨e, he, rfl⟩, h⟩) (cs := Z.map residuesOf) (by simpa using h2) (by
      have : (Z.map residuesOf).getLastD [] = residuesOf (Z.getLast hne) := by
        rw [List.getLastD_eq_getLast?, List.getLast?_map, List.getLast?_eq_some_getLast hne]
        rfl
      rw [this]
      exact residuesOf_last (hZ _ (List.getLast?_eq_some_getLast hne)))
  rw [← h, codeDivision, fqText, List.map_map, List.map_map]
  congr 2
  apply List.map_congr_left
  intro e he
  obtain ⟨c, -, h⟩ := hres e he
  simp [h]

variable (factorint : Nat → List Nat) (draws : Nat → List (Zp p)) (inner fuel : Nat) (parse : List (Fq f) → Py (Dict (Fq f)))
variable {n width : Nat} {inp : List (Fq f)} {steps : Int} {polys : List (Dict (Fq f))} (hw : ∀ g ∈ polys, WF n g)
  {air : Air.AIR (Fq f)} (hair : Air.mkAIR n width inp steps polys = .ok air) (hdr : ∀ i, (draws i).length = width)

include hw hair hdr in
/-- **C94** fails for every APR object the constructor returns: with the division the code has, every constraint polynomial is
satisfied by every assignment. -/
theorem C94_every_constraint_refuted {sympy : Str → Str → Py Str} (hs : QuotientZero sympy) {m m' k : Nat} {A : APR (Zp p) (Fq f)}
    (hA : apr factorint draws inner fuel (codeDivision sympy m' (1 + 3 * width)) parse m air k = .ok A) :
    A.Phi.length = 2 * width ∧ ∀ i < 2 * width, ∃ Phi, A.Phi[i]? = some Phi ∧ ∀ vals : List (Fq f), vals.length = 1 + A.nbrs.length →
      Mv.call (1 + A.nbrs.length) Phi vals = .ok 0 := by
  obtain ⟨z, -, hF⟩ := apr_facts factorint draws inner fuel _ parse hw hair hdr hA
  refine ⟨hF.phi_len, fun i hi => C94_first_constraints_refuted factorint draws inner fuel _ parse hw hair hdr (fun Z t0 hZ h2 h => ?_) hA i hi⟩
  rw [codeDivision_eq hs m' (by omega) hZ h2] at h
  cases h
  rfl
end

/-- The Fibonacci program over GF(8), with the code's division: all four constraints are void. -/
example (k : Nat) : ∃ A : APR (Zp 2) (Fq gf8), A.Phi.length = 4 ∧ ∀ i < 4, ∃ Phi, A.Phi[i]? = some Phi ∧
    ∀ vals : List (Fq gf8), vals.length = 1 + A.nbrs.length → Mv.call (1 + A.nbrs.length) Phi vals = .ok 0 := by
  obtain ⟨air, h⟩ := fibR_air (Fq gf8) 0 1
  obtain ⟨Z, -, hZ, -, z1, -, z3, -⟩ := C23_affine_vanishing_partial 2 (castHom gf8 : CPoly (Zp 2) → Fq gf8) basisH0 0
  have hq : QuotientZero fun _ _ => .ok zeroQuotient := fun _ _ _ _ _ _ _ => ⟨_, rfl⟩
  have hlen : 2 ≤ Z.length := by
    rw [natDegree_toPoly z1] at z3
    have : ReedSolomon.affineLen 2 1 (basisH0 (p := 2)) = 128 := by simp [ReedSolomon.affineLen, basisH0]
    omega
  obtain ⟨A, hA⟩ := (C89_constructor (fun _ => [3]) (fun _ => [1, 1]) 1 1 (codeDivision (fun _ _ => .ok zeroQuotient) 3 7) (fun _ => .ok [])
    (wf_fibR _) h (fun _ => rfl) 3 k).1.2 ⟨⟨[1, 1, 1], by decide +kernel⟩, Z, _, hZ, codeDivision_eq hq 3 (by omega) z1 hlen⟩
  exact ⟨A, C94_every_constraint_refuted _ _ _ _ _ (wf_fibR _) h (fun _ => rfl) hq hA⟩

end Verif.Props
