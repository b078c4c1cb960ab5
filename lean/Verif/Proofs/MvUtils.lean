import Verif.Model.MvUtils
import Mathlib.FieldTheory.Finite.Basic
/-! # Conversions, the Dirac delta and interpolation of functions -/

set_option linter.unusedSectionVars false

namespace Verif.Mv
open MvPolynomial

variable {R : Type _} [CommRing R] [DecidableEq R]

/-! ### make_multivar -/

/-- What an accumulator denotes. -/
noncomputable def accVal (n : Nat) : Option (Dict R) → MvPolynomial (Fin n) R
  | none => 0
  | some d => toMv n d

/-- The accumulator is a stored polynomial, if it is a polynomial. -/
def AccOk (n : Nat) : Option (Dict R) → Prop
  | none => True
  | some d => WF n d

theorem makeLoop_spec {n i : Nat} (hi : i < n) : ∀ (cs : List R) (k : Nat) (acc : Option (Dict R)), AccOk n acc →
    ∃ r, makeLoop n i k cs acc = .ok r ∧ AccOk n r ∧ ((r = none) ↔ (acc = none ∧ cs = [])) ∧
      accVal n r = accVal n acc + ∑ j ∈ Finset.range cs.length, C (cs.getD j 0) * X ⟨i, hi⟩ ^ (k + j)
  | [], k, acc, h => ⟨acc, rfl, h, by simp, by simp⟩
  | c :: cs, k, acc, h => by
    obtain ⟨xk, h1, h2, h3⟩ := pow_spec (wf_xi (R := R) n i hi) k
    have hm := mul_spec h2.good (wf_ofElt n c).good
    rw [h3, toMv_xi n i hi, toMv_ofElt] at hm
    rw [makeLoop]
    simp only [h1, bind, Except.bind]
    cases acc with
    | none =>
      have ha := wf_add hm.1.good (wf_ofElt n (0 : R)).good
      obtain ⟨r, r1, r2, r3, r4⟩ := makeLoop_spec hi cs (k + 1) (some (add (mul xk (ofElt n c)) (ofElt n 0))) ha
      refine ⟨r, r1, r2, by rw [r3]; simp, ?_⟩
      rw [r4, List.length_cons, Finset.sum_range_succ']
      simp only [accVal, toMv_add hm.1.good (wf_ofElt n (0 : R)).good, toMv_ofElt, hm.2, map_zero, List.getD_cons_succ,
        List.getD_cons_zero, add_zero, Nat.add_assoc, Nat.add_comm 1]
      ring
    | some a =>
      have ha := wf_add (WF.good h) hm.1.good
      obtain ⟨r, r1, r2, r3, r4⟩ := makeLoop_spec hi cs (k + 1) (some (add a (mul xk (ofElt n c)))) ha
      refine ⟨r, r1, r2, by rw [r3]; simp, ?_⟩
      rw [r4, List.length_cons, Finset.sum_range_succ']
      simp only [accVal, toMv_add (WF.good h) hm.1.good, hm.2, List.getD_cons_succ, List.getD_cons_zero, add_zero,
        Nat.add_assoc, Nat.add_comm 1]
      ring

open Polynomial in
theorem aeval_eq_sum (f : List R) {A : Type _} [CommRing A] [Algebra R A] (x : A) :
    Polynomial.aeval x (Poly.toPoly f) = ∑ j ∈ Finset.range f.length, algebraMap R A (f.getD j 0) * x ^ j := by
  induction f with
  | nil => simp [Poly.toPoly_nil]
  | cons a f ih =>
    rw [Poly.toPoly_cons, map_add, map_mul, ih, List.length_cons, Finset.sum_range_succ']
    simp only [List.getD_cons_succ, List.getD_cons_zero, Polynomial.aeval_C, Polynomial.aeval_X, pow_zero, mul_one,
      Finset.mul_sum]
    rw [add_comm]
    congr 1
    apply Finset.sum_congr rfl
    intros; ring

theorem makeMultivar_spec {n i : Nat} (hi : i < n) (f : List R) :
    ∃ r, makeMultivar n i f = .ok r ∧ AccOk n r ∧ (r = none ↔ f = []) ∧
      accVal n r = Polynomial.aeval (X ⟨i, hi⟩) (Poly.toPoly f) := by
  obtain ⟨r, h1, h2, h3, h4⟩ := makeLoop_spec hi f 0 none trivial
  refine ⟨r, h1, h2, by rw [h3]; simp, ?_⟩
  rw [h4, aeval_eq_sum]
  simp [accVal, MvPolynomial.algebraMap_eq]

/-! ### project_to_univariate -/

theorem prod_zipWith_erase : ∀ (i : Nat) (v : List R) (t : Tup), v.length = t.length → (hi : i < t.length) →
    (List.zipWith (· ^ ·) v t).prod = v.getD i 0 ^ t.getD i 0 * (List.zipWith (· ^ ·) (v.eraseIdx i) (t.eraseIdx i)).prod
  | _, [], [], _, hi => by simp at hi
  | _, [], _ :: _, h, _ => by simp at h
  | _, _ :: _, [], h, _ => by simp at h
  | 0, a :: v, e :: t, _, _ => by simp
  | i + 1, a :: v, e :: t, h, hi => by
    have := prod_zipWith_erase i v t (by simpa using h) (by simpa using hi)
    simp only [List.zipWith_cons_cons, List.prod_cons, this, List.getD_cons_succ, List.eraseIdx_cons_succ]
    ring

theorem eval_monomial_list {n : Nat} {t : Tup} (ht : t.length = n) (v : List R) (hv : v.length = n) (c : R) :
    aeval (fun i : Fin n => v.getD i 0) (monomial (tupF n t) c) = c * (List.zipWith (· ^ ·) v t).prod := by
  rw [aeval_monomial, Finsupp.prod_fintype _ _ (fun i => pow_zero _)]
  congr 1
  have : List.zipWith (· ^ ·) v t = List.ofFn fun i : Fin n => v.getD i 0 ^ (tupF n t) i := by
    apply List.ext_getElem (by simp [ht, hv])
    intro j h1 h2
    simp at h1
    simp [List.getElem?_eq_getElem h1.1, List.getElem?_eq_getElem h1.2]
  rw [this, List.prod_ofFn]

/-- Evaluate the coefficients at `w`, then the polynomial at `x`. -/
noncomputable def evalProj (m : Nat) (w : List R) : MP m R →+* R :=
  (aeval (R := R) (fun i : Fin m => w.getD i 0)).toRingHom.comp (MP.equiv (n := m) (R := R)).toRingHom

theorem evalProj_apply (m : Nat) (w : List R) (f : MP m R) : evalProj m w f = aeval (fun i : Fin m => w.getD i 0) f.val := rfl

/-- What an accumulator evaluates to. -/
noncomputable def projVal (m : Nat) (x : R) (w : List R) : Option (List (MP m R)) → R
  | none => 0
  | some r => Polynomial.eval₂ (evalProj m w) x (Poly.toPoly r)

def ProjOk (m : Nat) : Option (List (MP m R)) → Prop
  | none => True
  | some r => Poly.Canon r

theorem pyPowX (S : Type _) [CommRing S] [DecidableEq S] (e : Nat) :
    ∃ r, pyPow Poly.one Poly.mul (Poly.ctor [0, (1 : S)]) (e : Int) = .ok r ∧ Poly.Canon r ∧ Poly.toPoly r = Polynomial.X ^ e := by
  have := pyPow_interp (α := List S) (one := Poly.one) (mul := Poly.mul) (φ := Poly.toPoly) (P := Poly.Canon)
    Poly.canon_one Poly.toPoly_one (fun a b _ _ => ⟨Poly.canon_mul a b, Poly.toPoly_mul a b⟩)
    (Poly.canon_ctor [0, (1 : S)]) e
  obtain ⟨r, h1, h2, h3⟩ := this
  refine ⟨r, h1, h2, ?_⟩
  rw [h3, Poly.toPoly_ctor]
  simp [Poly.toPoly_cons, Poly.toPoly_nil]

theorem projLoop_spec {n i : Nat} (hi : i < n) : ∀ (d : Dict R) (acc : Option (List (MP (n - 1) R))), (∀ e ∈ d, e.1.length = n) →
    ProjOk (n - 1) acc → ∃ r, projLoop n i d acc = .ok r ∧ ProjOk (n - 1) r ∧ (r = none ↔ acc = none ∧ d = []) ∧
      ∀ v : List R, v.length = n → projVal (n - 1) (v.getD i 0) (v.eraseIdx i) r =
        projVal (n - 1) (v.getD i 0) (v.eraseIdx i) acc + aeval (fun j : Fin n => v.getD j 0) (toMv n d)
  | [], acc, _, h => ⟨acc, rfl, h, by simp, by simp⟩
  | (t, c) :: d, acc, hd, h => by
    have ht : t.length = n := hd (t, c) (by simp)
    have hl : (t.eraseIdx i).length = n - 1 := by rw [List.length_eraseIdx_of_lt (by omega), ht]
    obtain ⟨xe, h1, h2, h3⟩ := pyPowX (MP (n - 1) R) (t.getD i 0)
    have e1 : pyIdx t i = .ok (t.getD i 0) := by simp [pyIdx, List.getElem?_eq_getElem (by omega : i < t.length)]
    have e2 : t.take i ++ t.drop (i + 1) = t.eraseIdx i := (List.eraseIdx_eq_take_drop_succ _ _).symm
    rw [projLoop]
    simp only [e1, h1, e2, bind, Except.bind]
    have key : ∀ v : List R, v.length = n → Polynomial.eval₂ (evalProj (n - 1) (v.eraseIdx i)) (v.getD i 0)
        (Poly.toPoly (Poly.mul (Poly.ctor [MP.single (n - 1) (t.eraseIdx i) c]) xe)) =
        aeval (fun j : Fin n => v.getD j 0) (monomial (tupF n t) c) := by
      intro v hv
      have hv' : (v.eraseIdx i).length = n - 1 := by rw [List.length_eraseIdx_of_lt (by omega), hv]
      rw [Poly.toPoly_mul, Poly.toPoly_ctor, h3, Poly.toPoly_cons, Poly.toPoly_nil, mul_zero, add_zero,
        Polynomial.eval₂_mul, Polynomial.eval₂_C, Polynomial.eval₂_X_pow, evalProj_apply, MP.val_single hl,
        eval_monomial_list hl _ hv', eval_monomial_list ht _ hv, prod_zipWith_erase i v t (by omega) (by omega)]
      ring
    have hd' : ∀ e ∈ d, e.1.length = n := fun e he => hd e (by simp [he])
    cases acc with
    | none =>
      obtain ⟨r, r1, r2, r3, r4⟩ := projLoop_spec hi d (some (Poly.add (Poly.mul (Poly.ctor [MP.single (n - 1) (t.eraseIdx i) c])
        xe) (Poly.ctor [0]))) hd' (Poly.canon_add _ _)
      refine ⟨r, r1, r2, by rw [r3]; simp, ?_⟩
      intro v hv
      rw [r4 v hv, toMv_cons, map_add, ← key v hv]
      simp only [projVal, Poly.toPoly_add, Poly.toPoly_ctor [(0 : MP (n - 1) R)], Poly.toPoly_cons, Poly.toPoly_nil,
        mul_zero, add_zero, map_zero, zero_add]
    | some a =>
      obtain ⟨r, r1, r2, r3, r4⟩ := projLoop_spec hi d (some (Poly.add a (Poly.mul (Poly.ctor [MP.single (n - 1) (t.eraseIdx i) c])
        xe))) hd' (Poly.canon_add _ _)
      refine ⟨r, r1, r2, by rw [r3]; simp, ?_⟩
      intro v hv
      rw [r4 v hv, toMv_cons, map_add, ← key v hv]
      simp only [projVal, Poly.toPoly_add, Polynomial.eval₂_add]
      ring

theorem project_spec {n i : Nat} (hi : i < n) {d : Dict R} (hd : WF n d) :
    ∃ r, project n i d = .ok r ∧ ProjOk (n - 1) r ∧ (r = none ↔ d = []) ∧
      ∀ v : List R, v.length = n → projVal (n - 1) (v.getD i 0) (v.eraseIdx i) r = aeval (fun j : Fin n => v.getD j 0) (toMv n d) := by
  obtain ⟨r, h1, h2, h3, h4⟩ := projLoop_spec hi d none hd.len trivial
  refine ⟨r, h1, h2, by rw [h3]; simp, ?_⟩
  intro v hv
  rw [h4 v hv]; simp [projVal]

/-! ### The Dirac delta -/

section delta
variable {K : Type _} [Field K] [DecidableEq K]

theorem unitTup_eq {n i : Nat} (hi : i < n) : unitTup n i = .ok (List.replicate i 0 ++ [1] ++ List.replicate (n - (i + 1)) 0) := by
  rw [unitTup, if_pos hi]
  congr 1
  apply List.ext_getElem (by simp; omega)
  intro j h1 h2
  rw [List.getElem_set]
  simp only [List.append_assoc, List.getElem_append, List.length_replicate, List.getElem_replicate]
  split
  · next h => subst h; simp
  · next h =>
    split
    · rfl
    · obtain ⟨k, hk⟩ : ∃ k, j - i = k + 1 := ⟨j - i - 1, by omega⟩
      simp [hk]

theorem diracLoop_spec {q n : Nat} : ∀ (vs : List K) (i : Nat) (acc : Option (Dict K)), i + vs.length ≤ n → AccOk n acc →
    ∃ r, diracLoop q n i vs acc = .ok r ∧ AccOk n r ∧ (r = none ↔ acc = none ∧ vs = []) ∧
      (r.elim 1 (toMv n) = acc.elim 1 (toMv n) *
        ∏ j ∈ Finset.range vs.length, (if h : i + j < n then 1 - (X ⟨i + j, h⟩ - C (vs.getD j 0)) ^ (q - 1) else 0))
  | [], i, acc, _, h => ⟨acc, rfl, h, by simp, by simp⟩
  | v :: vs, i, acc, hl, h => by
    simp only [List.length_cons] at hl
    have hi : i < n := by omega
    have hu := xi_key_len n i hi
    have hne : List.replicate n 0 ≠ List.replicate i 0 ++ [1] ++ List.replicate (n - (i + 1)) 0 := by
      intro hh
      have h1 : 1 ∈ List.replicate n 0 := by rw [hh]; simp
      simp at h1
    have hg : Good n [(List.replicate n 0, -v), (List.replicate i 0 ++ [1] ++ List.replicate (n - (i + 1)) 0, (1 : K))] := by
      refine ⟨?_, ?_⟩
      · simp only [keys, List.map_cons, List.map_nil, List.nodup_cons, List.mem_singleton, List.not_mem_nil, not_false_eq_true,
          List.nodup_nil, and_true]
        exact hne
      · simp only [keys, List.map_cons, List.map_nil, List.mem_cons, List.not_mem_nil, or_false]
        rintro t (rfl | rfl)
        · simp
        · exact hu
    obtain ⟨tq, h1, h2, h3⟩ := pow_spec (wf_ofDict hg) (q - 1)
    have hT : toMv n (ofDict [(List.replicate n 0, -v), (List.replicate i 0 ++ [1] ++ List.replicate (n - (i + 1)) 0, (1 : K))])
        = X ⟨i, hi⟩ - C v := by
      rw [toMv_ofDict, toMv_cons, toMv_cons, toMv_nil, add_zero, tupF_zero, tupF_xi n i hi]
      simp only [X, sub_eq_add_neg, ← map_neg, ← MvPolynomial.C_apply]
      rw [add_comm]
    rw [hT] at h3
    have w1 := wf_add (wf_neg h2.good).good (wf_ofElt n (1 : K)).good
    have t1 : toMv n (add (neg tq) (ofElt n 1)) = 1 - (X ⟨i, hi⟩ - C v) ^ (q - 1) := by
      rw [toMv_add (wf_neg h2.good).good (wf_ofElt n (1 : K)).good, toMv_neg, h3, toMv_ofElt, map_one]; ring
    rw [diracLoop]
    simp only [unitTup_eq hi, h1, bind, Except.bind]
    have hp : (∏ j ∈ Finset.range (v :: vs).length, (if h : i + j < n then 1 - (X ⟨i + j, h⟩ - C ((v :: vs).getD j 0)) ^ (q - 1) else 0)
        : MvPolynomial (Fin n) K) = (1 - (X ⟨i, hi⟩ - C v) ^ (q - 1)) *
        ∏ j ∈ Finset.range vs.length, (if h : i + 1 + j < n then 1 - (X ⟨i + 1 + j, h⟩ - C (vs.getD j 0)) ^ (q - 1) else 0) := by
      rw [List.length_cons, Finset.prod_range_succ', mul_comm]
      simp only [Nat.add_zero, List.getD_cons_zero, List.getD_cons_succ, dif_pos hi]
      congr 1
      apply Finset.prod_congr rfl
      intro j _
      have hj : i + (j + 1) = i + 1 + j := by omega
      by_cases hn : i + 1 + j < n
      · rw [dif_pos hn, dif_pos (by omega)]
        simp only [hj]
      · rw [dif_neg hn, dif_neg (by omega)]
    cases acc with
    | none =>
      have w2 := mul_spec w1.good (wf_ofElt n (1 : K)).good
      obtain ⟨r, r1, r2, r3, r4⟩ := diracLoop_spec (q := q) vs (i + 1) (some (mul (add (neg tq) (ofElt n 1)) (ofElt n 1))) (by omega) w2.1
      refine ⟨r, r1, r2, by rw [r3]; simp, ?_⟩
      rw [r4, hp]
      simp only [Option.elim, w2.2, t1, toMv_ofElt, map_one, mul_one, one_mul]
    | some a =>
      have w2 := mul_spec (WF.good h) w1.good
      obtain ⟨r, r1, r2, r3, r4⟩ := diracLoop_spec (q := q) vs (i + 1) (some (mul a (add (neg tq) (ofElt n 1)))) (by omega) w2.1
      refine ⟨r, r1, r2, by rw [r3]; simp, ?_⟩
      rw [r4, hp]
      simp only [Option.elim, w2.2, t1, mul_assoc]

theorem diracLoop_error {q n : Nat} : ∀ (vs : List K) (i : Nat) (acc : Option (Dict K)), AccOk n acc → n < i + vs.length →
    i ≤ n → diracLoop q n i vs acc = .error .indexError
  | [], i, acc, _, h, h' => by simp at h; omega
  | v :: vs, i, acc, ha, h, h' => by
    rw [diracLoop]
    by_cases hi : i < n
    · obtain ⟨r, r1, r2, -⟩ := diracLoop_spec (q := q) (n := n) [v] i acc (by simp; omega) ha
      rw [diracLoop] at r1
      simp only [unitTup_eq hi, bind, Except.bind] at r1 ⊢
      generalize pow n (ofDict [(List.replicate n 0, -v), (List.replicate i 0 ++ [1] ++ List.replicate (n - (i + 1)) 0, (1 : K))])
        ((q - 1 : Nat) : Int) = pw at *
      cases pw with
      | error e => simp at r1
      | ok tq =>
        simp only [diracLoop, Except.ok.injEq] at r1
        simp only
        refine diracLoop_error vs (i + 1) _ ?_ (by simp at h; omega) (by omega)
        rw [r1]; exact r2
    · simp [unitTup, hi, bind, Except.bind]

variable [Fintype K]

theorem delta_factor (x y : K) : 1 - (x - y) ^ (Fintype.card K - 1) = if x = y then 1 else 0 := by
  have hq : 1 < Fintype.card K := Fintype.one_lt_card
  split
  · next h => rw [h, sub_self, zero_pow (by omega), sub_zero]
  · next h => rw [FiniteField.pow_card_sub_one_eq_one _ (sub_ne_zero.2 h), sub_self]

/-- The delta at the first coordinates. -/
theorem dirac_spec {n : Nat} (ys : List K) (hl : ys.length ≤ n) :
    ∃ r, dirac (Fintype.card K) n ys = .ok r ∧ AccOk n r ∧ (r = none ↔ ys = []) ∧
      ∀ x : List K, x.length = n → aeval (fun i : Fin n => x.getD i 0) (r.elim 1 (toMv n)) = if x.take ys.length = ys then 1 else 0 := by
  obtain ⟨r, h1, h2, h3, h4⟩ := diracLoop_spec (q := Fintype.card K) (n := n) ys 0 none (by omega) trivial
  refine ⟨r, h1, h2, by rw [h3]; simp, ?_⟩
  intro x hx
  rw [h4]
  simp only [Option.elim, one_mul, map_prod]
  have : ∀ j ∈ Finset.range ys.length, aeval (fun i : Fin n => x.getD i 0)
      (if h : 0 + j < n then 1 - (X ⟨0 + j, h⟩ - C (ys.getD j 0)) ^ (Fintype.card K - 1) else 0 : MvPolynomial (Fin n) K) =
      if x.getD j 0 = ys.getD j 0 then 1 else 0 := by
    intro j hj
    rw [Finset.mem_range] at hj
    rw [dif_pos (by omega)]
    simp only [map_sub, map_one, map_pow, aeval_X, aeval_C, Nat.zero_add, Algebra.algebraMap_self, RingHom.id_apply]
    exact delta_factor _ _
  rw [Finset.prod_congr rfl this]
  split
  · next h =>
    apply Finset.prod_eq_one
    intro j hj
    rw [Finset.mem_range] at hj
    rw [if_pos]
    have := congrArg (fun l => l.getD j 0) h
    simpa [List.getElem?_take, hj] using this
  · next h =>
    by_contra hne
    apply h
    rw [← Ne, Finset.prod_ne_zero_iff] at hne
    apply List.ext_getElem (by simp; omega)
    intro j h1 h2
    have := hne j (Finset.mem_range.2 h2)
    have h3 : j < x.length := by omega
    simpa [List.getElem?_eq_getElem h2, List.getElem?_eq_getElem h3] using this

/-! ### Functions to polynomials -/

theorem mem_indices (p : Nat) : ∀ (m : Nat) (l : List Nat), l ∈ indices p m ↔ l.length = m ∧ ∀ x ∈ l, x < p
  | 0, l => by simp only [indices, List.mem_singleton, List.length_eq_zero_iff]; constructor
               · rintro rfl; simp
               · exact fun h => h.1
  | m + 1, l => by
    simp only [indices, List.mem_flatMap, List.mem_range, List.mem_map, mem_indices p m]
    constructor
    · rintro ⟨x, hx, r, ⟨h1, h2⟩, rfl⟩
      exact ⟨by simp [h1], by simp only [List.mem_cons]; rintro y (rfl | hy); exacts [hx, h2 y hy]⟩
    · rintro ⟨h1, h2⟩
      cases l with
      | nil => simp at h1
      | cons x r => exact ⟨x, h2 x (by simp), r, ⟨by simpa using h1, fun y hy => h2 y (by simp [hy])⟩, rfl⟩

theorem nodup_indices (p : Nat) : ∀ m, (indices p m).Nodup
  | 0 => by simp [indices]
  | m + 1 => by
    rw [indices, List.nodup_flatMap]
    refine ⟨fun x _ => (nodup_indices p m).map (fun a b h => (List.cons.inj h).2), ?_⟩
    apply List.nodup_range.imp
    intro a b hab
    simp only [Function.onFun, List.disjoint_left, List.mem_map]
    rintro _ ⟨r, -, rfl⟩ ⟨r', -, h⟩
    exact hab (List.cons.inj h).1.symm

theorem coeffLoop_spec {n : Nat} (step : List K → Py K) (g : List K → K) (m : Nat) (hm : m ≤ n) : ∀ (is : List (List Nat)) (acc : Dict K), WF n acc →
    (∀ i ∈ is, i.length = m) → (∀ i ∈ is, step (i.map fun k : Nat => (k : K)) = .ok (g (i.map fun k : Nat => (k : K)))) →
    ∃ r, coeffLoop (Fintype.card K) n step is acc = .ok r ∧ WF n r ∧ ∀ x : List K, x.length = n →
      aeval (fun i : Fin n => x.getD i 0) (toMv n r) = aeval (fun i : Fin n => x.getD i 0) (toMv n acc) +
        (is.map fun i : List Nat => if x.take m = (i.map fun k : Nat => (k : K)) then g (i.map fun k : Nat => (k : K)) else 0).sum
  | [], acc, h, _, _ => ⟨acc, rfl, h, by simp⟩
  | i :: is, acc, h, hl, hs => by
    have hi : (i.map fun k : Nat => (k : K)).length = m := by simp [hl i (by simp)]
    obtain ⟨t, t1, t2, t3, t4⟩ := dirac_spec (n := n) (i.map fun k : Nat => (k : K)) (by omega)
    rw [hi] at t4
    rw [coeffLoop]
    simp only [t1, hs i (by simp), bind, Except.bind]
    cases t with
    | none =>
      have w := wf_add h.good (wf_ofElt n (g (i.map fun k : Nat => (k : K)) * 1)).good
      obtain ⟨r, r1, r2, r3⟩ := coeffLoop_spec step g m hm is _ w (fun j hj => hl j (by simp [hj])) (fun j hj => hs j (by simp [hj]))
      refine ⟨r, r1, r2, ?_⟩
      intro x hx
      rw [r3 x hx, toMv_add h.good (wf_ofElt n _).good, toMv_ofElt, List.map_cons, List.sum_cons, map_add, add_assoc]
      congr 2
      have := t4 x hx
      simp only [Option.elim, map_one] at this
      split
      · simp
      · next hh => rw [if_neg hh] at this; exact absurd this one_ne_zero
    | some t =>
      have w1 := mul_spec (WF.good t2) (wf_ofElt n (g (i.map fun k : Nat => (k : K)))).good
      have w := wf_add h.good w1.1.good
      obtain ⟨r, r1, r2, r3⟩ := coeffLoop_spec step g m hm is _ w (fun j hj => hl j (by simp [hj])) (fun j hj => hs j (by simp [hj]))
      refine ⟨r, r1, r2, ?_⟩
      intro x hx
      have := t4 x hx
      simp only [Option.elim] at this
      rw [r3 x hx, toMv_add h.good w1.1.good, w1.2, toMv_ofElt, List.map_cons, List.sum_cons, map_add, add_assoc, map_mul, this]
      congr 2
      split <;> simp

theorem sum_indicator {α β : Type _} [AddCommMonoid β] (P : α → Prop) [DecidablePred P] (g : α → β) :
    ∀ l : List α, (∀ a ∈ l, ∀ b ∈ l, P a → P b → a = b) → l.Nodup → ∀ a ∈ l, P a → (l.map fun i => if P i then g i else 0).sum = g a
  | b :: l, hu, hn, a, ha, hp => by
    rw [List.map_cons, List.sum_cons]
    rw [List.nodup_cons] at hn
    rcases List.mem_cons.1 ha with rfl | ha'
    · rw [if_pos hp, List.sum_eq_zero, add_zero]
      intro y hy
      obtain ⟨c, hc, rfl⟩ := List.mem_map.1 hy
      rw [if_neg]
      intro hpc
      exact hn.1 (hu a (by simp) c (by simp [hc]) hp hpc ▸ hc)
    · rw [if_neg, zero_add]
      · exact sum_indicator P g l (fun a ha b hb => hu a (by simp [ha]) b (by simp [hb])) hn.2 a ha' hp
      · intro hpb
        exact hn.1 (hu b (by simp) a (by simp [ha']) hpb hp ▸ ha')

theorem cast_inj {p : Nat} [CharP K p] {a b : Nat} (ha : a < p) (hb : b < p) (h : (a : K) = (b : K)) : a = b := by
  have := (CharP.natCast_eq_natCast K p).1 h
  rwa [Nat.ModEq, Nat.mod_eq_of_lt ha, Nat.mod_eq_of_lt hb] at this

theorem cast_list_inj {p : Nat} [CharP K p] : ∀ (a b : List Nat), (∀ x ∈ a, x < p) → (∀ x ∈ b, x < p) →
    (a.map fun k : Nat => (k : K)) = (b.map fun k : Nat => (k : K)) → a = b
  | [], [], _, _, _ => rfl
  | [], _ :: _, _, _, h => by simp at h
  | _ :: _, [], _, _, h => by simp at h
  | x :: a, y :: b, ha, hb, h => by
    simp only [List.map_cons, List.cons.injEq] at h
    rw [cast_inj (p := p) (ha x (by simp)) (hb y (by simp)) h.1,
      cast_list_inj a b (fun x hx => ha x (by simp [hx])) (fun x hx => hb x (by simp [hx])) h.2]

/-- What the code computes: `step` of the first `m` coordinates where they all are in the prime field, and 0 elsewhere. -/
theorem coefficients_spec {p m n : Nat} [CharP K p] (hm : m ≤ n) (step : List K → Py K) (g : List K → K)
    (hs : ∀ v, v.length = m → step v = .ok (g v)) :
    ∃ r, coefficients p m (Fintype.card K) n step = .ok r ∧ WF n r ∧ ∀ x : List K, x.length = n →
      (∀ idx ∈ indices p m, x.take m = (idx.map fun k : Nat => (k : K)) → aeval (fun i : Fin n => x.getD i 0) (toMv n r) = g (x.take m)) ∧
      ((∀ idx ∈ indices p m, x.take m ≠ idx.map fun k : Nat => (k : K)) → aeval (fun i : Fin n => x.getD i 0) (toMv n r) = 0) := by
  obtain ⟨r, h1, h2, h3⟩ := coeffLoop_spec step g m hm (indices p m) (ofElt n 0) (wf_ofElt n 0)
    (fun i hi => ((mem_indices p m i).1 hi).1) (fun i hi => hs _ (by simp [((mem_indices p m i).1 hi).1]))
  refine ⟨r, h1, h2, ?_⟩
  intro x hx
  have e : aeval (fun i : Fin n => x.getD i 0) (toMv n (ofElt n (0 : K))) = 0 := by rw [toMv_ofElt, map_zero, map_zero]
  refine ⟨?_, ?_⟩
  · intro idx hidx he
    rw [h3 x hx, e, zero_add, sum_indicator (fun i : List Nat => x.take m = i.map fun k : Nat => (k : K))
      (fun i => g (i.map fun k : Nat => (k : K))) _ ?_ (nodup_indices p m) idx hidx he, ← he]
    intro a ha b hb h1 h2
    exact cast_list_inj (p := p) (K := K) a b ((mem_indices p m a).1 ha).2 ((mem_indices p m b).1 hb).2 (h1.symm.trans h2)
  · intro hno
    rw [h3 x hx, e, zero_add]
    apply List.sum_eq_zero
    intro y hy
    obtain ⟨i, hi, rfl⟩ := List.mem_map.1 hy
    rw [if_neg (hno i hi)]

omit [Fintype K] in
theorem coefficients_error {p m n : Nat} (hp : 0 < p) (hm : n < m) (q : Nat) (step : List K → Py K) :
    coefficients p m q n step = .error .indexError := by
  have : indices p m ≠ [] := by
    intro h
    have := (mem_indices p m (List.replicate m 0)).2 ⟨by simp, by simp; omega⟩
    simp [h] at this
  obtain ⟨i, is, h⟩ := List.exists_cons_of_ne_nil this
  have hi : i.length = m := ((mem_indices p m i).1 (by simp [h])).1
  rw [coefficients, h, coeffLoop, dirac, diracLoop_error _ 0 none trivial (by simp; omega) (by omega)]
  rfl

theorem coefficients_step_error {p m n : Nat} (hp : 0 < p) (hm : m ≤ n) (step : List K → Py K) (e : PyErr)
    (hs : ∀ v, v.length = m → step v = .error e) : coefficients p m (Fintype.card K) n step = .error e := by
  have : indices p m ≠ [] := by
    intro h
    have := (mem_indices p m (List.replicate m 0)).2 ⟨by simp, by simp; omega⟩
    simp [h] at this
  obtain ⟨i, is, h⟩ := List.exists_cons_of_ne_nil this
  have hi : i.length = m := ((mem_indices p m i).1 (by simp [h])).1
  obtain ⟨r, r1, -⟩ := dirac_spec (n := n) (i.map fun k : Nat => (k : K)) (by simp; omega)
  rw [coefficients, h, coeffLoop, r1]
  simp only [hs (i.map fun k : Nat => (k : K)) (by simp [hi]), bind, Except.bind]

end delta

/-! ### Int coefficients -/

theorem raw_lookup (t : Tup) : ∀ l : List (Tup × Int), t ∈ l.map Prod.fst →
    ∃ c : Int, (l.map fun e => (e.1, (.inl e.2 : RawCoeff R))).lookup t = some (.inl c) ∧
      (l.map fun e => (e.1, (.inr (e.2 : R) : RawCoeff R))).lookup t = some (.inr (c : R))
  | [], h => by simp at h
  | (t', c) :: l, h => by
    by_cases h1 : t = t'
    · subst h1
      exact ⟨c, by simp, by simp⟩
    · obtain ⟨c', h2, h3⟩ := raw_lookup t l (by simpa [h1] using h)
      refine ⟨c', ?_, ?_⟩
      · rw [List.map_cons, lookup_ne h1]; exact h2
      · rw [List.map_cons, lookup_ne h1]; exact h3

theorem raw_filter (d : List (Tup × Int)) (hd : ∀ e ∈ d, ((e.2 : Int) : R) = 0 → e.2 = 0) :
    ofRawDict (d.map fun e => (e.1, (.inl e.2 : RawCoeff R))) =
      (d.filter fun e => decide (e.2 ≠ 0)).map (fun e => (e.1, (.inl e.2 : RawCoeff R))) ∧
    ofRawDict (d.map fun e => (e.1, (.inr (e.2 : R) : RawCoeff R))) =
      (d.filter fun e => decide (e.2 ≠ 0)).map (fun e => (e.1, (.inr (e.2 : R) : RawCoeff R))) := by
  unfold ofRawDict
  rw [List.filter_map, List.filter_map]
  constructor
  · congr 1
    apply List.filter_congr
    intro e _
    simp [rawIsZero]
  · congr 1
    apply List.filter_congr
    intro e he
    simp only [Function.comp, rawIsZero, ← decide_not, decide_eq_decide]
    exact not_congr ⟨hd e he, fun h => by rw [h]; simp⟩

theorem raw_eq_cast (l : List (Tup × Int)) :
    rawEq (l.map fun e => (e.1, (.inl e.2 : RawCoeff R))) (l.map fun e => (e.1, (.inr (e.2 : R) : RawCoeff R))) = true ∧
    rawEq (l.map fun e => (e.1, (.inr (e.2 : R) : RawCoeff R))) (l.map fun e => (e.1, (.inl e.2 : RawCoeff R))) = true := by
  have k1 : (l.map fun e => (e.1, (.inl e.2 : RawCoeff R))).map Prod.fst = l.map Prod.fst := by simp
  have k2 : (l.map fun e => (e.1, (.inr (e.2 : R) : RawCoeff R))).map Prod.fst = l.map Prod.fst := by simp
  unfold rawEq
  rw [k1, k2]
  simp only [decide_true, Bool.true_and, Bool.and_eq_true, List.all_eq_true, List.contains_eq_mem, decide_eq_true_eq]
  refine ⟨⟨⟨fun _ h => h, fun _ h => h⟩, ?_⟩, ⟨fun _ h => h, fun _ h => h⟩, ?_⟩
  all_goals
    intro t ht
    obtain ⟨c, h1, h2⟩ := raw_lookup (R := R) t l ht
    simp [rawGet, h1, h2, rawCoeffEq]

theorem deg_keys (k : List Tup) : k.foldl (fun m t => if sumPowerTuple t > m then sumPowerTuple t else m) 0 =
    (k.map sumPowerTuple).foldl max 0 := by
  have h : ∀ (k : List Tup) m, k.foldl (fun m t => if sumPowerTuple t > m then sumPowerTuple t else m) m =
      (k.map sumPowerTuple).foldl max m := by
    intro k
    induction k with
    | nil => intro m; rfl
    | cons t k ih =>
      intro m
      rw [List.foldl_cons, ih, List.map_cons, List.foldl_cons]
      congr 1
      split <;> omega
  exact h k 0

theorem mem_raw_keys {V : Type _} (l : List (Tup × V)) (t : Tup) : t ∈ l.map Prod.fst ↔ ∃ v, l.lookup t = some v := by
  induction l with
  | nil => simp
  | cons e l ih =>
    obtain ⟨u, c⟩ := e
    by_cases h : t = u
    · subst h
      simp
    · have h' : (t == u) = false := by simpa using h
      simp only [List.map_cons, List.mem_cons, h, false_or, ih, List.lookup_cons, h']

theorem deg_le_of_subset {k k' : List Tup} (h : ∀ t ∈ k, t ∈ k') : (k.map sumPowerTuple).foldl max 0 ≤ (k'.map sumPowerTuple).foldl max 0 := by
  rw [le_foldl_max]
  refine ⟨by omega, fun x hx => ?_⟩
  obtain ⟨t, ht, rfl⟩ := List.mem_map.1 hx
  exact ((le_foldl_max _ _ _).1 le_rfl).2 _ (List.mem_map_of_mem (h t ht))

theorem rawEq_iff (a b : List (Tup × RawCoeff R)) : rawEq a b = true ↔
    (∀ t, t ∈ a.map Prod.fst ↔ t ∈ b.map Prod.fst) ∧ ∀ t x y, a.lookup t = some x → b.lookup t = some y → rawCoeffEq x y = true := by
  simp only [rawEq, Bool.and_eq_true, decide_eq_true_eq, List.all_eq_true, List.contains_eq_mem, deg_keys]
  constructor
  · rintro ⟨⟨-, h1, h2⟩, h3⟩
    refine ⟨fun t => ⟨h1 t, h2 t⟩, fun t x y hx hy => ?_⟩
    have := h3 t ((mem_raw_keys a t).2 ⟨x, hx⟩)
    simpa [rawGet, hx, hy] using this
  · rintro ⟨h1, h2⟩
    refine ⟨⟨le_antisymm (deg_le_of_subset fun t => (h1 t).1) (deg_le_of_subset fun t => (h1 t).2), fun t => (h1 t).1, fun t => (h1 t).2⟩,
      fun t ht => ?_⟩
    obtain ⟨x, hx⟩ := (mem_raw_keys a t).1 ht
    obtain ⟨y, hy⟩ := (mem_raw_keys b t).1 ((h1 t).1 ht)
    simpa [rawGet, hx, hy] using h2 t x y hx hy

end Verif.Mv
