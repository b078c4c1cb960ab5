import Verif.Proofs.MvUtils
import Verif.Proofs.FiniteField
import Verif.Proofs.SmallPrimes
import Verif.Props.FFT
/-!
# C39–C43, C71 (and C06 for multivariate polynomials)

`toMv` (in `Verif.Spec.Multivariate`) says which element of Mathlib's `MvPolynomial (Fin n) R` a dictionary denotes, and `WF n`
is the canonical form: strictly sorted power tuples of length `n`, no zero coefficient.
-/

namespace Verif.Props
open Mv
open MvPolynomial (aeval C X monomial totalDegree)

variable {R : Type _} [CommRing R] [DecidableEq R] {n : Nat}

/-- The point of `A^n` with the coordinates `vals`. -/
def point {A : Type _} [Zero A] (n : Nat) (vals : List A) : Fin n → A := fun i => vals.getD i 0

/-- **C39** (constructors). A dictionary with distinct power tuples of length `n` denotes the sum of its monomials; a ring element
denotes the constant. -/
theorem C39_constructors (d : Dict R) (hn : (d.map Prod.fst).Nodup) (hl : ∀ e ∈ d, e.1.length = n) (c : R) :
    (WF n (ofDict d) ∧ ∀ t : Tup, t.length = n → (toMv n (ofDict d)).coeff (tupF n t) = (d.lookup t).getD 0) ∧
    WF n (ofElt n c) ∧ toMv n (ofElt n c) = C c := by
  have hg : Good n d := ⟨hn, fun t ht => by obtain ⟨e, he, rfl⟩ := List.mem_map.1 ht; exact hl e he⟩
  exact ⟨⟨wf_ofDict hg, fun t ht => by rw [toMv_ofDict, coeff_toMv hg ht]; rfl⟩, wf_ofElt n c, toMv_ofElt n c⟩

/-- **C39** (ring operations). -/
theorem C39_ring_ops (a b : Dict R) (ha : WF n a) (hb : WF n b) :
    (WF n (add a b) ∧ toMv n (add a b) = toMv n a + toMv n b) ∧
    (WF n (sub a b) ∧ toMv n (sub a b) = toMv n a - toMv n b) ∧
    (WF n (mul a b) ∧ toMv n (mul a b) = toMv n a * toMv n b) ∧
    (WF n (neg a) ∧ toMv n (neg a) = -toMv n a) :=
  ⟨⟨wf_add ha.good hb.good, toMv_add ha.good hb.good⟩, ⟨wf_sub ha.good hb.good, toMv_sub ha.good hb.good⟩,
    mul_spec ha.good hb.good, ⟨wf_neg ha.good, toMv_neg n a⟩⟩

/-- **C39** (evaluation). At `n` values of any commutative `R`-algebra the call is the mathematical evaluation; at any other
number of values it is an AssertionError. -/
theorem C39_evaluation {A : Type _} [CommRing A] [Algebra R A] (d : Dict R) (hd : WF n d) (vals : List A) :
    call n d vals = if vals.length = n then .ok (aeval (point n vals) (toMv n d)) else .error .assertion := by
  split
  · next h => exact Mv.call_spec hd.len vals h
  · next h => simp [call, pyAssert, h, bind, Except.bind]

/-- **C39** (consequence, in terms of the API only). Evaluation is a ring homomorphism. -/
theorem C39_evaluation_hom {A : Type _} [CommRing A] [Algebra R A] (a b : Dict R) (ha : WF n a) (hb : WF n b) (vals : List A)
    (x y : A) (hx : call n a vals = .ok x) (hy : call n b vals = .ok y) :
    call n (add a b) vals = .ok (x + y) ∧ call n (sub a b) vals = .ok (x - y) ∧ call n (mul a b) vals = .ok (x * y) ∧
      call n (neg a) vals = .ok (-x) := by
  obtain ⟨⟨w1, e1⟩, ⟨w2, e2⟩, ⟨w3, e3⟩, ⟨w4, e4⟩⟩ := C39_ring_ops a b ha hb
  rw [C39_evaluation _ ha] at hx
  rw [C39_evaluation _ hb] at hy
  split at hx
  · next h =>
    rw [if_pos h] at hy
    cases hx; cases hy
    simp only [C39_evaluation _ w1, C39_evaluation _ w2, C39_evaluation _ w3, C39_evaluation _ w4, if_pos h, e1, e2, e3, e4, map_add,
      map_sub, map_mul, map_neg, and_self]
  · simp at hx

/-- `X_0 X_1 + 2` and `X_0 - 1` over `Z/5`. This meets the hypotheses of `C39_constructors`, `C39_ring_ops`, `C39_evaluation`, `C40_canonical`. -/
example : let a : Dict (Zp 5) := ofDict [([1, 1], 1), ([0, 0], 2)]
    let b : Dict (Zp 5) := ofDict [([1, 0], 1), ([0, 0], 4)]
    WF 2 a ∧ WF 2 b ∧ mul a b = [([0, 0], 3), ([1, 0], 2), ([1, 1], 4), ([2, 1], 1)] ∧ call 2 (mul a b) [(2 : Zp 5), 3] = .ok 3 := by
  refine ⟨wf_ofDict ⟨by decide, by decide⟩, wf_ofDict ⟨by decide, by decide⟩, by decide +kernel, by decide +kernel⟩

/-- **C06** (multivariate polynomials). -/
theorem C06_pow_multivariate (a : Dict R) (ha : WF n a) (e : Nat) :
    ∃ r, pow n a e = .ok r ∧ WF n r ∧ toMv n r = toMv n a ^ e := pow_spec ha e

example : pow 2 (ofDict [([1, 0], 1), ([0, 1], 1)] : Dict (Zp 5)) 5 = .ok [([0, 5], 1), ([5, 0], 1)] := by decide +kernel

/-- **C40**. No result stores a zero coefficient (with `C39_constructors`, `C39_ring_ops`); `==` is mathematical equality and
`degree()` the total degree; `is_zero()` is the zero test. -/
theorem C40_canonical (a b : Dict R) (ha : WF n a) (hb : WF n b) :
    (∀ e ∈ a, e.2 ≠ 0) ∧ (Mv.eq a b = true ↔ toMv n a = toMv n b) ∧ Mv.degree a = (toMv n a).totalDegree ∧
      (Mv.isZero a = true ↔ toMv n a = 0) := by
  refine ⟨ha.nz, ?_, degree_eq ha, ?_⟩
  · rw [Mv.eq_iff ha hb]
    exact ⟨fun h => by rw [h], toMv_inj ha hb⟩
  · rw [Mv.isZero, List.isEmpty_iff]
    exact ⟨fun h => by rw [h, toMv_nil], fun h => toMv_inj ha (wf_nil n) (by rw [h, toMv_nil])⟩

/-- **C40** (every mathematical polynomial is represented, by exactly one object). -/
theorem C40_unique_representative (p : MvPolynomial (Fin n) R) : ∃! d : Dict R, WF n d ∧ toMv n d = p := by
  obtain ⟨f, hf⟩ := MP.val_surj p
  exact ⟨f.1, ⟨f.2, hf⟩, fun d hd => toMv_inj hd.1 f.2 (hd.2.trans hf.symm)⟩

example : let a : Dict (Zp 5) := ofDict [([1, 1], 1), ([0, 0], 2)]
    WF 2 a ∧ Mv.eq a (add (sub a (ofElt 2 2)) (ofElt 2 2)) = true ∧ Mv.degree a = 2 ∧ Mv.eq a (ofElt 2 2) = false := by
  refine ⟨wf_ofDict ⟨by decide, by decide⟩, by decide +kernel, by decide +kernel, by decide +kernel⟩

/-- **C41** (variables). `generate_Xi_s(field, n)` has `n` entries and the `i`-th evaluates to the `i`-th coordinate. -/
theorem C41_generate_Xi_s (vals : List R) (hv : vals.length = n) :
    (generateXis n : List (Dict R)).length = n ∧
    ∀ (i : Nat) (hi : i < (generateXis n : List (Dict R)).length), WF n (generateXis n : List (Dict R))[i] ∧
      call n (generateXis n : List (Dict R))[i] vals = .ok (vals.getD i 0) := by
  refine ⟨by simp [generateXis], ?_⟩
  intro i hi
  have hi' : i < n := by simpa [generateXis] using hi
  have e : (generateXis n : List (Dict R))[i] = xi n i := by simp [generateXis]
  rw [e, C39_evaluation _ (wf_xi n i hi'), if_pos hv, toMv_xi n i hi', MvPolynomial.aeval_X]
  exact ⟨wf_xi n i hi', rfl⟩

example : (generateXis 3 : List (Dict (Zp 5))) = [[([1, 0, 0], 1)], [([0, 1, 0], 1)], [([0, 0, 1], 1)]] := by decide +kernel

/-- **C41** (univariate to multivariate), for polynomials other than zero: `make_multivar(f, i)` evaluates to `f` of the `i`-th
coordinate.  Missing: the zero polynomial, see the next theorem. -/
theorem C41_make_multivar_partial (i : Nat) (hi : i < n) (f : List R) (hf : f ≠ []) :
    ∃ d, makeMultivar n i f = .ok (some d) ∧ WF n d ∧
      ∀ vals : List R, vals.length = n → call n d vals = .ok (Poly.call f (vals.getD i 0)) := by
  obtain ⟨r, h1, h2, h3, h4⟩ := makeMultivar_spec hi f
  cases r with
  | none => exact absurd (h3.1 rfl) hf
  | some d =>
    refine ⟨d, h1, h2, ?_⟩
    intro vals hv
    change toMv n d = _ at h4
    rw [C39_evaluation d h2, if_pos hv, h4, Poly.call_spec]
    congr 1
    have := Polynomial.map_aeval_eq_aeval_map (φ := RingHom.id R)
      (ψ := (aeval (R := R) (point n vals) : MvPolynomial (Fin n) R →ₐ[R] R).toRingHom) (by ext x; simp) (Poly.toPoly f) (X ⟨i, hi⟩)
    rw [Polynomial.map_id] at this
    rw [AlgHom.toRingHom_eq_coe] at this
    simpa [point] using this

example : makeMultivar 3 1 ([3, 0, 1] : List (Zp 5)) = .ok (some [([0, 0, 0], 3), ([0, 2, 0], 1)]) := by decide +kernel

/-- **C41** fails for the zero polynomial: `make_multivar` returns the int `0` (`none`), which is not a polynomial and cannot be
evaluated. -/
theorem C41_make_multivar_refuted (i : Nat) : makeMultivar n i ([] : List R) = .ok none := rfl

/-- **C41** (multivariate to univariate), for polynomials other than zero: the result, evaluated at `x_i` and then, coefficients
included, at the other coordinates, is the polynomial at the point.  Missing: the zero polynomial, see the next theorem. -/
theorem C41_project_to_univariate_partial (i : Nat) (hi : i < n) (d : Dict R) (hd : WF n d) (h0 : d ≠ []) :
    ∃ r : List (MP (n - 1) R), project n i d = .ok (some r) ∧ Poly.Canon r ∧
      ∀ vals : List R, vals.length = n →
        call (n - 1) (Poly.call r (MP.const (n - 1) (vals.getD i 0)) : MP (n - 1) R).dict (vals.eraseIdx i) = call n d vals := by
  obtain ⟨r, h1, h2, h3, h4⟩ := project_spec hi hd
  cases r with
  | none => exact absurd (h3.1 rfl) h0
  | some r =>
    refine ⟨r, h1, h2, ?_⟩
    intro vals hv
    have hv' : (vals.eraseIdx i).length = n - 1 := by rw [List.length_eraseIdx_of_lt (by omega), hv]
    rw [C39_evaluation d hd, if_pos hv, C39_evaluation _ (MP.wf_dict _), if_pos hv']
    congr 1
    refine Eq.trans ?_ (h4 vals hv)
    change evalProj (n - 1) (vals.eraseIdx i) (Poly.call r (MP.const (n - 1) (vals.getD i 0))) = _
    have hc : evalProj (n - 1) (vals.eraseIdx i) (MP.const (n - 1) (vals.getD i 0)) = vals.getD i 0 := by
      rw [evalProj_apply, MP.val_const]; simp
    rw [Poly.call_spec, Polynomial.coe_aeval_eq_eval, projVal]
    conv_rhs => rw [← hc]
    rw [Polynomial.eval₂_at_apply]

/-- `X_0^2 X_1 + 3 X_1` over `Z/5`, projected to `X_0`. -/
example : let d : Dict (Zp 5) := ofDict [([2, 1], 1), ([0, 1], 3)]
    WF 2 d ∧ project 2 0 d = .ok (some [MP.single 1 [1] 3, 0, MP.single 1 [1] 1]) := by
  refine ⟨wf_ofDict ⟨by decide, by decide⟩, by decide +kernel⟩

/-- **C41** fails for the zero polynomial: `project_to_univariate` returns the int `0` (`none`). -/
theorem C41_project_to_univariate_refuted (i : Nat) : project n i ([] : Dict R) = .ok none := rfl

section finite
variable {K : Type _} [Field K] [DecidableEq K] [Finite K]

/-- **C42**. Over a finite field with `field_size` elements, for every `n ≥ 1` and `y`, the Dirac delta is 1 at `y` and 0 at every
other point. -/
theorem C42_dirac_delta (hn : 0 < n) (y : List K) (hy : y.length = n) :
    ∃ d, dirac (Nat.card K) n y = .ok (some d) ∧ WF n d ∧
      ∀ x : List K, x.length = n → call n d x = .ok (if x = y then 1 else 0) := by
  have := Fintype.ofFinite K
  rw [Nat.card_eq_fintype_card]
  obtain ⟨r, h1, h2, h3, h4⟩ := dirac_spec (n := n) y hy.le
  cases r with
  | none => have := h3.1 rfl; subst this; simp at hy; omega
  | some d =>
    refine ⟨d, h1, h2, ?_⟩
    intro x hx
    rw [C39_evaluation d h2, if_pos hx]
    congr 1
    refine (h4 x hx).trans ?_
    rw [hy, ← hx, List.take_length]

/-- **C42** (other lengths). Fewer values give the delta in the first coordinates, none the field element 1 (not a
polynomial), too many an IndexError. -/
theorem C42_other_lengths (y : List K) :
    (y = [] → dirac (Nat.card K) n y = .ok none) ∧
    (0 < y.length → y.length ≤ n → ∃ d, dirac (Nat.card K) n y = .ok (some d) ∧ WF n d ∧
      ∀ x : List K, x.length = n → call n d x = .ok (if x.take y.length = y then 1 else 0)) ∧
    (n < y.length → dirac (Nat.card K) n y = .error .indexError) := by
  have := Fintype.ofFinite K
  rw [Nat.card_eq_fintype_card]
  refine ⟨?_, ?_, ?_⟩
  · rintro rfl; rfl
  · intro h0 hl
    obtain ⟨r, h1, h2, h3, h4⟩ := dirac_spec (n := n) y hl
    cases r with
    | none => have := h3.1 rfl; subst this; simp at h0
    | some d =>
      refine ⟨d, h1, h2, ?_⟩
      intro x hx
      rw [C39_evaluation d h2, if_pos hx]
      exact congrArg _ (h4 x hx)
  · intro h
    exact diracLoop_error y 0 none trivial (by omega) (by omega)

/-- This meets the hypotheses of `C42_dirac_delta`. -/
example : dirac 3 2 ([1, 2] : List (Zp 3)) = .ok (some [([1, 1], 2), ([1, 2], 1), ([2, 1], 2), ([2, 2], 1)]) := by decide +kernel

/-- **C43** (what the code computes). Over a field of characteristic `p` and degree `m ≤ n` over `Z/p`, for a function given on
lists of length `m`: the polynomial takes the value of the function at the first `m` coordinates if they all lie in the prime
field, and 0 everywhere else. -/
theorem C43_actual (p m : Nat) [CharP K p] (hm : m ≤ n) (f : List K → K) (step : List K → Py K)
    (hs : ∀ v, v.length = m → step v = .ok (f v)) :
    ∃ d, coefficients p m (Nat.card K) n step = .ok d ∧ WF n d ∧ ∀ x : List K, x.length = n →
      ((∀ a ∈ x.take m, ∃ k : Nat, k < p ∧ a = k) → call n d x = .ok (f (x.take m))) ∧
      (¬ (∀ a ∈ x.take m, ∃ k : Nat, k < p ∧ a = k) → call n d x = .ok 0) := by
  have := Fintype.ofFinite K
  rw [Nat.card_eq_fintype_card]
  obtain ⟨d, h1, h2, h3⟩ := coefficients_spec (K := K) (p := p) hm step f hs
  refine ⟨d, h1, h2, ?_⟩
  intro x hx
  rw [C39_evaluation d h2, if_pos hx]
  have hl : (x.take m).length = m := by simp; omega
  refine ⟨?_, ?_⟩
  · intro ha
    have : ∃ idx : List Nat, (∀ k ∈ idx, k < p) ∧ x.take m = idx.map fun k : Nat => (k : K) := by
      clear hl
      generalize x.take m = l at ha
      induction l with
      | nil => exact ⟨[], by simp, rfl⟩
      | cons a l ih =>
        obtain ⟨k, hk, rfl⟩ := ha a (by simp)
        obtain ⟨idx, h1, rfl⟩ := ih fun a h => ha a (by simp [h])
        refine ⟨k :: idx, ?_, rfl⟩
        intro j hj
        rcases List.mem_cons.1 hj with rfl | hj
        exacts [hk, h1 j hj]
    obtain ⟨idx, hi, e⟩ := this
    have hm' : idx ∈ indices p m := (mem_indices p m idx).2 ⟨by rw [← hl, e]; simp, hi⟩
    exact congrArg _ ((h3 x hx).1 idx hm' e)
  · intro ha
    refine congrArg _ ((h3 x hx).2 ?_)
    intro idx hidx e
    apply ha
    intro a haa
    rw [e] at haa
    obtain ⟨k, hk, rfl⟩ := List.mem_map.1 haa
    exact ⟨k, ((mem_indices p m idx).1 hidx).2 k hk, rfl⟩

end finite

/-- **C43**, for functions of one variable over `Z/p`: the polynomial evaluates to the function everywhere.  Missing: more than one
variable and extension fields, see the next theorems. -/
theorem C43_functions_to_polynomials_partial (p : Nat) [Fact p.Prime] (f : Zp p → Zp p) (step : List (Zp p) → Py (Zp p))
    (hs : ∀ x, step [x] = .ok (f x)) :
    ∃ d, coefficients p 1 p 1 step = .ok d ∧ WF 1 d ∧ ∀ x : Zp p, call 1 d [x] = .ok (f x) := by
  have := C43_actual (n := 1) (K := Zp p) p 1 le_rfl (fun v => f (v.getD 0 0)) step (by
    intro v hv
    match v, hv with
    | [x], _ => exact hs x)
  rw [FF.card_zp] at this
  obtain ⟨d, h1, h2, h3⟩ := this
  refine ⟨d, h1, h2, fun x => ?_⟩
  refine (h3 [x] rfl).1 ?_
  intro a ha
  simp at ha
  subst ha
  exact ⟨(Zp.equivZMod a).val, ZMod.val_lt _, (Zp.equivZMod (p := p)).injective (by rw [map_natCast, ZMod.natCast_val, ZMod.cast_id', id])⟩

/-- This meets the hypotheses of `C43_actual`. -/
example : coefficients 3 1 3 1 (fun v => .ok (v.getD 0 0 ^ 2 + 1) : List (Zp 3) → Py (Zp 3)) = .ok [([0], 1), ([2], 1)] := by
  decide +kernel

/-- **C43** fails in two variables, over every `Z/p`: the function `x ↦ x_1` raises IndexError, since the function is only called
on lists of one element. -/
theorem C43_two_variables_refuted (p : Nat) [Fact p.Prime] :
    coefficients p 1 p 2 (fun v => pyIdx v 1 : List (Zp p) → Py (Zp p)) = .error .indexError := by
  have := Fintype.ofFinite (Zp p)
  have h := coefficients_step_error (K := Zp p) (n := 2) (Fact.out : p.Prime).pos (m := 1) (by omega) (fun v => pyIdx v 1) .indexError
    (by intro v hv; simp [pyIdx, hv])
  rwa [← Nat.card_eq_fintype_card, FF.card_zp] at h

/-- **C43** fails in two variables even for functions of lists of every length: over `Z/p`, the polynomial for `x ↦ x_1` (or 0
where there is no `x_1`) is 0 at `(0, 1)`. -/
theorem C43_two_variables_wrong_value_refuted (p : Nat) [Fact p.Prime] :
    ∃ d, coefficients p 1 p 2 (fun v => .ok (v.getD 1 0) : List (Zp p) → Py (Zp p)) = .ok d ∧ call 2 d [(0 : Zp p), 1] = .ok 0 := by
  have h := C43_actual (n := 2) (K := Zp p) p 1 (by omega) (fun v => v.getD 1 0) (fun v => .ok (v.getD 1 0)) (fun _ _ => rfl)
  rw [FF.card_zp] at h
  obtain ⟨d, h1, -, h3⟩ := h
  refine ⟨d, h1, ?_⟩
  have := (h3 [0, 1] rfl).1 (by
    intro a ha
    simp at ha
    exact ⟨0, (Fact.out : p.Prime).pos, by simpa using ha⟩)
  simpa using this

/-- **C43** fails over extension fields of degree above the number of variables: always an IndexError. -/
theorem C43_extension_refuted {K : Type _} [Field K] [DecidableEq K] (p m q : Nat) (hp : 0 < p) (hm : n < m)
    (step : List K → Py K) : coefficients p m q n step = .error .indexError := coefficients_error hp hm q step

example : coefficients 3 2 9 1 (fun v => .ok (v.getD 0 0) : List (Zp 3) → Py (Zp 3)) = .error .indexError :=
  C43_extension_refuted 3 2 9 (by norm_num) (by norm_num) _

/-- **C71** fails: an int coefficient is stored as it is.  Over `Z/p` the dictionaries `{(0,): p}` and `{}` denote the same
polynomial, but the first is not reduced to the second and the two objects are not `==`. -/
theorem C71_int_coefficients_refuted (p : Nat) [Fact p.Prime] :
    let a := ofRawDict ([([0], .inl (p : Int))] : List (Tup × RawCoeff (Zp p)))
    let b := ofRawDict ([] : List (Tup × RawCoeff (Zp p)))
    ((p : Int) : Zp p) = 0 ∧ a = [([0], .inl (p : Int))] ∧ b = [] ∧ rawEq a b = false := by
  have hp : (p : Int) ≠ 0 := by exact_mod_cast (Fact.out : p.Prime).ne_zero
  have e : ofRawDict ([([0], .inl (p : Int))] : List (Tup × RawCoeff (Zp p))) = [([0], .inl (p : Int))] := by
    have : p ≠ 0 := by exact_mod_cast hp
    simp [ofRawDict, rawIsZero, this]
  refine ⟨by simp, e, rfl, ?_⟩
  rw [e]
  simp [ofRawDict, rawEq, sumPowerTuple]

/-- **C71**, where it holds: int coefficients with a value that is not a multiple of the characteristic behave as their casts. -/
theorem C71_int_coefficients_partial (d : List (Tup × Int)) (hd : ∀ e ∈ d, ((e.2 : Int) : R) = 0 → e.2 = 0) :
    let a := ofRawDict (d.map fun e => (e.1, (.inl e.2 : RawCoeff R)))
    let b := ofRawDict (d.map fun e => (e.1, (.inr (e.2 : R) : RawCoeff R)))
    a.map Prod.fst = b.map Prod.fst ∧ rawEq a b = true ∧ rawEq b a = true := by
  obtain ⟨h1, h2⟩ := raw_filter (R := R) d hd
  simp only [h1, h2]
  exact ⟨by simp, raw_eq_cast _⟩

example : (∀ e ∈ [([0, 1], 4), ([2, 0], (-1 : Int))], ((e.2 : Int) : Zp 5) = 0 → e.2 = 0) := by decide +kernel

/-- **C71**, what `==` and `[]` do on dictionaries that hold ints or ring elements.  `p == q` when the same monomials are stored and
at each of them the stored coefficients agree, two ints as ints and otherwise in the ring.  `p[t]` is the stored coefficient, and
`ring(0)` for a monomial that is not stored. -/
theorem C71_equality (a b : List (Tup × RawCoeff R)) :
    (rawEq a b = true ↔ (∀ t, (∃ x, a.lookup t = some x) ↔ ∃ y, b.lookup t = some y) ∧
      (∀ t (x y : Int), a.lookup t = some (.inl x) → b.lookup t = some (.inl y) → x = y) ∧
      (∀ t (x : Int) (y : R), a.lookup t = some (.inl x) → b.lookup t = some (.inr y) → (x : R) = y) ∧
      (∀ t (x : R) (y : Int), a.lookup t = some (.inr x) → b.lookup t = some (.inl y) → x = (y : R)) ∧
      (∀ t (x y : R), a.lookup t = some (.inr x) → b.lookup t = some (.inr y) → x = y)) ∧
    (∀ t x, a.lookup t = some x → rawGet a t = x) ∧ ∀ t, a.lookup t = none → rawGet a t = .inr 0 := by
  refine ⟨?_, fun t x h => by simp [rawGet, h], fun t h => by simp [rawGet, h]⟩
  rw [rawEq_iff]
  simp only [mem_raw_keys]
  refine and_congr_right fun _ => ?_
  constructor
  · intro h
    exact ⟨fun t x y h1 h2 => by simpa [rawCoeffEq] using h t _ _ h1 h2, fun t x y h1 h2 => by simpa [rawCoeffEq] using h t _ _ h1 h2,
      fun t x y h1 h2 => by simpa [rawCoeffEq] using h t _ _ h1 h2, fun t x y h1 h2 => by simpa [rawCoeffEq] using h t _ _ h1 h2⟩
  · rintro ⟨h1, h2, h3, h4⟩ t x y hx hy
    rcases x with x | x <;> rcases y with y | y <;> simp only [rawCoeffEq, decide_eq_true_eq]
    · exact h1 t x y hx hy
    · exact h2 t x y hx hy
    · exact h3 t x y hx hy
    · exact h4 t x y hx hy

/-- **C71** fails for `==` between two polynomials built from ints: congruent ints stay different, although both polynomials are equal
to the one with the coefficient cast, so `==` is not transitive. -/
theorem C71_transitivity_refuted (p : Nat) [Fact p.Prime] (t : Tup) (c : Int) :
    let a : List (Tup × RawCoeff (Zp p)) := [(t, .inl c)]
    let b : List (Tup × RawCoeff (Zp p)) := [(t, .inl (c + p))]
    let x : List (Tup × RawCoeff (Zp p)) := [(t, .inr (c : Zp p))]
    rawEq a x = true ∧ rawEq x b = true ∧ rawEq a b = false := by
  intro a b x
  have hp : (p : Int) ≠ 0 := by exact_mod_cast (Fact.out : p.Prime).ne_zero
  have hc : ((c + p : Int) : Zp p) = (c : Zp p) := by simp
  refine ⟨(raw_eq_cast (R := Zp p) [(t, c)]).1, ?_, ?_⟩
  · have := (raw_eq_cast (R := Zp p) [(t, c + p)]).2
    simp only [List.map_cons, List.map_nil, hc] at this
    exact this
  · rw [Bool.eq_false_iff]
    intro h
    have := (C71_equality a b).1.1 h
    exact hp (by simpa using this.2.1 t c (c + p) (by simp [a]) (by simp [b]))

/-- `{(1,): 2}` and `{(1,): 7}` over `Z/5`. -/
example : rawEq ([([1], .inl 2)] : List (Tup × RawCoeff (Zp 5))) [([1], .inl 7)] = false ∧
    rawEq ([([1], .inl 2), ([0], .inr 3)] : List (Tup × RawCoeff (Zp 5))) [([0], .inl 8), ([1], .inl 2)] = true := by
  decide +kernel

end Verif.Props
