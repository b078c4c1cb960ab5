import Verif.Proofs.SmallPrimes
import Verif.Proofs.Polynomial
import Verif.Proofs.Pow
import Verif.Proofs.Modp
import Mathlib.RingTheory.AdjoinRoot
import Mathlib.Algebra.Field.Rat
import Mathlib.Tactic.NormNum.Prime
/-!
# C05, C07–C11: univariate polynomials

`toPoly` (in `Verif.Spec.Polynomial`) says which mathematical polynomial a coefficient list denotes.
-/

namespace Verif.Props
open Poly
open scoped Polynomial
open Polynomial (C X aeval coeff)

variable {R : Type _} [CommRing R] [DecidableEq R]
variable {K : Type _} [Field K] [DecidableEq K]

/-- **C08** (canonical form). Every constructor and operator result is free of trailing zeros. -/
theorem C08_results_canonical (L f g : List R) :
    Canon (ctor L) ∧ Canon (neg f) ∧ Canon (add f g) ∧ Canon (sub f g) ∧ Canon (mul f g) ∧
      toPoly (ctor L) = toPoly L :=
  ⟨canon_ctor L, canon_neg f, canon_add f g, canon_sub f g, canon_mul f g, toPoly_ctor L⟩

/-- **C08** (comparison, degree, zero test). On canonical lists `==` is mathematical equality, `!=` its negation,
`degree()` the degree (−1 for zero), `is_zero()` the zero test. -/
theorem C08_canonical_queries (f g : List R) (hf : Canon f) (hg : Canon g) :
    (eq f g = true ↔ toPoly f = toPoly g) ∧
    (ne f g = true ↔ toPoly f ≠ toPoly g) ∧
    (isZero f = true ↔ toPoly f = 0) ∧
    (toPoly f = 0 → degree f = -1) ∧
    (toPoly f ≠ 0 → degree f = (toPoly f).natDegree) := by
  have h1 : eq f g = true ↔ toPoly f = toPoly g := by
    rw [eq_iff]; exact ⟨fun h => by rw [h], toPoly_inj hf hg⟩
  refine ⟨h1, ?_, ?_, ?_, ?_⟩
  · rw [ne_eq_not_eq, Ne, ← h1]; simp
  · rw [toPoly_eq_zero hf, isZero]; simp
  · intro h; rw [(toPoly_eq_zero hf).mp h]; rfl
  · intro h
    have : f ≠ [] := fun h' => h ((toPoly_eq_zero hf).mpr h')
    have := List.length_pos_iff.mpr this
    rw [natDegree_toPoly hf, degree, pabs]; omega

example : Canon ([3, 0, 5] : List ℤ) ∧ ctor ([3, 0, 5, 0, 0] : List ℤ) = [3, 0, 5] ∧
    degree ([3, 0, 5] : List ℤ) = 2 ∧ eq ([3, 0, 5] : List ℤ) [3, 0, 4] = false := by
  refine ⟨?_, by decide, by decide, by decide⟩
  intro a h; simp at h; omega

/-- **C09**. The operators compute the ring operations of `R[x]`. -/
theorem C09_ring_operations (f g : List R) :
    toPoly (add f g) = toPoly f + toPoly g ∧ toPoly (sub f g) = toPoly f - toPoly g ∧
    toPoly (mul f g) = toPoly f * toPoly g ∧ toPoly (neg f) = -toPoly f :=
  ⟨toPoly_add f g, toPoly_sub f g, toPoly_mul f g, toPoly_neg f⟩

/-- **C09** (ring identities, as equalities of stored coefficient lists). The polynomials with the code's operators are
isomorphic, as a ring, to `R[x]`. -/
theorem C09_ring_isomorphism :
    ∃ e : CPoly R ≃+* R[X], (∀ f : CPoly R, e f = toPoly f.1) ∧
      ∀ f g : CPoly R, (f + g).1 = add f.1 g.1 ∧ (f - g).1 = sub f.1 g.1 ∧ (f * g).1 = mul f.1 g.1 ∧ (-f).1 = neg f.1 :=
  ⟨CPoly.equiv, fun _ => rfl, fun _ _ => ⟨rfl, rfl, rfl, rfl⟩⟩

example : mul ([1, 1] : List ℤ) [-1, 1] = [-1, 0, 1] ∧ add ([1, 2] : List ℤ) [0, -2] = [1] := by decide

/-- **C10**. For a nonzero divisor, `divmod` returns the unique quotient and remainder, `/` and `%` its components. -/
theorem C10_divmod (f g : List K) (hf : Canon f) (hg : Canon g) (h0 : toPoly g ≠ 0) :
    ∃ q r, divmod f g = .ok (q, r) ∧ truediv f g = .ok q ∧ mod f g = .ok r ∧ Canon q ∧ Canon r ∧
      toPoly f = toPoly q * toPoly g + toPoly r ∧ (toPoly r).degree < (toPoly g).degree ∧
      ∀ Q S : K[X], toPoly f = Q * toPoly g + S → S.degree < (toPoly g).degree → Q = toPoly q ∧ S = toPoly r := by
  have hne : g ≠ [] := fun h => h0 ((toPoly_eq_zero hg).mpr h)
  obtain ⟨q, r, h1, h2, h3, h4, h5⟩ := divmod_spec hf hg hne
  have hd := degree_lt_of_length_lt h3 hg h5
  refine ⟨q, r, h1, by simp [truediv, isZero, hne, h1, bind, Except.bind],
    by simp [mod, isZero, hne, h1, bind, Except.bind], h2, h3, h4, hd, ?_⟩
  intro Q S hQ hS
  have a := div_mod_unique h0 hQ hS
  have b := div_mod_unique h0 h4 hd
  exact ⟨a.1.trans b.1.symm, a.2.trans b.2.symm⟩

/-- **C10** (zero divisor). `/` and `%` raise `ZeroDivisionError`; `divmod` itself raises `IndexError`. -/
theorem C10_divmod_zero (f g : List K) (hg : Canon g) (h0 : toPoly g = 0) :
    divmod f g = .error .indexError ∧ truediv f g = .error .zeroDivision ∧ mod f g = .error .zeroDivision := by
  have : g = [] := (toPoly_eq_zero hg).mp h0
  subst this
  exact ⟨rfl, by simp [truediv, isZero], by simp [mod, isZero]⟩

/-- This meets the hypotheses of `C10_divmod`, `C07_powmod`. -/
example : Canon ([1, 0, 0, 2] : List ℚ) ∧ Canon ([1, 2] : List ℚ) ∧ toPoly ([1, 2] : List ℚ) ≠ 0 := by
  refine ⟨fun a h => ?_, fun a h => ?_, fun h => ?_⟩
  · simp at h; subst h; norm_num
  · simp at h; subst h; norm_num
  · have := congrArg (fun p => coeff p 0) h
    simp [coeff_toPoly] at this

/-- **C05** (`gcd`). On canonical polynomials over a field, including zero, `gcd` returns a greatest common divisor. -/
theorem C05_gcd_poly (f g : List K) (hf : Canon f) (hg : Canon g) :
    ∃ d, gcd ops f g = .ok d ∧ Canon d ∧
      toPoly d ∣ toPoly f ∧ toPoly d ∣ toPoly g ∧ ∀ e : K[X], e ∣ toPoly f → e ∣ toPoly g → e ∣ toPoly d := by
  obtain ⟨d, h1, h2, h3⟩ := gcd_spec polyLaw f g hf hg
  have := (h3 (toPoly d)).mp dvd_rfl
  exact ⟨d, h1, h2, this.1, this.2, fun e he1 he2 => (h3 e).mpr ⟨he1, he2⟩⟩

/-- **C05** (`extended_euclidean_algorithm`). It returns Bézout coefficients and a greatest common divisor. -/
theorem C05_extended_euclid_poly (f g : List K) (hf : Canon f) (hg : Canon g) :
    ∃ x y d, xgcd ops f g = .ok (x, y, d) ∧ Canon x ∧ Canon y ∧ Canon d ∧
      toPoly f * toPoly x + toPoly g * toPoly y = toPoly d ∧
      toPoly d ∣ toPoly f ∧ toPoly d ∣ toPoly g ∧ ∀ e : K[X], e ∣ toPoly f → e ∣ toPoly g → e ∣ toPoly d := by
  obtain ⟨x, y, d, h1, hx, hy, h2, hb, h3⟩ := xgcd_spec polyLaw f g hf hg
  have := (h3 (toPoly d)).mp dvd_rfl
  exact ⟨x, y, d, h1, hx, hy, h2, hb, this.1, this.2, fun e he1 he2 => (h3 e).mpr ⟨he1, he2⟩⟩

/-- This meets the hypotheses of `C05_gcd_poly`. -/
example : Canon ([] : List ℚ) ∧ Canon ([-1, 0, 1] : List ℚ) :=
  ⟨Canon.nil, fun a h => by simp at h; subst h; norm_num⟩

/-- **C11** (evaluation). `f(x)` is the mathematical evaluation at a point of any commutative algebra. -/
theorem C11_call_is_evaluation {A : Type _} [CommRing A] [Algebra R A] (f : List R) (x : A) :
    call f x = aeval x (toPoly f) := call_spec f x

/-- **C11** (homomorphism, stated on the code's operations only). -/
theorem C11_call_homomorphism {A : Type _} [CommRing A] [Algebra R A] (f g : List R) (x : A) :
    call (add f g) x = call f x + call g x ∧ call (mul f g) x = call f x * call g x ∧
    call (sub f g) x = call f x - call g x ∧ call (neg f) x = - call f x := by
  simp [call_spec, toPoly_add, toPoly_mul, toPoly_sub, toPoly_neg]

/-- **C11** (composition). Evaluating at a polynomial gives the composition, for coefficient rings whose elements multiply with
polynomials over them: rationals, floats and Z/p, but not the extension fields (`C11_extension_composition_refuted`). -/
theorem C11_call_composition_partial (f : List R) (g : CPoly R) :
    toPoly (call f g : CPoly R).1 = (toPoly f).comp (toPoly g.1) := by
  rw [call_spec]
  have h : ∀ p : R[X], CPoly.equiv (aeval g p) = p.comp (CPoly.equiv g) := by
    intro p
    induction p using Polynomial.induction_on' with
    | add p q hp hq => simp [hp, hq]
    | monomial n a =>
      rw [Polynomial.aeval_monomial, map_mul, map_pow, Polynomial.monomial_comp]
      congr 1
      exact CPoly.val_algebraMap a
  exact h (toPoly f)

example : call ([1, 2, 3] : List ℤ) (2 : ℤ) = 17 := by decide

/-- **C07**. `powmod` with a nonzero modulus returns, for every exponent `n ≥ 0`, a polynomial congruent to `f^n`; for
`n ≥ 2` it is the reduced remainder `f^n % m`. -/
theorem C07_powmod (f m : List K) (hf : Canon f) (hm : Canon m) (h0 : toPoly m ≠ 0) (n : Nat) :
    ∃ S, pyPowmod one mul mod f n m = .ok S ∧ Canon S ∧ toPoly m ∣ toPoly S - toPoly f ^ n ∧
      (2 ≤ n → toPoly S = toPoly f ^ n % toPoly m) := by
  have hne : m ≠ [] := fun h => h0 ((toPoly_eq_zero hm).mpr h)
  have law : MulLaw (fun a b => mod (mul a b) m) (fun l => AdjoinRoot.mk (toPoly m) (toPoly l)) Canon
      (fun l => l.length < m.length) := by
    intro a b ha hb
    obtain ⟨r, h1, h2, h3, h4⟩ := mod_eq (canon_mul a b) hm hne
    refine ⟨r, h1, h2, h4, ?_⟩
    show AdjoinRoot.mk _ _ = AdjoinRoot.mk _ _ * AdjoinRoot.mk _ _
    rw [← map_mul, AdjoinRoot.mk_eq_mk, h3, toPoly_mul]
    have := EuclideanDomain.div_add_mod (toPoly a * toPoly b) (toPoly m)
    refine ⟨-(toPoly a * toPoly b / toPoly m), ?_⟩
    linear_combination this
  obtain ⟨S, h1, h2, h3, h4⟩ := powGen_spec law (one := one) (x := f) canon_one (by simp [toPoly_one]) hf n
  have h3' : toPoly m ∣ toPoly S - toPoly f ^ n := by
    have h3 : AdjoinRoot.mk (toPoly m) (toPoly S) = AdjoinRoot.mk (toPoly m) (toPoly f) ^ n := h3
    rw [← map_pow, AdjoinRoot.mk_eq_mk] at h3; exact h3
  refine ⟨S, h1, h2, h3', fun hn => ?_⟩
  obtain ⟨c, hc⟩ := h3'
  exact (div_mod_unique (Q := -c) h0 (by linear_combination -hc) (degree_lt_of_length_lt h2 hm (h4 hn))).2

/-- **C07** (small exponents and zero modulus): `n = 0` gives `1`, `n = 1` gives `f` itself, unreduced; a zero modulus
raises `ZeroDivisionError` as soon as a reduction happens (`n ≥ 2`). -/
theorem C07_powmod_edge (f m : List K) (n : Nat) :
    pyPowmod one mul mod f 0 m = .ok one ∧ pyPowmod one mul mod f 1 m = .ok f ∧
    (2 ≤ n → pyPowmod one mul mod f n [] = .error .zeroDivision) := by
  refine ⟨rfl, rfl, fun hn => ?_⟩
  unfold pyPowmod powGen powLoop
  rw [if_pos (by push_cast; omega)]
  simp [mod, isZero, bind, Except.bind]

example : pyPowmod one mul mod ([0, 1] : List (Zp 7)) 5 [-2, 0, 1] = .ok [0, 4] ∧
    divmod ([1, 0, 0, 2] : List (Zp 7)) [1, 2] = .ok ([2, 3, 1], [6]) ∧
    gcd ops ([-1, 0, 1] : List (Zp 7)) [1, 2, 1] = .ok [5, 5] := by decide +kernel

end Verif.Props
