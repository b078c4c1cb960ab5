import Verif.Proofs.Linearized
import Verif.Props.ReedSolomon
import Verif.Props.Apr
import Verif.Props.FFT
/-!
# C170: the vanishing polynomial of a subspace is additive
-/

namespace Verif.Props
open Poly PolyUtils ReedSolomon Apr
open scoped Polynomial
open Polynomial (C X)

section
variable (p : Nat) [Fact p.Prime] {V : Type} [AddCommGroup V] [Module (Zp p) V] {K : Type} [Field K] [DecidableEq K] [CharP K p]
  (cast : V → K)

/-- The result of `construct_affine_vanishing_polynomial`, for any basis and shift. -/
theorem vanishing_lin (hadd : ∀ a b, cast (a + b) = cast a + cast b) (basis : List V) (s : V) :
    ∃ q, affineVanishing (zpIter p (Zp.ofInt (p := p))) cast basis s = .ok q ∧ Canon q ∧
      toPoly q = (lin p (basis.map cast)).comp (X - C (cast s)) := by
  refine ⟨zpoly ((items p basis s).map cast), by simp only [affineVanishing, items_eq, bind, Except.bind], canon_zpoly _, ?_⟩
  rw [toPoly_zpoly, List.map_map]
  exact items_prod p cast hadd basis s

theorem vanishing_zero (hadd : ∀ a b, cast (a + b) = cast a + cast b) (basis : List V) :
    ∃ q, affineVanishing (zpIter p (Zp.ofInt (p := p))) cast basis 0 = .ok q ∧ Canon q ∧ toPoly q = lin p (basis.map cast) := by
  obtain ⟨q, h1, h2, h3⟩ := vanishing_lin p cast hadd basis 0
  have h0 : cast 0 = 0 := by simpa using hadd 0 0
  exact ⟨q, h1, h2, by rw [h3, h0]; simp⟩

omit [DecidableEq K] in
theorem lin_eval_add (bs : List K) (x y : K) : (lin p bs).eval (x + y) = (lin p bs).eval x + (lin p bs).eval y := by
  have := congrArg (Polynomial.eval 0) (lin_add p bs (C x) (C y))
  simpa [Polynomial.eval_comp] using this

omit [DecidableEq K] in
theorem lin_eval_nat (bs : List K) (n : Nat) (x : K) : (lin p bs).eval (n * x) = n * (lin p bs).eval x := by
  have := congrArg (Polynomial.eval 0) (lin_nat p bs n (C x))
  simpa [Polynomial.eval_comp] using this

/-- **C170**, additivity: for every basis, dependent ones included, the vanishing polynomial of the space through 0 satisfies
`q(x + y) = q(x) + q(y)` and `q(n x) = n q(x)`, at every point of the field. -/
theorem C170_additive (hadd : ∀ a b, cast (a + b) = cast a + cast b) (basis : List V) :
    ∃ q, affineVanishing (zpIter p (Zp.ofInt (p := p))) cast basis 0 = .ok q ∧ (∀ x y : K, call q (x + y) = call q x + call q y) ∧
      ∀ (n : Nat) (x : K), call q ((n : K) * x) = (n : K) * call q x := by
  obtain ⟨q, h1, -, h3⟩ := vanishing_zero p cast hadd basis
  refine ⟨q, h1, fun x y => ?_, fun n x => ?_⟩
  · simp only [call_eq_eval, h3, lin_eval_add]
  · simp only [call_eq_eval, h3, lin_eval_nat]

/-- **C170**, shifts: the vanishing polynomial of the shifted space differs by a constant, the value at the shift. -/
theorem C170_shift (hadd : ∀ a b, cast (a + b) = cast a + cast b) (basis : List V) (s : V) :
    ∃ q, affineVanishing (zpIter p (Zp.ofInt (p := p))) cast basis 0 = .ok q ∧
      affineVanishing (zpIter p (Zp.ofInt (p := p))) cast basis s = .ok (sub q (ctor [call q (cast s)])) := by
  obtain ⟨q, h1, -, h3⟩ := vanishing_zero p cast hadd basis
  obtain ⟨r, g1, g2, g3⟩ := vanishing_lin p cast hadd basis s
  refine ⟨q, h1, ?_⟩
  rw [g1]
  congr 1
  apply toPoly_inj g2 (canon_sub _ _)
  rw [g3, toPoly_sub, toPoly_ctor, lin_sub, h3, call_eq_eval, h3]
  simp [toPoly_cons, toPoly_nil]

omit [DecidableEq K] in
theorem lin_coeff (bs : List K) : ∀ i, (lin p bs).coeff i ≠ 0 → ∃ k ≤ bs.length, i = p ^ k := by
  induction bs with
  | nil =>
    intro i h
    rw [lin, Polynomial.coeff_X] at h
    exact ⟨0, le_rfl, by by_contra h'; exact h (if_neg fun e => h' (by simpa using e.symm))⟩
  | cons b bs ih =>
    intro i h
    rw [lin, Polynomial.coeff_sub, Polynomial.coeff_C_mul] at h
    by_cases h1 : (lin p bs).coeff i = 0
    · rw [h1, mul_zero, sub_zero, ← Polynomial.map_frobenius_expand p, Polynomial.coeff_map, Polynomial.coeff_expand (Fact.out : p.Prime).pos] at h
      split_ifs at h with hd
      · obtain ⟨k, hk, e⟩ := ih (i / p) fun h0 => h (by rw [h0, map_zero])
        exact ⟨k + 1, by simpa using hk, by rw [pow_succ, ← e, Nat.div_mul_cancel hd]⟩
      · exact absurd (map_zero _) h
    · obtain ⟨k, hk, e⟩ := ih i h1
      exact ⟨k, by simp; omega, e⟩

/-- **C170**, sparseness: of the `p^d + 1` coefficients of the vanishing polynomial only the `d + 1` at the powers of `p` can differ from 0,
and the constant one if the space does not contain 0. -/
theorem C170_sparse (hadd : ∀ a b, cast (a + b) = cast a + cast b) (basis : List V) (s : V) :
    ∃ q, affineVanishing (zpIter p (Zp.ofInt (p := p))) cast basis s = .ok q ∧ q.length = p ^ basis.length + 1 ∧
      ∀ i c, q[i]? = some c → c ≠ 0 → i = 0 ∨ ∃ k ≤ basis.length, i = p ^ k := by
  obtain ⟨r, g1, g2, g3⟩ := vanishing_lin p cast hadd basis s
  refine ⟨r, g1, ?_, fun i c hi hc => ?_⟩
  · obtain ⟨r', its, k1, k2, k3, k4, k5, -⟩ := C23_affine_vanishing_partial p cast basis s
    rw [g1] at k1
    cases k1
    have hne : r ≠ [] := fun h => k4.ne_zero (by rw [h, toPoly_nil])
    have := natDegree_toPoly k3
    have := List.length_pos_iff.2 hne
    simp only [affineLen, pow_one] at k5
    omega
  · by_contra hno
    push Not at hno
    have hco : (toPoly r).coeff i = c := by rw [coeff_toPoly, List.getD_eq_getElem?_getD, hi, Option.getD_some]
    rw [g3, lin_sub, Polynomial.comp_X, Polynomial.comp_C, Polynomial.coeff_sub, Polynomial.coeff_C, if_neg hno.1, sub_zero] at hco
    obtain ⟨k, hk, e⟩ := lin_coeff p (basis.map cast) i (by rw [hco]; exact hc)
    exact hno.2 k (by simpa using hk) e

/-- **C170**, one basis element more: `q'(x) = q(x)^p - q(b)^(p-1) q(x)`. -/
theorem C170_step (hadd : ∀ a b, cast (a + b) = cast a + cast b) (b : V) (basis : List V) :
    ∃ q q', affineVanishing (zpIter p (Zp.ofInt (p := p))) cast basis 0 = .ok q ∧
      affineVanishing (zpIter p (Zp.ofInt (p := p))) cast (b :: basis) 0 = .ok q' ∧
      ∀ x, call q' x = call q x ^ p - call q (cast b) ^ (p - 1) * call q x := by
  obtain ⟨q, h1, -, h3⟩ := vanishing_zero p cast hadd basis
  obtain ⟨q', g1, -, g3⟩ := vanishing_zero p cast hadd (b :: basis)
  refine ⟨q, q', h1, g1, fun x => ?_⟩
  simp only [call_eq_eval, h3, g3, List.map_cons, lin, Polynomial.eval_sub, Polynomial.eval_mul, Polynomial.eval_pow, Polynomial.eval_C]

theorem items_map {W : Type _} [AddCommGroup W] [Module (Zp p) W] (f : V → W) (hf : ∀ a b, f (a + b) = f a + f b) :
    ∀ (basis : List V) (s : V), (items p basis s).map f = items p (basis.map f) (f s) := by
  have hn : ∀ (n : Nat) v, f (n • v) = n • f v := by
    intro n v
    have h0 : f 0 = 0 := by simpa using hf 0 0
    induction n with
    | zero => simp [h0]
    | succ n ih => rw [succ_nsmul, hf, ih, succ_nsmul]
  intro basis
  induction basis with
  | nil => simp [items]
  | cons b bs ih => intro s; simp only [items, List.map_cons, List.map_flatMap, ih, hf, hn]

/-- **C170**, folding: the values of the vanishing polynomial of one space on another space, listed in the order of that space, are the affine
space spanned by the values at the basis of the other space and shifted by the value at its shift. -/
theorem C170_fold [Module (Zp p) K] (hadd : ∀ a b, cast (a + b) = cast a + cast b) (sub basis : List V) (s : V) :
    ∃ q its, affineVanishing (zpIter p (Zp.ofInt (p := p))) cast sub 0 = .ok q ∧
      affineIter (zpIter p (Zp.ofInt (p := p))) basis s = .ok its ∧
      affineIter (zpIter p (Zp.ofInt (p := p))) (basis.map fun b => call q (cast b)) (call q (cast s)) = .ok (its.map fun v => call q (cast v)) := by
  obtain ⟨q, h1, h2, h3⟩ := C170_additive p cast hadd sub
  refine ⟨q, _, h1, items_eq p basis s, ?_⟩
  rw [items_eq, items_map p (fun v => call q (cast v)) fun a b => by simp only [hadd, h2]]

/-- **C170**, fibres: the polynomial takes the same value at two points exactly when they differ by an element of the space. -/
theorem C170_fibres (hadd : ∀ a b, cast (a + b) = cast a + cast b) (basis : List V) :
    ∃ q, affineVanishing (zpIter p (Zp.ofInt (p := p))) cast basis 0 = .ok q ∧
      ∀ x y : K, call q x = call q y ↔ ∃ v ∈ Submodule.span (Zp p) {b | b ∈ basis}, x = y + cast v := by
  obtain ⟨q, h1, h2, -⟩ := C170_additive p cast hadd basis
  obtain ⟨r, its, k1, -, -, -, -, -, k6⟩ := C23_affine_vanishing_partial p cast basis 0
  rw [h1] at k1
  cases k1
  refine ⟨q, h1, fun x y => ?_⟩
  have := h2 (x - y) y
  rw [sub_add_cancel] at this
  have h := k6 (x - y)
  simp only [sub_zero, ← call_eq_eval] at h
  rw [this, add_eq_right, h]
  exact ⟨fun ⟨v, hv, e⟩ => ⟨v, hv, by rw [e]; ring⟩, fun ⟨v, hv, e⟩ => ⟨v, hv, by rw [e]; ring⟩⟩

end

theorem charP_gf8 : CharP (FF.Fq gf8) 2 :=
  haveI : CharP (Zp 2) 2 := charP_zp 2
  charP_of_injective_ringHom ((castHom gf8).comp (algebraMap (Zp 2) (CPoly (Zp 2)))).injective 2

/-- In GF(8), which is `Z/2[x]` modulo `x³ + x + 1`: the space spanned by `1` has the vanishing polynomial `t² + t`, that of `1, x` is
`t⁴ + (x² + x + 1) t² + (x² + x) t`, with no term in `t³`, and shifting that space by `x²` adds a constant. This meets the hypotheses of
`C170_additive`, `C170_shift`, `C170_sparse`, `C170_step`, `C170_fold` and `C170_fibres`. -/
example : (∀ a b, castHom gf8 (a + b) = castHom gf8 a + castHom gf8 b) ∧ CharP (FF.Fq gf8) 2 ∧
    affineVanishing (zpIter 2 (Zp.ofInt (p := 2))) (castHom gf8) [1] 0 = .ok [0, 1, 1] ∧
    affineVanishing (zpIter 2 (Zp.ofInt (p := 2))) (castHom gf8) [1, gen] 0 = .ok [0, castHom gf8 (gen + gen ^ 2), castHom gf8 (1 + gen + gen ^ 2), 0, 1] ∧
    affineVanishing (zpIter 2 (Zp.ofInt (p := 2))) (castHom gf8) [1, gen] (gen ^ 2) ≠ affineVanishing (zpIter 2 (Zp.ofInt (p := 2))) (castHom gf8) [1, gen] 0 :=
  ⟨fun a b => map_add _ a b, charP_gf8, by decide +kernel, by decide +kernel, by decide +kernel⟩

/-- Squaring plus the identity, on the space spanned by `x, x²` in GF(8). This meets the hypotheses of `C170_fold`, with its scalars. -/
example : ∃ q its, affineVanishing (zpIter 2 (Zp.ofInt (p := 2))) (castHom gf8) [1] 0 = .ok q ∧
    affineIter (zpIter 2 (Zp.ofInt (p := 2))) [gen, gen ^ 2] (1 : CPoly (Zp 2)) = .ok its ∧ its.length = 4 ∧
    letI : Module (Zp 2) (FF.Fq gf8) := ((castHom gf8).comp (algebraMap (Zp 2) (CPoly (Zp 2)))).toModule
    affineIter (zpIter 2 (Zp.ofInt (p := 2))) ([gen, gen ^ 2].map fun b => call q (castHom gf8 b)) (call q (castHom gf8 1)) =
      .ok (its.map fun v => call q (castHom gf8 v)) := by
  let _ : Module (Zp 2) (FF.Fq gf8) := ((castHom gf8).comp (algebraMap (Zp 2) (CPoly (Zp 2)))).toModule
  have := charP_gf8
  obtain ⟨q, its, h1, h2, h3⟩ := C170_fold 2 (castHom gf8) (map_add _) [1] [gen, gen ^ 2] 1
  obtain ⟨its', g1, -, g2, -⟩ := C22_affine_space 2 [gen, gen ^ 2] (1 : CPoly (Zp 2))
  rw [h2] at g1
  cases g1
  exact ⟨q, its, h1, h2, g2, h3⟩

end Verif.Props
