import Verif.Props.Linearized
import Mathlib.LinearAlgebra.LinearIndependent.Lemmas
/-!
# C171: a vanishing polynomial stands for its space
-/

namespace Verif.Props
open Poly PolyUtils ReedSolomon Apr
open scoped Polynomial
open Polynomial (C X)

section
variable (p : Nat) [Fact p.Prime] {V : Type} [AddCommGroup V] [Module (Zp p) V] {K : Type} [Field K] [DecidableEq K] (cast : V → K)

theorem zpoly_perm {xs ys : List K} (h : xs.Perm ys) : zpoly xs = zpoly ys :=
  toPoly_inj (canon_zpoly _) (canon_zpoly _) (by rw [toPoly_zpoly, toPoly_zpoly]; exact (h.map _).prod_eq)

/-- **C171**, bases: two spaces with the same elements, given by independent bases, have the same polynomial, coefficient by coefficient. -/
theorem C171_basis (B B' : List V) (s s' : V) (hB : LinearIndependent (Zp p) B.get) (hB' : LinearIndependent (Zp p) B'.get)
    (h : ∀ v, v - s ∈ Submodule.span (Zp p) {b | b ∈ B} ↔ v - s' ∈ Submodule.span (Zp p) {b | b ∈ B'}) :
    affineVanishing (zpIter p (Zp.ofInt (p := p))) cast B s = affineVanishing (zpIter p (Zp.ofInt (p := p))) cast B' s' := by
  obtain ⟨i1, a1, a2, -, a3⟩ := C22_affine_space p B s
  obtain ⟨i2, b1, b2, -, b3⟩ := C22_affine_space p B' s'
  simp only [affineVanishing, a1, b1, bind, Except.bind]
  rw [zpoly_perm (((List.perm_ext_iff_of_nodup (a3.2 hB) (b3.2 hB')).2 fun v => by rw [a2, b2, h]).map cast)]

/-- **C171**, the converse, for any bases, if the elements are different in the field: equal polynomials, equal spaces. -/
theorem C171_determines (hc : Function.Injective cast) (B B' : List V) (s s' : V)
    (h : affineVanishing (zpIter p (Zp.ofInt (p := p))) cast B s = affineVanishing (zpIter p (Zp.ofInt (p := p))) cast B' s') (v : V) :
    v - s ∈ Submodule.span (Zp p) {b | b ∈ B} ↔ v - s' ∈ Submodule.span (Zp p) {b | b ∈ B'} := by
  obtain ⟨r, -, k1, -, -, -, -, -, k6⟩ := C23_affine_vanishing_partial p cast B s
  obtain ⟨r', -, l1, -, -, -, -, -, l6⟩ := C23_affine_vanishing_partial p cast B' s'
  rw [h, l1] at k1
  cases k1
  have := (k6 (cast v)).symm.trans (l6 (cast v))
  exact ⟨fun g => by obtain ⟨w, hw, e⟩ := this.1 ⟨v, g, rfl⟩; rwa [← hc e], fun g => by obtain ⟨w, hw, e⟩ := this.2 ⟨v, g, rfl⟩; rwa [← hc e]⟩

/-- **C171**, cosets: the polynomial of a space is the product of those of the `p` cosets of the space without the first basis element. -/
theorem C171_split (b : V) (B : List V) (s : V) :
    ∃ (q : List K) (qs : List (List K)), affineVanishing (zpIter p (Zp.ofInt (p := p))) cast (b :: B) s = .ok q ∧ qs.length = p ∧
      (∀ (i : Nat) (r : List K), qs[i]? = some r → affineVanishing (zpIter p (Zp.ofInt (p := p))) cast B (s + i • b) = .ok r) ∧
      toPoly q = (qs.map toPoly).prod ∧ ∀ x : K, call q x = (qs.map fun r => call r x).prod := by
  have key : toPoly (zpoly ((items p (b :: B) s).map cast)) =
      (((List.range p).map fun i => zpoly ((items p B (s + i • b)).map cast)).map toPoly).prod := by
    rw [toPoly_zpoly, items, List.map_map, prod_flatMap, List.map_map]
    congr 1
    apply List.map_congr_left
    intro i _
    simp only [Function.comp, toPoly_zpoly, List.map_map]
  refine ⟨zpoly ((items p (b :: B) s).map cast), (List.range p).map fun i => zpoly ((items p B (s + i • b)).map cast),
    by simp only [affineVanishing, items_eq, bind, Except.bind], by simp, fun i r h => ?_, key, fun x => ?_⟩
  · rw [List.getElem?_map, Option.map_eq_some_iff] at h
    obtain ⟨j, h1, h2⟩ := h
    obtain ⟨h3, rfl⟩ := List.getElem?_eq_some_iff.1 h1
    simp only [List.getElem_range] at h2
    simp only [affineVanishing, items_eq, bind, Except.bind, h2]
  · rw [call_eq_eval, key, Polynomial.eval_list_prod, List.map_map]
    congr 1
    apply List.map_congr_left
    intro r _
    rw [Function.comp, call_eq_eval]

/-- **C171**, divisibility: a polynomial is 0 at all elements of the space exactly when dividing by the vanishing polynomial leaves
remainder 0, for an independent basis and elements that are different in the field. -/
theorem C171_divides (hc : Function.Injective cast) (B : List V) (s : V) (hB : LinearIndependent (Zp p) B.get) (f : List K) (hf : Canon f) :
    ∃ q a r, affineVanishing (zpIter p (Zp.ofInt (p := p))) cast B s = .ok q ∧ divmod f q = .ok (a, r) ∧
      (r = [] ↔ ∀ v, v - s ∈ Submodule.span (Zp p) {b | b ∈ B} → call f (cast v) = 0) := by
  obtain ⟨its, a1, a2, -, a3⟩ := C22_affine_space p B s
  have hq : toPoly (zpoly (its.map cast)) = (its.map fun v => X - C (cast v)).prod := by rw [toPoly_zpoly, List.map_map]; rfl
  have hq0 : zpoly (its.map cast) ≠ [] := fun h => by simpa [h] using zpoly_length (its.map cast)
  obtain ⟨a, r, d1, -, d3, -, d5, -⟩ := divmod_eq hf (canon_zpoly (its.map cast)) hq0
  refine ⟨zpoly (its.map cast), a, r, by simp only [affineVanishing, a1, bind, Except.bind], d1, ?_⟩
  rw [← toPoly_eq_zero d3, d5, EuclideanDomain.mod_eq_zero, hq]
  have hn : (its.map cast).Nodup := (a3.2 hB).map hc
  constructor
  · rintro ⟨g, hg⟩ v hv
    rw [call_eq_eval, hg, Polynomial.eval_mul, Polynomial.eval_list_prod, List.prod_eq_zero, zero_mul]
    rw [List.mem_map]
    exact ⟨X - C (cast v), List.mem_map.2 ⟨v, (a2 v).2 hv, rfl⟩, by simp⟩
  · intro h
    have e : (its.map fun v => X - C (cast v)).prod = ∏ x ∈ (its.map cast).toFinset, (X - C x) := by
      rw [List.prod_toFinset _ hn, List.map_map]
      rfl
    rw [e]
    refine Finset.prod_dvd_of_coprime (fun x _ y _ hxy => Polynomial.pairwise_coprime_X_sub_C (s := fun x : K => x) Function.injective_id hxy) fun x hx => ?_
    rw [List.mem_toFinset, List.mem_map] at hx
    obtain ⟨v, hv, rfl⟩ := hx
    exact Polynomial.dvd_iff_isRoot.2 (by rw [Polynomial.IsRoot, ← call_eq_eval]; exact h v ((a2 v).1 hv))

theorem exists_canon (P : K[X]) : ∃ r : List K, Canon r ∧ toPoly r = P := by
  refine ⟨ctor ((List.range (P.natDegree + 1)).map P.coeff), canon_ctor _, ?_⟩
  rw [toPoly_ctor]
  ext i
  rw [coeff_toPoly, List.getD_eq_getElem?_getD, List.getElem?_map]
  by_cases h : i < P.natDegree + 1
  · rw [List.getElem?_range h]; rfl
  · rw [List.getElem?_eq_none (by simp; omega), Polynomial.coeff_eq_zero_of_natDegree_lt (by omega)]; rfl

theorem lin_dependent [CharP K p] (hadd : ∀ a b, cast (a + b) = cast a + cast b) (B : List V) (hB : ¬ LinearIndependent (Zp p) B.get) :
    ∃ g, lin p (B.map cast) = g ^ p := by
  induction B with
  | nil => exact absurd (@linearIndependent_empty_type (Fin 0) _ _ _ _ _ _ _) hB
  | cons b B ih =>
    rw [List.map_cons, lin]
    by_cases h : LinearIndependent (Zp p) B.get
    · have e : (b :: B).get = Fin.cons b B.get := by
        funext i
        refine Fin.cases ?_ (fun j => ?_) i <;> rfl
      have hb : b ∈ Submodule.span (Zp p) {x | x ∈ B} := by
        by_contra hb
        apply hB
        rw [e]
        refine linearIndependent_finCons.2 ⟨h, fun h' => hb ?_⟩
        convert h' using 2
        ext x
        simp [List.mem_iff_get]
      obtain ⟨q, h1, -, h3⟩ := vanishing_zero p cast hadd B
      obtain ⟨r, -, k1, -, -, -, -, -, k6⟩ := C23_affine_vanishing_partial p cast B 0
      rw [h1] at k1
      cases k1
      have := (k6 (cast b)).2 ⟨b, by simpa using hb, rfl⟩
      rw [h3] at this
      rw [this, zero_pow (Nat.sub_ne_zero_of_lt (Fact.out : p.Prime).one_lt)]
      exact ⟨lin p (B.map cast), by simp⟩
    · obtain ⟨g, hg⟩ := ih h
      refine ⟨g ^ p - C (g.eval (cast b) ^ (p - 1)) * g, ?_⟩
      rw [hg, Polynomial.eval_pow, sub_pow_char, mul_pow, ← Polynomial.C_pow, ← pow_mul, ← pow_mul, ← pow_mul, Nat.mul_comm p (p - 1)]

/-- **C171**, dependent bases: the polynomial is a `p`-th power, so that every element is a root at least `p` times. -/
theorem C171_dependent [CharP K p] (hadd : ∀ a b, cast (a + b) = cast a + cast b) (B : List V) (s : V) (hB : ¬ LinearIndependent (Zp p) B.get) :
    ∃ q r, affineVanishing (zpIter p (Zp.ofInt (p := p))) cast B s = .ok q ∧ Canon r ∧ toPoly q = toPoly r ^ p := by
  obtain ⟨q, h1, -, h3⟩ := vanishing_lin p cast hadd B s
  obtain ⟨g, hg⟩ := lin_dependent p cast hadd B hB
  obtain ⟨r, hr, e⟩ := exists_canon (g.comp (X - C (cast s)))
  exact ⟨q, r, h1, hr, by rw [h3, hg, Polynomial.pow_comp, e]⟩

end

/-- GF(8) as a vector space over Z/2. -/
@[reducible] def gf8Module : Module (Zp 2) (FF.Fq gf8) := ((castHom gf8).comp (algebraMap (Zp 2) (CPoly (Zp 2)))).toModule

/-- `x`, in GF(8). -/
abbrev gf8x : FF.Fq gf8 := castHom gf8 gen

theorem gf8_indep (B : List (FF.Fq gf8)) (its : List (FF.Fq gf8))
    (h : letI := gf8Module; affineIter (zpIter 2 (Zp.ofInt (p := 2))) B 0 = .ok its) :
    letI := gf8Module; its.Nodup ↔ LinearIndependent (Zp 2) B.get := by
  let _ := gf8Module
  obtain ⟨its', h1, -, -, h2⟩ := C22_affine_space 2 B 0
  rw [show affineIter (zpIter 2 (Zp.ofInt (p := 2))) B 0 = .ok its from h] at h1
  cases h1
  exact h2

/-- In GF(8) the space spanned by `1, x` is the one spanned by `x, 1 + x` and shifted by 1; both bases are independent, and `x, x` is not.
This meets the hypotheses of `C171_basis`, `C171_determines`, `C171_split` and `C171_dependent`. -/
example : letI := gf8Module
    LinearIndependent (Zp 2) [1, gf8x].get ∧ LinearIndependent (Zp 2) [gf8x, 1 + gf8x].get ∧ ¬ LinearIndependent (Zp 2) [gf8x, gf8x].get ∧
    (∀ v, v - 0 ∈ Submodule.span (Zp 2) {b | b ∈ [1, gf8x]} ↔ v - 1 ∈ Submodule.span (Zp 2) {b | b ∈ [gf8x, 1 + gf8x]}) ∧
    affineVanishing (zpIter 2 (Zp.ofInt (p := 2))) (id : FF.Fq gf8 → FF.Fq gf8) [1, gf8x] 0 = .ok [0, gf8x + gf8x ^ 2, 1 + gf8x + gf8x ^ 2, 0, 1] ∧
    affineVanishing (zpIter 2 (Zp.ofInt (p := 2))) (id : FF.Fq gf8 → FF.Fq gf8) [gf8x, gf8x] 0 = .ok [0, 0, gf8x ^ 2, 0, 1] ∧
    (Function.Injective (id : FF.Fq gf8 → FF.Fq gf8)) ∧ CharP (FF.Fq gf8) 2 := by
  let _ := gf8Module
  refine ⟨(gf8_indep _ [0, gf8x, 1, 1 + gf8x] (by decide +kernel)).1 (by decide +kernel),
    (gf8_indep _ [0, 1 + gf8x, gf8x, 1] (by decide +kernel)).1 (by decide +kernel),
    fun h => absurd ((gf8_indep _ [0, gf8x, gf8x, 0] (by decide +kernel)).2 h) (by decide +kernel),
    C171_determines 2 id Function.injective_id _ _ _ _ (by decide +kernel), by decide +kernel, by decide +kernel, Function.injective_id, charP_gf8⟩

/-- `t⁸ - t` is 0 on the space spanned by `1, x` in GF(8), and `t³ - t` is not. This meets the hypotheses of `C171_divides`. -/
example : letI := gf8Module
    LinearIndependent (Zp 2) [1, gf8x].get ∧ Canon ([0, 1, 0, 0, 0, 0, 0, 0, 1] : List (FF.Fq gf8)) ∧ Canon ([0, 1, 0, 1] : List (FF.Fq gf8)) ∧
    (∃ q a, affineVanishing (zpIter 2 (Zp.ofInt (p := 2))) (id : FF.Fq gf8 → FF.Fq gf8) [1, gf8x] 0 = .ok q ∧
      divmod [0, 1, 0, 0, 0, 0, 0, 0, 1] q = .ok (a, []) ∧ divmod [0, 1, 0, 1] q = .ok ([], [0, 1, 0, 1])) := by
  let _ := gf8Module
  refine ⟨(gf8_indep _ [0, gf8x, 1, 1 + gf8x] (by decide +kernel)).1 (by decide +kernel), by simp [Canon], by simp [Canon],
    [0, gf8x + gf8x ^ 2, 1 + gf8x + gf8x ^ 2, 0, 1], [1 + gf8x, gf8x + gf8x ^ 2, 1 + gf8x + gf8x ^ 2, 0, 1], by decide +kernel, ?_, by decide +kernel⟩
  decide +kernel

end Verif.Props
