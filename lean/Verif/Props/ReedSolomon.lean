import Verif.Proofs.ReedSolomon
import Verif.Proofs.FiniteField
import Verif.Proofs.SmallPrimes
import Mathlib.Tactic.NormNum.Prime
/-!
# C22–C23: affine spaces and their vanishing polynomials
-/

namespace Verif.Props
open Poly PolyUtils ReedSolomon
open scoped Polynomial

/-- **C22**. Iterating an `AffineSpace` over Z/p, with basis and shift in any vector space (field elements, polynomials):
the items are exactly `shift + span(basis)`; their number is `__len__()`; they are pairwise distinct exactly when the basis
is linearly independent. -/
theorem C22_affine_space (p : Nat) [Fact p.Prime] {V : Type _} [AddCommGroup V] [Module (Zp p) V] (basis : List V)
    (shift : V) : ∃ items, affineIter (zpIter p (Zp.ofInt (p := p))) basis shift = .ok items ∧
      (∀ v, v ∈ items ↔ v - shift ∈ Submodule.span (Zp p) {b | b ∈ basis}) ∧
      items.length = affineLen p 1 basis ∧
      (items.Nodup ↔ LinearIndependent (Zp p) basis.get) := by
  obtain ⟨h1, h2⟩ := zp_elems p
  obtain ⟨items, a, b, c, d⟩ := affineIter_spec _ h1 h2 basis shift
  exact ⟨items, a, c, by simpa [affineLen] using b, d⟩

/-- **C22**. `len(aff)` agrees with the number of items when that number is at most `sys.maxsize`; above, it raises. -/
theorem C22_affine_space_len (p : Nat) [Fact p.Prime] {V : Type _} [AddCommGroup V] [Module (Zp p) V] (basis : List V)
    (shift : V) (items : List V) (h : affineIter (zpIter p (Zp.ofInt (p := p))) basis shift = .ok items) :
    (items.length ≤ 2 ^ 63 - 1 → affineLenBuiltin p 1 basis = .ok items.length) ∧
    (2 ^ 63 - 1 < items.length → affineLenBuiltin p 1 basis = .error .overflow) := by
  obtain ⟨items', h1, -, h2, -⟩ := C22_affine_space p basis shift
  rw [h] at h1
  injection h1 with h1
  subst h1
  rw [h2]
  unfold affineLenBuiltin
  exact ⟨fun h => if_pos h, fun h => if_neg (by omega)⟩

example : haveI : Fact (Nat.Prime 3) := ⟨by norm_num⟩
    affineIter (zpIter 3 (Zp.ofInt (p := 3))) [(1, 0), (1, 2)] ((0, 1) : Zp 3 × Zp 3) =
      .ok [(0, 1), (1, 0), (2, 2), (1, 1), (2, 0), (0, 2), (2, 1), (0, 0), (1, 2)] ∧
    affineLenBuiltin 3 1 [((1, 0) : Zp 3 × Zp 3), (1, 2)] = .ok 9 := by decide +kernel

/-- **C23**, for a space with scalars in Z/p, over any vector space (field elements, polynomials) and any field `K` the
elements are cast to. The polynomial is monic, of degree the size of the space, and vanishes exactly on the images of the
elements of the space.  MISSING: spaces with scalars in an extension field, where the code raises
(`C23_affine_vanishing_extension_refuted`). -/
theorem C23_affine_vanishing_partial (p : Nat) [Fact p.Prime] {V : Type _} [AddCommGroup V] [Module (Zp p) V] {K : Type _}
    [Field K] [DecidableEq K] (cast : V → K) (basis : List V) (shift : V) :
    ∃ r items, affineVanishing (zpIter p (Zp.ofInt (p := p))) cast basis shift = .ok r ∧
      affineIter (zpIter p (Zp.ofInt (p := p))) basis shift = .ok items ∧
      Canon r ∧ (toPoly r).Monic ∧ (toPoly r).natDegree = affineLen p 1 basis ∧
      toPoly r = (items.map fun v => Polynomial.X - Polynomial.C (cast v)).prod ∧
      ∀ x, (toPoly r).eval x = 0 ↔ ∃ v, v - shift ∈ Submodule.span (Zp p) {b | b ∈ basis} ∧ cast v = x := by
  obtain ⟨items, h1, h2, h3, -⟩ := C22_affine_space p basis shift
  have hd := natDegree_linprod (items.map cast)
  refine ⟨zpoly (items.map cast), items, by simp only [affineVanishing, h1, bind, Except.bind], h1, canon_zpoly _, ?_, ?_, ?_,
    fun x => ?_⟩
  · rw [toPoly_zpoly]; exact hd.2
  · rw [toPoly_zpoly, ← h3, hd.1, List.length_map]
  · rw [toPoly_zpoly, List.map_map]; rfl
  · rw [toPoly_zpoly, Polynomial.eval_list_prod, List.prod_eq_zero_iff]
    simp only [List.map_map, List.mem_map, Function.comp, Polynomial.eval_sub, Polynomial.eval_X, Polynomial.eval_C,
      sub_eq_zero, ← h2]
    exact ⟨fun ⟨a, ha, h⟩ => ⟨a, ha, h.symm⟩, fun ⟨a, ha, h⟩ => ⟨a, ha, h.symm⟩⟩

/-- **C23**, the library's own use: scalars in Z/p, basis and shift polynomials over Z/p, the polynomial over the extension
field with modulus `f`. -/
theorem C23_affine_vanishing_in_extension (p : Nat) [Fact p.Prime] (f : List (Zp p)) [FF.IsModulus f]
    (basis : List (CPoly (Zp p))) (shift : CPoly (Zp p)) :
    ∃ r, affineVanishing (zpIter p (Zp.ofInt (p := p))) (fun v => (FF.Fq.mk v.1 v.2 : FF.Fq f)) basis shift = .ok r ∧
      (toPoly r).Monic ∧ (toPoly r).natDegree = affineLen p 1 basis ∧
      ∀ x, (toPoly r).eval x = 0 ↔
        ∃ v, v - shift ∈ Submodule.span (Zp p) {b | b ∈ basis} ∧ (FF.Fq.mk v.1 v.2 : FF.Fq f) = x := by
  obtain ⟨r, -, h1, -, -, h2, h3, -, h4⟩ := C23_affine_vanishing_partial p
    (fun v : CPoly (Zp p) => (FF.Fq.mk v.1 v.2 : FF.Fq f)) basis shift
  exact ⟨r, h1, h2, h3, h4⟩

example : haveI : Fact (Nat.Prime 3) := ⟨by norm_num⟩
    affineVanishing (zpIter 3 (Zp.ofInt (p := 3))) (id : Zp 3 → Zp 3) [1] 2 = .ok [0, 2, 0, 1] := by decide +kernel

/-- **C22/C23** for scalars in an extension field: for every space with a non-empty basis, both the iteration and the vanishing
polynomial raise `AttributeError`. -/
theorem C23_affine_vanishing_extension_refuted {K : Type _} [Field K] [DecidableEq K] (b : K) (basis : List K) (shift : K) :
    affineIter (fqIter : Py (List K)) (b :: basis) shift = .error .attributeError ∧
    affineVanishing (fqIter : Py (List K)) (id : K → K) (b :: basis) shift = .error .attributeError := by
  have := affineIter_fq (K := K) (b :: basis) shift
  rw [if_neg (by simp)] at this
  exact ⟨this, by simp only [affineVanishing, this, bind, Except.bind]⟩

example : affineIter (fqIter : Py (List ℚ)) [1] (2 : ℚ) = .error .attributeError := rfl

end Verif.Props
