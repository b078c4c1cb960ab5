import Verif.Proofs.AprFacts
import Verif.Props.AdditiveFFT
import Verif.Spec.Apr
/-!
# C89–C94: the APR reduction

`f` is the modulus of the field `GF(p^m)`, `air` any AIR object over it, `k` the zero-knowledge expansion.  The search for the
primitive polynomial draws from an arbitrary stream, and sympy's division is an arbitrary function.
-/

namespace Verif.Props
open Poly FF Spec Apr
open scoped Polynomial
open Polynomial (C X)

section
variable {p : Nat} [hp : Fact p.Prime] {f : List (Zp p)} [hf : IsModulus f]
variable (factorint : Nat → List Nat) (draws : Nat → List (Zp p)) (inner fuel : Nat)
variable (division : Mv.Dict (Fq f) → List (Fq f) → Py (Mv.Dict (Fq f))) (parse : List (Fq f) → Py (Mv.Dict (Fq f)))
variable {n width : Nat} {inp : List (Fq f)} {steps : Int} {polys : List (Mv.Dict (Fq f))} (hw : ∀ g ∈ polys, Mv.WF n g)
  {air : Air.AIR (Fq f)} (hair : Air.mkAIR n width inp steps polys = .ok air) (hdr : ∀ i, (draws i).length = width)

include hw hair hdr in
/-- **C89**. For every AIR, the constructor returns exactly when the search for the primitive polynomial ends and sympy divides
`X(X - 1)` by the vanishing polynomial of `H0`; nothing else can fail.  There is then one witness polynomial and one pair of
boundary polynomials per register, and two constraints per transition polynomial. -/
theorem C89_constructor (m k : Nat) :
    ((∃ A, apr factorint draws inner fuel division parse m air k = .ok A) ↔
      (∃ z, generatePrimitive factorint p width draws inner fuel = .ok z) ∧
      ∃ ZH0 t0, ReedSolomon.affineVanishing (ReedSolomon.zpIter p (Zp.ofInt (p := p))) (castHom f) basisH0 0 = .ok ZH0 ∧
        division (Mv.mul (xLoc (1 + 3 * width)) (Mv.sub (xLoc (1 + 3 * width)) (Mv.ofElt (1 + 3 * width) 1))) ZH0 = .ok t0) ∧
    ∀ A, apr factorint draws inner fuel division parse m air k = .ok A →
      A.w.length = width ∧ A.Zs.length = width ∧ A.Es.length = width ∧ A.rhoJs.length = width ∧ A.Phi.length = 2 * width ∧
        A.nbrs.length = 3 * width := by
  refine ⟨⟨?_, ?_⟩, ?_⟩
  · rintro ⟨A, h⟩
    exact apr_inv factorint draws inner fuel division parse hw hair m k A h
  · rintro ⟨⟨z, hz⟩, ZH0, t0, h1, h2⟩
    obtain ⟨A, hA, -⟩ := apr_mk factorint draws inner fuel division parse hw hair hdr m k z hz ZH0 h1 t0 h2
    exact ⟨A, hA⟩
  · intro A h
    obtain ⟨z, -, hF⟩ := apr_facts factorint draws inner fuel division parse hw hair hdr h
    obtain ⟨Z, hZ, -⟩ := hF.Zs_eq
    obtain ⟨E, hE, -⟩ := hF.Es_eq
    refine ⟨by simp [hF.w_eq], by simp [hZ], by simp [hE], by simp [hF.rhoJs_eq, rhoJs, hZ], hF.phi_len, ?_⟩
    simp [hF.nbrs_eq, neighbors, List.length_flatMap, mul_comm]

omit hp hf in
/-- Programs used as instances: Fibonacci on two registers, a constant and a counter on one. -/
def fibR (R : Type _) [CommRing R] [DecidableEq R] : List (Mv.Dict R) := [Mv.xi 2 1, Mv.add (Mv.xi 2 0) (Mv.xi 2 1)]
def countR (R : Type _) [CommRing R] [DecidableEq R] : List (Mv.Dict R) := [Mv.add (Mv.xi 1 0) (Mv.ofElt 1 1)]

omit hp hf in
theorem wf_fibR (R : Type _) [CommRing R] [DecidableEq R] : ∀ g ∈ fibR R, Mv.WF 2 g := by
  intro g hg
  simp only [fibR, List.mem_cons, List.not_mem_nil, or_false] at hg
  rcases hg with rfl | rfl
  · exact Mv.wf_xi 2 1 (by omega)
  · exact Mv.wf_add (Mv.wf_xi 2 0 (by omega)).good (Mv.wf_xi 2 1 (by omega)).good

omit hp hf in
theorem wf_countR (R : Type _) [CommRing R] [DecidableEq R] : ∀ g ∈ countR R, Mv.WF 1 g := by
  intro g hg
  simp only [countR, List.mem_cons, List.not_mem_nil, or_false] at hg
  subst hg
  exact Mv.wf_add (Mv.wf_xi 1 0 (by omega)).good (Mv.wf_ofElt 1 1).good

omit hp hf in
theorem fibR_air (R : Type _) [CommRing R] [DecidableEq R] [Nontrivial R] (a b : R) :
    ∃ air, Air.mkAIR 2 2 [a, b] 511 (fibR R) = .ok air := by
  refine (C45_constructor 2 (by omega) _ _ _ (wf_fibR R) (by simp [fibR]) rfl).2 ⟨rfl, ?_⟩
  intro g hg
  have hg' := List.mem_of_mem_take hg
  simp only [fibR, List.mem_cons, List.not_mem_nil, or_false] at hg'
  rcases hg' with rfl | rfl
  · rw [Mv.toMv_xi 2 1 (by omega), MvPolynomial.totalDegree_X]; norm_num
  · rw [Mv.toMv_add (Mv.wf_xi 2 0 (by omega)).good (Mv.wf_xi 2 1 (by omega)).good, Mv.toMv_xi 2 1 (by omega),
      Mv.toMv_xi 2 0 (by omega)]
    refine (MvPolynomial.totalDegree_add _ _).trans ?_
    rw [MvPolynomial.totalDegree_X, MvPolynomial.totalDegree_X]; norm_num

omit hp hf in
theorem countR_air (R : Type _) [CommRing R] [DecidableEq R] [Nontrivial R] (a : R) :
    ∃ air, Air.mkAIR 1 1 [a] 511 (countR R) = .ok air := by
  refine (C45_constructor 1 (by omega) _ _ _ (wf_countR R) (by simp [countR]) rfl).2 ⟨rfl, ?_⟩
  intro g hg
  have hg' := List.mem_of_mem_take hg
  simp only [countR, List.mem_cons, List.not_mem_nil, or_false] at hg'
  subst hg'
  rw [Mv.toMv_add (Mv.wf_xi 1 0 (by omega)).good (Mv.wf_ofElt 1 1).good, Mv.toMv_xi 1 0 (by omega), Mv.toMv_ofElt]
  refine (MvPolynomial.totalDegree_add _ _).trans ?_
  rw [MvPolynomial.totalDegree_X, MvPolynomial.totalDegree_C]; norm_num

end

/-- GF(8). -/
abbrev gf8 : List (Zp 2) := [1, 1, 0, 1]

/-- The Fibonacci AIR over GF(8) with input `(0, 1)`, and its APR with `ζ = x² + x + 1`. -/
theorem fib_apr (k : Nat) : ∃ air A, Air.mkAIR 2 2 [(0 : Fq gf8), 1] 511 (fibR (Fq gf8)) = .ok air ∧
    apr (fun _ => [3]) (fun _ => [1, 1]) 1 1 (fun a _ => .ok a) (fun _ => .ok []) 3 air k = .ok A := by
  obtain ⟨air, h⟩ := fibR_air (Fq gf8) 0 1
  obtain ⟨Z, -, hZ, -⟩ := C23_affine_vanishing_partial 2 (castHom gf8 : CPoly (Zp 2) → Fq gf8) basisH0 0
  obtain ⟨A, hA⟩ := (C89_constructor (fun _ => [3]) (fun _ => [1, 1]) 1 1 (fun a _ => .ok a) (fun _ => .ok []) (wf_fibR _) h
    (fun _ => rfl) 3 k).1.2 ⟨⟨[1, 1, 1], by decide +kernel⟩, Z, _, hZ, rfl⟩
  exact ⟨air, A, h, hA⟩

/-- A counter over GF(8), and its APR with `ζ = x + 1`. -/
theorem count_apr (a : Fq gf8) (k : Nat) : ∃ air A, Air.mkAIR 1 1 [a] 511 (countR (Fq gf8)) = .ok air ∧
    apr (fun _ => []) (fun _ => [1]) 1 1 (fun a _ => .ok a) (fun _ => .ok []) 3 air k = .ok A := by
  obtain ⟨air, h⟩ := countR_air (Fq gf8) a
  obtain ⟨Z, -, hZ, -⟩ := C23_affine_vanishing_partial 2 (castHom gf8 : CPoly (Zp 2) → Fq gf8) basisH0 0
  obtain ⟨A, hA⟩ := (C89_constructor (fun _ => []) (fun _ => [1]) 1 1 (fun a _ => .ok a) (fun _ => .ok []) (wf_countR _) h
    (fun _ => rfl) 3 k).1.2 ⟨⟨[1, 1], by decide +kernel⟩, Z, _, hZ, rfl⟩
  exact ⟨air, A, h, hA⟩

/-! ### C90: boundary polynomials -/

section
variable {p : Nat} [hp : Fact p.Prime] {f : List (Zp p)} [hf : IsModulus f]

/-- **C90**, when all constraints concern register `j`: `Z_{B,j}` is the product of `x - g^i mod ζ` over the constraints of
register `j`, and `E_{B,j}` takes their values provided their points differ.  MISSING: constraints on several registers, the
only case an AIR with more than one register produces (`C90_boundary_refuted`). -/
theorem C90_boundary_partial (zeta : CPoly (Zp p)) (h0 : zeta.1 ≠ []) (width j : Nat) (hj : j < width) (B : List (Nat × Nat × Fq f))
    (hall : ∀ b ∈ B, b.2.1 = j) :
    (∃ Zs Z, zBoundaries (castHom f) zeta width B = .ok Zs ∧ Zs.length = width ∧ Zs[j]? = some Z ∧ Canon Z ∧
      toPoly Z = boundaryZ (position f zeta) B j) ∧
    ((B.map fun b => position f zeta b.1).Nodup → ∃ Es E, epsBoundaries (castHom f) zeta width B = .ok Es ∧ Es.length = width ∧
      Es[j]? = some E ∧ Canon E ∧ E.length ≤ B.length ∧ MeetsBoundary (position f zeta) B j (toPoly E)) := by
  constructor
  · obtain ⟨Z, h1, h2, h3⟩ := zBoundaries_eq (castHom f) (map_one _) zeta h0 width B
    refine ⟨_, Z, h3, by simp, by simp [hj], h1, ?_⟩
    rw [h2, boundaryZ, List.filter_eq_self.2 fun b hb => by simp [hall b hb]]
    rfl
  · intro hn
    obtain ⟨E, h1, h2, h3, h4⟩ := PolyUtils.lagrangeInterp_spec _ (B.map fun b => b.2.2) hn (by simp)
    refine ⟨_, E, epsBoundaries_eq _ _ h0 width B E h1, by simp, by simp [hj], h2, by simpa using h3, ?_⟩
    intro i α hb
    obtain ⟨q, hq, e⟩ := List.getElem_of_mem hb
    have := h4 q (by simpa using hq) (by simpa using hq)
    simpa [e] using this

example : ∃ B : List (Nat × Nat × Fq gf8), 2 ≤ B.length ∧ (∀ b ∈ B, b.2.1 = 0) ∧
    (B.map fun b => position gf8 (CPoly.mk [1, 1, 1]) b.1).Nodup := by
  refine ⟨[(0, 0, 1), (1, 0, 0)], by simp, by simp, ?_⟩
  have hd : (CPoly.mk ([1, 1, 1] : List (Zp 2))).val.natDegree = 2 := by
    have hc : Canon ([1, 1, 1] : List (Zp 2)) := by intro a h; simp at h; subst h; decide +kernel
    rw [CPoly.val_mk, natDegree_toPoly hc]; rfl
  have h1 := gPowMod_eq (CPoly.mk ([1, 1, 1] : List (Zp 2))) (by decide +kernel) 1
  have h2 : gPowMod (CPoly.mk ([1, 1, 1] : List (Zp 2))) 1 = .ok (CPoly.mk [0, 1]) := by decide +kernel
  rw [h2] at h1
  injection h1 with h1
  simp only [position, residue_zero _ (show 1 ≤ (CPoly.mk ([1, 1, 1] : List (Zp 2))).val.natDegree by omega), ← h1, map_one,
    List.map_cons, List.map_nil, List.nodup_cons, List.not_mem_nil, not_false_iff, List.mem_singleton, List.nodup_nil, and_true]
  decide +kernel

variable (factorint : Nat → List Nat) (draws : Nat → List (Zp p)) (inner fuel : Nat)
variable (division : Mv.Dict (Fq f) → List (Fq f) → Py (Mv.Dict (Fq f))) (parse : List (Fq f) → Py (Mv.Dict (Fq f)))
variable {n width : Nat} {inp : List (Fq f)} {steps : Int} {polys : List (Mv.Dict (Fq f))} (hw : ∀ g ∈ polys, Mv.WF n g)
  {air : Air.AIR (Fq f)} (hair : Air.mkAIR n width inp steps polys = .ok air) (hdr : ∀ i, (draws i).length = width)

include hw hair hdr in
/-- **C90** fails for every AIR with two registers or more: no `Z_{B,j}` is the required product, and every `E_{B,j}` is 0 at the
point of the boundary constraint, so that it meets the constraint on register `j` only when that input is 0. -/
theorem C90_boundary_refuted {m k : Nat} {A : APR (Zp p) (Fq f)} (hA : apr factorint draws inner fuel division parse m air k = .ok A)
    (h2 : 2 ≤ width) (j : Nat) (hj : j < width) :
    ∃ Z E v, A.Zs[j]? = some Z ∧ A.Es[j]? = some E ∧ inp[j]? = some v ∧ toPoly Z ≠ boundaryZ (position f A.zeta) air.B j ∧
      (MeetsBoundary (position f A.zeta) air.B j (toPoly E) ↔ v = 0) := by
  obtain ⟨z, -, hF⟩ := apr_facts factorint draws inner fuel division parse hw hair hdr hA
  obtain ⟨Z, hZ, -, hZp⟩ := hF.Zs_eq
  obtain ⟨E, hE, -, hEp⟩ := hF.Es_eq
  obtain ⟨W, -, -, -, -, w5, w6, -⟩ := C46_witness_boundary n width inp steps polys hw air hair
  obtain ⟨v, hv, hBj⟩ := w6 j hj
  have hpos : position f A.zeta 0 = 1 := by
    rw [position, residue_zero _ (by
      change 1 ≤ (toPoly A.zeta.1).natDegree
      rw [hF.zeta_eq, hF.deg]; omega), map_one]
  refine ⟨Z, E, v, by simp [hZ, hj], by simp [hE, hj], hv, ?_, ?_⟩
  · intro h
    have hd : (toPoly Z).natDegree = width := by
      rw [hZp, Polynomial.natDegree_pow, Polynomial.natDegree_X_sub_C, mul_one]
    have hd' := PolyUtils.natDegree_linprod ((air.B.filter fun b => decide (b.2.1 = j)).map fun b => position f A.zeta b.1)
    rw [List.map_map, List.length_map] at hd'
    have e : (toPoly Z).natDegree = (air.B.filter fun b => decide (b.2.1 = j)).length := by
      rw [h]; exact hd'.1
    have hlt : (air.B.filter fun b => decide (b.2.1 = j)).length < air.B.length := by
      apply List.length_filter_lt_length_iff_exists.2
      obtain ⟨i, hi, hij⟩ : ∃ i, i < width ∧ i ≠ j := by
        rcases Nat.eq_zero_or_pos j with rfl | h
        · exact ⟨1, by omega, by omega⟩
        · exact ⟨0, by omega, by omega⟩
      obtain ⟨u, -, hBi⟩ := w6 i hi
      exact ⟨_, List.mem_of_getElem? hBi, by simpa using hij⟩
    omega
  · have h00 : (toPoly E).eval (position f A.zeta 0) = 0 := by
      rw [hpos, hEp]
      simp
      right; omega
    constructor
    · intro h
      rw [← h 0 v (List.mem_of_getElem? hBj), h00]
    · rintro rfl i α hb
      obtain ⟨q, hq, e⟩ := List.getElem_of_mem hb
      obtain ⟨u, hu, hBq⟩ := w6 q (by omega)
      rw [List.getElem?_eq_getElem hq, e] at hBq
      injection hBq with hBq
      injection hBq with e1 e2
      injection e2 with e2 e3
      subst e1 e2 e3
      rw [h00]
      rw [hv] at hu
      exact Option.some.inj hu

end

example (k : Nat) : ∃ (air : Air.AIR (Fq gf8)) (A : APR (Zp 2) (Fq gf8)), air.inp = [0, 1] ∧ ∃ E, A.Es[1]? = some E ∧
    ¬ MeetsBoundary (position gf8 A.zeta) air.B 1 (toPoly E) := by
  obtain ⟨air, A, h1, h2⟩ := fib_apr k
  obtain ⟨Z, E, v, -, hE, hv, -, h⟩ := C90_boundary_refuted _ _ _ _ _ _ (wf_fibR _) h1 (fun _ => rfl) h2 le_rfl 1 (by omega)
  refine ⟨air, A, (air_facts (wf_fibR _) h1).2.2.1, E, hE, fun hm => ?_⟩
  have := h.1 hm
  simp at hv
  rw [this] at hv
  exact one_ne_zero hv

/-! ### C91: the witness -/

section
variable {p : Nat} [hp : Fact p.Prime] {f : List (Zp p)} [hf : IsModulus f]
variable (factorint : Nat → List Nat) (draws : Nat → List (Zp p)) (inner fuel : Nat)
variable (division : Mv.Dict (Fq f) → List (Fq f) → Py (Mv.Dict (Fq f))) (parse : List (Fq f) → Py (Mv.Dict (Fq f)))
variable {n width : Nat} {inp : List (Fq f)} {steps : Int} {polys : List (Mv.Dict (Fq f))} (hw : ∀ g ∈ polys, Mv.WF n g)
  {air : Air.AIR (Fq f)} (hair : Air.mkAIR n width inp steps polys = .ok air) (hdr : ∀ i, (draws i).length = width)

include hw hair hdr in
/-- **C91** with a single register: the witness encodes the first `2^t` states exactly when all of them are equal to the input.
MISSING: every other trace (`C91_witness_refuted`). -/
theorem C91_witness_partial {m k : Nat} {A : APR (Zp p) (Fq f)} (hA : apr factorint draws inner fuel division parse m air k = .ok A)
    (h1 : width = 1) :
    ∃ W Z E, A.w[0]? = some W ∧ A.Zs[0]? = some Z ∧ A.Es[0]? = some E ∧
      (EncodesTrace (position f A.zeta) air.trace 0 (2 ^ A.t) (toPoly W) (toPoly Z) (toPoly E) ↔
        ∀ i, i < 2 ^ A.t → air.trace[i]? = some inp) := by
  subst h1
  obtain ⟨z, -, hF⟩ := apr_facts factorint draws inner fuel division parse hw hair hdr hA
  obtain ⟨-, -, -, hil, -, -, -, -, -, -, htl, -⟩ := air_facts hw hair
  obtain ⟨Z, hZ, -, hZp⟩ := hF.Zs_eq
  obtain ⟨E, hE, -, hEp⟩ := hF.Es_eq
  obtain ⟨a, rfl⟩ := List.length_eq_one_iff.1 hil
  refine ⟨[], Z, E, by simp [hF.w_eq], by simp [hZ], by simp [hE], ?_⟩
  have hrow : ∀ x ∈ air.trace, x.length = 1 := by
    obtain ⟨-, rfl, hpl, hil⟩ := mkAIR_shape hair
    obtain ⟨-, tr, out, h2, Ps, h3, C, h4, cd, -, -, B, -, rfl⟩ := (mkAIR_iff 1 1 [a] steps polys air).1 hair
    obtain ⟨tr', out', h2', hl⟩ := C44_total 1 [a] steps polys hw hpl hil
    rw [h2] at h2'
    cases h2'
    exact hl
  have he : ∀ x, (toPoly ([] : List (Fq f)) * toPoly Z + toPoly E).eval x = a := by
    intro x; rw [toPoly_nil, zero_mul, zero_add, hEp]; simp
  rw [hF.t_eq]
  constructor
  · intro h i hi
    have hi' : i < air.trace.length := by omega
    obtain ⟨b, hb⟩ := List.length_eq_one_iff.1 (hrow _ (List.getElem_mem hi'))
    have := h i [b] b hi (by rw [List.getElem?_eq_getElem hi', hb]) rfl
    rw [he] at this
    rw [List.getElem?_eq_getElem hi', hb, this]
  · intro h i row v hi hr hv
    rw [h i hi] at hr
    cases hr
    rw [he]
    simpa using hv

include hw hair hdr in
/-- **C91** fails for every AIR with two registers or more and a non-zero input: whatever the program, all witness polynomials
are 0 and they do not even encode the first state. -/
theorem C91_witness_refuted {m k : Nat} {A : APR (Zp p) (Fq f)} (hA : apr factorint draws inner fuel division parse m air k = .ok A)
    (h2 : 2 ≤ width) (j : Nat) (v : Fq f) (hv : inp[j]? = some v) (hv0 : v ≠ 0) :
    ∃ W Z E, A.w[j]? = some W ∧ A.Zs[j]? = some Z ∧ A.Es[j]? = some E ∧ W = [] ∧
      ¬ EncodesTrace (position f A.zeta) air.trace j 1 (toPoly W) (toPoly Z) (toPoly E) := by
  obtain ⟨z, -, hF⟩ := apr_facts factorint draws inner fuel division parse hw hair hdr hA
  obtain ⟨-, -, -, hil, -, -, -, -, -, -, -, hth, -⟩ := air_facts hw hair
  obtain ⟨Z, hZ, -, hZp⟩ := hF.Zs_eq
  obtain ⟨E, hE, -, hEp⟩ := hF.Es_eq
  have hj : j < width := by
    rw [← hil]; exact (List.getElem?_eq_some_iff.1 hv).1
  refine ⟨[], Z, E, by simp [hF.w_eq, hj], by simp [hZ, hj], by simp [hE, hj], rfl, fun h => ?_⟩
  have hpos : position f A.zeta 0 = 1 := by
    rw [position, residue_zero _ (by
      change 1 ≤ (toPoly A.zeta.1).natDegree
      rw [hF.zeta_eq, hF.deg]; omega), map_one]
  have := h 0 inp v (by omega) (by rw [← List.head?_eq_getElem?]; exact hth) hv
  rw [hpos, toPoly_nil, zero_mul, zero_add, hEp] at this
  apply hv0
  rw [← this]
  simp
  right; omega

end

/-- The second register of the Fibonacci program over GF(8) starts at 1. -/
example (k : Nat) : ∃ (air : Air.AIR (Fq gf8)) (A : APR (Zp 2) (Fq gf8)), air.inp = [0, 1] ∧ ∃ Z E, A.Zs[1]? = some Z ∧ A.Es[1]? = some E ∧
    ¬ EncodesTrace (position gf8 A.zeta) air.trace 1 1 0 (toPoly Z) (toPoly E) := by
  obtain ⟨air, A, h1, h2⟩ := fib_apr k
  obtain ⟨W, Z, E, -, hZ, hE, rfl, h⟩ := C91_witness_refuted _ _ _ _ _ _ (wf_fibR _) h1 (fun _ => rfl) h2 le_rfl 1 1 rfl one_ne_zero
  exact ⟨air, A, (air_facts (wf_fibR _) h1).2.2.1, Z, E, hZ, hE, by rwa [toPoly_nil] at h⟩

/-- The counter never keeps its value, so the one-register witness does not encode it either. -/
example (a : Fq gf8) (k : Nat) : ∃ (air : Air.AIR (Fq gf8)) (A : APR (Zp 2) (Fq gf8)), air.inp = [a] ∧ ∃ W Z E, A.w[0]? = some W ∧
    A.Zs[0]? = some Z ∧ A.Es[0]? = some E ∧
    ¬ EncodesTrace (position gf8 A.zeta) air.trace 0 (2 ^ A.t) (toPoly W) (toPoly Z) (toPoly E) := by
  obtain ⟨air, A, h1, h2⟩ := count_apr a k
  obtain ⟨W, Z, E, hW, hZ, hE, h⟩ := C91_witness_partial _ _ _ _ _ _ (wf_countR _) h1 (fun _ => rfl) h2 rfl
  refine ⟨air, A, (air_facts (wf_countR _) h1).2.2.1, W, Z, E, hW, hZ, hE, fun he => ?_⟩
  obtain ⟨z, -, hF⟩ := apr_facts _ _ _ _ _ _ (wf_countR _) h1 (fun _ => rfl) h2
  have h0 := h.1 he 0 (by positivity)
  have h01 := h.1 he 1 (by rw [hF.t_eq]; norm_num)
  obtain ⟨-, tr, out, htr, Ps, h3, C, h4, cd, -, -, B, -, rfl⟩ := (mkAIR_iff 1 1 [a] 511 _ air).1 h1
  obtain ⟨-, -, -, hst⟩ := (C44_trace 1 1 [a] 511 _ tr out).1 htr
  obtain ⟨g, hg, v, hv, hc⟩ := (hst 0 _ _ h0 h01).2 0 (by omega)
  simp only [countR, List.getElem?_cons_zero, Option.some.injEq] at hg hv
  subst hg hv
  have hwf := wf_countR (Fq gf8) _ (List.mem_singleton.2 rfl)
  rw [Mv.call_spec hwf.len [a] rfl, Mv.toMv_add (Mv.wf_xi 1 0 (by omega)).good (Mv.wf_ofElt 1 1).good, Mv.toMv_xi 1 0 (by omega),
    Mv.toMv_ofElt] at hc
  simp at hc

/-! ### C92: spaces and rates -/

section
variable {p : Nat} [hp : Fact p.Prime] {f : List (Zp p)} [hf : IsModulus f]
variable (factorint : Nat → List Nat) (draws : Nat → List (Zp p)) (inner fuel : Nat)
variable (division : Mv.Dict (Fq f) → List (Fq f) → Py (Mv.Dict (Fq f))) (parse : List (Fq f) → Py (Mv.Dict (Fq f)))
variable {n width : Nat} {inp : List (Fq f)} {steps : Int} {polys : List (Mv.Dict (Fq f))} (hw : ∀ g ∈ polys, Mv.WF n g)
  {air : Air.AIR (Fq f)} (hair : Air.mkAIR n width inp steps polys = .ok air) (hdr : ∀ i, (draws i).length = width)

/-- The rate of every register. -/
theorem rho_value {A : APR (Zp p) (Fq f)} {m k : Nat} {z : List (Zp p)} (hF : AprFacts A m air inp width k z) :
    A.rhoJs = List.replicate width ((2 ^ (k + 8) - (width : ℚ)) / (((p ^ m) ^ A.L.basis.length : Nat) : ℚ)) := by
  obtain ⟨Z, hZ, hc, hZp⟩ := hF.Zs_eq
  have hd : Poly.degree Z = width := by
    have h := natDegree_toPoly hc
    rw [hZp, Polynomial.natDegree_pow, Polynomial.natDegree_X_sub_C, mul_one] at h
    have : 1 ≤ Z.length := by
      rw [Nat.one_le_iff_ne_zero, Ne, List.length_eq_zero_iff]
      rintro rfl
      rw [toPoly_nil] at hZp
      exact pow_ne_zero _ (Polynomial.X_sub_C_ne_zero 1) hZp.symm
    unfold degree pabs
    omega
  rw [hF.rhoJs_eq, hZ, rhoJs, List.map_replicate, hd, ReedSolomon.affineLen]
  push_cast
  rfl

include hw hair hdr in
/-- **C92**. The rates, as the exact quotients: the composition rate lies strictly between 0 and 1, every register's rate is below 1, and they
are all positive exactly when the number of registers is below `2^(k+t)`.  MISSING: that they are the rates with respect to the size of `L`
(`C92_rates_refuted`). -/
theorem C92_rates_partial {m k : Nat} (hm : 1 ≤ m) {A : APR (Zp p) (Fq f)}
    (hA : apr factorint draws inner fuel division parse m air k = .ok A) :
    0 < A.rhoCmp ∧ A.rhoCmp < 1 ∧ A.rhoJs.length = width ∧ (∀ ρ ∈ A.rhoJs, ρ < 1) ∧
      ((∀ ρ ∈ A.rhoJs, 0 < ρ) ↔ width < 2 ^ (k + A.t)) := by
  obtain ⟨z, -, hF⟩ := apr_facts factorint draws inner fuel division parse hw hair hdr hA
  obtain ⟨w1, -⟩ := air_facts hw hair
  have hq : 2 ≤ p ^ m := le_trans hp.out.two_le (Nat.le_self_pow (by omega) p)
  have hpow : ∀ e, 2 ^ e ≤ (p ^ m) ^ e := fun e => Nat.pow_le_pow_left hq e
  have hpos : ∀ e, 0 < (p ^ m) ^ e := fun e => lt_of_lt_of_le (by positivity) (hpow e)
  have hcmp : 1 + 2 ^ (k + 8 + A.d) < (p ^ m) ^ A.Lcmp.basis.length := by
    refine lt_of_lt_of_le ?_ (hpow _)
    rw [hF.Lcmp_eq]
    simp only [List.length_map, List.length_range]
    have h1 : 2 ^ (1 + k + 5 + 8 + A.d) = 2 ^ 6 * 2 ^ (k + 8 + A.d) := by rw [← pow_add]; congr 1; omega
    have := Nat.one_le_two_pow (n := k + 8 + A.d)
    omega
  have hL : 2 ^ (k + 8) < (p ^ m) ^ A.L.basis.length := by
    refine lt_of_lt_of_le ?_ (hpow _)
    rw [hF.L_eq]
    simp only [List.length_append, List.length_map, List.length_range, List.length_singleton]
    exact Nat.pow_lt_pow_right (by norm_num) (by omega)
  have hLq : (0 : ℚ) < (((p ^ m) ^ A.L.basis.length : Nat) : ℚ) := by exact_mod_cast hpos _
  have hCq : (0 : ℚ) < (((p ^ m) ^ A.Lcmp.basis.length : Nat) : ℚ) := by exact_mod_cast hpos _
  rw [rho_value hF, hF.rhoCmp_eq, hF.t_eq, rhoCmp, ReedSolomon.affineLen]
  refine ⟨by positivity, ?_, by simp, ?_, ?_⟩
  · rw [div_lt_one hCq]
    exact_mod_cast hcmp
  · intro ρ hρ
    rw [List.eq_of_mem_replicate hρ, div_lt_one hLq]
    have : ((2 ^ (k + 8) : Nat) : ℚ) < (((p ^ m) ^ A.L.basis.length : Nat) : ℚ) := by exact_mod_cast hL
    push_cast at this ⊢
    have hw0 : (0 : ℚ) ≤ width := by positivity
    linarith
  · have h0 : (0 < (2 ^ (k + 8) - (width : ℚ)) / (((p ^ m) ^ A.L.basis.length : Nat) : ℚ)) ↔ width < 2 ^ (k + 8) := by
      rw [div_pos_iff_of_pos_right hLq, sub_pos]
      exact_mod_cast Iff.rfl
    rw [← h0]
    exact ⟨fun h => h _ (List.mem_replicate.2 ⟨by omega, rfl⟩), fun h ρ hρ => by rw [List.eq_of_mem_replicate hρ]; exact h⟩

include hw hair hdr in
/-- **C92** fails over every proper extension field: `L` has at most `p^dim` elements, but the rates are computed with
`(p^m)^dim` in its place; and iterating over `L` or `Lcmp` raises `AttributeError`. -/
theorem C92_rates_refuted {m k : Nat} (hm : 2 ≤ m) {A : APR (Zp p) (Fq f)}
    (hA : apr factorint draws inner fuel division parse m air k = .ok A) (hwd : width < 2 ^ (k + A.t)) :
    (∀ ρ ∈ A.rhoJs, ρ * (Set.ncard {v | v - A.L.shift ∈ Submodule.span (Zp p) {b | b ∈ A.L.basis}} : ℚ) < 2 ^ (k + A.t) - width) ∧
    ReedSolomon.affineIter (ReedSolomon.fqIter : Py (List (Fq f))) (A.L.basis.map (castHom f)) (castHom f A.L.shift) =
      .error .attributeError ∧
    ReedSolomon.affineIter (ReedSolomon.fqIter : Py (List (Fq f))) (A.Lcmp.basis.map (castHom f)) (castHom f A.Lcmp.shift) =
      .error .attributeError := by
  obtain ⟨z, -, hF⟩ := apr_facts factorint draws inner fuel division parse hw hair hdr hA
  have hne : A.L.basis.length ≠ 0 ∧ A.Lcmp.basis.length ≠ 0 := by
    rw [hF.L_eq, hF.Lcmp_eq]; simp
  refine ⟨?_, ?_, ?_⟩
  · obtain ⟨items, -, h2, h3, -⟩ := C22_affine_space p A.L.basis A.L.shift
    have hcard : Set.ncard {v | v - A.L.shift ∈ Submodule.span (Zp p) {b | b ∈ A.L.basis}} ≤ p ^ A.L.basis.length := by
      classical
      have : {v | v - A.L.shift ∈ Submodule.span (Zp p) {b | b ∈ A.L.basis}} = (items.toFinset : Set (CPoly (Zp p))) := by
        ext v; simp [← h2]
      rw [this, Set.ncard_coe_finset]
      refine (List.toFinset_card_le items).trans ?_
      rw [h3, ReedSolomon.affineLen, pow_one]
    have hlt : p ^ A.L.basis.length < (p ^ m) ^ A.L.basis.length :=
      Nat.pow_lt_pow_left (by
        calc p = p ^ 1 := (pow_one p).symm
          _ < p ^ m := Nat.pow_lt_pow_right hp.out.one_lt (by omega)) hne.1
    intro ρ hρ
    rw [rho_value hF] at hρ
    rw [List.eq_of_mem_replicate hρ, hF.t_eq]
    rw [hF.t_eq] at hwd
    have hpos : (0 : ℚ) < 2 ^ (k + 8) - width := by
      rw [sub_pos]; exact_mod_cast hwd
    have hLq : (0 : ℚ) < (((p ^ m) ^ A.L.basis.length : Nat) : ℚ) := by
      exact_mod_cast lt_of_le_of_lt (Nat.zero_le _) hlt
    have hc : (Set.ncard {v | v - A.L.shift ∈ Submodule.span (Zp p) {b | b ∈ A.L.basis}} : ℚ) <
        (((p ^ m) ^ A.L.basis.length : Nat) : ℚ) := by
      exact_mod_cast lt_of_le_of_lt hcard hlt
    rw [div_mul_eq_mul_div, div_lt_iff₀ hLq]
    exact mul_lt_mul_of_pos_left hc hpos
  · rw [ReedSolomon.affineIter_fq, if_neg]
    intro h
    simp at h
    exact hne.1 (by simp [h])
  · rw [ReedSolomon.affineIter_fq, if_neg]
    intro h
    simp at h
    exact hne.2 (by simp [h])

end

example (k : Nat) : ∃ (A : APR (Zp 2) (Fq gf8)), A.rhoJs ≠ [] ∧ ∀ ρ ∈ A.rhoJs,
    ρ * (Set.ncard {v | v - A.L.shift ∈ Submodule.span (Zp 2) {b | b ∈ A.L.basis}} : ℚ) ≠ 2 ^ (k + 8) - 2 := by
  obtain ⟨air, A, h1, h2⟩ := fib_apr k
  obtain ⟨z, -, hF⟩ := apr_facts _ _ _ _ _ _ (wf_fibR _) h1 (fun _ => rfl) h2
  have hk : 2 < 2 ^ (k + A.t) := by
    rw [hF.t_eq]
    calc 2 < 2 ^ 8 := by norm_num
      _ ≤ 2 ^ (k + 8) := Nat.pow_le_pow_right (by norm_num) (by omega)
  obtain ⟨-, -, hl, -⟩ := C92_rates_partial _ _ _ _ _ _ (wf_fibR _) h1 (fun _ => rfl) (by norm_num) h2
  obtain ⟨h, -⟩ := C92_rates_refuted _ _ _ _ _ _ (wf_fibR _) h1 (fun _ => rfl) (by norm_num) h2 hk
  refine ⟨A, fun e => by rw [e] at hl; simp at hl, fun ρ hρ => ?_⟩
  have := h ρ hρ
  rw [hF.t_eq] at this
  exact ne_of_lt (by simpa using this)

/-! ### C93: points and neighbours -/

theorem zp_two (c : Zp 2) : c = 0 ∨ c = 1 := by
  have := (ReedSolomon.zp_elems 2).2 c
  simp only [List.mem_map, List.mem_range] at this
  obtain ⟨i, hi, rfl⟩ := this
  interval_cases i <;> decide
theorem zp_two_two : (OfNat.ofNat 2 : Zp 2) = 0 := by decide

theorem residue_succ {K : Type _} [Field K] [DecidableEq K] (zeta : CPoly K) (w : Nat) (hm : zeta.val.Monic)
    (hd : zeta.val.natDegree = w + 1) (i : Nat) :
    (residue zeta (i + 1)).val = X * (residue zeta i).val - C ((residue zeta i).val.coeff w) * zeta.val := by
  rw [val_residue, val_residue]
  set r := X ^ i % zeta.val with hr
  have hr0 : r.degree < zeta.val.degree := Polynomial.degree_mod_lt _ hm.ne_zero
  have hrn : r.natDegree ≤ w := by
    rcases eq_or_ne r 0 with h | h
    · rw [h]; simp
    · have := Polynomial.natDegree_lt_natDegree h hr0
      omega
  have h1 : X ^ (i + 1) % zeta.val = (X * r) % zeta.val := by
    rw [pow_succ', Polynomial.mul_mod X (X ^ i), Polynomial.mul_mod X r, ← hr, (Polynomial.mod_eq_self_iff hm.ne_zero).2 hr0]
  rw [h1]
  refine (div_mod_unique (Q := C (r.coeff w)) (S := X * r - C (r.coeff w) * zeta.val) hm.ne_zero (by ring) ?_).2.symm
  · rw [Polynomial.degree_eq_natDegree hm.ne_zero, hd, Polynomial.degree_lt_iff_coeff_zero]
    intro j hj
    rw [Polynomial.coeff_sub, Polynomial.coeff_C_mul]
    rcases Nat.eq_or_lt_of_le hj with h | h
    · rw [← h, Polynomial.coeff_X_mul]
      have : zeta.val.coeff (w + 1) = 1 := by rw [← hd]; exact hm.coeff_natDegree
      rw [this]; ring
    · rw [Polynomial.coeff_eq_zero_of_natDegree_lt (lt_of_le_of_lt Polynomial.natDegree_mul_le (by
        rw [Polynomial.natDegree_X]; omega)), Polynomial.coeff_eq_zero_of_natDegree_lt (p := zeta.val) (by omega)]
      ring

section
variable {p : Nat} [hp : Fact p.Prime] {f : List (Zp p)} [hf : IsModulus f]

theorem position_eq_iff {zeta : CPoly (Zp p)} (hm : zeta.val.Monic) (hd : zeta.val.natDegree ≤ (toPoly f).natDegree) (i j : Nat) :
    position f zeta i = position f zeta j ↔ AdjoinRoot.root zeta.val ^ i = AdjoinRoot.root zeta.val ^ j := by
  have e : ∀ i, AdjoinRoot.root zeta.val ^ i = AdjoinRoot.mk zeta.val (X ^ i % zeta.val) := by
    intro i
    rw [← AdjoinRoot.mk_X, ← map_pow, AdjoinRoot.mk_eq_mk]
    exact ⟨X ^ i / zeta.val, by linear_combination (EuclideanDomain.div_add_mod (X ^ i) zeta.val).symm⟩
  have hdeg : ∀ i, (X ^ i % zeta.val).degree < zeta.val.degree := fun i => Polynomial.degree_mod_lt _ hm.ne_zero
  have hlt : (X ^ i % zeta.val - X ^ j % zeta.val).degree < zeta.val.degree :=
    lt_of_le_of_lt (Polynomial.degree_sub_le _ _) (max_lt (hdeg i) (hdeg j))
  have hle : zeta.val.degree ≤ (toPoly f).degree := by
    rw [Polynomial.degree_eq_natDegree hm.ne_zero, Polynomial.degree_eq_natDegree hf.irr.ne_zero]
    exact_mod_cast hd
  rw [position, position, castHom_eq_iff, val_residue, val_residue, e i, e j, AdjoinRoot.mk_eq_mk]
  constructor
  · intro h
    rw [Polynomial.eq_zero_of_dvd_of_degree_lt h (lt_of_lt_of_le hlt hle)]
    exact dvd_zero _
  · intro h
    rw [Polynomial.eq_zero_of_dvd_of_degree_lt h hlt]
    exact dvd_zero _

theorem order_root {F : (Zp p)[X]} (h : Primitive F) (i j : Nat) :
    AdjoinRoot.root F ^ i = AdjoinRoot.root F ^ j ↔ i ≡ j [MOD p ^ F.natDegree - 1] := by
  have : Fact (Irreducible F) := ⟨h.1⟩
  have hcard := Fq.card_adjoinRoot (K := Zp p) h.1.ne_zero
  rw [card_zp] at hcard
  have hfin : Finite (AdjoinRoot F) := Nat.finite_of_card_ne_zero (by rw [hcard]; exact pow_ne_zero _ hp.out.ne_zero)
  obtain ⟨u, hu, hgen⟩ := h.2
  have ho : orderOf u = p ^ F.natDegree - 1 := by
    rw [← hcard, ← Nat.card_units]
    exact orderOf_eq_card_of_forall_mem_zpowers fun v => by
      obtain ⟨k, hk⟩ := hgen v
      exact ⟨k, hk.symm⟩
  rw [← hu, ← ho, ← pow_eq_pow_iff_modEq, ← Units.val_pow_eq_pow_val, ← Units.val_pow_eq_pow_val, Units.val_inj]

variable (factorint : Nat → List Nat) (draws : Nat → List (Zp p)) (inner fuel : Nat)
variable (division : Mv.Dict (Fq f) → List (Fq f) → Py (Mv.Dict (Fq f))) (parse : List (Fq f) → Py (Mv.Dict (Fq f)))
variable {n width : Nat} {inp : List (Fq f)} {steps : Int} {polys : List (Mv.Dict (Fq f))} (hw : ∀ g ∈ polys, Mv.WF n g)
  {air : Air.AIR (Fq f)} (hair : Air.mkAIR n width inp steps polys = .ok air) (hdr : ∀ i, (draws i).length = width)

include hw hair hdr in
/-- **C93**, the points of the steps, for two registers or more, when the field's degree is at least the number of registers:
the `2^t` points the witness is interpolated at are pairwise different exactly when `2^t < p^width`. -/
theorem C93_points_distinct_iff (hfac : IsFactorint factorint) {m k : Nat} {A : APR (Zp p) (Fq f)}
    (hA : apr factorint draws inner fuel division parse m air k = .ok A) (h2 : 2 ≤ width) (hm : width ≤ (toPoly f).natDegree) :
    ((List.range (2 ^ A.t)).map (position f A.zeta)).Nodup ↔ 2 ^ A.t < p ^ width := by
  obtain ⟨z, hz, hF⟩ := apr_facts factorint draws inner fuel division parse hw hair hdr hA
  obtain ⟨-, -, -, hprim⟩ := C16_generate_primitive_partial p factorint hfac width h2 draws hdr inner fuel z hz
  have hzv : A.zeta.val = toPoly z := by rw [← hF.zeta_eq]; rfl
  have key : ∀ i j, position f A.zeta i = position f A.zeta j ↔ i ≡ j [MOD p ^ width - 1] := by
    intro i j
    rw [position_eq_iff (by rw [hzv]; exact hF.monic) (by rw [hzv, hF.deg]; exact hm), hzv, order_root hprim,
      hF.deg]
  have hp1 : 1 < p ^ width := Nat.one_lt_pow (by omega) hp.out.one_lt
  have h2t : 1 ≤ 2 ^ A.t := Nat.one_le_two_pow
  rw [List.nodup_map_iff_inj_on List.nodup_range]
  simp only [List.mem_range, key]
  constructor
  · intro h
    by_contra hlt
    have := h 0 (by omega) (p ^ width - 1) (by omega) (by simp [Nat.ModEq])
    omega
  · intro h i hi j hj hij
    exact Nat.ModEq.eq_of_lt_of_lt hij (by omega) (by omega)

include hw hair hdr in
/-- **C93** in characteristic 2: for each register, one of the neighbour maps takes the point of step `i` to that of step `i + 1`.
MISSING: odd characteristic (`C93_neighbours_refuted`), and that the points differ (`C93_points_distinct_iff`). -/
theorem C93_neighbours_partial (h2 : p = 2) {m k : Nat} {A : APR (Zp p) (Fq f)}
    (hA : apr factorint draws inner fuel division parse m air k = .ok A) (i tau : Nat) (ht : tau < width) :
    ∃ nb, (tau, nb) ∈ A.nbrs ∧ call nb (position f A.zeta i) = position f A.zeta (i + 1) := by
  obtain ⟨z, -, hF⟩ := apr_facts factorint draws inner fuel division parse hw hair hdr hA
  have hzv : A.zeta.val = toPoly z := by rw [← hF.zeta_eq]; rfl
  obtain ⟨w, rfl⟩ : ∃ w, width = w + 1 := ⟨width - 1, by omega⟩
  have hs := residue_succ A.zeta w (by rw [hzv]; exact hF.monic) (by rw [hzv]; exact hF.deg) i
  have h1 : ∀ c : Zp p, c = 0 ∨ c = 1 := by subst h2; exact zp_two
  rw [hF.nbrs_eq]
  rcases h1 ((residue A.zeta i).val.coeff w) with hc | hc
  · refine ⟨ctor [0, castHom f (CPoly.mk [0, 1])], List.mem_flatMap.2 ⟨tau, List.mem_range.2 ht, by simp⟩, ?_⟩
    have : residue A.zeta (i + 1) = gen * residue A.zeta i := CPoly.val_inj (by
      rw [hs, hc, map_zero, zero_mul, sub_zero, CPoly.val_mul, val_gen])
    rw [PolyUtils.call_eq_eval, toPoly_ctor, position, position, this, map_mul]
    simp only [toPoly_cons, toPoly_nil, mul_zero, add_zero, map_zero, zero_add, Polynomial.eval_mul, Polynomial.eval_X,
      Polynomial.eval_C]
    rw [show (CPoly.mk [0, 1] : CPoly (Zp p)) = gen from rfl]
    ring
  · refine ⟨ctor [castHom f A.zeta, castHom f (CPoly.mk [0, 1])], List.mem_flatMap.2 ⟨tau, List.mem_range.2 ht, by simp⟩, ?_⟩
    have h20 : (2 : (Zp p)[X]) = 0 := by
      subst h2
      rw [← map_ofNat C 2, show (OfNat.ofNat 2 : Zp 2) = 0 from zp_two_two, map_zero]
    have : residue A.zeta (i + 1) = A.zeta + gen * residue A.zeta i := CPoly.val_inj (by
      rw [hs, hc, CPoly.val_add, CPoly.val_mul, val_gen, map_one]
      linear_combination (-A.zeta.val) * h20)
    rw [PolyUtils.call_eq_eval, toPoly_ctor, position, position, this, map_add, map_mul]
    simp only [toPoly_cons, toPoly_nil, mul_zero, add_zero, Polynomial.eval_add, Polynomial.eval_mul, Polynomial.eval_X,
      Polynomial.eval_C]
    rw [show (CPoly.mk [0, 1] : CPoly (Zp p)) = gen from rfl]
    ring

include hw hair hdr in
/-- **C93** fails in odd characteristic whenever the degree of the field exceeds the number of registers: at step `width - 1`,
neither of the two cyclic neighbour maps leads to the point of the next step. -/
theorem C93_neighbours_refuted (h2 : p ≠ 2) {m k : Nat} {A : APR (Zp p) (Fq f)}
    (hA : apr factorint draws inner fuel division parse m air k = .ok A) (hm : width < (toPoly f).natDegree) (tau : Nat) (nb : List (Fq f))
    (hnb : (tau, nb) ∈ A.nbrs) (hid : nb ≠ [0, 1]) :
    call nb (position f A.zeta (width - 1)) ≠ position f A.zeta width := by
  obtain ⟨z, -, hF⟩ := apr_facts factorint draws inner fuel division parse hw hair hdr hA
  have hzv : A.zeta.val = toPoly z := by rw [← hF.zeta_eq]; rfl
  obtain ⟨w1, -⟩ := air_facts hw hair
  obtain ⟨w, rfl⟩ : ∃ w, width = w + 1 := ⟨width - 1, by omega⟩
  have hmon : A.zeta.val.Monic := by rw [hzv]; exact hF.monic
  have hdeg : A.zeta.val.natDegree = w + 1 := by rw [hzv]; exact hF.deg
  have hs := residue_succ A.zeta w hmon hdeg w
  have hr : (residue A.zeta w).val = X ^ w := by
    rw [val_residue, Polynomial.mod_eq_self_iff hmon.ne_zero, Polynomial.degree_X_pow, Polynomial.degree_eq_natDegree hmon.ne_zero, hdeg]
    exact_mod_cast Nat.lt_succ_self w
  rw [hr, Polynomial.coeff_X_pow, if_pos rfl, map_one, one_mul] at hs
  have hnext : residue A.zeta (w + 1) = gen * residue A.zeta w - A.zeta := CPoly.val_inj (by
    rw [hs, CPoly.val_sub, CPoly.val_mul, val_gen, hr])
  have hz0 : castHom f A.zeta ≠ 0 := by
    intro h
    rw [← map_zero (castHom f), castHom_eq_iff, CPoly.val_zero, sub_zero] at h
    have := Polynomial.natDegree_le_of_dvd h hmon.ne_zero
    omega
  have h20 : castHom f A.zeta + castHom f A.zeta ≠ 0 := by
    intro h
    rw [← map_add, ← map_zero (castHom f), castHom_eq_iff, CPoly.val_zero, sub_zero, CPoly.val_add] at h
    have hz : A.zeta.val + A.zeta.val = 0 := by
      by_contra hne
      have := Polynomial.natDegree_le_of_dvd h hne
      have := Polynomial.natDegree_add_le A.zeta.val A.zeta.val
      rw [max_self] at this
      omega
    have hc := congrArg (fun P => Polynomial.coeff P (w + 1)) hz
    simp only [Polynomial.coeff_add, Polynomial.coeff_zero] at hc
    have h1 : A.zeta.val.coeff (w + 1) = 1 := by rw [← hdeg]; exact hmon.coeff_natDegree
    rw [h1] at hc
    have hz := congrArg (Zp.equivZMod (p := p)) hc
    rw [map_add, map_one, map_zero] at hz
    have : ((2 : Nat) : ZMod p) = 0 := by
      push_cast
      rw [← hz]; norm_num
    rw [ZMod.natCast_eq_zero_iff] at this
    exact h2 ((Nat.prime_dvd_prime_iff_eq hp.out Nat.prime_two).1 this)
  rw [Nat.add_sub_cancel]
  rw [hF.nbrs_eq, neighbors, List.mem_flatMap] at hnb
  obtain ⟨t, -, hnb⟩ := hnb
  simp only [List.mem_cons, Prod.mk.injEq, List.not_mem_nil, or_false] at hnb
  intro he
  rw [PolyUtils.call_eq_eval, position, position, hnext, map_sub, map_mul] at he
  rcases hnb with ⟨-, rfl⟩ | ⟨-, rfl⟩ | ⟨-, rfl⟩
  · exact hid (ctor_of_canon fun a h => by simp at h; subst h; exact one_ne_zero)
  · rw [toPoly_ctor] at he
    simp [toPoly_cons, toPoly_nil, gen] at he
    exact h20 (by linear_combination he)
  · rw [toPoly_ctor] at he
    simp [toPoly_cons, toPoly_nil, gen] at he
    apply hz0
    linear_combination he

end

/-- GF(17²), with modulus `x² - 3`. -/
instance modulus_289 : IsModulus ([14, 0, 1] : List (Zp 17)) := by
  have hc : Canon ([14, 0, 1] : List (Zp 17)) := by intro a h; simp at h; subst h; decide +kernel
  refine ⟨hc, ?_⟩
  obtain ⟨b, h1, h2⟩ := isIrreducible_spec hc (by rw [natDegree_toPoly hc]; simp)
  rw [card_zp] at h1
  have : isIrreducible 17 ([14, 0, 1] : List (Zp 17)) = .ok true := by decide +kernel
  rw [this] at h1
  injection h1 with h1
  exact h2.1 h1.symm

/-- GF(9). -/
instance modulus_9 : IsModulus ([1, 0, 1] : List (Zp 3)) := ⟨irr_three.1, irr_three.2⟩

/-- The distinct prime factors, given directly for the two orders of the examples. -/
def factors (n : Nat) : List Nat := if n = 3 then [3] else if n = 288 then [2, 3] else n.primeFactorsList

theorem isFactorint_factors : IsFactorint factors := by
  intro n q hn
  unfold factors
  split_ifs with h1 h2
  · subst h1
    rw [List.mem_singleton]
    exact ⟨fun h => by subst h; norm_num, fun h => (Nat.prime_dvd_prime_iff_eq h.1 (by norm_num)).1 h.2⟩
  · subst h2
    simp only [List.mem_cons, List.not_mem_nil, or_false]
    constructor
    · rintro (rfl | rfl) <;> norm_num
    · rintro ⟨hq, hd⟩
      rw [show 288 = 2 ^ 5 * 3 ^ 2 by norm_num] at hd
      rcases (Nat.Prime.dvd_mul hq).1 hd with h | h
      · exact Or.inl ((Nat.prime_dvd_prime_iff_eq hq (by norm_num)).1 (hq.dvd_of_dvd_pow h))
      · exact Or.inr ((Nat.prime_dvd_prime_iff_eq hq (by norm_num)).1 (hq.dvd_of_dvd_pow h))
  · rw [Nat.mem_primeFactorsList (by omega)]

/-- The polynomial `x² + x + 3`, primitive modulo 17. -/
instance modulus_289' : IsModulus ([3, 1, 1] : List (Zp 17)) := by
  have hc : Canon ([3, 1, 1] : List (Zp 17)) := by intro a h; simp at h; subst h; decide +kernel
  refine ⟨hc, ?_⟩
  obtain ⟨b, h1, h2⟩ := isIrreducible_spec hc (by rw [natDegree_toPoly hc]; simp)
  rw [card_zp] at h1
  have : isIrreducible 17 ([3, 1, 1] : List (Zp 17)) = .ok true := by decide +kernel
  rw [this] at h1
  injection h1 with h1
  exact h2.1 h1.symm

theorem generatePrimitive_of {K : Type} [Field K] [DecidableEq K] {factorint : Nat → List Nat} {p m N : Nat} {draws : Nat → List K}
    {z : List K} {c : Nat} {qs : List Nat} (hN : p ^ m - 1 = N) (hq : factorint N = qs) (hg : genIrr p draws 1 0 = .ok (z, c))
    (hi : isIrreducible p z = .ok true) (hl : primLoop z N qs = .ok true) : generatePrimitive factorint p m draws 1 1 = .ok z := by
  simp [generatePrimitive, genPrim, hg, isPrimitive, hi, hN, hq, hl, bind, Except.bind]

theorem primitive_289 : generatePrimitive factors 17 2 (fun _ => ([3, 1] : List (Zp 17))) 1 1 = .ok [3, 1, 1] := by
  have hroot : ∀ n, (Fq.mk (ctor [0, 1]) ctor_X.1 : Fq ([3, 1, 1] : List (Zp 17))) ^ n ≠ 1 →
      AdjoinRoot.root (toPoly ([3, 1, 1] : List (Zp 17))) ^ n ≠ 1 := by
    intro n hn h
    apply hn
    apply (Fq.equiv (f := ([3, 1, 1] : List (Zp 17)))).injective
    rw [map_pow, map_one, ← h]
    congr 1
    show Fq.val _ = _
    rw [Fq.mk_val, ctor_X.2]
    rfl
  obtain ⟨b, h1, h2⟩ := primLoop_spec modulus_289'.canon (by rw [natDegree_toPoly modulus_289'.canon]; simp) 288 [2, 3]
  have hb : b = true := by
    rw [h2]
    intro q hq
    simp only [List.mem_cons, List.not_mem_nil, or_false] at hq
    rcases hq with rfl | rfl
    · refine hroot _ ?_
      rw [show 288 / 2 = 2 * 2 * 2 * 2 * 3 * 3 by norm_num]
      simp only [pow_mul]
      decide +kernel
    · refine hroot _ ?_
      rw [show 288 / 3 = 2 * 2 * 2 * 2 * 2 * 3 by norm_num]
      simp only [pow_mul]
      decide +kernel
  have hi : isIrreducible 17 ([3, 1, 1] : List (Zp 17)) = .ok true := by decide +kernel
  have hg : genIrr 17 (fun _ => ([3, 1] : List (Zp 17))) 1 0 = .ok ([3, 1, 1], 1) := by decide +kernel
  rw [hb] at h1
  exact generatePrimitive_of (N := 288) (by norm_num) (by norm_num [factors]) hg hi h1

/-- Both sides of `C93_points_distinct_iff` occur: the points differ over GF(17²), and collide over GF(8). -/
example (k : Nat) : (∃ A : APR (Zp 17) (Fq ([14, 0, 1] : List (Zp 17))),
      ((List.range (2 ^ A.t)).map (position [14, 0, 1] A.zeta)).Nodup) ∧
    ∃ A : APR (Zp 2) (Fq gf8), ¬ ((List.range (2 ^ A.t)).map (position gf8 A.zeta)).Nodup := by
  constructor
  · obtain ⟨air, h⟩ := fibR_air (Fq ([14, 0, 1] : List (Zp 17))) 0 1
    obtain ⟨Z, -, hZ, -⟩ := C23_affine_vanishing_partial 17 (castHom ([14, 0, 1] : List (Zp 17))) basisH0 0
    obtain ⟨A, hA⟩ := (C89_constructor factors (fun _ => [3, 1]) 1 1 (fun a _ => .ok a) (fun _ => .ok []) (wf_fibR _) h
      (fun _ => rfl) 2 k).1.2 ⟨⟨[3, 1, 1], primitive_289⟩, Z, _, hZ, rfl⟩
    obtain ⟨z, -, hF⟩ := apr_facts _ _ _ _ _ _ (wf_fibR _) h (fun _ => rfl) hA
    refine ⟨A, (C93_points_distinct_iff _ _ _ _ _ _ (wf_fibR _) h (fun _ => rfl) isFactorint_factors hA le_rfl ?_).2 ?_⟩
    · rw [natDegree_toPoly modulus_289.canon]; simp
    · rw [hF.t_eq]; norm_num
  · obtain ⟨air, h⟩ := fibR_air (Fq gf8) 0 1
    obtain ⟨Z, -, hZ, -⟩ := C23_affine_vanishing_partial 2 (castHom gf8 : CPoly (Zp 2) → Fq gf8) basisH0 0
    obtain ⟨A, hA⟩ := (C89_constructor factors (fun _ => [1, 1]) 1 1 (fun a _ => .ok a) (fun _ => .ok []) (wf_fibR _) h
      (fun _ => rfl) 3 k).1.2 ⟨⟨[1, 1, 1], by decide +kernel⟩, Z, _, hZ, rfl⟩
    obtain ⟨z, -, hF⟩ := apr_facts _ _ _ _ _ _ (wf_fibR _) h (fun _ => rfl) hA
    refine ⟨A, fun hn => ?_⟩
    have := (C93_points_distinct_iff _ _ _ _ _ _ (wf_fibR _) h (fun _ => rfl) isFactorint_factors hA le_rfl (by
      rw [natDegree_toPoly modulus_two.canon]; simp)).1 hn
    rw [hF.t_eq] at this
    norm_num at this

/-- `C93_neighbours_refuted` applies to a counter over GF(9), `C93_neighbours_partial` to the programs over GF(8) above. -/
example (k : Nat) : ∃ A : APR (Zp 3) (Fq ([1, 0, 1] : List (Zp 3))), A.nbrs ≠ [] ∧ ∀ tau nb, (tau, nb) ∈ A.nbrs → nb ≠ [0, 1] →
    call nb (position [1, 0, 1] A.zeta 0) ≠ position [1, 0, 1] A.zeta 1 := by
  obtain ⟨air, h⟩ := countR_air (Fq ([1, 0, 1] : List (Zp 3))) 0
  obtain ⟨Z, -, hZ, -⟩ := C23_affine_vanishing_partial 3 (castHom ([1, 0, 1] : List (Zp 3))) basisH0 0
  obtain ⟨A, hA⟩ := (C89_constructor (fun _ => [2]) (fun _ => [1]) 1 1 (fun a _ => .ok a) (fun _ => .ok []) (wf_countR _) h
    (fun _ => rfl) 2 k).1.2 ⟨⟨[1, 1], by decide +kernel⟩, Z, _, hZ, rfl⟩
  obtain ⟨z, -, hF⟩ := apr_facts _ _ _ _ _ _ (wf_countR _) h (fun _ => rfl) hA
  refine ⟨A, by simp [hF.nbrs_eq, neighbors], fun tau nb hnb hid => ?_⟩
  exact C93_neighbours_refuted _ _ _ _ _ _ (wf_countR _) h (fun _ => rfl) (by norm_num) hA (by
    rw [natDegree_toPoly modulus_9.canon]; simp) tau nb hnb hid

example (k : Nat) : ∃ A : APR (Zp 2) (Fq gf8), A.nbrs.length = 6 ∧ ∀ i, ∃ nb, (1, nb) ∈ A.nbrs ∧
    call nb (position gf8 A.zeta i) = position gf8 A.zeta (i + 1) := by
  obtain ⟨air, A, h1, h2⟩ := fib_apr k
  exact ⟨A, ((C89_constructor _ _ _ _ _ _ (wf_fibR _) h1 (fun _ => rfl) 3 k).2 A h2).2.2.2.2.2,
    fun i => C93_neighbours_partial _ _ _ _ _ _ (wf_fibR _) h1 (fun _ => rfl) rfl h2 i 1 (by omega)⟩

/-! ### C94: the constraint polynomials -/

section
variable {p : Nat} [hp : Fact p.Prime] {f : List (Zp p)} [hf : IsModulus f]
variable (factorint : Nat → List Nat) (draws : Nat → List (Zp p)) (inner fuel : Nat)
variable (division : Mv.Dict (Fq f) → List (Fq f) → Py (Mv.Dict (Fq f))) (parse : List (Fq f) → Py (Mv.Dict (Fq f)))
variable {n width : Nat} {inp : List (Fq f)} {steps : Int} {polys : List (Mv.Dict (Fq f))} (hw : ∀ g ∈ polys, Mv.WF n g)
  {air : Air.AIR (Fq f)} (hair : Air.mkAIR n width inp steps polys = .ok air) (hdr : ∀ i, (draws i).length = width)

include hw hair hdr in
/-- **C94** fails for every AIR: the second constraint of every transition polynomial `P_i`, which should hold exactly where `P_i` does,
is satisfied by every assignment, whereas `P_i` is violated by some pair of states. -/
theorem C94_constraints_refuted {m k : Nat} {A : APR (Zp p) (Fq f)} (hA : apr factorint draws inner fuel division parse m air k = .ok A)
    (i : Nat) (hi : i < width) :
    (∃ Phi, A.Phi[2 * i + 1]? = some Phi ∧ ∀ vals : List (Fq f), vals.length = 1 + A.nbrs.length →
      Mv.call (1 + A.nbrs.length) Phi vals = .ok 0) ∧
    ∃ P, air.polys[i]? = some P ∧ ∃ states : List (Fq f), states.length = 2 * air.width ∧ ∃ v, Mv.call (2 * air.width) P.dict states = .ok v ∧ v ≠ 0 := by
  obtain ⟨z, -, hF⟩ := apr_facts factorint draws inner fuel division parse hw hair hdr hA
  refine ⟨⟨[], hF.phi_odd i hi, fun vals hv => by simp [Mv.call, hv, pyAssert, Mv.callLoop, bind, Except.bind]⟩, ?_⟩
  obtain ⟨-, rfl, hpl, hil⟩ := mkAIR_shape hair
  obtain ⟨rfl, tr, out, htr, Ps, hPs, c, -, cd, -, -, B, -, rfl⟩ := (mkAIR_iff n n inp steps polys air).1 hair
  obtain ⟨Ps', q1, q2, q3⟩ := Air.constraints_spec hw hpl
  rw [hPs] at q1
  cases q1
  have hi' : i < Ps.length := by omega
  refine ⟨Ps[i], List.getElem?_eq_getElem hi', ?_⟩
  obtain ⟨v', h1, -⟩ := Air.call_con hi (hw _ (List.getElem_mem (show i < polys.length by omega))) (q3 i hi hi')
    (x := List.replicate n 0) (y := List.replicate n 0) (by simp) (by simp)
  obtain ⟨v'', h2, h''⟩ := Air.call_con hi (hw _ (List.getElem_mem (show i < polys.length by omega))) (q3 i hi hi')
    (x := List.replicate n 0) (y := List.replicate n (v' + 1)) (by simp) (by simp)
  refine ⟨_, by simp; omega, _, h'', ?_⟩
  rw [h1] at h2
  cases h2
  simp [hi]

end

/-- The first assertion of `C94_constraints_refuted` at the Fibonacci program over GF(8). -/
example (k : Nat) : ∃ A : APR (Zp 2) (Fq gf8), ∀ i < 2, ∃ Phi, A.Phi[2 * i + 1]? = some Phi ∧
    ∀ vals : List (Fq gf8), vals.length = 1 + A.nbrs.length → Mv.call (1 + A.nbrs.length) Phi vals = .ok 0 := by
  obtain ⟨air, A, h1, h2⟩ := fib_apr k
  exact ⟨A, fun i hi => (C94_constraints_refuted _ _ _ _ _ _ (wf_fibR _) h1 (fun _ => rfl) h2 i hi).1⟩

/-- **C94**, the part on `tilde_expansion`, fails over every field: in a reduction of one register with boundary polynomials
`Z = X - 1` and `E = e`, the expansion `X_N * Z(N(X_loc)) + E(N(X_loc))` is `e` wherever `X_loc = 1`, but the polynomial built is
worth `e - 1` there as soon as the third variable is 0. -/
theorem C94_tilde_refuted {F : Type} [Field F] [DecidableEq F] (e : F) :
    (∃ d, tilde 4 [[-1, 1]] [[e]] [0] (ctor [0, 1]) = .ok [d] ∧ ∀ v w : F, Mv.call 4 d [1, v, 0, w] = .ok (e - 1)) ∧
    ∀ x : F, x * call ([-1, 1] : List F) (1 : F) + call [e] (1 : F) = e := by
  have h1 : (-1 : F) ≠ 0 := neg_ne_zero.2 one_ne_zero
  have o1 : ([0, 0, 0, 0] : List Nat) ≤ [1, 0, 0, 0] := by decide
  have o2 : ([1, 0, 0, 0] : List Nat) ≤ [2, 0, 1, 0] := by decide
  have hc : ctor [0, (1 : F)] = [0, 1] := ctor_of_canon fun a h => by simp at h; subst h; exact one_ne_zero
  have hx : xLoc (F := F) 4 = [([1, 0, 0, 0], 1)] := by simp [xLoc, Mv.ofDict, Mv.removeZero, Mv.sortKeys]
  have hnx : callMv 4 [0, 1] (xLoc (F := F) 4) = [([1, 0, 0, 0], 1)] := by
    rw [hx]
    simp [callMv, callMvLoop, Mv.ofElt, Mv.ofDict, Mv.removeZero, Mv.sortKeys, Mv.mul, Mv.isZero, Mv.add, Mv.mulRow, Mv.upsert,
      Mv.addPowerTuples, Mv.keys, Mv.get, List.range_succ]
  have hz : callMv 4 [-1, 1] [([1, 0, 0, 0], (1 : F))] = [([0, 0, 0, 0], -1), ([1, 0, 0, 0], 1)] := by
    simp [callMv, callMvLoop, Mv.ofElt, Mv.ofDict, Mv.removeZero, Mv.sortKeys, Mv.mul, Mv.isZero, Mv.add, Mv.mulRow, Mv.upsert,
      Mv.addPowerTuples, Mv.keys, Mv.get, List.range_succ, List.lookup, o1]
  have he : callMv 4 [e] [([1, 0, 0, 0], (1 : F))] = Mv.ofElt 4 e := by
    by_cases h : e = 0 <;>
      simp [callMv, callMvLoop, Mv.ofElt, Mv.ofDict, Mv.removeZero, Mv.sortKeys, Mv.add, Mv.keys, Mv.get, h]
  have hm : Mv.mul (Mv.ofDict [([1, 0], (1 : F))]) [([0, 0, 0, 0], -1), ([1, 0, 0, 0], 1)] =
      [([1, 0, 0, 0], -1), ([2, 0, 1, 0], 1)] := by
    simp [Mv.ofDict, Mv.removeZero, Mv.sortKeys, Mv.mul, Mv.isZero, Mv.mulRow, Mv.upsert, Mv.addPowerTuples, List.range_succ, o2]
  have hg : Mv.Good 4 [([1, 0, 0, 0], (-1 : F)), ([2, 0, 1, 0], 1)] := ⟨by simp [Mv.keys], by simp [Mv.keys]⟩
  refine ⟨⟨Mv.add [([1, 0, 0, 0], -1), ([2, 0, 1, 0], 1)] (Mv.ofElt 4 e), ?_, fun v w => ?_⟩, fun x => ?_⟩
  · rw [tilde, hc, hnx]
    simp only [List.map_cons, List.map_nil, hz, he]
    simp [PolyUtils.pyMap, pyIdx, bind, Except.bind, hm]
  · have h3 := Mv.call_spec (A := F) (n := 4) (fun q hq => hg.2 _ (List.mem_map_of_mem hq)) [1, v, 0, w] rfl
    have h2 : Mv.call 4 [([1, 0, 0, 0], (-1 : F)), ([2, 0, 1, 0], 1)] [1, v, 0, w] = .ok (-1) := by
      simp [Mv.call, pyAssert, Mv.callLoop, Mv.monoLoop, pyIdx, bind, Except.bind]
    rw [h2] at h3
    injection h3 with h3
    have hwf := Mv.wf_add hg (Mv.wf_ofElt 4 e).good
    rw [Mv.call_spec (A := F) (n := 4) (fun q hq => hwf.good.2 _ (List.mem_map_of_mem hq)) _ rfl, Mv.toMv_add hg (Mv.wf_ofElt 4 e).good,
      Mv.toMv_ofElt, map_add, ← h3]
    simp
    ring
  · rw [PolyUtils.call_eq_eval, PolyUtils.call_eq_eval]
    simp [toPoly_cons, toPoly_nil]

end Verif.Props
