import Verif.Proofs.Apr
import Verif.Props.Air
import Verif.Props.ReedSolomon
import Verif.Props.FiniteField
/-!
# What every APR object looks like
-/

namespace Verif.Props
open Poly FF Spec Apr
open scoped Polynomial
open Polynomial (C X)

section
variable {p : Nat} [hp : Fact p.Prime] {f : List (Zp p)} [hf : IsModulus f]
variable (factorint : Nat → List Nat) (draws : Nat → List (Zp p)) (inner fuel : Nat)
variable (division : Mv.Dict (Fq f) → List (Fq f) → Py (Mv.Dict (Fq f))) (parse : List (Fq f) → Py (Mv.Dict (Fq f)))

/-- `APR(air, k)` over `FiniteField(p, m)` with modulus `f`. -/
abbrev apr (m : Nat) (air : Air.AIR (Fq f)) (k : Nat) : Py (APR (Zp p) (Fq f)) :=
  mkAPR factorint draws inner fuel division parse (castHom f) (ReedSolomon.zpIter p (Zp.ofInt (p := p))) p m air k

theorem air_facts {R : Type _} [CommRing R] [DecidableEq R] [Nontrivial R] {n width : Nat} {inp : List R} {steps : Int}
    {polys : List (Mv.Dict R)} (hw : ∀ g ∈ polys, Mv.WF n g) {air : Air.AIR R}
    (hair : Air.mkAIR n width inp steps polys = .ok air) :
    1 ≤ width ∧ air.width = width ∧ air.inp = inp ∧ inp.length = width ∧ air.steps = 511 ∧ air.polys.length = width ∧
      1 ≤ air.cdegree ∧ air.cdegree ≤ 1024 ∧ air.B.map (fun b => b.1) = List.replicate width 0 ∧
      air.B.map (fun b => b.2.2) = inp ∧ air.trace.length = 511 ∧ air.trace.head? = some inp ∧
      ∃ W, Air.witness air = .ok W ∧ W.length = width ∧ ∀ col ∈ W, col.length = 511 := by
  obtain ⟨h1, rfl, hpl, hil⟩ := mkAIR_shape hair
  obtain ⟨W, w1, w2, w3, -, w5, w6, -⟩ := C46_witness_boundary n n inp steps polys hw air hair
  obtain ⟨rfl, tr, out, htr, Ps, hPs, c, -, cd, hcd, hle, B, -, rfl⟩ := (mkAIR_iff n n inp steps polys air).1 hair
  obtain ⟨t1, t2, -⟩ := (C44_trace n n inp 511 polys tr out).1 htr
  obtain ⟨Ps', q1, q2, q3⟩ := Air.constraints_spec hw hpl
  rw [hPs] at q1
  cases q1
  refine ⟨h1, rfl, rfl, hil, rfl, q2, ?_, hle, ?_, ?_, by change tr.length = 511; simp at t1; omega, t2, W, w1, w2, fun col hc => by
    have := w3 col hc; omega⟩
  · simp only [Air.cDegree, Air.bind_iff] at hcd
    obtain ⟨ds, e1, e2⟩ := hcd
    obtain ⟨l1, l2⟩ := (Air.pyMap_range_iff _ _ _).1 e1
    have hne : ds ≠ [] := by rintro rfl; simp at l1; omega
    obtain ⟨mx, m1, m2, -⟩ := Air.pyMax_le hne
    rw [e2] at m1
    cases m1
    obtain ⟨i, hi, rfl⟩ := List.getElem_of_mem m2
    obtain ⟨b, b1, b2⟩ := l2 i (by omega)
    rw [List.getElem?_eq_getElem hi] at b1
    cases b1
    obtain ⟨P, b3, b4⟩ := (Air.bind_iff _ _ _).1 b2
    rw [Air.pyIdx_iff, List.getElem?_eq_getElem (by omega)] at b3
    cases b3
    injection b4 with b4
    change 1 ≤ ds[i]
    rw [← b4, Mv.degree_eq (Mv.MP.wf_dict _)]
    change 1 ≤ (Mv.MP.val _).totalDegree
    rw [q3 i (by omega) (by omega), Air.totalDegree_con]
    exact le_max_left _ _
  · apply List.ext_getElem?
    intro j
    by_cases hj : j < n
    · obtain ⟨α, -, e⟩ := w6 j hj
      simp only at e
      simp [e, hj]
    · simp [hj]
      simp at w5; omega
  · apply List.ext_getElem?
    intro j
    by_cases hj : j < n
    · obtain ⟨α, e', e⟩ := w6 j hj
      simp only at e
      simp [e, e']
    · simp at w5
      rw [List.getElem?_eq_none (by simp; omega), List.getElem?_eq_none (by omega)]

/-- The basis of `H0` for `t = 8`. -/
def basisH0 : List (CPoly (Zp p)) := (List.range 7).map fun i => gen ^ i

/-- What is known about every `APR` object. -/
structure AprFacts (A : APR (Zp p) (Fq f)) (m : Nat) (air : Air.AIR (Fq f)) (inp : List (Fq f)) (width k : Nat) (z : List (Zp p)) :
    Prop where
  air_eq : A.air = air
  t_eq : A.t = 8
  d_eq : A.d = Nat.log 2 air.cdegree + 1
  R_eq : A.R = 5
  k_eq : A.k = k
  zeta_eq : A.zeta.1 = z
  canon : Canon z
  monic : (toPoly z).Monic
  deg : (toPoly z).natDegree = width
  nbrs_eq : A.nbrs = neighbors (castHom f) (List.range width) A.zeta
  L_eq : A.L = ⟨(List.range (1 + k + 5 + 8 + A.d)).map (fun i => gen ^ i) ++ [gen ^ (1 + k + 5 + 8 + A.d) * (1 + gen)], gen ^ (1 + k + 5 + 8 + A.d)⟩
  Lcmp_eq : A.Lcmp = ⟨(List.range (1 + k + 5 + 8 + A.d)).map (fun i => gen ^ i), gen ^ (1 + k + 5 + 8 + A.d)⟩
  Zs_eq : ∃ Z, A.Zs = List.replicate width Z ∧ Canon Z ∧ toPoly Z = (X - C 1) ^ width
  Es_eq : ∃ E, A.Es = List.replicate width E ∧ Canon E ∧ toPoly E = C inp.sum * (X - C 1) ^ (width - 1)
  rhoJs_eq : A.rhoJs = Apr.rhoJs k 8 A.Zs (ReedSolomon.affineLen p m A.L.basis)
  rhoCmp_eq : A.rhoCmp = Apr.rhoCmp k 8 A.d (ReedSolomon.affineLen p m A.Lcmp.basis)
  phi_len : A.Phi.length = 2 * width
  phi_odd : ∀ i, i < width → A.Phi[2 * i + 1]? = some []
  w_eq : A.w = List.replicate width []

variable {n width : Nat} {inp : List (Fq f)} {steps : Int} {polys : List (Mv.Dict (Fq f))} (hw : ∀ g ∈ polys, Mv.WF n g)
  {air : Air.AIR (Fq f)} (hair : Air.mkAIR n width inp steps polys = .ok air) (hdr : ∀ i, (draws i).length = width)

include hw hair hdr in
theorem apr_mk (m k : Nat) (z : List (Zp p)) (hz : generatePrimitive factorint p width draws inner fuel = .ok z)
    (ZH0 : List (Fq f)) (hZ : ReedSolomon.affineVanishing (ReedSolomon.zpIter p (Zp.ofInt (p := p))) (castHom f) basisH0 0 = .ok ZH0)
    (t0 : Mv.Dict (Fq f)) (hdiv : division (Mv.mul (xLoc (1 + 3 * width)) (Mv.sub (xLoc (1 + 3 * width)) (Mv.ofElt (1 + 3 * width) 1)))
      ZH0 = .ok t0) :
    ∃ A, apr factorint draws inner fuel division parse m air k = .ok A ∧ AprFacts A m air inp width k z ∧
      ∀ i P, air.polys[i]? = some P → ∃ a b v, tilde (1 + 3 * width) A.Zs A.Es (List.range width) (ctor [0, 1]) = .ok a ∧
        tilde (1 + 3 * width) A.Zs A.Es (List.range width) (ctor [0, castHom f gen]) = .ok b ∧
        Apr.evalAt (2 * width) (1 + 3 * width) P.dict (a ++ b) = .ok v ∧ A.Phi[2 * i]? = some (Mv.mul t0 v) := by
  obtain ⟨w1, aw, ainp, il, ast, apl, cd1, cd2, hB1, hB2, -, -, W, hW, hWl, hWc⟩ := air_facts hw hair
  subst aw
  obtain ⟨zc, zm, zd⟩ := generatePrimitive_monic factorint p _ draws hdr inner fuel z hz
  have hz0 : z ≠ [] := by rintro rfl; rw [toPoly_nil] at zm; exact absurd zm Polynomial.not_monic_zero
  set zeta : CPoly (Zp p) := CPoly.mk z with hzeta
  have hzv : zeta.1 = z := ctor_of_canon zc
  have hzd : 1 ≤ zeta.val.natDegree := by rw [hzeta, CPoly.val_mk, zd]; exact w1
  have hz0' : zeta.1 ≠ [] := by rw [hzv]; exact hz0
  obtain ⟨Z, zc1, zc2, zc3⟩ := zBoundaries_eq (castHom f) (map_one _) zeta hz0' air.width air.B
  have hpt : ∀ b ∈ air.B, castHom f (residue zeta b.1) = 1 := by
    intro b hb
    have : b.1 ∈ air.B.map fun b => b.1 := List.mem_map.2 ⟨b, hb, rfl⟩
    rw [hB1] at this
    rw [List.eq_of_mem_replicate this, residue_zero _ hzd, map_one]
  have hBl : air.B.length = air.width := by
    have := congrArg List.length hB1
    simpa using this
  have hZp : toPoly Z = (X - C 1) ^ air.width := by
    rw [zc2, List.map_congr_left fun b hb => by rw [hpt b hb], List.map_const', List.prod_replicate, hBl]
  obtain ⟨E, e1, e2, e3⟩ := PolyUtils.lagrangeInterp_repeated (1 : Fq f) air.width w1 inp il
  have hE : epsBoundaries (castHom f) zeta air.width air.B = .ok (List.replicate air.width E) := by
    apply epsBoundaries_eq _ _ hz0'
    rw [hB2, List.map_congr_left fun b hb => hpt b hb, List.map_const', hBl, e1]
  obtain ⟨ZH, its, g1, -, g2, -, g3, -⟩ := C23_affine_vanishing_partial p (castHom f : CPoly (Zp p) → Fq f) basisH0 0
  rw [hZ] at g1
  cases g1
  have hnb : 1 + (neighbors (castHom f) (List.range air.width) zeta).length = 1 + 3 * air.width := by
    simp [neighbors, List.length_flatMap, mul_comm]
  obtain ⟨Phi, p1, p2, p3, p4⟩ := phis_spec division parse (castHom f) (ReedSolomon.zpIter p (Zp.ofInt (p := p)))
    (1 + 3 * air.width) air.width (air.polys.map fun P => P.dict) ⟨basisH0, 0⟩ zeta
    (List.replicate air.width Z) (List.replicate air.width E)
    (by intro P hP; obtain ⟨Q, -, rfl⟩ := List.mem_map.1 hP; exact Q.wf_dict) (by simp) (by simp) ZH0 hZ g2
    (by rw [g3, ReedSolomon.affineLen]; exact Nat.one_le_pow _ _ (by simpa using hp.out.pos)) t0 hdiv
  have hwit : Apr.witness (castHom f) zeta k 8 W (List.replicate air.width Z) (List.replicate air.width E) =
      .ok (List.replicate air.width []) := by
    apply witness_eq _ _ hz0' _ _ _ _ hWl (fun col hc => by rw [hWc col hc]; norm_num) _ _ zc1
    rw [hZp, e3]
    have hm : ((X - C 1 : (Fq f)[X]) ^ air.width).degree = air.width := by
      rw [Polynomial.degree_pow, Polynomial.degree_X_sub_C]; simp
    rw [hm]
    refine lt_of_le_of_lt (Polynomial.degree_mul_le _ _) (lt_of_le_of_lt (add_le_add_left Polynomial.degree_C_le _) ?_)
    rw [zero_add, Polynomial.degree_pow, Polynomial.degree_X_sub_C]
    simp only [nsmul_eq_mul, mul_one, Nat.cast_lt]
    omega
  have hlog : intLog2 air.steps = .ok 8 := by
    rw [ast, intLog2, if_neg (by norm_num)]
    decide
  have hlogd : intLog2 (air.cdegree : Int) = .ok (Nat.log 2 air.cdegree) := by
    rw [intLog2, if_neg (by omega), Int.toNat_natCast]
  have hbas : (⟨(List.range (8 - 1)).map (fun i => gen ^ i), 0⟩ : Aff (CPoly (Zp p))) = ⟨basisH0, 0⟩ := rfl
  have hres : ∃ A, apr factorint draws inner fuel division parse m air k = .ok A ∧ A =
      { air := air, t := 8, d := Nat.log 2 air.cdegree + 1, R := 5, k := k, zeta := zeta,
        nbrs := neighbors (castHom f) (List.range air.width) zeta, H := ⟨(List.range 8).map fun i => gen ^ i, 0⟩,
        H0 := ⟨basisH0, 0⟩, H1 := ⟨basisH0, gen ^ 7⟩,
        L := ⟨(List.range (1 + k + 5 + 8 + (Nat.log 2 air.cdegree + 1))).map (fun i => gen ^ i) ++
          [gen ^ (1 + k + 5 + 8 + (Nat.log 2 air.cdegree + 1)) * (1 + gen)], gen ^ (1 + k + 5 + 8 + (Nat.log 2 air.cdegree + 1))⟩,
        Lcmp := ⟨(List.range (1 + k + 5 + 8 + (Nat.log 2 air.cdegree + 1))).map (fun i => gen ^ i),
          gen ^ (1 + k + 5 + 8 + (Nat.log 2 air.cdegree + 1))⟩,
        Zs := List.replicate air.width Z, Es := List.replicate air.width E,
        rhoJs := Apr.rhoJs k 8 (List.replicate air.width Z) (ReedSolomon.affineLen p m
          ((List.range (1 + k + 5 + 8 + (Nat.log 2 air.cdegree + 1))).map (fun i => (gen : CPoly (Zp p)) ^ i) ++
            [gen ^ (1 + k + 5 + 8 + (Nat.log 2 air.cdegree + 1)) * (1 + gen)])),
        rhoCmp := Apr.rhoCmp k 8 (Nat.log 2 air.cdegree + 1) (ReedSolomon.affineLen p m
          ((List.range (1 + k + 5 + 8 + (Nat.log 2 air.cdegree + 1))).map (fun i => (gen : CPoly (Zp p)) ^ i))),
        Phi := Phi, w := List.replicate air.width [] } := by
    refine ⟨_, ?_, rfl⟩
    simp only [apr, mkAPR, hlog, hlogd, hz, spaceH_eq, spaceL_eq, spaceLcmp_eq, bind, Except.bind]
    simp only [← hzeta, zc3, hE, hbas, hnb, p1, hW, hwit]
    rfl
  obtain ⟨A, hA, rfl⟩ := hres
  exact ⟨_, hA,
    { air_eq := rfl, t_eq := rfl, d_eq := rfl, R_eq := rfl, k_eq := rfl, zeta_eq := hzv, canon := zc, monic := zm, deg := zd
      nbrs_eq := rfl, L_eq := rfl, Lcmp_eq := rfl, Zs_eq := ⟨Z, rfl, zc1, hZp⟩, Es_eq := ⟨E, rfl, e2, e3⟩
      rhoJs_eq := rfl, rhoCmp_eq := rfl
      phi_len := by rw [p2, List.length_map, apl]
      phi_odd := fun i hi => p3 i (by rw [List.length_map, apl]; exact hi)
      w_eq := rfl }, fun i P hP => p4 i P.dict (by simp [hP])⟩

omit hp hf in
theorem phis_inv {K F : Type _} [Field K] [DecidableEq K] [Field F] [DecidableEq F]
    (division : Mv.Dict F → List F → Py (Mv.Dict F)) (parse : List F → Py (Mv.Dict F)) (cast : CPoly K → F)
    (fieldIter : Py (List K)) (n width : Nat) (Ps : List (Mv.Dict F)) (hPs : Ps ≠ []) (H0 : Aff (CPoly K)) (zeta : CPoly K)
    (Zs Es : List (List F)) (Phi : List (Mv.Dict F)) (h : phis division parse cast fieldIter n width Ps H0 zeta Zs Es = .ok Phi) :
    ∃ ZH0 t0, ReedSolomon.affineVanishing fieldIter cast H0.basis H0.shift = .ok ZH0 ∧
      division (Mv.mul (xLoc n) (Mv.sub (xLoc n) (Mv.ofElt n 1))) ZH0 = .ok t0 := by
  obtain ⟨P, Ps, rfl⟩ := List.exists_cons_of_ne_nil hPs
  simp only [phis, Air.bind_iff, PolyUtils.pyMap] at h
  obtain ⟨ZH0, h1, r, ⟨x, ⟨t0, h2, -⟩, -⟩, -⟩ := h
  exact ⟨ZH0, t0, h1, h2⟩

include hw hair in
theorem apr_inv (m k : Nat) (A : APR (Zp p) (Fq f)) (h : apr factorint draws inner fuel division parse m air k = .ok A) :
    (∃ z, generatePrimitive factorint p width draws inner fuel = .ok z) ∧
    ∃ ZH0 t0, ReedSolomon.affineVanishing (ReedSolomon.zpIter p (Zp.ofInt (p := p))) (castHom f) basisH0 0 = .ok ZH0 ∧
      division (Mv.mul (xLoc (1 + 3 * width)) (Mv.sub (xLoc (1 + 3 * width)) (Mv.ofElt (1 + 3 * width) 1))) ZH0 = .ok t0 := by
  obtain ⟨w1, aw, -, -, ast, apl, -⟩ := air_facts hw hair
  subst aw
  have hlog : intLog2 air.steps = .ok 8 := by
    rw [ast, intLog2, if_neg (by norm_num)]
    decide
  have hnb : ∀ zeta, 1 + (neighbors (castHom f) (List.range air.width) zeta).length = 1 + 3 * air.width := by
    simp [neighbors, List.length_flatMap, mul_comm]
  simp only [apr, mkAPR, hlog, spaceH_eq, spaceL_eq, spaceLcmp_eq, Air.bind_iff, Except.ok.injEq, exists_eq_left', hnb] at h
  obtain ⟨d, -, z, hz, Zs, -, Es, -, Phi, hPhi, -⟩ := h
  exact ⟨⟨z, hz⟩, phis_inv _ _ _ _ _ _ _ (by
    intro h
    have := congrArg List.length h
    simp [apl] at this
    omega) _ _ _ _ _ hPhi⟩

include hw hair hdr in
theorem apr_facts {m k : Nat} {A : APR (Zp p) (Fq f)} (h : apr factorint draws inner fuel division parse m air k = .ok A) :
    ∃ z, generatePrimitive factorint p width draws inner fuel = .ok z ∧ AprFacts A m air inp width k z := by
  obtain ⟨⟨z, hz⟩, ZH0, t0, h1, h2⟩ := apr_inv factorint draws inner fuel division parse hw hair m k A h
  obtain ⟨A', hA', hF, -⟩ := apr_mk factorint draws inner fuel division parse hw hair hdr m k z hz ZH0 h1 t0 h2
  rw [h] at hA'
  cases hA'
  exact ⟨z, hz, hF⟩

include hw hair hdr in
theorem apr_first {m k : Nat} {A : APR (Zp p) (Fq f)} (h : apr factorint draws inner fuel division parse m air k = .ok A) :
    ∃ ZH0 t0, ReedSolomon.affineVanishing (ReedSolomon.zpIter p (Zp.ofInt (p := p))) (castHom f) basisH0 0 = .ok ZH0 ∧
      division (Mv.mul (xLoc (1 + 3 * width)) (Mv.sub (xLoc (1 + 3 * width)) (Mv.ofElt (1 + 3 * width) 1))) ZH0 = .ok t0 ∧
      ∀ i P, air.polys[i]? = some P → ∃ a b v, tilde (1 + 3 * width) A.Zs A.Es (List.range width) (ctor [0, 1]) = .ok a ∧
        tilde (1 + 3 * width) A.Zs A.Es (List.range width) (ctor [0, castHom f gen]) = .ok b ∧
        Apr.evalAt (2 * width) (1 + 3 * width) P.dict (a ++ b) = .ok v ∧ A.Phi[2 * i]? = some (Mv.mul t0 v) := by
  obtain ⟨⟨z, hz⟩, ZH0, t0, h1, h2⟩ := apr_inv factorint draws inner fuel division parse hw hair m k A h
  obtain ⟨A', hA', -, hF⟩ := apr_mk factorint draws inner fuel division parse hw hair hdr m k z hz ZH0 h1 t0 h2
  rw [h] at hA'
  cases hA'
  exact ⟨ZH0, t0, h1, h2, hF⟩

end

end Verif.Props
