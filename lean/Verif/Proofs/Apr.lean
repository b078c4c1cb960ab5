import Verif.Model.Apr
import Verif.Proofs.FiniteField
import Verif.Proofs.Primitive
import Verif.Proofs.PolyUtils
import Verif.Proofs.ReedSolomon
import Verif.Proofs.Air
/-!
# Lemmas about the APR model
-/

namespace Verif.Apr
open Poly PolyUtils
open scoped Polynomial
open Polynomial (C X)

variable {K F : Type _} [Field K] [DecidableEq K] [Field F] [DecidableEq F]

/-- The base polynomial `g`. -/
def gen : CPoly K := CPoly.mk [0, 1]

theorem val_gen : (gen : CPoly K).val = X := by simp [gen, toPoly_cons, toPoly_nil]

theorem val_pow (a : CPoly K) (n : Nat) : (a ^ n).val = a.val ^ n := by
  induction n with
  | zero => simp
  | succ n ih => rw [pow_succ, pow_succ, CPoly.val_mul, ih]

theorem gPow_eq (k : Nat) : (gPow k : Py (CPoly K)) = .ok (gen ^ k) := by
  obtain ⟨y, h1, h2, h3⟩ := FF.pow_X_spec (K := K) k
  simp only [gPow, h1, bind, Except.bind, Except.ok.injEq]
  apply CPoly.val_inj
  rw [CPoly.val_mk, h3, val_pow, val_gen]

/-- The remainder of `g^i`, as a total function. -/
noncomputable def residue (zeta : CPoly K) (i : Nat) : CPoly K := (CPoly.equiv (R := K)).symm (X ^ i % zeta.val)

theorem val_equiv_symm (P : K[X]) : ((CPoly.equiv (R := K)).symm P).val = P :=
  (CPoly.equiv (R := K)).apply_symm_apply P

theorem val_residue (zeta : CPoly K) (i : Nat) : (residue zeta i).val = X ^ i % zeta.val := val_equiv_symm _

theorem gPowMod_eq (zeta : CPoly K) (h0 : zeta.1 ≠ []) (i : Nat) : gPowMod zeta i = .ok (residue zeta i) := by
  obtain ⟨r, h1, h2, h3, h4⟩ := mod_eq (gen ^ i : CPoly K).2 zeta.2 h0
  simp only [gPowMod, gPow_eq, h1, bind, Except.bind, Except.ok.injEq]
  apply CPoly.val_inj
  rw [CPoly.val_mk, h3, val_residue]
  change (gen ^ i : CPoly K).val % zeta.val = _
  rw [val_pow, val_gen]

theorem residue_zero (zeta : CPoly K) (hd : 1 ≤ zeta.val.natDegree) : residue zeta 0 = 1 := by
  apply CPoly.val_inj
  rw [val_residue, pow_zero, CPoly.val_one]
  rw [Polynomial.mod_eq_self_iff (by rintro h; rw [h] at hd; simp at hd), Polynomial.degree_one]
  exact Polynomial.natDegree_pos_iff_degree_pos.1 hd

theorem pts_eq (zeta : CPoly K) (h0 : zeta.1 ≠ []) {α : Type _} (f : α → Nat) (l : List α) :
    pyMap (fun b => gPowMod zeta (f b)) l = .ok (l.map fun b => residue zeta (f b)) :=
  pyMap_ok _ _ _ fun _ _ => gPowMod_eq zeta h0 _

/-! ### Boundary polynomials -/

theorem zLoop_spec (cast : CPoly K → F) (zeta : CPoly K) (h0 : zeta.1 ≠ []) : ∀ (B : List (Nat × Nat × F)) (acc : List F),
    ∃ r, zLoop cast zeta B acc = .ok r ∧ (Canon acc → Canon r) ∧
      toPoly r = toPoly acc * (B.map fun b => X - C (cast (residue zeta b.1))).prod
  | [], acc => ⟨acc, rfl, id, by simp⟩
  | (i, j, a) :: B, acc => by
    obtain ⟨r, h1, h2, h3⟩ := zLoop_spec cast zeta h0 B (mul acc (sub (ctor [0, 1]) (ctor [cast (residue zeta i)])))
    refine ⟨r, ?_, fun _ => h2 (canon_mul _ _), ?_⟩
    · simp only [zLoop, gPowMod_eq zeta h0, bind, Except.bind, h1]
    · rw [h3, toPoly_mul, toPoly_sub, toPoly_ctor, toPoly_ctor]
      simp [toPoly_cons, toPoly_nil, mul_assoc]

theorem zBoundaries_eq (cast : CPoly K → F) (hc : cast 1 = 1) (zeta : CPoly K) (h0 : zeta.1 ≠ []) (width : Nat)
    (B : List (Nat × Nat × F)) :
    ∃ Z, Canon Z ∧ toPoly Z = (B.map fun b => X - C (cast (residue zeta b.1))).prod ∧
      zBoundaries cast zeta width B = .ok (List.replicate width Z) := by
  obtain ⟨Z, h1, h2, h3⟩ := zLoop_spec cast zeta h0 B (ctor [cast 1])
  refine ⟨Z, h2 (canon_ctor _), ?_, ?_⟩
  · rw [h3, toPoly_ctor, hc]; simp [toPoly_cons, toPoly_nil]
  · rw [zBoundaries, pyMap_ok _ (fun _ => Z) _ fun _ _ => h1]
    simp [List.map_const']

theorem epsBoundaries_eq (cast : CPoly K → F) (zeta : CPoly K) (h0 : zeta.1 ≠ []) (width : Nat) (B : List (Nat × Nat × F))
    (E : List F) (hE : lagrangeInterp (B.map fun b => cast (residue zeta b.1)) (B.map fun b => b.2.2) = .ok E) :
    epsBoundaries cast zeta width B = .ok (List.replicate width E) := by
  rw [epsBoundaries, pyMap_ok _ (fun _ => E)]
  · simp [List.map_const']
  · intro _ _
    rw [pts_eq zeta h0 (fun b : Nat × Nat × F => b.1)]
    simp only [bind, Except.bind, List.map_map]
    exact hE

/-! ### The cast into the extension field -/

/-- `FiniteField(p, m)` called on a base polynomial, as a ring homomorphism. -/
def castHom (f : List K) [FF.IsModulus f] : CPoly K →+* FF.Fq f where
  toFun v := FF.Fq.mk v.1 v.2
  map_one' := FF.Fq.val_inj (by
    rw [FF.Fq.mk_val, FF.Fq.val_one]
    change AdjoinRoot.mk _ (CPoly.val 1) = 1
    rw [CPoly.val_one, map_one])
  map_zero' := FF.Fq.val_inj (by
    rw [FF.Fq.mk_val, FF.Fq.val_zero]
    change AdjoinRoot.mk _ (CPoly.val 0) = 0
    rw [CPoly.val_zero, map_zero])
  map_add' a b := FF.Fq.val_inj (by
    rw [FF.Fq.val_add, FF.Fq.mk_val, FF.Fq.mk_val, FF.Fq.mk_val, ← map_add]
    exact congrArg _ (CPoly.val_add a b))
  map_mul' a b := FF.Fq.val_inj (by
    rw [FF.Fq.val_mul, FF.Fq.mk_val, FF.Fq.mk_val, FF.Fq.mk_val, ← map_mul]
    exact congrArg _ (CPoly.val_mul a b))

theorem castHom_apply (f : List K) [FF.IsModulus f] (v : CPoly K) : castHom f v = FF.Fq.mk v.1 v.2 := rfl

/-- Two base polynomials give the same field element exactly when they differ by a multiple of the modulus. -/
theorem castHom_eq_iff (f : List K) [hf : FF.IsModulus f] (a b : CPoly K) :
    castHom f a = castHom f b ↔ toPoly f ∣ a.val - b.val := by
  rw [← FF.Fq.val_inj.eq_iff, castHom_apply, castHom_apply, FF.Fq.mk_val, FF.Fq.mk_val, AdjoinRoot.mk_eq_mk]
  rfl

/-! ### The constraint polynomials -/

theorem mvPow_total (n : Nat) (d : Mv.Dict F) (e : Nat) : ∃ r, Mv.pow n d (e : Int) = .ok r := by
  obtain ⟨y, h, -⟩ := pyPow_interp (one := Mv.ofElt n (1 : F)) (mul := Mv.mul) (φ := fun _ => (1 : Multiplicative Nat))
    (P := fun _ => True) trivial rfl (fun _ _ _ _ => ⟨trivial, rfl⟩) (x := d) trivial e
  exact ⟨y, h⟩

theorem evalMono_total (n : Nat) (vals : List (Mv.Dict F)) : ∀ (t : Mv.Tup) (i : Nat) (P : Option (Mv.Dict F)),
    i + t.length ≤ vals.length → ∃ r, evalMono n vals t i P = .ok r
  | [], i, P, _ => ⟨P, rfl⟩
  | e :: t, i, P, h => by
    simp only [List.length_cons] at h
    obtain ⟨ve, hve⟩ := mvPow_total n (vals[i]'(by omega)) e
    have hv : pyIdx vals i = .ok (vals[i]'(by omega)) := (Air.pyIdx_iff _ _ _).2 (by simp)
    simp only [evalMono, hv, hve, bind, Except.bind]
    exact evalMono_total n vals t (i + 1) _ (by omega)

theorem evalLoop_total (n : Nat) (vals : List (Mv.Dict F)) : ∀ (d : Mv.Dict F) (y : Mv.Dict F),
    (∀ e ∈ d, e.1.length ≤ vals.length) → ∃ r, evalLoop n vals d y = .ok r
  | [], y, _ => ⟨y, rfl⟩
  | (t, c) :: d, y, h => by
    obtain ⟨P, hP⟩ := evalMono_total n vals t 0 none (by have := h _ (List.mem_cons_self ..); simpa using this)
    simp only [evalLoop, hP, bind, Except.bind]
    exact evalLoop_total n vals d _ fun e he => h e (List.mem_cons_of_mem _ he)

theorem evalAt_total {m n : Nat} {P : Mv.Dict F} (hP : Mv.WF m P) {vals : List (Mv.Dict F)} (hv : vals.length = m) :
    ∃ r, evalAt m n P vals = .ok r := by
  have := evalLoop_total n vals P [] fun e he => by rw [hv, hP.good.2 e.1 (List.mem_map.2 ⟨e, he, rfl⟩)]
  simpa [evalAt, hv, pyAssert, bind, Except.bind] using this

theorem tilde_total (n : Nat) (Zs Es : List (List F)) (idx : List Nat) (nb : List F) (hz : ∀ i ∈ idx, i < Zs.length)
    (he : ∀ i ∈ idx, i < Es.length) : ∃ r, tilde n Zs Es idx nb = .ok r ∧ r.length = idx.length := by
  have : ∀ tau ∈ idx, ∃ v : Mv.Dict F, ((do
      let z ← pyIdx (Zs.map fun Z => callMv n Z (callMv n nb (xLoc n))) tau
      let e ← pyIdx (Es.map fun E => callMv n E (callMv n nb (xLoc n))) tau
      .ok (Mv.add (Mv.mul (Mv.ofDict [(List.replicate tau 0 ++ [1] ++
        List.replicate ((callMv n nb (xLoc n)).length - tau) 0, 1)]) z) e)) : Py (Mv.Dict F)) = .ok v := by
    intro tau h
    have h1 := hz tau h
    have h2 := he tau h
    refine ⟨_, (Air.bind_iff _ _ _).2 ⟨callMv n Zs[tau] (callMv n nb (xLoc n)), (Air.pyIdx_iff _ _ _).2 (by simp [h1]),
      (Air.bind_iff _ _ _).2 ⟨callMv n Es[tau] (callMv n nb (xLoc n)), (Air.pyIdx_iff _ _ _).2 (by simp [h2]), rfl⟩⟩⟩
  choose! v hv using this
  exact ⟨idx.map v, pyMap_ok _ v _ hv, by simp⟩

/-- The quotient of 1 by a monic polynomial of positive degree. -/
theorem one_truediv {Z : List F} (hZ : Canon Z) (hd : 1 ≤ (toPoly Z).natDegree) : truediv (ctor [1]) Z = .ok [] := by
  have h0 : Z ≠ [] := by rintro rfl; rw [toPoly_nil, Polynomial.natDegree_zero] at hd; omega
  obtain ⟨q, h1, h2, h3⟩ := Poly.truediv_eq (canon_ctor [1]) hZ h0
  have : toPoly q = 0 := by
    rw [h3, toPoly_ctor]
    simp only [toPoly_cons, toPoly_nil, mul_zero, add_zero, map_one]
    rw [Polynomial.div_eq_zero_iff (by rintro h; rw [h] at hd; simp at hd), Polynomial.degree_one]
    exact Polynomial.natDegree_pos_iff_degree_pos.1 hd
  rw [h1, (toPoly_eq_zero h2).1 this]

theorem phis_spec (division : Mv.Dict F → List F → Py (Mv.Dict F)) (parse : List F → Py (Mv.Dict F)) (cast : CPoly K → F)
    (fieldIter : Py (List K)) (n width : Nat) (Ps : List (Mv.Dict F)) (H0 : Aff (CPoly K)) (zeta : CPoly K)
    (Zs Es : List (List F)) (hPs : ∀ P ∈ Ps, Mv.WF (2 * width) P) (hZs : Zs.length = width) (hEs : Es.length = width)
    (ZH0 : List F) (hZ : ReedSolomon.affineVanishing fieldIter cast H0.basis H0.shift = .ok ZH0) (hc : Canon ZH0)
    (hd : 1 ≤ (toPoly ZH0).natDegree) (t0 : Mv.Dict F)
    (hdiv : division (Mv.mul (xLoc n) (Mv.sub (xLoc n) (Mv.ofElt n 1))) ZH0 = .ok t0) :
    ∃ Phi, phis division parse cast fieldIter n width Ps H0 zeta Zs Es = .ok Phi ∧ Phi.length = 2 * Ps.length ∧
      (∀ i, i < Ps.length → Phi[2 * i + 1]? = some []) ∧
      ∀ i P, Ps[i]? = some P → ∃ a b v, tilde n Zs Es (List.range width) (ctor [0, 1]) = .ok a ∧
        tilde n Zs Es (List.range width) (ctor [0, cast (CPoly.mk [0, 1])]) = .ok b ∧
        evalAt (2 * width) n P (a ++ b) = .ok v ∧ Phi[2 * i]? = some (Mv.mul t0 v) := by
  have ht : ∀ nb : List F, ∃ r, tilde n Zs Es (List.range width) nb = .ok r ∧ r.length = width := by
    intro nb
    obtain ⟨r, h1, h2⟩ := tilde_total n Zs Es (List.range width) nb (by simp [hZs]) (by simp [hEs])
    exact ⟨r, h1, by simpa using h2⟩
  obtain ⟨a, ha, la⟩ := ht (ctor [0, 1])
  obtain ⟨b, hb, lb⟩ := ht (ctor [0, cast (CPoly.mk [0, 1])])
  obtain ⟨b', hb', lb'⟩ := ht (ctor [cast zeta, cast (CPoly.mk [0, 1])])
  have hv : ∀ P ∈ Ps, ∃ v0 v1, evalAt (2 * width) n P (a ++ b) = .ok v0 ∧ evalAt (2 * width) n P (a ++ b') = .ok v1 := by
    intro P hP
    obtain ⟨v0, h0⟩ := evalAt_total (n := n) (hPs P hP) (vals := a ++ b) (by simp [la, lb]; omega)
    obtain ⟨v1, h1⟩ := evalAt_total (n := n) (hPs P hP) (vals := a ++ b') (by simp [la, lb']; omega)
    exact ⟨v0, v1, h0, h1⟩
  choose! v0 v1 h0 h1 using hv
  refine ⟨(Ps.map fun P => [Mv.mul t0 (v0 P), []]).flatten, ?_, ?_, ?_, ?_⟩
  · simp only [phis, hZ, bind, Except.bind]
    rw [pyMap_ok _ (fun P => [Mv.mul t0 (v0 P), []])]
    intro P hP
    simp only [hdiv, one_truediv hc hd, polyToMulti, isZero, ha, hb, hb', h0 P hP, h1 P hP]
    simp [Mv.mul, Mv.ofDict, Mv.removeZero, Mv.sortKeys, Mv.isZero]
  · rw [List.length_flatten, List.map_map]
    simp [Function.comp_def, mul_comm]
  · intro i hi
    clear h0 h1 hPs
    induction Ps generalizing i with
    | nil => simp at hi
    | cons P Ps ih =>
      cases i with
      | zero => simp
      | succ i =>
        have := ih i (by simpa using hi)
        simp only [List.map_cons, List.flatten_cons, show 2 * (i + 1) + 1 = 2 + (2 * i + 1) by ring]
        rw [List.getElem?_append_right (by simp)]
        simpa using this
  · intro i P hi
    refine ⟨a, b, v0 P, ha, hb, h0 P (List.mem_of_getElem? hi), ?_⟩
    clear h0 h1 hPs
    induction Ps generalizing i with
    | nil => simp at hi
    | cons Q Ps ih =>
      cases i with
      | zero => simp at hi; simp [hi]
      | succ i =>
        have := ih i (by simpa using hi)
        simp only [List.map_cons, List.flatten_cons, show 2 * (i + 1) = 2 + 2 * i by ring]
        rw [List.getElem?_append_right (by simp)]
        simpa using this

/-! ### The witness -/

theorem witness_eq (cast : CPoly K → F) (zeta : CPoly K) (h0 : zeta.1 ≠ []) (k t width : Nat) (wAir : List (List F))
    (hw : wAir.length = width) (hlen : ∀ col ∈ wAir, 2 ^ t ≤ col.length) (Z E : List F) (hZ : Canon Z)
    (hd : (toPoly E).degree < (toPoly Z).degree) :
    witness cast zeta k t wAir (List.replicate width Z) (List.replicate width E) = .ok (List.replicate width []) := by
  have hZ0 : Z ≠ [] := by rintro rfl; rw [toPoly_nil, Polynomial.degree_zero] at hd; exact not_lt_bot hd
  have hq : truediv (add (neg E) []) Z = .ok [] := by
    obtain ⟨q, h1, h2, h3⟩ := Poly.truediv_eq (canon_add (neg E) []) hZ hZ0
    have : toPoly q = 0 := by
      rw [h3, Polynomial.div_eq_zero_iff (fun h => hZ0 ((toPoly_eq_zero hZ).1 h)), toPoly_add, toPoly_neg, toPoly_nil, add_zero,
        Polynomial.degree_neg]
      exact hd
    rw [h1, (toPoly_eq_zero h2).1 this]
  rw [witness, pyMap_ok _ (fun _ => [])]
  · simp [List.map_const', hw]
  · rintro ⟨col, Z', E'⟩ hm
    have hcol := hlen col (List.of_mem_zip hm).1
    have hZE := (List.of_mem_zip hm).2
    have e1 : Z' = Z := List.eq_of_mem_replicate (List.of_mem_zip hZE).1
    have e2 : E' = E := List.eq_of_mem_replicate (List.of_mem_zip hZE).2
    subst e1 e2
    have hys : pyMap (pyIdx col) (List.range (2 ^ t)) = .ok ((List.range (2 ^ t)).map fun i => col.getD i 0) :=
      pyMap_ok _ _ _ fun i hi => (Air.pyIdx_iff _ _ _).2 (by
        have : i < col.length := by have := List.mem_range.1 hi; omega
        simp [this])
    have hxs : pyMap (gPowMod zeta) (List.range (2 ^ t)) = .ok ((List.range (2 ^ t)).map (residue zeta)) :=
      pyMap_ok _ _ _ fun i _ => gPowMod_eq zeta h0 i
    simp only [hys, hxs, drawRandomInterpolant, bind, Except.bind]
    exact hq

/-! ### Affine spaces -/

theorem pows_eq (n : Nat) : pyMap (gPow (K := K)) (List.range n) = .ok ((List.range n).map fun i => gen ^ i) :=
  pyMap_ok _ _ _ fun i _ => gPow_eq i

theorem spaceH_eq (t : Nat) : (spaceH t : Py (Aff (CPoly K) × Aff (CPoly K) × Aff (CPoly K))) =
    .ok (⟨(List.range t).map fun i => gen ^ i, 0⟩, ⟨(List.range (t - 1)).map fun i => gen ^ i, 0⟩,
      ⟨(List.range (t - 1)).map fun i => gen ^ i, gen ^ (t - 1)⟩) := by
  simp only [spaceH, pows_eq, gPow_eq, bind, Except.bind]

theorem spaceL_eq (k R t d : Nat) : (spaceL k R t d : Py (Aff (CPoly K))) =
    .ok ⟨(List.range (1 + k + R + t + d)).map (fun i => gen ^ i) ++ [gen ^ (1 + k + R + t + d) * (1 + gen)],
      gen ^ (1 + k + R + t + d)⟩ := by
  simp only [spaceL, pows_eq, gPow_eq, bind, Except.bind, gen]

theorem spaceLcmp_eq (k R t d : Nat) : (spaceLcmp k R t d : Py (Aff (CPoly K))) =
    .ok ⟨(List.range (1 + k + R + t + d)).map (fun i => gen ^ i), gen ^ (1 + k + R + t + d)⟩ := by
  simp only [spaceLcmp, pows_eq, gPow_eq, bind, Except.bind]

/-! ### The generated polynomial -/

theorem generatePrimitive_monic (factorint : Nat → List Nat) (p m : Nat) (draws : Nat → List K) (hdr : ∀ i, (draws i).length = m)
    (inner fuel : Nat) (g : List K) (h : FF.generatePrimitive factorint p m draws inner fuel = .ok g) :
    Canon g ∧ (toPoly g).Monic ∧ (toPoly g).natDegree = m := by
  obtain ⟨k, h1, -⟩ := FF.genPrim_sound factorint p m draws inner fuel 0 g h
  obtain ⟨c1, c2, c3⟩ := FF.monic_draw (draws k)
  rw [← h1] at c1 c2 c3
  exact ⟨c1, c2, by rw [c3, hdr]⟩

end Verif.Apr
