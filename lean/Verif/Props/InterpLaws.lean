import Verif.Props.PolyUtils
/-!
# C169: interpolation does not depend on the order of the points, is linear and gives polynomials back
-/

namespace Verif.Props
open Poly PolyUtils Spec
open scoped Polynomial
open Polynomial (C X)

variable {K : Type _} [Field K] [DecidableEq K]

/-- The contribution of one point to the result of `lagrange_interp`. -/
noncomputable def share (xs : List K) (pt : K × K) : K[X] :=
  C (pt.2 * (nz ((((xs.erase pt.1).map fun x => X - C x).prod : K[X]).eval pt.1))⁻¹) * ((xs.erase pt.1).map fun x => X - C x).prod

theorem share_perm {xs xs' : List K} (h : xs.Perm xs') (pt : K × K) : share xs pt = share xs' pt := by
  have : ((xs.erase pt.1).map fun x => (X - C x : K[X])).prod = ((xs'.erase pt.1).map fun x => X - C x).prod :=
    ((h.erase pt.1).map _).prod_eq
  rw [share, share, this]

theorem numer_erase (xs : List K) (i : Nat) (hi : i < xs.length) : numer xs i = ((xs.erase xs[i]).map fun x => X - C x).prod := by
  have h1 := List.getElem_cons_eraseIdx_perm hi
  have h2 := List.perm_cons_erase (List.getElem_mem hi)
  exact ((List.Perm.cons_inv (h1.trans h2)).map _).prod_eq

theorem interp_shares (pts : List (K × K)) :
    ∃ r, lagrangeInterp (pts.map Prod.fst) (pts.map Prod.snd) = .ok r ∧ Canon r ∧ toPoly r = (pts.map (share (pts.map Prod.fst))).sum := by
  obtain ⟨r, h1, h2, -, h4⟩ := lagrangeInterp_sum (pts.map Prod.fst) (pts.map Prod.snd) (by simp)
  refine ⟨r, h1, h2, ?_⟩
  rw [h4]
  symm
  apply sum_zip_range
  · simp
  · intro i hi
    have hi' : i < pts.length := by simpa using hi
    have hx : i < (pts.map Prod.fst).length := by simpa using hi'
    rw [numer_erase _ i hx]
    simp [share, hi']

/-- **C169**, order: the points can be given in any order, repeated ones included. -/
theorem C169_order (pts pts' : List (K × K)) (h : pts.Perm pts') :
    lagrangeInterp (pts.map Prod.fst) (pts.map Prod.snd) = lagrangeInterp (pts'.map Prod.fst) (pts'.map Prod.snd) := by
  obtain ⟨r, h1, h2, h3⟩ := interp_shares pts
  obtain ⟨r', g1, g2, g3⟩ := interp_shares pts'
  rw [h1, g1]
  congr 1
  apply toPoly_inj h2 g2
  rw [h3, g3, (h.map _).sum_eq]
  congr 1
  exact List.map_congr_left fun pt _ => share_perm (h.map _) pt

/-- **C169**, linearity: the interpolant of `ys + c * zs` is the interpolant of `ys` plus `c` times that of `zs`, for any points. -/
theorem C169_linear (xs ys zs : List K) (hy : ys.length = xs.length) (hz : zs.length = xs.length) (c : K) :
    ∃ r s, lagrangeInterp xs ys = .ok r ∧ lagrangeInterp xs zs = .ok s ∧
      lagrangeInterp xs (List.zipWith (fun y z => y + c * z) ys zs) = .ok (add r (mul (ctor [c]) s)) := by
  obtain ⟨r, a1, a2, -, a4⟩ := lagrangeInterp_sum xs ys hy
  obtain ⟨s, b1, b2, -, b4⟩ := lagrangeInterp_sum xs zs hz
  obtain ⟨t, c1, c2, -, c4⟩ := lagrangeInterp_sum xs (List.zipWith (fun y z => y + c * z) ys zs) (by simp [hy, hz])
  refine ⟨r, s, a1, b1, ?_⟩
  rw [c1]
  congr 1
  apply toPoly_inj c2 (canon_add _ _)
  rw [toPoly_add, toPoly_mul, toPoly_ctor, c4, a4, b4, Finset.mul_sum, ← Finset.sum_add_distrib]
  refine Finset.sum_congr rfl fun i hi => ?_
  rw [Finset.mem_range] at hi
  have h1 : i < ys.length := by omega
  have h2 : i < zs.length := by omega
  have e : (List.zipWith (fun y z => y + c * z) ys zs).getD i 0 = ys.getD i 0 + c * zs.getD i 0 := by
    simp [h1, h2]
  rw [e]
  simp only [toPoly_cons, toPoly_nil, mul_zero, add_zero, Polynomial.C_add, Polynomial.C_mul]
  ring

theorem eq_of_unique {P : List K} {r : List K} {xs ys : List K} (hr : Canon r) (hu : UniqueInterpolant (toPoly r) xs ys) (hP : Canon P)
    (hl : P.length ≤ xs.length) (hv : xs.map (call P) = ys) : r = P := by
  refine toPoly_inj hr hP (hu.2 _ ⟨?_, ?_⟩).symm
  · exact Polynomial.degree_lt_iff_coeff_zero _ _ |>.2 fun _ hm => coeff_eq_zero_of_length_le (hl.trans hm)
  · rw [← hv]
    exact List.map_congr_left fun x _ => (call_eq_eval P x).symm

/-- **C169**, polynomials come back: the values of a polynomial at more different points than its degree give the polynomial. -/
theorem C169_reproduces (f xs : List K) (hf : Canon f) (hx : xs.Nodup) (hl : f.length ≤ xs.length) :
    lagrangeInterp xs (xs.map (call f)) = .ok f := by
  obtain ⟨r, h1, h2, h3⟩ := C20_lagrange_interp xs (xs.map (call f)) hx (by simp)
  rw [h1, eq_of_unique h2 h3 hf hl rfl]

/-- **C169**, further points: adding points that lie on the interpolant changes nothing. -/
theorem C169_extra (xs ys more : List K) (hx : (xs ++ more).Nodup) (hl : ys.length = xs.length) :
    ∃ r, lagrangeInterp xs ys = .ok r ∧ lagrangeInterp (xs ++ more) (ys ++ more.map (call r)) = .ok r := by
  obtain ⟨r, h1, h2, h3⟩ := C20_lagrange_interp xs ys (List.Nodup.of_append_left hx) hl
  refine ⟨r, h1, ?_⟩
  have hlen : r.length ≤ xs.length := length_le_of_canon h2 _ fun i hi =>
    Polynomial.coeff_eq_zero_of_degree_lt (lt_of_lt_of_le h3.1.1 (by exact_mod_cast hi))
  have hv : ys = xs.map (call r) := by
    rw [← h3.1.2]
    exact List.map_congr_left fun x _ => (call_eq_eval r x).symm
  rw [hv, ← List.map_append]
  exact C169_reproduces r _ h2 hx (by simp; omega)

/-- **C169** does not extend to repeated points: a point given twice, with the same value on the interpolant of the others, changes the
result. -/
theorem C169_repeated (x y : K) (hy : y ≠ 0) :
    lagrangeInterp [x] [y] = .ok [y] ∧ ∃ r, lagrangeInterp [x, x] [y, y] = .ok r ∧ r ≠ [y] := by
  obtain ⟨r, h1, h2, h3⟩ := lagrangeInterp_repeated x 1 (by norm_num) [y] rfl
  obtain ⟨s, g1, g2, g3⟩ := lagrangeInterp_repeated x 2 (by norm_num) [y, y] rfl
  have hc : Canon [y] := by simpa [Canon] using hy
  constructor
  · rw [show [x] = List.replicate 1 x from rfl, h1, toPoly_inj h2 hc (by rw [h3]; simp [toPoly_cons, toPoly_nil])]
  · refine ⟨s, g1, ?_⟩
    rintro rfl
    have := congrArg (Polynomial.eval x) g3
    simp [toPoly_cons, toPoly_nil] at this
    exact hy this

/-- `1 + x²` modulo 17 at the points 0, 1, 2, in another order, with a fourth point on it, and twice these values plus the values of `x`. This meets the
hypotheses of `C169_order`, `C169_linear`, `C169_reproduces`, `C169_extra` and `C169_repeated`. -/
example : List.Perm [((0 : Zp 17), (1 : Zp 17)), (1, 2), (2, 5)] [(2, 5), (0, 1), (1, 2)] ∧ ([0, 1, 2] ++ [3] : List (Zp 17)).Nodup ∧
    Canon ([1, 0, 1] : List (Zp 17)) ∧ (5 : Zp 17) ≠ 0 ∧
    lagrangeInterp [0, 1, 2] [1, 2, 5] = .ok ([1, 0, 1] : List (Zp 17)) ∧
    lagrangeInterp [2, 0, 1] [5, 1, 2] = .ok ([1, 0, 1] : List (Zp 17)) ∧
    lagrangeInterp [0, 1, 2, 3] [1, 2, 5, 10] = .ok ([1, 0, 1] : List (Zp 17)) ∧
    lagrangeInterp [0, 1, 2] [2, 5, 12] = .ok ([2, 1, 2] : List (Zp 17)) := by
  refine ⟨by decide +kernel, by decide +kernel, ?_, by decide +kernel, by decide +kernel, by decide +kernel, by decide +kernel, by decide +kernel⟩
  simp only [Canon]
  decide +kernel

end Verif.Props
