import Verif.Proofs.PolyUtils
import Verif.Proofs.Modp
import Verif.Spec.Interp
import Verif.Proofs.SmallPrimes
import Mathlib.Tactic.NormNum.Prime
/-!
# C18–C21: batch inversion, polynomials from roots, interpolation

`K` is any field: every theorem holds for Z/p, for extension fields and for the rationals.
-/

namespace Verif.Props
open Poly PolyUtils Spec
open scoped Polynomial
open Polynomial (C X)

variable {K : Type _} [Field K] [DecidableEq K]

/-- **C18**, what holds. `multi_inv` never raises, returns one output per value, and the inverse of every nonzero value,
whatever zeros appear elsewhere.  MISSING: the 0 at zero positions (see `C18_multi_inv_zero_refuted`). -/
theorem C18_multi_inv_partial (vs : List K) :
    ∃ outs, multiInv eltTruthy recip vs = .ok outs ∧ outs.length = vs.length ∧
      ∀ (i : Nat) (h : i < vs.length) (h' : i < outs.length), vs[i] ≠ 0 → vs[i] * outs[i] = 1 := by
  refine ⟨_, multiInv_eq _ _, by simp, fun i h h' hne => ?_⟩
  simp only [List.getElem_map, eltTruthy, if_true, nz, if_neg hne]
  exact mul_inv_cancel₀ hne

example : haveI : Fact (Nat.Prime 7) := ⟨by norm_num⟩
    multiInv eltTruthy recip ([3, 0, 5] : List (Zp 7)) = .ok [5, 1, 3] := by decide +kernel

/-- **C18**, single inversion. One division `1 / x` decides the whole result: two division routines that agree on a single
argument, which depends only on the values, give the same outputs. -/
theorem C18_multi_inv_single_inversion (truthy : K → Bool) (vs : List K) :
    ∃ x : K, ∀ recip₁ recip₂ : K → Py K, recip₁ x = recip₂ x → multiInv truthy recip₁ vs = multiInv truthy recip₂ vs := by
  refine ⟨(partials 1 vs).getLastD 1, fun r₁ r₂ h => ?_⟩
  simp only [multiInv, h]

example : ∃ r : ℚ → Py ℚ, multiInv eltTruthy r [2, 3] ≠ multiInv eltTruthy recip [2, 3] := by
  refine ⟨fun _ => .error .assertion, ?_⟩
  rw [multiInv_eq]; simp [multiInv, partials, pyAssert, bind, Except.bind]

/-- **C18**, the claim about zero positions is false: at every zero position the result is 1, because field elements are
always true in Python. -/
theorem C18_multi_inv_zero_refuted (vs : List K) (outs : List K) (h : multiInv eltTruthy recip vs = .ok outs)
    (i : Nat) (hi : i < vs.length) (h0 : vs[i] = 0) : outs[i]? = some 1 := by
  rw [multiInv_eq] at h
  injection h with h
  subst h
  simp [List.getElem?_eq_getElem hi, h0, eltTruthy, nz]

example : haveI : Fact (Nat.Prime 7) := ⟨by norm_num⟩
    multiInv eltTruthy recip ([0, 2] : List (Zp 7)) = .ok [1, 4] := by decide +kernel

/-- **C18**, with a number type whose zero is false (Python's truth test on plain numbers), the full statement holds. -/
theorem C18_multi_inv_falsy_zero (vs : List K) : multiInv (fun v => decide (v ≠ 0)) recip vs = .ok (vs.map (·⁻¹)) := by
  rw [multiInv_eq]
  congr 1
  apply List.map_congr_left
  intro v _
  by_cases hv : v = 0 <;> simp [hv, nz]

example : haveI : Fact (Nat.Prime 7) := ⟨by norm_num⟩
    multiInv (fun v => decide (v ≠ 0)) recip ([0, 2] : List (Zp 7)) = .ok [0, 4] := by decide +kernel

/-- **C19**. `zpoly(field, roots)` is the canonical coefficient list of `∏ (x − r)`: monic, of degree `len(roots)`, zero
exactly at the roots. -/
theorem C19_zpoly (roots : List K) :
    Canon (zpoly roots) ∧ toPoly (zpoly roots) = (roots.map fun r => X - C r).prod ∧
      (toPoly (zpoly roots)).Monic ∧ (toPoly (zpoly roots)).natDegree = roots.length ∧
      ∀ x, (toPoly (zpoly roots)).eval x = 0 ↔ x ∈ roots := by
  have h := natDegree_linprod roots
  refine ⟨canon_zpoly _, toPoly_zpoly _, ?_, ?_, fun x => ?_⟩
  · rw [toPoly_zpoly]; exact h.2
  · rw [toPoly_zpoly]; exact h.1
  · rw [toPoly_zpoly, Polynomial.eval_list_prod, List.prod_eq_zero_iff]
    simp only [List.map_map, List.mem_map, Function.comp, Polynomial.eval_sub, Polynomial.eval_X, Polynomial.eval_C,
      sub_eq_zero]
    exact ⟨fun ⟨a, ha, h⟩ => h ▸ ha, fun h => ⟨x, h, rfl⟩⟩

example : haveI : Fact (Nat.Prime 7) := ⟨by norm_num⟩
    zpoly ([2, 3, 3] : List (Zp 7)) = [3, 0, 6, 1] := by decide +kernel

theorem uniqueInterpolant_of {r xs ys : List K} (hr : Canon r) (hx : xs.Nodup) (hn : r.length ≤ xs.length)
    (h : xs.map (fun x => (toPoly r).eval x) = ys) : UniqueInterpolant (toPoly r) xs ys := by
  have hd : (toPoly r).degree < xs.length := by
    by_cases h0 : r = []
    · subst h0; rw [toPoly_nil, Polynomial.degree_zero]; exact WithBot.bot_lt_coe _
    · have hlen := natDegree_toPoly hr
      have hpos := List.length_pos_iff.2 h0
      by_cases hz : toPoly r = 0
      · rw [hz, Polynomial.degree_zero]; exact WithBot.bot_lt_coe _
      · rw [Polynomial.degree_eq_natDegree hz, Nat.cast_lt]; omega
  refine ⟨⟨hd, h⟩, fun Q hQ => ?_⟩
  apply interp_unique hx hQ.1 hd
  intro x hxm
  have := hQ.2.trans h.symm
  exact List.map_inj_left.1 this x hxm

/-- **C20**. For distinct `xs` and equally many `ys`, `lagrange_interp` returns, without raising, the unique polynomial of
degree below `len(xs)` through the points. -/
theorem C20_lagrange_interp (xs ys : List K) (hx : xs.Nodup) (hl : ys.length = xs.length) :
    ∃ r, lagrangeInterp xs ys = .ok r ∧ Canon r ∧ UniqueInterpolant (toPoly r) xs ys := by
  obtain ⟨r, h1, h2, h3, h4⟩ := lagrangeInterp_spec xs ys hx hl
  refine ⟨r, h1, h2, uniqueInterpolant_of h2 hx h3 ?_⟩
  apply List.ext_getElem (by simp [hl])
  intro i hi hi'
  simp only [List.getElem_map]
  exact h4 i (by simpa using hi) hi'

example : haveI : Fact (Nat.Prime 7) := ⟨by norm_num⟩
    lagrangeInterp ([0, 1, 3] : List (Zp 7)) [2, 3, 4] = .ok [2, 0, 1] := by decide +kernel

/-- **C20**. It raises when the lengths differ. -/
theorem C20_lagrange_interp_lengths (xs ys : List K) (hl : ys.length ≠ xs.length) :
    ∃ e, lagrangeInterp xs ys = .error e := ⟨_, lagrangeInterp_length xs ys hl⟩

example : haveI : Fact (Nat.Prime 7) := ⟨by norm_num⟩
    lagrangeInterp ([0, 1] : List (Zp 7)) [2] = .error .assertion := by decide +kernel

/-- **C21**. `lagrange_interp_4`. -/
theorem C21_lagrange_interp_4 (x0 x1 x2 x3 y0 y1 y2 y3 : K) :
    ([x0, x1, x2, x3].Nodup → ∃ r, lagrangeInterp4 [x0, x1, x2, x3] [y0, y1, y2, y3] = .ok r ∧ Canon r ∧
      UniqueInterpolant (toPoly r) [x0, x1, x2, x3] [y0, y1, y2, y3]) ∧
    (¬ [x0, x1, x2, x3].Nodup → ∃ e, lagrangeInterp4 [x0, x1, x2, x3] [y0, y1, y2, y3] = .error e) := by
  refine ⟨fun h => ?_, fun h => ⟨_, lagrangeInterp4_raises _ _ _ _ _ h⟩⟩
  obtain ⟨r, h1, h2, h3, a, b, c, d⟩ := lagrangeInterp4_spec x0 x1 x2 x3 y0 y1 y2 y3 h
  exact ⟨r, h1, h2, uniqueInterpolant_of h2 h (by simpa using h3) (by simp [a, b, c, d])⟩

example : haveI : Fact (Nat.Prime 7) := ⟨by norm_num⟩
    lagrangeInterp4 ([0, 1, 2, 3] : List (Zp 7)) [1, 2, 2, 6] = lagrangeInterp ([0, 1, 2, 3] : List (Zp 7)) [1, 2, 2, 6] ∧
    (lagrangeInterp4 ([0, 1, 1, 3] : List (Zp 7)) [1, 2, 2, 6]).toOption = none := by decide +kernel

/-- **C21**. `lagrange_interp_2`. -/
theorem C21_lagrange_interp_2 (x0 x1 y0 y1 : K) :
    (x0 ≠ x1 → ∃ r, lagrangeInterp2 [x0, x1] [y0, y1] = .ok r ∧ Canon r ∧ UniqueInterpolant (toPoly r) [x0, x1] [y0, y1]) ∧
    (x0 = x1 → ∃ e, lagrangeInterp2 [x0, x1] [y0, y1] = .error e) := by
  refine ⟨fun h => ?_, fun h => ⟨.zeroDivision, by subst h; exact lagrangeInterp2_raises _ _⟩⟩
  obtain ⟨r, h1, h2, h3, a, b⟩ := lagrangeInterp2_spec x0 x1 y0 y1 h
  exact ⟨r, h1, h2, uniqueInterpolant_of h2 (by simpa using h) (by simpa using h3) (by simp [a, b])⟩

example : haveI : Fact (Nat.Prime 7) := ⟨by norm_num⟩
    lagrangeInterp2 ([1, 2] : List (Zp 7)) [5, 1] = .ok [2, 3] := by decide +kernel

/-- The values `ys`, with 0 in place of each that belongs to a point listed more than once. -/
def onceOnly (xs ys : List K) : List K := List.zipWith (fun x y => if xs.count x = 1 then y else 0) xs ys

omit [Field K] [DecidableEq K] in
theorem zipWith_id : ∀ (xs ys : List K) (g : K → K → K), (∀ x ∈ xs, ∀ y, g x y = y) → ys.length = xs.length →
    List.zipWith g xs ys = ys
  | [], [], _, _, _ => rfl
  | [], _ :: _, _, _, h => by simp at h
  | _ :: _, [], _, _, h => by simp at h
  | x :: xs, y :: ys, g, hg, h => by
    rw [List.zipWith_cons_cons, hg x (by simp), zipWith_id xs ys g (fun x hx => hg x (by simp [hx])) (by simpa using h)]

theorem onceOnly_nodup {xs ys : List K} (hx : xs.Nodup) (hl : ys.length = xs.length) : onceOnly xs ys = ys :=
  zipWith_id xs ys _ (fun _ h _ => if_pos (List.count_eq_one_of_mem hx h)) hl

/-- The values that a repeated point is given are lost, unless they are 0. -/
theorem onceOnly_ne {xs ys : List K} {i : Nat} (hi : i < xs.length) (hl : ys.length = xs.length) (h2 : 2 ≤ xs.count xs[i])
    (hy : ys[i]'(hl ▸ hi) ≠ 0) : onceOnly xs ys ≠ ys := by
  intro h
  have := congrArg (fun l => l[i]?) h
  simp only [onceOnly, List.getElem?_zipWith, List.getElem?_eq_getElem hi, List.getElem?_eq_getElem (hl ▸ hi : i < ys.length)] at this
  rw [Option.some.injEq, if_neg (by omega)] at this
  exact hy this.symm

theorem multi_interp_4_all (xsets ysets : List (List K)) (hl : xsets.length = ysets.length)
    (hx : ∀ s ∈ xsets, s.length = 4) (hy : ∀ s ∈ ysets, s.length = 4) :
    ∃ rs, multiInterp4 xsets ysets = .ok rs ∧ rs.length = xsets.length ∧
      ∀ (j : Nat) (h : j < xsets.length) (h' : j < rs.length), Canon rs[j] ∧
        xsets[j].map (fun x => (toPoly rs[j]).eval x) = onceOnly xsets[j] (ysets[j]'(hl ▸ h)) ∧
        (xsets[j].Nodup → UniqueInterpolant (toPoly rs[j]) xsets[j] (ysets[j]'(hl ▸ h))) := by
  have hq : ∃ qs : List (Quad K), xsets = qs.map Quad.xs ∧ ysets = qs.map Quad.ys := by
    induction xsets generalizing ysets with
    | nil => cases ysets with
      | nil => exact ⟨[], rfl, rfl⟩
      | cons => simp at hl
    | cons x xs ih => cases ysets with
      | nil => simp at hl
      | cons y ys =>
        obtain ⟨qs, h1, h2⟩ := ih ys (by simpa using hl) (fun s hs => hx s (by simp [hs])) (fun s hs => hy s (by simp [hs]))
        have a := hx x (by simp)
        have b := hy y (by simp)
        match x, a, y, b with
        | [x0, x1, x2, x3], _, [y0, y1, y2, y3], _ =>
          exact ⟨((x0, x1, x2, x3), (y0, y1, y2, y3)) :: qs, by rw [h1]; rfl, by rw [h2]; rfl⟩
  obtain ⟨qs, rfl, rfl⟩ := hq
  obtain ⟨rs, h1, h2, h3⟩ := multiInterp4_spec qs
  refine ⟨rs, h1, by simpa using h2, fun j h h' => ?_⟩
  have hj : j < qs.length := by simpa using h
  obtain ⟨a, b, c⟩ := h3 j hj h'
  refine ⟨a, ?_, fun hn => ?_⟩
  · simp only [List.getElem_map]; exact c
  simp only [List.getElem_map] at hn ⊢
  exact uniqueInterpolant_of a hn (by simpa [Quad.xs] using b) (c.trans (onceOnly_nodup hn rfl))

/-- **C21**. `multi_interp_4`: any number of sets of four points; it never raises and returns one canonical polynomial per
set; for a set with distinct points it is the unique interpolant, whatever the other sets are (repeated points included). -/
theorem C21_multi_interp_4 (xsets ysets : List (List K)) (hl : xsets.length = ysets.length)
    (hx : ∀ s ∈ xsets, s.length = 4) (hy : ∀ s ∈ ysets, s.length = 4) :
    ∃ rs, multiInterp4 xsets ysets = .ok rs ∧ rs.length = xsets.length ∧
      ∀ (j : Nat) (h : j < xsets.length) (h' : j < rs.length), Canon rs[j] ∧
        (xsets[j].Nodup → UniqueInterpolant (toPoly rs[j]) xsets[j] (ysets[j]'(hl ▸ h))) := by
  obtain ⟨rs, h1, h2, h3⟩ := multi_interp_4_all xsets ysets hl hx hy
  exact ⟨rs, h1, h2, fun j h h' => ⟨(h3 j h h').1, (h3 j h h').2.2⟩⟩

example : haveI : Fact (Nat.Prime 7) := ⟨by norm_num⟩
    multiInterp4 ([[0, 0, 2, 3], [0, 1, 2, 3]] : List (List (Zp 7))) [[1, 1, 1, 1], [0, 1, 1, 6]] =
      .ok [[0, 5, 2, 4], [0, 0, 0, 1]] := by decide +kernel

/-- **C129** fails for `lagrange_interp`: a list of points with repetitions is interpolated without an exception. The polynomial is
right at each point listed once and is 0 at each point listed more than once, so a value other than 0 given there, even the same one
every time, is lost. -/
theorem C129_lagrange_interp_refuted (xs ys : List K) (hl : ys.length = xs.length) :
    ∃ r, lagrangeInterp xs ys = .ok r ∧ Canon r ∧ r.length ≤ xs.length ∧
      xs.map (fun x => (toPoly r).eval x) = onceOnly xs ys ∧
      ∀ (i : Nat) (hi : i < xs.length), 2 ≤ xs.count xs[i] → ys[i]'(hl ▸ hi) ≠ 0 → xs.map (fun x => (toPoly r).eval x) ≠ ys := by
  obtain ⟨r, h1, h2, h3, h4⟩ := lagrangeInterp_any xs ys hl
  exact ⟨r, h1, h2, h3, h4, fun i hi hc hy h => onceOnly_ne hi hl hc hy (h4.symm.trans h)⟩

/-- Three points of the constant 5, one of them given twice. -/
example : ∃ r, lagrangeInterp ([1, 1, 3] : List (Zp 7)) [5, 5, 5] = .ok r ∧ Canon r ∧
    [1, 1, 3].map (fun x => (toPoly r).eval x) = [0, 0, 5] := by
  obtain ⟨r, h1, h2, -, h3, -⟩ := C129_lagrange_interp_refuted ([1, 1, 3] : List (Zp 7)) [5, 5, 5] rfl
  exact ⟨r, h1, h2, h3.trans (by decide +kernel)⟩

/-- **C129** fails for `multi_interp_4` in the same way. -/
theorem C129_multi_interp_4_refuted (xsets ysets : List (List K)) (hl : xsets.length = ysets.length)
    (hx : ∀ s ∈ xsets, s.length = 4) (hy : ∀ s ∈ ysets, s.length = 4) :
    ∃ rs, multiInterp4 xsets ysets = .ok rs ∧ rs.length = xsets.length ∧
      ∀ (j : Nat) (h : j < xsets.length) (h' : j < rs.length), Canon rs[j] ∧
        xsets[j].map (fun x => (toPoly rs[j]).eval x) = onceOnly xsets[j] (ysets[j]'(hl ▸ h)) := by
  obtain ⟨rs, h1, h2, h3⟩ := multi_interp_4_all xsets ysets hl hx hy
  exact ⟨rs, h1, h2, fun j h h' => ⟨(h3 j h h').1, (h3 j h h').2.1⟩⟩

example : multiInterp4 ([[0, 0, 2, 3]] : List (List (Zp 7))) [[1, 1, 1, 1]] = .ok [[0, 5, 2, 4]] ∧
    onceOnly ([0, 0, 2, 3] : List (Zp 7)) [1, 1, 1, 1] = [0, 0, 1, 1] := by decide +kernel

/-- **C129** for `lagrange_interp_2` and `lagrange_interp_4`: a repeated point raises `ZeroDivisionError`. -/
theorem C129_specialised_partial (x : K) (ys : List K) (xs : List K) (h4 : xs.length = 4) (hx : ¬ xs.Nodup) :
    lagrangeInterp2 [x, x] ys = .error .zeroDivision ∧ lagrangeInterp4 xs ys = .error .zeroDivision := by
  match xs, h4 with
  | [x0, x1, x2, x3], _ => exact ⟨lagrangeInterp2_raises x ys, lagrangeInterp4_raises x0 x1 x2 x3 ys hx⟩

example : lagrangeInterp2 ([3, 3] : List (Zp 7)) [1, 2] = .error .zeroDivision ∧
    lagrangeInterp4 ([0, 1, 5, 1] : List (Zp 7)) [1, 2, 2, 6] = .error .zeroDivision :=
  C129_specialised_partial 3 [1, 2] [0, 1, 5, 1] rfl (by decide) |>.imp id fun _ =>
    (C129_specialised_partial (0 : Zp 7) [1, 2, 2, 6] [0, 1, 5, 1] rfl (by decide)).2

end Verif.Props
