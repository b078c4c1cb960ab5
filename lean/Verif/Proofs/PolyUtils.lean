import Verif.Model.PolyUtils
import Verif.Proofs.Polynomial
import Mathlib.Algebra.Polynomial.Roots
import Mathlib.LinearAlgebra.Lagrange
import Mathlib.Tactic.FieldSimp
import Mathlib.Tactic.LinearCombination
/-! # poly_utils.py: batch inversion, roots, interpolation -/

set_option linter.unusedSectionVars false

namespace Verif.PolyUtils
open Poly
open scoped Polynomial
open Polynomial (C X)

variable {K : Type _} [Field K] [DecidableEq K]

/-! ### multi_inv -/

/-- What `multi_inv` multiplies for a value: itself, or 1 for zero. -/
def nz (v : K) : K := if v = 0 then 1 else v

theorem nz_ne_zero (v : K) : nz v ≠ 0 := by unfold nz; split <;> simp_all

theorem partials_length : ∀ (vs : List K) (a : K), (partials a vs).length = vs.length + 1
  | [], a => rfl
  | v :: vs, a => by simp [partials, partials_length vs]

theorem partials_snoc : ∀ (vs : List K) (v a : K),
    partials a (vs ++ [v]) = partials a vs ++ [a * (vs.map nz).prod * nz v]
  | [], v, a => by simp [partials, nz]
  | w :: vs, v, a => by
    simp only [List.cons_append, partials, partials_snoc vs v, List.map_cons, List.prod_cons, List.cons.injEq, true_and]
    rw [show (if w = 0 then (1 : K) else w) = nz w from rfl]
    congr 2
    ring

theorem partials_last (vs : List K) (a d : K) : (partials a vs).getLastD d = a * (vs.map nz).prod := by
  induction vs using List.reverseRecOn with
  | nil => simp [partials]
  | append_singleton vs v _ => rw [partials_snoc]; simp [mul_assoc]

theorem backLoop_append (truthy : K → Bool) : ∀ (l : List (K × K)) (inv : K) (outs : List K),
    backLoop truthy l inv outs = backLoop truthy l inv [] ++ outs
  | [], _, _ => rfl
  | (pr, v) :: l, inv, outs => by
    simp only [backLoop]
    rw [backLoop_append truthy l, backLoop_append truthy l _ [_]]
    simp

theorem backLoop_spec (truthy : K → Bool) (vs : List K) :
    backLoop truthy ((partials 1 vs).zip vs).reverse ((vs.map nz).prod)⁻¹ [] =
      vs.map fun v => if truthy v then (nz v)⁻¹ else 0 := by
  induction vs using List.reverseRecOn with
  | nil => rfl
  | append_singleton vs v ih =>
    have hz : (partials 1 (vs ++ [v])).zip (vs ++ [v]) = (partials 1 vs).zip vs ++ [((vs.map nz).prod, v)] := by
      rw [partials_snoc]
      have hl := partials_length vs (1 : K)
      have hne : partials 1 vs ≠ [] := by intro h; rw [h] at hl; simp at hl
      have hlast : (partials 1 vs).getLast hne = (vs.map nz).prod := by
        have := partials_last vs (1 : K) 0
        rw [List.getLastD_eq_getLast?, List.getLast?_eq_getLast_of_ne_nil hne] at this
        simpa using this
      have hd : partials 1 vs = (partials 1 vs).dropLast ++ [(vs.map nz).prod] := by
        rw [← hlast]; exact (List.dropLast_append_getLast hne).symm
      have hdl : (partials 1 vs).dropLast.length = vs.length := by simp [hl]
      have e1 : (partials 1 vs).zip vs = (partials 1 vs).dropLast.zip vs := by
        conv_lhs => rw [hd]
        have := List.zip_append (l₁ := (partials 1 vs).dropLast) (r₁ := [(vs.map nz).prod]) (l₂ := vs) (r₂ := []) hdl
        simpa using this
      conv_lhs => rw [hd]
      rw [e1, List.append_assoc, List.zip_append hdl]
      simp
    rw [hz, List.reverse_append]
    simp only [List.reverse_singleton, List.singleton_append, backLoop]
    have hp : ((vs.map nz).prod : K) ≠ 0 := by
      apply List.prod_ne_zero
      simp only [List.mem_map, not_exists, not_and]
      exact fun x _ => nz_ne_zero x
    have hinv : (if v ≠ 0 then (((vs ++ [v]).map nz).prod)⁻¹ * v else (((vs ++ [v]).map nz).prod)⁻¹) = ((vs.map nz).prod)⁻¹ := by
      simp only [List.map_append, List.map_cons, List.map_nil, List.prod_append, List.prod_singleton]
      by_cases hv : v = 0
      · simp [hv, nz]
      · simp only [ne_eq, hv, not_false_eq_true, if_true, nz, if_false]
        field_simp
    rw [hinv, backLoop_append, ih, List.map_append, List.map_cons, List.map_nil]
    simp only [List.map_append, List.map_cons, List.map_nil, List.prod_append, List.prod_singleton]
    have := nz_ne_zero v
    congr 1
    field_simp

theorem multiInv_eq (truthy : K → Bool) (vs : List K) :
    multiInv truthy recip vs = .ok (vs.map fun v => if truthy v then (nz v)⁻¹ else 0) := by
  have hp : ((vs.map nz).prod : K) ≠ 0 := by
    apply List.prod_ne_zero
    simp only [List.mem_map, not_exists, not_and]
    exact fun x _ => nz_ne_zero x
  have hr : recip ((partials 1 vs).getLastD 1) = .ok ((vs.map nz).prod)⁻¹ := by
    rw [partials_last, one_mul, recip, pyDiv, if_neg hp, one_mul]
  simp only [multiInv, partials_length, pyAssert, beq_self_eq_true, if_true, bind, Except.bind, hr, backLoop_spec]

/-! ### zpoly -/

theorem toPoly_rootStep (x : K) : ∀ (l : List K) (a : K), toPoly (rootStep x (a :: l)) = toPoly (a :: l) - C x * toPoly l
  | [], a => by simp [rootStep, toPoly_nil]
  | b :: t, a => by
    simp only [rootStep]
    rw [toPoly_cons, toPoly_rootStep x t b, toPoly_cons a, toPoly_cons b]
    simp only [map_sub, map_mul]
    ring

theorem toPoly_rootLoop : ∀ (xs root : List K), toPoly (rootLoop xs root) = (xs.map fun x => X - C x).prod * toPoly root
  | [], root => by simp [rootLoop]
  | x :: xs, root => by
    rw [rootLoop, toPoly_rootLoop xs, toPoly_rootStep, toPoly_cons]
    simp only [map_zero, zero_add, List.map_cons, List.prod_cons]
    ring

theorem toPoly_zpoly (xs : List K) : toPoly (zpoly xs) = (xs.map fun x => X - C x).prod := by
  rw [zpoly, toPoly_ctor, toPoly_rootLoop, toPoly_cons, toPoly_nil]; simp

theorem canon_zpoly (xs : List K) : Canon (zpoly xs) := canon_ctor _

theorem natDegree_linprod (xs : List K) : ((xs.map fun x => X - C x).prod : K[X]).natDegree = xs.length ∧
    ((xs.map fun x => X - C x).prod : K[X]).Monic := by
  induction xs with
  | nil => simp
  | cons x xs ih =>
    simp only [List.map_cons, List.prod_cons, List.length_cons]
    refine ⟨?_, (Polynomial.monic_X_sub_C x).mul ih.2⟩
    rw [(Polynomial.monic_X_sub_C x).natDegree_mul ih.2, ih.1, Polynomial.natDegree_X_sub_C, add_comm]

theorem zpoly_length (xs : List K) : (zpoly xs).length = xs.length + 1 := by
  have h1 := natDegree_toPoly (canon_zpoly xs)
  rw [toPoly_zpoly, (natDegree_linprod xs).1] at h1
  have : zpoly xs ≠ [] := fun h => by
    have := toPoly_zpoly xs
    rw [h, toPoly_nil] at this
    exact (natDegree_linprod xs).2.ne_zero this.symm
  have := List.length_pos_iff.2 this
  omega

/-! ### lagrange_interp -/

theorem canon_linear (x : K) : Canon (ctor [-x, 1]) ∧ ctor [-x, 1] ≠ [] ∧ toPoly (ctor [-x, 1]) = X - C x := by
  have h : toPoly (ctor [-x, 1]) = X - C x := by
    rw [toPoly_ctor]; simp [toPoly_cons, toPoly_nil]; ring
  refine ⟨canon_ctor _, fun hc => ?_, h⟩
  rw [hc, toPoly_nil] at h
  exact Polynomial.X_sub_C_ne_zero x h.symm

theorem call_eq_eval (f : List K) (x : K) : call f x = (toPoly f).eval x := by
  rw [call_spec, Polynomial.coe_aeval_eq_eval]

/-- The numerator polynomial for position `i`: the product over the other points. -/
noncomputable def numer (xs : List K) (i : Nat) : K[X] := ((xs.eraseIdx i).map fun x => X - C x).prod

theorem linprod_eq (xs : List K) (i : Nat) (hi : i < xs.length) :
    (xs.map fun x => X - C x).prod = (X - C xs[i]) * numer xs i := by
  have := (List.getElem_cons_eraseIdx_perm hi).map (fun x : K => (X - C x : K[X]))
  rw [← this.prod_eq]; simp [numer]

theorem truediv_root (xs : List K) (i : Nat) (hi : i < xs.length) :
    ∃ q, truediv (zpoly xs) (ctor [-xs[i], 1]) = .ok q ∧ Canon q ∧ toPoly q = numer xs i := by
  obtain ⟨h1, h2, h3⟩ := canon_linear xs[i]
  obtain ⟨q, e1, e2, e3⟩ := truediv_eq (canon_zpoly xs) h1 h2
  refine ⟨q, e1, e2, ?_⟩
  rw [e3, h3, toPoly_zpoly, linprod_eq xs i hi]
  exact mul_div_cancel_left₀ _ (Polynomial.X_sub_C_ne_zero _)

theorem numer_eval_self (xs : List K) (hx : xs.Nodup) (i : Nat) (hi : i < xs.length) : (numer xs i).eval xs[i] ≠ 0 := by
  rw [numer, Polynomial.eval_list_prod]
  apply List.prod_ne_zero
  simp only [List.map_map, List.mem_map, not_exists, not_and]
  intro y hy h
  have hy' : y ≠ xs[i] := by
    intro h; subst h
    have := (List.getElem_cons_eraseIdx_perm hi).nodup_iff.2 hx
    exact (List.nodup_cons.1 this).1 hy
  simp at h
  exact hy' (sub_eq_zero.1 h).symm

theorem numer_eval_other (xs : List K) (hx : xs.Nodup) (i j : Nat) (hi : i < xs.length) (hj : j < xs.length) (hij : i ≠ j) :
    (numer xs i).eval xs[j] = 0 := by
  have h := congrArg (Polynomial.eval xs[j]) (linprod_eq xs i hi)
  rw [linprod_eq xs j hj] at h
  simp only [Polynomial.eval_mul, Polynomial.eval_sub, Polynomial.eval_X, Polynomial.eval_C, sub_self, zero_mul] at h
  rcases mul_eq_zero.1 h.symm with h | h
  · exact absurd ((List.Nodup.getElem_inj_iff hx).1 (sub_eq_zero.1 h)).symm hij
  · exact h

theorem numer_natDegree (xs : List K) (i : Nat) (hi : i < xs.length) : (numer xs i).natDegree = xs.length - 1 ∧ (numer xs i).Monic := by
  have := natDegree_linprod (xs.eraseIdx i)
  rw [List.length_eraseIdx_of_lt hi] at this
  exact this

theorem addScaled_spec (c : K) : ∀ (b n : List K), b.length ≤ n.length →
    ∃ r, addScaled c b n = .ok r ∧ r.length = b.length ∧
      ∀ i, i < b.length → r.getD i 0 = b.getD i 0 + n.getD i 0 * c
  | [], n, _ => ⟨[], rfl, rfl, by simp⟩
  | b :: bs, [], h => by simp at h
  | b :: bs, n :: ns, h => by
    obtain ⟨r, h1, h2, h3⟩ := addScaled_spec c bs ns (by simpa using h)
    refine ⟨(b + n * c) :: r, by simp [addScaled, h1, bind, Except.bind, eltTruthy], by simp [h2], ?_⟩
    intro i hi
    cases i with
    | zero => simp
    | succ i => simpa using h3 i (by simpa using hi)

theorem toPoly_addScaled (c : K) (b n : List K) (h : b.length = n.length) :
    ∃ r, addScaled c b n = .ok r ∧ r.length = b.length ∧ toPoly r = toPoly b + C c * toPoly n := by
  obtain ⟨r, h1, h2, h3⟩ := addScaled_spec c b n h.le
  refine ⟨r, h1, h2, ?_⟩
  ext i
  rw [Polynomial.coeff_add, Polynomial.coeff_C_mul, coeff_toPoly, coeff_toPoly, coeff_toPoly]
  by_cases hi : i < b.length
  · rw [h3 i hi]; ring
  · have hd : ∀ l : List K, l.length ≤ i → l.getD i 0 = 0 := fun l hl => by simp [List.getElem?_eq_none hl]
    rw [hd r (by omega), hd b (by omega), hd n (by omega)]; simp

theorem interpLoop_spec (n : Nat) : ∀ (nums : List (List K)) (ys ds b : List K), nums.length = ys.length → nums.length = ds.length →
    b.length = n → (∀ l ∈ nums, l.length = n) →
    ∃ r, interpLoop nums ys ds b = .ok r ∧ r.length = n ∧
      toPoly r = toPoly b + (((nums.zip ys).zip ds).map fun t => C (t.1.2 * t.2) * toPoly t.1.1).sum
  | [], ys, ds, b, _, _, hb, _ => ⟨b, rfl, hb, by simp⟩
  | num :: nums, [], ds, b, h, _, _, _ => by simp at h
  | num :: nums, y :: ys, [], b, _, h, _, _ => by simp at h
  | num :: nums, y :: ys, d :: ds, b, h1, h2, hb, hn => by
    obtain ⟨r, e1, e2, e3⟩ := toPoly_addScaled (y * d) b num (by rw [hb, hn num (by simp)])
    obtain ⟨s, f1, f2, f3⟩ := interpLoop_spec n nums ys ds r (by simpa using h1) (by simpa using h2) (by omega)
      (fun l hl => hn l (by simp [hl]))
    refine ⟨s, by simp only [interpLoop, e1, bind, Except.bind, f1], f2, ?_⟩
    rw [f3, e3]; simp [add_assoc]

theorem pyMap_spec {α β : Type _} (f : α → Py β) : ∀ (l : List α), (∀ (i : Nat) (h : i < l.length), ∃ b, f l[i] = .ok b) →
    ∃ r, pyMap f l = .ok r ∧ r.length = l.length ∧ ∀ (i : Nat) (h : i < l.length) (h' : i < r.length), f l[i] = .ok r[i]
  | [], _ => ⟨[], rfl, rfl, by simp⟩
  | a :: l, h => by
    obtain ⟨b, hb⟩ := h 0 (by simp)
    obtain ⟨r, h1, h2, h3⟩ := pyMap_spec f l (fun i hi => h (i + 1) (by simpa using hi))
    simp only [List.getElem_cons_zero] at hb
    refine ⟨b :: r, by simp only [pyMap, hb, h1, bind, Except.bind], by simp [h2], ?_⟩
    intro i hi hi'
    cases i with
    | zero => simpa using hb
    | succ i => simpa using h3 i (by simpa using hi) (by simpa using hi')

theorem sum_zip_range {M : Type _} [AddCommMonoid M] (n : Nat) (l : List M) (hl : l.length = n) (g : Nat → M)
    (h : ∀ (i : Nat) (hi : i < l.length), l[i] = g i) : l.sum = ∑ i ∈ Finset.range n, g i := by
  subst hl
  rw [← Fin.sum_univ_eq_sum_range, ← List.sum_ofFn]
  congr 1
  conv_lhs => rw [← List.ofFn_getElem (xs := l)]
  congr 1
  funext i
  exact h i i.2

theorem nums_spec (xs : List K) : ∃ nums, pyMap (fun x => truediv (zpoly xs) (ctor [-x, 1])) xs = .ok nums ∧
    nums.length = xs.length ∧ ∀ (i : Nat) (h : i < nums.length), Canon nums[i] ∧ toPoly nums[i] = numer xs i := by
  obtain ⟨nums, h1, h2, h3⟩ := pyMap_spec (fun x => truediv (zpoly xs) (ctor [-x, 1])) xs (fun i hi => by
    obtain ⟨q, hq, -⟩ := truediv_root xs i hi; exact ⟨q, hq⟩)
  refine ⟨nums, h1, h2, fun i hi => ?_⟩
  have hi' : i < xs.length := by omega
  obtain ⟨q, hq, hq1, hq2⟩ := truediv_root xs i hi'
  have := h3 i hi' hi
  simp only [hq, Except.ok.injEq] at this
  rw [← this]; exact ⟨hq1, hq2⟩

/-- What `lagrange_interp` returns for any points, repeated ones included: the sum of the scaled numerators, where a
denominator that is 0 counts as 1. -/
theorem lagrangeInterp_sum (xs ys : List K) (hl : ys.length = xs.length) :
    ∃ r, lagrangeInterp xs ys = .ok r ∧ Canon r ∧ r.length ≤ xs.length ∧
      toPoly r = ∑ i ∈ Finset.range xs.length, C (ys.getD i 0 * (nz ((numer xs i).eval (xs.getD i 0)))⁻¹) * numer xs i := by
  obtain ⟨nums, h1, h2, h3⟩ := nums_spec xs
  set denoms : List K := (nums.zip xs).map fun nx => call nx.1 nx.2 with hden
  have hdl : denoms.length = xs.length := by simp [hden, h2]
  have hdi : ∀ (i : Nat) (h : i < denoms.length), denoms[i] = (numer xs i).eval (xs[i]'(by omega)) := by
    intro i h
    simp only [hden, List.getElem_map, List.getElem_zip, call_eq_eval]
    rw [(h3 i (by omega)).2]
  have hnl : ∀ l ∈ nums, l.length = xs.length := by
    intro l hl
    obtain ⟨i, hi, rfl⟩ := List.getElem_of_mem hl
    have hi' : i < xs.length := by omega
    have hd := numer_natDegree xs i hi'
    have hc := h3 i hi
    have := natDegree_toPoly hc.1
    rw [hc.2, hd.1] at this
    have hne : nums[i] ≠ [] := fun h => by
      have := hc.2; rw [h, toPoly_nil] at this; exact hd.2.ne_zero this.symm
    have := List.length_pos_iff.2 hne
    omega
  set ds : List K := denoms.map fun v => if eltTruthy v then (nz v)⁻¹ else 0 with hds
  have hdsl : ds.length = xs.length := by simp [hds, hdl]
  obtain ⟨r, e1, e2, e3⟩ := interpLoop_spec xs.length nums ys ds (ys.map fun _ => 0) (by omega) (by omega) (by simp [hl]) hnl
  have hb0 : toPoly (ys.map fun _ => (0 : K)) = 0 := by
    rw [List.map_const']; exact toPoly_replicate_zero _
  rw [hb0, zero_add] at e3
  have hsum : toPoly r = ∑ i ∈ Finset.range xs.length, C (ys.getD i 0 * (nz ((numer xs i).eval (xs.getD i 0)))⁻¹) * numer xs i := by
    rw [e3]
    apply sum_zip_range
    · simp; omega
    · intro i hi
      simp only [List.length_map, List.length_zip] at hi
      have hi1 : i < xs.length := by omega
      have hi2 : i < ys.length := by omega
      simp only [List.getElem_map, List.getElem_zip, hds, eltTruthy, if_true]
      rw [(h3 i (by omega)).2, hdi i (by omega)]
      simp [List.getElem?_eq_getElem hi1, List.getElem?_eq_getElem hi2]
  refine ⟨ctor r, ?_, canon_ctor r, ?_, by rw [toPoly_ctor, hsum]⟩
  · have hz : (pabs (zpoly xs) == ys.length + 1) = true := by simp [pabs, zpoly_length, hl]
    simp only [lagrangeInterp, hz, pyAssert, if_true, bind, Except.bind, h1, ← hden, multiInv_eq, ← hds, e1]
  · have : (ctor r).length ≤ r.length := by unfold ctor strip; simp
    omega

theorem lagrangeInterp_spec (xs ys : List K) (hx : xs.Nodup) (hl : ys.length = xs.length) :
    ∃ r, lagrangeInterp xs ys = .ok r ∧ Canon r ∧ r.length ≤ xs.length ∧
      ∀ (i : Nat) (h : i < xs.length) (h' : i < ys.length), (toPoly r).eval xs[i] = ys[i] := by
  obtain ⟨r, h1, h2, h3, hsum⟩ := lagrangeInterp_sum xs ys hl
  refine ⟨r, h1, h2, h3, fun k hk hk' => ?_⟩
  rw [hsum, Polynomial.eval_finsetSum, Finset.sum_eq_single k]
  · simp only [Polynomial.eval_mul, Polynomial.eval_C, List.getD_eq_getElem?_getD, List.getElem?_eq_getElem hk,
      List.getElem?_eq_getElem hk', Option.getD_some]
    have := numer_eval_self xs hx k hk
    rw [nz, if_neg this]
    field_simp
  · intro i hi hik
    rw [Polynomial.eval_mul, numer_eval_other xs hx i k (by simpa using hi) hk hik, mul_zero]
  · intro h; simp at h; omega

/-- All points equal: the values are added up on one power of the linear factor. -/
theorem lagrangeInterp_repeated (x : K) (n : Nat) (hn : 1 ≤ n) (ys : List K) (hl : ys.length = n) :
    ∃ r, lagrangeInterp (List.replicate n x) ys = .ok r ∧ Canon r ∧ toPoly r = C ys.sum * (X - C x) ^ (n - 1) := by
  obtain ⟨r, h1, h2, -, hsum⟩ := lagrangeInterp_sum (List.replicate n x) ys (by simpa using hl)
  refine ⟨r, h1, h2, ?_⟩
  have hnum : ∀ i, i < n → numer (List.replicate n x) i = (X - C x) ^ (n - 1) := by
    intro i hi
    rw [numer, List.eraseIdx_replicate, if_pos hi, List.map_replicate, List.prod_replicate]
  have hnz : nz (((X - C x) ^ (n - 1) : K[X]).eval x) = 1 := by
    unfold nz
    rcases Nat.eq_or_lt_of_le hn with h | h
    · subst h; simp
    · rw [if_pos (by simp; omega)]
  rw [hsum, List.length_replicate, sum_zip_range n ys hl (fun i => ys.getD i 0) (fun i hi => by simp [hi]), map_sum, Finset.sum_mul]
  apply Finset.sum_congr rfl
  intro i hi
  have hi' := Finset.mem_range.1 hi
  have : (List.replicate n x).getD i 0 = x := by simp [hi']
  rw [hnum i hi', this, hnz, inv_one, mul_one]

/-- At every point of the list: the value asked for where the point is listed once, 0 where it is repeated. -/
theorem lagrangeInterp_any (xs ys : List K) (hl : ys.length = xs.length) :
    ∃ r, lagrangeInterp xs ys = .ok r ∧ Canon r ∧ r.length ≤ xs.length ∧
      xs.map (fun x => (toPoly r).eval x) = List.zipWith (fun x y => if xs.count x = 1 then y else 0) xs ys := by
  obtain ⟨r, h1, hc, hlen, hsum⟩ := lagrangeInterp_sum xs ys hl
  refine ⟨r, h1, hc, hlen, List.ext_getElem (by simp [hl]) fun k hk hk' => ?_⟩
  have hk1 : k < xs.length := by simpa using hk
  simp only [List.getElem_map, List.getElem_zipWith]
  have hzero : ∀ i < xs.length, xs[k] ∈ xs.eraseIdx i → (numer xs i).eval xs[k] = 0 := by
    intro i _ hm
    rw [numer, Polynomial.eval_list_prod, List.prod_eq_zero_iff, List.map_map]
    exact List.mem_map.2 ⟨_, hm, by simp⟩
  have hcount : ∀ i (hi : i < xs.length), (xs.eraseIdx i).count xs[k] = xs.count xs[k] - if xs[i] = xs[k] then 1 else 0 := by
    intro i hi
    have := (List.getElem_cons_eraseIdx_perm hi).count_eq xs[k]
    rw [List.count_cons] at this
    simp only [beq_iff_eq] at this
    omega
  change Polynomial.eval (xs[k]'hk1) (toPoly r) = if xs.count (xs[k]'hk1) = 1 then ys[k]'(hl ▸ hk1) else 0
  rw [hsum, Polynomial.eval_finsetSum, Finset.sum_eq_single k]
  · simp only [Polynomial.eval_mul, Polynomial.eval_C, List.getD_eq_getElem?_getD, List.getElem?_eq_getElem hk1,
      List.getElem?_eq_getElem (hl ▸ hk1 : k < ys.length), Option.getD_some]
    have hpos : 0 < xs.count xs[k] := List.count_pos_iff.2 (List.getElem_mem hk1)
    have h3 := hcount k hk1
    rw [if_pos rfl] at h3
    split_ifs with h
    · have hne : (numer xs k).eval xs[k] ≠ 0 := by
        rw [numer, Polynomial.eval_list_prod]
        refine List.prod_ne_zero fun h0 => ?_
        rw [List.map_map, List.mem_map] at h0
        obtain ⟨x, hx, hx0⟩ := h0
        have hx' : x = xs[k] := by
          simp only [Function.comp, Polynomial.eval_sub, Polynomial.eval_X, Polynomial.eval_C, sub_eq_zero] at hx0
          exact hx0.symm
        rw [hx'] at hx
        have := List.count_pos_iff.2 hx
        omega
      rw [nz, if_neg hne, mul_assoc, inv_mul_cancel₀ hne, mul_one]
    · rw [hzero k hk1 (List.count_pos_iff.1 (by omega)), mul_zero]
  · intro i hi hik
    have hi' : i < xs.length := by simpa using hi
    rw [Polynomial.eval_mul, hzero i hi', mul_zero]
    rw [List.mem_iff_getElem]
    rcases Nat.lt_or_gt_of_ne hik with h | h
    · exact ⟨k - 1, by rw [List.length_eraseIdx_of_lt hi']; omega, by
        rw [List.getElem_eraseIdx_of_ge (by rw [List.length_eraseIdx_of_lt hi']; omega) (by omega)]; congr 1; omega⟩
    · exact ⟨k, by rw [List.length_eraseIdx_of_lt hi']; omega, by rw [List.getElem_eraseIdx_of_lt _ h]⟩
  · intro h; simp at h; omega

theorem lagrangeInterp_length (xs ys : List K) (hl : ys.length ≠ xs.length) : lagrangeInterp xs ys = .error .assertion := by
  have hz : (pabs (zpoly xs) == ys.length + 1) = false := by simp [pabs, zpoly_length]; omega
  simp [lagrangeInterp, hz, pyAssert, bind, Except.bind]

/-- Two polynomials of degree less than the number of distinct points that agree there are equal. -/
theorem interp_unique {xs : List K} (hx : xs.Nodup) {P Q : K[X]} (hP : P.degree < xs.length) (hQ : Q.degree < xs.length)
    (h : ∀ x ∈ xs, P.eval x = Q.eval x) : P = Q := by
  apply Polynomial.eq_of_degrees_lt_of_eval_finset_eq xs.toFinset
  · rwa [List.toFinset_card_of_nodup hx]
  · rwa [List.toFinset_card_of_nodup hx]
  · intro x hx; exact h x (by simpa using hx)

/-! ### The specialised versions -/

theorem ctor_four (a b c : K) : ctor [a, b, c, 1] = [a, b, c, 1] :=
  ctor_of_canon (fun x h => by simp at h; simp [← h])

theorem cubics_eq (x0 x1 x2 x3 : K) : cubics x0 x1 x2 x3 =
    ([-(x1 * x2) * x3, x1 * x2 + x1 * x3 + x2 * x3, -x1 - x2 - x3, 1],
     [-(x0 * x2) * x3, x0 * x2 + x0 * x3 + x2 * x3, -x0 - x2 - x3, 1],
     [-(x0 * x1) * x3, x0 * x1 + x0 * x3 + x1 * x3, -x0 - x1 - x3, 1],
     [-(x0 * x1) * x2, x0 * x1 + x0 * x2 + x1 * x2, -x0 - x1 - x2, 1]) := by
  simp only [cubics, ctor_four]

theorem eval_four (a b c d x : K) : (toPoly [a, b, c, d]).eval x = a + b * x + c * x ^ 2 + d * x ^ 3 := by
  simp only [toPoly_cons, toPoly_nil, Polynomial.eval_add, Polynomial.eval_C, Polynomial.eval_mul, Polynomial.eval_X,
    Polynomial.eval_zero]
  ring

theorem call_four (a b c d x : K) : call [a, b, c, d] x = a + b * x + c * x ^ 2 + d * x ^ 3 := by
  rw [call_eq_eval, eval_four]

theorem combine4_eq (a0 b0 c0 d0 a1 b1 c1 d1 a2 b2 c2 d2 a3 b3 c3 d3 w0 w1 w2 w3 : K) :
    combine4 [a0, b0, c0, d0] [a1, b1, c1, d1] [a2, b2, c2, d2] [a3, b3, c3, d3] w0 w1 w2 w3 [0, 1, 2, 3] =
      .ok [a0 * w0 + a1 * w1 + a2 * w2 + a3 * w3, b0 * w0 + b1 * w1 + b2 * w2 + b3 * w3,
        c0 * w0 + c1 * w1 + c2 * w2 + c3 * w3, d0 * w0 + d1 * w1 + d2 * w2 + d3 * w3] := rfl

/-- The value of the combination at the four points, when the weights are `y_i / e_i`. -/
theorem combine4_eval (x0 x1 x2 x3 y0 y1 y2 y3 w0 w1 w2 w3 : K)
    (h0 : w0 * ((x0 - x1) * (x0 - x2) * (x0 - x3)) = y0) (h1 : w1 * ((x1 - x0) * (x1 - x2) * (x1 - x3)) = y1)
    (h2 : w2 * ((x2 - x0) * (x2 - x1) * (x2 - x3)) = y2) (h3 : w3 * ((x3 - x0) * (x3 - x1) * (x3 - x2)) = y3) :
    ∃ c, combine4 (cubics x0 x1 x2 x3).1 (cubics x0 x1 x2 x3).2.1 (cubics x0 x1 x2 x3).2.2.1 (cubics x0 x1 x2 x3).2.2.2
        w0 w1 w2 w3 [0, 1, 2, 3] = .ok c ∧ (ctor c).length ≤ 4 ∧
      (toPoly (ctor c)).eval x0 = y0 ∧ (toPoly (ctor c)).eval x1 = y1 ∧ (toPoly (ctor c)).eval x2 = y2 ∧
      (toPoly (ctor c)).eval x3 = y3 := by
  rw [cubics_eq]
  refine ⟨_, combine4_eq _ _ _ _ _ _ _ _ _ _ _ _ _ _ _ _ _ _ _ _, ?_, ?_⟩
  · unfold ctor strip; rw [List.length_take]; simp
  · simp only [toPoly_ctor, eval_four]
    refine ⟨?_, ?_, ?_, ?_⟩
    · rw [← h0]; ring
    · rw [← h1]; ring
    · rw [← h2]; ring
    · rw [← h3]; ring

theorem call_cubics (x0 x1 x2 x3 : K) :
    call (cubics x0 x1 x2 x3).1 x0 = (x0 - x1) * (x0 - x2) * (x0 - x3) ∧
    call (cubics x0 x1 x2 x3).2.1 x1 = (x1 - x0) * (x1 - x2) * (x1 - x3) ∧
    call (cubics x0 x1 x2 x3).2.2.1 x2 = (x2 - x0) * (x2 - x1) * (x2 - x3) ∧
    call (cubics x0 x1 x2 x3).2.2.2 x3 = (x3 - x0) * (x3 - x1) * (x3 - x2) := by
  rw [cubics_eq]
  simp only [call_four]
  refine ⟨?_, ?_, ?_, ?_⟩ <;> ring

theorem nodup_four {x0 x1 x2 x3 : K} (h : [x0, x1, x2, x3].Nodup) :
    x0 - x1 ≠ 0 ∧ x0 - x2 ≠ 0 ∧ x0 - x3 ≠ 0 ∧ x1 - x2 ≠ 0 ∧ x1 - x3 ≠ 0 ∧ x2 - x3 ≠ 0 ∧
      x1 - x0 ≠ 0 ∧ x2 - x0 ≠ 0 ∧ x3 - x0 ≠ 0 ∧ x2 - x1 ≠ 0 ∧ x3 - x1 ≠ 0 ∧ x3 - x2 ≠ 0 := by
  simp only [List.nodup_cons, List.mem_cons, List.not_mem_nil, or_false, not_or, List.nodup_nil, and_true,
    not_false_eq_true] at h
  obtain ⟨⟨a, b, c⟩, ⟨d, e⟩, f⟩ := h
  simp only [ne_eq, sub_eq_zero]
  exact ⟨a, b, c, d, e, f, Ne.symm a, Ne.symm b, Ne.symm c, Ne.symm d, Ne.symm e, Ne.symm f⟩

theorem lagrangeInterp4_spec (x0 x1 x2 x3 y0 y1 y2 y3 : K) (h : [x0, x1, x2, x3].Nodup) :
    ∃ r, lagrangeInterp4 [x0, x1, x2, x3] [y0, y1, y2, y3] = .ok r ∧ Canon r ∧ r.length ≤ 4 ∧
      (toPoly r).eval x0 = y0 ∧ (toPoly r).eval x1 = y1 ∧ (toPoly r).eval x2 = y2 ∧ (toPoly r).eval x3 = y3 := by
  obtain ⟨n01, n02, n03, n12, n13, n23, n10, n20, n30, n21, n31, n32⟩ := nodup_four h
  obtain ⟨c0, c1, c2, c3⟩ := call_cubics x0 x1 x2 x3
  set E0 := (x0 - x1) * (x0 - x2) * (x0 - x3) with hE0
  set E1 := (x1 - x0) * (x1 - x2) * (x1 - x3) with hE1
  set E2 := (x2 - x0) * (x2 - x1) * (x2 - x3) with hE2
  set E3 := (x3 - x0) * (x3 - x1) * (x3 - x2) with hE3
  have z0 : E0 ≠ 0 := mul_ne_zero (mul_ne_zero n01 n02) n03
  have z1 : E1 ≠ 0 := mul_ne_zero (mul_ne_zero n10 n12) n13
  have z2 : E2 ≠ 0 := mul_ne_zero (mul_ne_zero n20 n21) n23
  have z3 : E3 ≠ 0 := mul_ne_zero (mul_ne_zero n30 n31) n32
  have hall : E0 * E1 * (E2 * E3) ≠ 0 := mul_ne_zero (mul_ne_zero z0 z1) (mul_ne_zero z2 z3)
  set inv := (E0 * E1 * (E2 * E3))⁻¹ with hinv
  obtain ⟨c, k1, k2, k3⟩ := combine4_eval x0 x1 x2 x3 y0 y1 y2 y3 (y0 * inv * E1 * (E2 * E3)) (y1 * inv * E0 * (E2 * E3))
    (y2 * inv * (E0 * E1) * E3) (y3 * inv * (E0 * E1) * E2)
    (by rw [← hE0, hinv]; field_simp) (by rw [← hE1, hinv]; field_simp) (by rw [← hE2, hinv]; field_simp)
    (by rw [← hE3, hinv]; field_simp)
  refine ⟨ctor c, ?_, canon_ctor c, k2, k3⟩
  have hr : recip (E0 * E1 * (E2 * E3)) = .ok inv := by rw [recip, pyDiv, if_neg hall, one_mul]
  simp only [lagrangeInterp4, pyIdx, List.getElem?_cons_zero, List.getElem?_cons_succ, bind, Except.bind, c0, c1, c2, c3, hr, k1]

theorem lagrangeInterp4_raises (x0 x1 x2 x3 : K) (ys : List K) (h : ¬ [x0, x1, x2, x3].Nodup) :
    lagrangeInterp4 [x0, x1, x2, x3] ys = .error .zeroDivision := by
  obtain ⟨c0, c1, c2, c3⟩ := call_cubics x0 x1 x2 x3
  have hz : ((x0 - x1) * (x0 - x2) * (x0 - x3)) * ((x1 - x0) * (x1 - x2) * (x1 - x3)) *
      (((x2 - x0) * (x2 - x1) * (x2 - x3)) * ((x3 - x0) * (x3 - x1) * (x3 - x2))) = 0 := by
    by_contra hne
    apply h
    simp only [mul_eq_zero, not_or, sub_eq_zero] at hne
    simp only [List.nodup_cons, List.mem_cons, List.not_mem_nil, or_false, not_or, List.nodup_nil, and_true,
      not_false_eq_true]
    tauto
  simp only [lagrangeInterp4, pyIdx, List.getElem?_cons_zero, List.getElem?_cons_succ, bind, Except.bind, c0, c1, c2, c3,
    recip, pyDiv, hz, if_true]

theorem ctor_two (a : K) : ctor [a, 1] = [a, 1] :=
  ctor_of_canon (fun x h => by simp at h; simp [← h])

theorem call_two (a b x : K) : call [a, b] x = a + b * x := by
  rw [call_eq_eval]
  simp only [toPoly_cons, toPoly_nil, Polynomial.eval_add, Polynomial.eval_C, Polynomial.eval_mul, Polynomial.eval_X,
    Polynomial.eval_zero]
  ring

theorem lagrangeInterp2_spec (x0 x1 y0 y1 : K) (h : x0 ≠ x1) :
    ∃ r, lagrangeInterp2 [x0, x1] [y0, y1] = .ok r ∧ Canon r ∧ r.length ≤ 2 ∧
      (toPoly r).eval x0 = y0 ∧ (toPoly r).eval x1 = y1 := by
  have n1 : -x1 + 1 * x0 ≠ 0 := by rw [one_mul, neg_add_eq_sub]; exact sub_ne_zero.2 h
  have n2 : -x0 + 1 * x1 ≠ 0 := by rw [one_mul, neg_add_eq_sub]; exact sub_ne_zero.2 h.symm
  set inv := ((-x1 + 1 * x0) * (-x0 + 1 * x1))⁻¹ with hinv
  have hr : recip ((-x1 + 1 * x0) * (-x0 + 1 * x1)) = .ok inv := by
    rw [recip, pyDiv, if_neg (mul_ne_zero n1 n2), one_mul]
  refine ⟨ctor [-x1 * (y0 * inv * (-x0 + 1 * x1)) + -x0 * (y1 * inv * (-x1 + 1 * x0)),
    1 * (y0 * inv * (-x0 + 1 * x1)) + 1 * (y1 * inv * (-x1 + 1 * x0))], ?_, canon_ctor _, ?_, ?_, ?_⟩
  · simp only [lagrangeInterp2, pyIdx, List.getElem?_cons_zero, List.getElem?_cons_succ, bind, Except.bind, ctor_two,
      call_two, hr]
  · unfold ctor strip; rw [List.length_take]; simp
  · rw [toPoly_ctor, ← call_eq_eval, call_two]
    have : y0 = y0 * (inv * ((-x1 + 1 * x0) * (-x0 + 1 * x1))) := by
      rw [hinv, inv_mul_cancel₀ (mul_ne_zero n1 n2), mul_one]
    conv_rhs => rw [this]
    ring
  · rw [toPoly_ctor, ← call_eq_eval, call_two]
    have : y1 = y1 * (inv * ((-x1 + 1 * x0) * (-x0 + 1 * x1))) := by
      rw [hinv, inv_mul_cancel₀ (mul_ne_zero n1 n2), mul_one]
    conv_rhs => rw [this]
    ring

theorem lagrangeInterp2_raises (x : K) (ys : List K) : lagrangeInterp2 [x, x] ys = .error .zeroDivision := by
  simp [lagrangeInterp2, pyIdx, bind, Except.bind, ctor_two, call_two, recip, pyDiv]

/-! ### multi_interp_4 -/

theorem count_four (x a b c : K) : [x, a, b, c].count x = 1 ↔ x ≠ a ∧ x ≠ b ∧ x ≠ c := by
  rw [List.count_cons_self, Nat.add_eq_right, List.count_eq_zero]
  simp

theorem interp4Finish_spec (x0 x1 x2 x3 y0 y1 y2 y3 : K) :
    ∃ r, interp4Finish [y0, y1, y2, y3] (cubics x0 x1 x2 x3)
        (([call (cubics x0 x1 x2 x3).1 x0, call (cubics x0 x1 x2 x3).2.1 x1, call (cubics x0 x1 x2 x3).2.2.1 x2,
          call (cubics x0 x1 x2 x3).2.2.2 x3]).map fun v => (nz v)⁻¹) = .ok r ∧ Canon r ∧ r.length ≤ 4 ∧
      (toPoly r).eval x0 = (if [x0, x1, x2, x3].count x0 = 1 then y0 else 0) ∧
      (toPoly r).eval x1 = (if [x0, x1, x2, x3].count x1 = 1 then y1 else 0) ∧
      (toPoly r).eval x2 = (if [x0, x1, x2, x3].count x2 = 1 then y2 else 0) ∧
      (toPoly r).eval x3 = (if [x0, x1, x2, x3].count x3 = 1 then y3 else 0) := by
  obtain ⟨c0, c1, c2, c3⟩ := call_cubics x0 x1 x2 x3
  rw [c0, c1, c2, c3]
  have hval : ∀ y E : K, y * (nz E)⁻¹ * E = if E ≠ 0 then y else 0 := by
    intro y E
    by_cases h : E = 0
    · rw [h, mul_zero, if_neg (by simp)]
    · rw [nz, if_neg h, if_pos h, mul_assoc, inv_mul_cancel₀ h, mul_one]
  set E0 := (x0 - x1) * (x0 - x2) * (x0 - x3) with hE0
  set E1 := (x1 - x0) * (x1 - x2) * (x1 - x3) with hE1
  set E2 := (x2 - x0) * (x2 - x1) * (x2 - x3) with hE2
  set E3 := (x3 - x0) * (x3 - x1) * (x3 - x2) with hE3
  obtain ⟨c, k1, k2, k3⟩ := combine4_eval x0 x1 x2 x3 _ _ _ _ (y0 * (nz E0)⁻¹) (y1 * (nz E1)⁻¹) (y2 * (nz E2)⁻¹)
    (y3 * (nz E3)⁻¹) rfl rfl rfl rfl
  refine ⟨ctor c, ?_, canon_ctor c, k2, ?_⟩
  · simp only [interp4Finish, pyIdx, List.map_cons, List.map_nil, List.getElem?_cons_zero, List.getElem?_cons_succ, bind,
      Except.bind, k1]
  · obtain ⟨a, b, d, e⟩ := k3
    rw [a, b, d, e, ← hE0, ← hE1, ← hE2, ← hE3]
    simp only [hval]
    refine ⟨if_congr ?_ rfl rfl, if_congr ?_ rfl rfl, if_congr ?_ rfl rfl, if_congr ?_ rfl rfl⟩
    · rw [count_four, hE0]; simp only [ne_eq, mul_eq_zero, sub_eq_zero, not_or, and_assoc]
    · rw [(List.Perm.swap x1 x0 [x2, x3]).count_eq, count_four, hE1]; simp only [ne_eq, mul_eq_zero, sub_eq_zero, not_or, and_assoc]
    · rw [show [x0, x1, x2, x3].count x2 = [x2, x0, x1, x3].count x2 from
        (List.perm_middle (a := x2) (l₁ := [x0, x1]) (l₂ := [x3])).count_eq _, count_four, hE2]
      simp only [ne_eq, mul_eq_zero, sub_eq_zero, not_or, and_assoc]
    · rw [show [x0, x1, x2, x3].count x3 = [x3, x0, x1, x2].count x3 from
        (List.perm_middle (a := x3) (l₁ := [x0, x1, x2]) (l₂ := [])).count_eq _, count_four, hE3]
      simp only [ne_eq, mul_eq_zero, sub_eq_zero, not_or, and_assoc]

/-- One set of `multi_interp_4`: its four points and values. -/
abbrev Quad (K : Type _) := (K × K × K × K) × (K × K × K × K)

def Quad.xs (q : Quad K) : List K := [q.1.1, q.1.2.1, q.1.2.2.1, q.1.2.2.2]
def Quad.ys (q : Quad K) : List K := [q.2.1, q.2.2.1, q.2.2.2.1, q.2.2.2.2]
def Quad.eqs (q : Quad K) := cubics q.1.1 q.1.2.1 q.1.2.2.1 q.1.2.2.2
def Quad.vals (q : Quad K) : List K :=
  [call q.eqs.1 q.1.1, call q.eqs.2.1 q.1.2.1, call q.eqs.2.2.1 q.1.2.2.1, call q.eqs.2.2.2 q.1.2.2.2]

theorem interp4Loop_spec (pre : List K) : ∀ (qs : List (Quad K)) (i : Nat) (invalls : List K), 
    invalls.drop (i * 4) = ((qs.map Quad.vals).flatten).map (fun v => (nz v)⁻¹) →
    ∃ rs, interp4Loop invalls i (qs.map fun q => (q.ys, q.eqs)) = .ok rs ∧ rs.length = qs.length ∧
      ∀ (j : Nat) (h : j < qs.length) (h' : j < rs.length), Canon rs[j] ∧ rs[j].length ≤ 4 ∧
        qs[j].xs.map (fun x => (toPoly rs[j]).eval x) =
          List.zipWith (fun x y => if qs[j].xs.count x = 1 then y else 0) qs[j].xs qs[j].ys
  | [], i, invalls, _ => ⟨[], rfl, rfl, by simp⟩
  | q :: qs, i, invalls, h => by
    have hv : (q.vals).length = 4 := rfl
    obtain ⟨r, h1, h2, h3, h4⟩ := interp4Finish_spec q.1.1 q.1.2.1 q.1.2.2.1 q.1.2.2.2 q.2.1 q.2.2.1 q.2.2.2.1 q.2.2.2.2
    have hd : invalls.drop ((i + 1) * 4) = ((qs.map Quad.vals).flatten).map (fun v => (nz v)⁻¹) := by
      have : (i + 1) * 4 = i * 4 + 4 := by ring
      rw [this, ← List.drop_drop, h]
      simp only [List.map_cons, List.flatten_cons, List.map_append]
      rw [List.drop_left' (by simp [hv])]
    obtain ⟨rs, e1, e2, e3⟩ := interp4Loop_spec pre qs (i + 1) invalls hd
    have htake : (invalls.drop (i * 4)).take 4 = q.vals.map (fun v => (nz v)⁻¹) := by
      rw [h]
      simp only [List.map_cons, List.flatten_cons, List.map_append]
      rw [List.take_left' (by simp [hv])]
    refine ⟨r :: rs, ?_, by simp [e2], ?_⟩
    · simp only [List.map_cons, interp4Loop, htake]
      have : interp4Finish q.ys q.eqs (q.vals.map fun v => (nz v)⁻¹) = .ok r := h1
      simp only [this, e1, bind, Except.bind]
    · intro j hj hj'
      cases j with
      | zero =>
        refine ⟨h2, h3, ?_⟩
        obtain ⟨a, b, c, d⟩ := h4
        simp only [List.getElem_cons_zero]
        simp only [Quad.xs, Quad.ys, List.map_cons, List.map_nil, List.zipWith_cons_cons, List.zipWith_nil_right, a, b, c, d]
        rfl
      | succ j => simpa using e3 j (by simpa using hj) (by simpa using hj')

theorem pyMap_ok {α β : Type _} (f : α → Py β) (g : α → β) : ∀ l : List α, (∀ a ∈ l, f a = .ok (g a)) → pyMap f l = .ok (l.map g)
  | [], _ => rfl
  | a :: l, h => by
    simp only [pyMap, h a (by simp), pyMap_ok f g l (fun b hb => h b (by simp [hb])), bind, Except.bind, List.map_cons]

theorem multiInterp4_spec (qs : List (Quad K)) :
    ∃ rs, multiInterp4 (qs.map Quad.xs) (qs.map Quad.ys) = .ok rs ∧ rs.length = qs.length ∧
      ∀ (j : Nat) (h : j < qs.length) (h' : j < rs.length), Canon rs[j] ∧ rs[j].length ≤ 4 ∧
        qs[j].xs.map (fun x => (toPoly rs[j]).eval x) =
          List.zipWith (fun x y => if qs[j].xs.count x = 1 then y else 0) qs[j].xs qs[j].ys := by
  have hz : (qs.map Quad.xs).zip (qs.map Quad.ys) = qs.map fun q => (q.xs, q.ys) := by
    rw [List.zip_map']
  have hdata : pyMap (fun s : List K × List K => (do let d ← interp4Data s.1; .ok (s.2, d) : Py _)) (qs.map fun q => (q.xs, q.ys)) =
      .ok ((qs.map fun q => (q.xs, q.ys)).map fun s => (s.2, 
        (cubics (s.1.getD 0 0) (s.1.getD 1 0) (s.1.getD 2 0) (s.1.getD 3 0),
         [call (cubics (s.1.getD 0 0) (s.1.getD 1 0) (s.1.getD 2 0) (s.1.getD 3 0)).1 (s.1.getD 0 0),
          call (cubics (s.1.getD 0 0) (s.1.getD 1 0) (s.1.getD 2 0) (s.1.getD 3 0)).2.1 (s.1.getD 1 0),
          call (cubics (s.1.getD 0 0) (s.1.getD 1 0) (s.1.getD 2 0) (s.1.getD 3 0)).2.2.1 (s.1.getD 2 0),
          call (cubics (s.1.getD 0 0) (s.1.getD 1 0) (s.1.getD 2 0) (s.1.getD 3 0)).2.2.2 (s.1.getD 3 0)]))) := by
    apply pyMap_ok
    intro s hs
    simp only [List.mem_map] at hs
    obtain ⟨q, -, rfl⟩ := hs
    rfl
  obtain ⟨rs, e1, e2⟩ := interp4Loop_spec (K := K) [] qs 0 (((qs.map Quad.vals).flatten).map fun v => (nz v)⁻¹) (by simp)
  refine ⟨rs, ?_, e2⟩
  simp only [bind, Except.bind] at hdata
  simp only [multiInterp4, hz, bind, Except.bind, hdata, List.map_map, multiInv_eq, eltTruthy, if_true]
  exact e1

end Verif.PolyUtils
