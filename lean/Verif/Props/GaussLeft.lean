import Verif.Props.Gauss
import Verif.Proofs.GaussFinal
/-!
# C136: what `gauss` leaves in the list it is given
-/

namespace Verif.Props
open Poly Gauss Matrix

variable {K : Type _} [Field K] [DecidableEq K]

theorem augmented_const (same : Nat → Nat → Nat → Bool) (startsWith1 : K → Bool) {n : Nat} (A : Matrix (Fin n) (Fin n) K) (v : Fin n → K) :
    augmented (A.map const) (const ∘ v) = mapMat const (augmented A v) := by
  funext a b
  change augmented (A.map const) (const ∘ v) a b = const (augmented A v a b)
  unfold augmented
  split_ifs
  · rfl
  · rfl
  · exact ((hom_const same startsWith1).zero).symm

theorem const_inj {x y : K} (h : const x = const y) : x = y := by
  have := congrArg CPoly.val h
  rw [const_val, const_val] at this
  exact Polynomial.C_injective this

/-- the result of `gauss` on constants comes from a result over the field -/
theorem gauss_lift (same : Nat → Nat → Nat → Bool) (startsWith1 : K → Bool) (n : Nat) (N : Mat K) (x : List (CPoly K)) (M' : Mat (CPoly K))
    (h : gaussPoly same startsWith1 (mapMat const N) n = .ok (x, M')) :
    ∃ y N', gauss pyDiv (fun i k a b => .ok (maxPoly (same i k) startsWith1 (ctor [a]) (ctor [b]))) N n = .ok (y, N') ∧
      x = y.map const ∧ M' = mapMat const N' := by
  rw [gaussPoly, gauss_map (hom_const same startsWith1)] at h
  cases hg : gauss pyDiv (fun i k a b => .ok (maxPoly (same i k) startsWith1 (ctor [a]) (ctor [b]))) N n with
  | error e => rw [hg] at h; cases h
  | ok r =>
    rw [hg] at h
    cases h
    exact ⟨r.1, r.2, rfl, rfl, rfl⟩

theorem ofFn_getD {n : Nat} {y : List K} (h : y.length = n) {x : Fin n → K} (hx : y.map const = List.ofFn (const ∘ x)) (i : Fin n) :
    y.getD i 0 = x i := by
  have h1 : (y.map const)[i.1]? = (List.ofFn (const ∘ x))[i.1]? := by rw [hx]
  have hi : i.1 < y.length := by rw [h]; exact i.2
  rw [List.getElem?_map, List.getElem?_eq_getElem hi, List.getElem?_ofFn, dif_pos i.2] at h1
  rw [List.getD_eq_getElem?_getD, List.getElem?_eq_getElem hi]
  exact const_inj (Option.some.inj h1)

/-- **C136, what is left.** For every invertible system `A·x = v` of constants over a field, whatever the outcomes of the identity tests: after
`gauss` has returned the solution `y`, the nested list given to it holds a triangular matrix `T` with no zero on its diagonal, and in the last
column the products `T[i][i]·y[i]`; the right-hand sides and the coefficients of the system are gone. -/
theorem C136_left_refuted (same : Nat → Nat → Nat → Bool) (startsWith1 : K → Bool) (n : Nat) (A : Matrix (Fin n) (Fin n) K)
    (v : Fin n → K) (hA : A.det ≠ 0) :
    ∃ (y : Fin n → K) (M' : Mat (CPoly K)) (T : Matrix (Fin n) (Fin n) K),
      gaussPoly same startsWith1 (augmented (A.map const) (const ∘ v)) n = .ok (List.ofFn (const ∘ y), M') ∧ A *ᵥ y = v ∧
      (∀ i j : Fin n, M' i j = const (T i j)) ∧ (∀ i : Fin n, M' i n = const (T i i * y i)) ∧
      (∀ i j, j < i → T i j = 0) ∧ ∀ i, T i i ≠ 0 := by
  obtain ⟨y, M', h1, h2⟩ := (C87_gauss_partial same startsWith1 n A v).1 hA
  have h := h1
  rw [augmented_const same startsWith1] at h
  obtain ⟨z, N', g1, g2, rfl⟩ := gauss_lift same startsWith1 n _ _ _ h
  obtain ⟨f1, -, f3, f4⟩ := gauss_final (prefers_const same startsWith1) _ n z N' g1
  refine ⟨y, _, Matrix.of fun i j => N' i j, h1, h2, fun i j => rfl, fun i => ?_, fun i j hij => ?_, fun i => (f4 i i.2).1⟩
  · change const (N' i n) = _
    rw [(f4 i i.2).2, ofFn_getD f1 g2.symm]
    rfl
  · exact f3 i j j.2 hij i.2

/-- This meets the hypotheses of `C136_left_refuted`: the system `x + 2y = 5, 3x + 4y = 6` over Z/7. -/
example : (!![1, 2; 3, 4] : Matrix (Fin 2) (Fin 2) (Zp 7)).det ≠ 0 := by decide +kernel

/-- **C136, exactly when the list is unchanged.** A successful call on constants leaves every entry as it was if and only if the matrix was triangular
already and every right-hand side is the product of the diagonal entry and the solution. -/
theorem C136_unchanged_partial (same : Nat → Nat → Nat → Bool) (startsWith1 : K → Bool) (n : Nat) (A : Matrix (Fin n) (Fin n) K)
    (v y : Fin n → K) (M' : Mat (CPoly K))
    (h : gaussPoly same startsWith1 (augmented (A.map const) (const ∘ v)) n = .ok (List.ofFn (const ∘ y), M')) :
    (∀ i : Fin n, (∀ j : Fin n, M' i j = const (A i j)) ∧ M' i n = const (v i)) ↔
      (∀ i j, j < i → A i j = 0) ∧ ∀ i, v i = A i i * y i := by
  rw [augmented_const same startsWith1] at h
  obtain ⟨z, N', g1, g2, rfl⟩ := gauss_lift same startsWith1 n _ _ _ h
  obtain ⟨f1, -, -, -⟩ := gauss_final (prefers_const same startsWith1) _ n z N' g1
  have key := gauss_unchanged (prefers_const same startsWith1) _ n z N' g1
  have e1 : ∀ i j : Fin n, augmented A v i j = A i j := fun i j => by simp [augmented]
  have e2 : ∀ i : Fin n, augmented A v i n = v i := fun i => by simp [augmented]
  constructor
  · intro hM
    obtain ⟨k1, k2⟩ := key.1 fun a ha b hb => by
      rcases Nat.lt_or_eq_of_le hb with hb | rfl
      · rw [e1 ⟨a, ha⟩ ⟨b, hb⟩]
        exact const_inj ((hM ⟨a, ha⟩).1 ⟨b, hb⟩)
      · rw [e2 ⟨a, ha⟩]
        exact const_inj (hM ⟨a, ha⟩).2
    refine ⟨fun i j hij => ?_, fun i => ?_⟩
    · rw [← e1]
      exact k1 i j j.2 hij i.2
    · have := k2 i i.2
      rwa [e1, e2, ofFn_getD f1 g2.symm] at this
  · rintro ⟨k1, k2⟩
    have := key.2 ⟨fun a b hb hab ha => (e1 ⟨a, ha⟩ ⟨b, hb⟩).trans (k1 _ _ hab), fun a ha => by
      rw [e2 ⟨a, ha⟩, e1 ⟨a, ha⟩ ⟨a, ha⟩, k2 ⟨a, ha⟩]
      exact congrArg _ (ofFn_getD f1 g2.symm ⟨a, ha⟩).symm⟩
    intro i
    refine ⟨fun j => ?_, ?_⟩
    · rw [← e1]
      exact congrArg const (this i i.2 j j.2.le)
    · rw [← e2]
      exact congrArg const (this i i.2 n le_rfl)

/-- **C136, diagonal systems.** In particular a system with a diagonal matrix and no zero on the diagonal is left as it was. -/
theorem C136_diagonal_partial (same : Nat → Nat → Nat → Bool) (startsWith1 : K → Bool) (n : Nat) (d v : Fin n → K) (hd : ∀ i, d i ≠ 0) :
    ∃ M' : Mat (CPoly K),
      gaussPoly same startsWith1 (augmented ((Matrix.diagonal d).map const) (const ∘ v)) n = .ok (List.ofFn (const ∘ fun i => v i / d i), M') ∧
      ∀ i : Fin n, (∀ j : Fin n, M' i j = const (if i = j then d i else 0)) ∧ M' i n = const (v i) := by
  have hdet : (Matrix.diagonal d).det ≠ 0 := by
    rw [Matrix.det_diagonal]
    exact Finset.prod_ne_zero_iff.2 fun i _ => hd i
  obtain ⟨y, M', h1, h2⟩ := (C87_gauss_partial same startsWith1 n (Matrix.diagonal d) v).1 hdet
  have hy : ∀ i, v i = d i * y i := fun i => by rw [← h2, Matrix.mulVec_diagonal]
  have e : (fun i => v i / d i) = y := funext fun i => by
    rw [hy i]
    field_simp [hd i]
  refine ⟨M', by rw [e]; exact h1, (C136_unchanged_partial same startsWith1 n _ v y M' h1).2 ⟨fun i j hij => ?_, fun i => ?_⟩⟩
  · exact Matrix.diagonal_apply_ne _ (ne_of_gt hij)
  · rw [Matrix.diagonal_apply_eq]
    exact hy i

/-- This meets the hypotheses of `C136_unchanged_partial` and `C136_diagonal_partial`, with the list changed and with the list unchanged. -/
example : (gaussPoly (K := Zp 7) (fun _ _ _ => false) (fun _ => false) (augmented (!![1, 1; 0, 1].map const) (const ∘ ![3, 1])) 2).map
      (fun r => (r.1, r.2 0 2)) = .ok (List.ofFn (const ∘ ![2, 1]), const 2) ∧
    (gaussPoly (K := Zp 7) (fun _ _ _ => false) (fun _ => false) (augmented (!![2, 1; 0, 3].map const) (const ∘ ![4, 0])) 2).map
      (fun r => (r.1, [r.2 0 0, r.2 0 1, r.2 0 2, r.2 1 0, r.2 1 1, r.2 1 2])) =
      .ok (List.ofFn (const ∘ ![2, 0]), [const 2, const 1, const 4, const 0, const 3, const 0]) ∧
    ∀ i, (![2, 3] : Fin 2 → Zp 7) i ≠ 0 := by
  refine ⟨?_, ?_, ?_⟩ <;> decide +kernel

/-- **C136, solving twice.** Calling `gauss` a second time on the same list succeeds, and returns the same vector if and only if the triangular matrix
left behind, its diagonal aside, sends the first solution to zero. -/
theorem C136_again_refuted (same same' : Nat → Nat → Nat → Bool) (startsWith1 : K → Bool) (n : Nat) (A : Matrix (Fin n) (Fin n) K)
    (v y : Fin n → K) (M' : Mat (CPoly K)) (T : Matrix (Fin n) (Fin n) K)
    (h : gaussPoly same startsWith1 (augmented (A.map const) (const ∘ v)) n = .ok (List.ofFn (const ∘ y), M'))
    (hT : ∀ i j : Fin n, M' i j = const (T i j)) :
    ∃ (z : Fin n → K) (M'' : Mat (CPoly K)), gaussPoly same' startsWith1 M' n = .ok (List.ofFn (const ∘ z), M'') ∧
      (∀ i, (T *ᵥ z) i = T i i * y i) ∧ (z = y ↔ ∀ i, ∑ j with j ≠ i, T i j * y j = 0) := by
  rw [augmented_const same startsWith1] at h
  obtain ⟨w, N', g1, g2, rfl⟩ := gauss_lift same startsWith1 n _ _ _ h
  obtain ⟨f1, -, f3, f4⟩ := gauss_final (prefers_const same startsWith1) _ n w N' g1
  have hN : ∀ i j : Fin n, N' i j = T i j := fun i j => const_inj (hT i j)
  have hl : ∀ i : Fin n, N' i n = T i i * y i := fun i => by
    rw [(f4 i i.2).2, ofFn_getD f1 g2.symm, hN]
  have htri : T.BlockTriangular id := fun i j hij => by
    rw [← hN]
    exact f3 i j j.2 hij i.2
  have hdet : T.det ≠ 0 := by
    rw [Matrix.det_of_isUpperTriangular htri]
    exact Finset.prod_ne_zero_iff.2 fun i _ => by
      rw [← hN]
      exact (f4 i i.2).1
  have hsum : ∀ (x : Nat → K) (r : Fin n), ∑ j ∈ Finset.range n, N' r j * x j = (T *ᵥ fun j => x j) r := by
    intro x r
    rw [Matrix.mulVec, dotProduct, Finset.sum_range]
    exact Finset.sum_congr rfl fun j _ => by rw [hN]
  obtain ⟨z, N'', k1, k2, k3⟩ := (gauss_field (prefers_const same' startsWith1) N' n).1 fun x hx j hj => by
    have : T *ᵥ (fun j : Fin n => x j) = 0 := by
      funext r
      rw [← hsum x r, hx r r.2, zero_mul]
      rfl
    by_contra hne
    exact hdet (Matrix.exists_mulVec_eq_zero_iff.mp ⟨fun j : Fin n => x j, fun h => hne (congrFun h ⟨j, hj⟩), this⟩)
  have hz : ∀ i, (T *ᵥ fun j : Fin n => z.getD j 0) i = T i i * y i := fun i => by
    rw [← hsum (fun j => z.getD j 0) i, k3 i i.2, one_mul, hl]
  have hsplit : ∀ i, (T *ᵥ y) i = T i i * y i + ∑ j with j ≠ i, T i j * y j := fun i => by
    rw [Matrix.mulVec, dotProduct, ← Finset.sum_filter_add_sum_filter_not Finset.univ (· = i)]
    congr 1
    rw [Finset.filter_eq' Finset.univ i, if_pos (Finset.mem_univ i), Finset.sum_singleton]
  refine ⟨fun j => z.getD j 0, mapMat const N'', ?_, hz, fun hzy i => ?_, fun h0 => ?_⟩
  · rw [gaussPoly, gauss_map (hom_const same' startsWith1), k1]
    simp only [Except.map]
    congr 2
    apply List.ext_getElem
    · simp [k2]
    · intro i hi1 hi2
      simp only [List.length_map] at hi1
      simp [hi1]
  · have := hz i
    rw [hzy, hsplit] at this
    exact add_eq_left.1 this
  · have : T *ᵥ ((fun j : Fin n => z.getD j 0) - y) = 0 := by
      rw [Matrix.mulVec_sub]
      funext i
      rw [Pi.sub_apply, hz, hsplit, h0 i, add_zero, sub_self]
      rfl
    exact sub_eq_zero.1 (Matrix.eq_zero_of_mulVec_eq_zero hdet this)

/-- **C136, a system that is lost.** Over the integers modulo 7, solving `x + y = 3, y = 1` gives `x = 2, y = 1`, whatever the identity tests; solving the
same list again gives `x = 1, y = 1`. -/
theorem C136_twice_refuted (same : Nat → Nat → Nat → Bool) (startsWith1 : Zp 7 → Bool) :
    ∃ M' M'', gaussPoly same startsWith1 (augmented (!![1, 1; 0, 1].map const) (const ∘ ![3, 1])) 2 = .ok (List.ofFn (const ∘ ![2, 1]), M') ∧
      gaussPoly same startsWith1 M' 2 = .ok (List.ofFn (const ∘ ![1, 1]), M'') := by
  have e1 : gaussPoly same startsWith1 (augmented (!![1, 1; 0, 1].map const) (const ∘ ![3, 1])) 2 =
      gauss divPoly (fun _ _ _ _ => .ok false) (augmented (!![1, 1; 0, 1].map const) (const ∘ ![3, 1])) 2 := by
    rw [gaussPoly, gauss_two]
    rfl
  have k1 : (gauss divPoly (fun _ _ _ _ => .ok false) (augmented (!![1, 1; 0, 1].map (const (K := Zp 7))) (const ∘ ![3, 1])) 2).map
      (fun r => (r.1, r.2 0 0, r.2 1 0, (gauss divPoly (fun _ _ _ _ => .ok false) r.2 2).map Prod.fst)) =
      .ok (List.ofFn (const ∘ ![2, 1]), const 1, const 0, .ok (List.ofFn (const ∘ ![1, 1]))) := by decide +kernel
  rw [e1]
  cases h : gauss divPoly (fun _ _ _ _ => .ok false) (augmented (!![1, 1; 0, 1].map (const (K := Zp 7))) (const ∘ ![3, 1])) 2 with
  | error e => rw [h] at k1; cases k1
  | ok r =>
    rw [h] at k1
    simp only [Except.map, Except.ok.injEq, Prod.mk.injEq] at k1
    obtain ⟨k2, k3, k4, k5⟩ := k1
    have e2 : gaussPoly same startsWith1 r.2 2 = gauss divPoly (fun _ _ _ _ => .ok false) r.2 2 := by
      rw [gaussPoly, gauss_two, k3, k4]
      rfl
    rw [← e2] at k5
    cases h' : gaussPoly same startsWith1 r.2 2 with
    | error e => rw [h'] at k5; cases k5
    | ok r' =>
      rw [h'] at k5
      simp only [Except.ok.injEq] at k5
      exact ⟨r.2, r'.2, by rw [← k2], by rw [h', ← k5]⟩

/-- This meets the hypotheses of `C136_again_refuted`. -/
example : (gaussPoly (K := Zp 7) (fun _ _ _ => false) (fun _ => false) (augmented (!![1, 1; 0, 1].map const) (const ∘ ![3, 1])) 2).map
      (fun r => (r.1, [r.2 0 0, r.2 0 1, r.2 1 0, r.2 1 1])) = .ok (List.ofFn (const ∘ ![2, 1]), [const 1, const 1, const 0, const 1]) := by
  decide +kernel

/-- the sum the test computes for row `i` -/
theorem tempLoop_sum (M : Mat K) (i : Nat) (y : List K) (js : List Nat) (hjs : ∀ j ∈ js, j + 1 < y.length) (t : K) :
    tempLoop (mapMat const M) i (y.map const) js (const t) = .ok (const (t + (js.map fun j => M i (j + 1) * y.getD (j + 1) 0).sum)) := by
  have H := hom_const (K := K) (fun _ _ _ => false) fun _ => false
  induction js generalizing t with
  | nil => rw [tempLoop, List.map_nil, List.sum_nil, add_zero]
  | cons j js ih =>
    have hj := hjs j (by simp)
    have hx : pyIdx (y.map const) (j + 1) = .ok (const (y.getD (j + 1) 0)) := by
      rw [pyIdx, List.getElem?_map, List.getElem?_eq_getElem hj, List.getD_eq_getElem?_getD, List.getElem?_eq_getElem hj]
      rfl
    rw [tempLoop, hx]
    simp only [bind, Except.bind]
    rw [show mapMat const M i (j + 1) = const (M i (j + 1)) from rfl, ← H.mul, ← H.add, ih (fun k hk => hjs k (by simp [hk])),
      List.map_cons, List.sum_cons, add_assoc]

/-- the test passes exactly when every row is satisfied -/
theorem testLoop_iff (M : Mat K) (y : List K) (d : Nat) (hd : y.length = d) (hd0 : 0 < d) (is : List Nat) :
    testLoop (mapMat const M) (y.map const) d is =
      (open Classical in if ∀ i ∈ is, ∑ j ∈ Finset.range d, M i j * y.getD j 0 = M i d then .ok () else .error .assertion) := by
  have H := hom_const (K := K) (fun _ _ _ => false) fun _ => false
  induction is with
  | nil => simp [testLoop]
  | cons i is ih =>
    have hx : pyIdx (y.map const) 0 = .ok (const (y.getD 0 0)) := by
      have h0 : 0 < y.length := by omega
      rw [pyIdx, List.getElem?_map, List.getElem?_eq_getElem h0, List.getD_eq_getElem?_getD, List.getElem?_eq_getElem h0]
      rfl
    have hs : M i 0 * y.getD 0 0 + ((List.range (d - 1)).map fun j => M i (j + 1) * y.getD (j + 1) 0).sum =
        ∑ j ∈ Finset.range d, M i j * y.getD j 0 := by
      obtain ⟨e, rfl⟩ := Nat.exists_eq_succ_of_ne_zero hd0.ne'
      rw [Finset.sum_range_succ', add_comm, Nat.succ_sub_one]
      rfl
    rw [testLoop, hx]
    simp only [bind, Except.bind]
    rw [show mapMat const M i 0 = const (M i 0) from rfl, ← H.mul, tempLoop_sum M i y _ (fun j hj => by rw [List.mem_range] at hj; omega), hs]
    simp only
    rw [show mapMat const M i d = const (M i d) from rfl]
    by_cases hi : ∑ j ∈ Finset.range d, M i j * y.getD j 0 = M i d
    · rw [hi, beq_self_eq_true]
      simp only [pyAssert, if_true, ih, List.mem_cons, forall_eq_or_imp, hi, true_and]
    · have : (const (∑ j ∈ Finset.range d, M i j * y.getD j 0) == const (M i d)) = false := by
        rw [beq_eq_false_iff_ne]
        exact fun h => hi (const_inj h)
      rw [this]
      simp only [pyAssert, List.mem_cons, forall_eq_or_imp, hi, false_and, if_false]
      rfl

theorem const_pow (x : K) (n : Nat) : const x ^ n = const (x ^ n) := by
  induction n with
  | zero => exact CPoly.val_inj (by simp [const_val])
  | succ n ih => rw [pow_succ, ih, ← (hom_const (fun _ _ _ => false) fun _ => false).mul, pow_succ]

open Classical in
/-- **C136, the check of the Moore kernel.** The test in `construct_affine_vanishing_polynomial_Moore` is made on the list `gauss` has overwritten.
For every `d ≥ 1` constants whose Moore matrix is invertible, `gauss` solves the Moore system, and the test then fails unless the triangular
matrix left behind, its diagonal aside, sends the solution to zero. -/
theorem C136_moore_refuted {F : Type _} [Zero F] [DecidableEq F] (cast : CPoly K → F) (same : Nat → Nat → Nat → Bool)
    (startsWith1 : K → Bool) (d : Nat) (hd : 0 < d) (b : Fin d → K) (hA : (Matrix.of fun i j : Fin d => b i ^ 2 ^ j.1).det ≠ 0) :
    ∃ (M M' : Mat (CPoly K)) (y : Fin d → K) (T : Matrix (Fin d) (Fin d) K),
      mooreMatrix (List.ofFn (const ∘ b)) = .ok M ∧ (∀ i : Fin d, ∀ j ≤ d, M i j = const (b i ^ 2 ^ j)) ∧
      gaussPoly same startsWith1 M d = .ok (List.ofFn (const ∘ y), M') ∧ (∀ i j : Fin d, M' i j = const (T i j)) ∧
      (∀ i, ∑ j, b i ^ 2 ^ j.1 * y j = b i ^ 2 ^ d) ∧ (∀ i j, j < i → T i j = 0) ∧ (∀ i, T i i ≠ 0) ∧
      moorePoly cast same startsWith1 (List.ofFn (const ∘ b)) =
        if ∀ i, ∑ j with j ≠ i, T i j * y j = 0 then .ok (strip (List.ofFn (cast ∘ const ∘ y)) 0) else .error .assertion := by
  let MK : Mat K := fun i j => if h : i < d then (if j ≤ d then b ⟨i, h⟩ ^ 2 ^ j else 0) else 0
  have hM : mooreMatrix (List.ofFn (const ∘ b)) = .ok (mapMat const MK) := by
    rw [mooreMatrix_eq]
    congr 1
    funext i j
    have hz : (0 : CPoly K) = const 0 := (hom_const same startsWith1).zero.symm
    simp only [mapMat, MK, List.length_ofFn, List.map_ofFn]
    rw [List.getD_eq_getElem?_getD (l := List.ofFn _), List.getElem?_ofFn]
    split_ifs with hi hj
    · rw [Option.getD_some, ← const_pow]
      match j with
      | 0 => exact (pow_one _).symm
      | j + 1 =>
        rw [Function.comp_apply, List.getD_cons_succ, List.getD_eq_getElem?_getD, List.getElem?_map, List.getElem?_range (by omega)]
        rfl
    · rw [Option.getD_some, Function.comp_apply, List.getD_eq_default _ _ (by simp; omega), hz]
    · exact hz
  have hrow : ∀ (i : Fin d) j, j ≤ d → MK i j = b i ^ 2 ^ j := fun i j hj => by
    simp only [MK]
    rw [dif_pos i.2, if_pos hj]
  have hsum : ∀ (x : Nat → K) (r : Fin d), ∑ j ∈ Finset.range d, MK r j * x j = ∑ j : Fin d, b r ^ 2 ^ j.1 * x j := by
    intro x r
    rw [Finset.sum_range]
    exact Finset.sum_congr rfl fun j _ => by rw [hrow r j j.2.le]
  obtain ⟨z, N', k1, k2, k3⟩ := (gauss_field (prefers_const same startsWith1) MK d).1 fun x hx j hj => by
    have : (Matrix.of fun i j : Fin d => b i ^ 2 ^ j.1) *ᵥ (fun j : Fin d => x j) = 0 := by
      funext r
      change ∑ j : Fin d, b r ^ 2 ^ j.1 * x j = 0
      rw [← hsum x r, hx r r.2, zero_mul]
    by_contra hne
    exact hA (Matrix.exists_mulVec_eq_zero_iff.mp ⟨fun j : Fin d => x j, fun h => hne (congrFun h ⟨j, hj⟩), this⟩)
  obtain ⟨-, -, f3, f4⟩ := gauss_final (prefers_const same startsWith1) MK d z N' k1
  have hzl : z.map const = List.ofFn (const ∘ fun j : Fin d => z.getD j 0) := by
    apply List.ext_getElem
    · simp [k2]
    · intro i hi1 hi2
      simp only [List.length_map] at hi1
      simp [hi1]
  have hg : gaussPoly same startsWith1 (mapMat const MK) d = .ok (z.map const, mapMat const N') := by
    rw [gaussPoly, gauss_map (hom_const same startsWith1), k1]
    rfl
  refine ⟨mapMat const MK, mapMat const N', fun j => z.getD j 0, Matrix.of fun i j => N' i j, hM, fun i j hj => congrArg const (hrow i j hj),
    by rw [hg, hzl], fun _ _ => rfl, fun i => ?_, fun i j hij => f3 i j j.2 hij i.2, fun i => (f4 i i.2).1, ?_⟩
  · rw [← hsum (fun j => z.getD j 0) i, k3 i i.2, one_mul, hrow i d le_rfl]
  · have hiff : (∀ i ∈ List.range d, ∑ j ∈ Finset.range d, N' i j * z.getD j 0 = N' i d) ↔
        ∀ i : Fin d, ∑ j with j ≠ i, (Matrix.of fun i j : Fin d => N' i j) i j * z.getD j 0 = 0 := by
      have hsplit : ∀ i : Fin d, ∑ j ∈ Finset.range d, N' i j * z.getD j 0 =
          N' i i * z.getD i 0 + ∑ j : Fin d with j ≠ i, N' i j * z.getD j 0 := fun i => by
        rw [Finset.sum_range, ← Finset.sum_filter_add_sum_filter_not Finset.univ (· = i)]
        congr 1
        rw [Finset.filter_eq' Finset.univ i, if_pos (Finset.mem_univ i), Finset.sum_singleton]
      constructor
      · intro h i
        have := h i (List.mem_range.2 i.2)
        rw [hsplit i, (f4 i i.2).2] at this
        exact add_eq_left.1 this
      · intro h i hi
        have hi := List.mem_range.1 hi
        have := hsplit ⟨i, hi⟩
        rw [show (∑ j : Fin d with j ≠ (⟨i, hi⟩ : Fin d), N' i j * z.getD j 0) = 0 from h ⟨i, hi⟩, add_zero] at this
        rw [(f4 i hi).2]
        exact this
    have hlen : (List.ofFn (const ∘ b)).length = d := List.length_ofFn
    unfold moorePoly
    rw [hM, hlen]
    simp only [bind, Except.bind]
    rw [hg]
    simp only
    rw [testLoop_iff N' z d k2 hd]
    by_cases hc : ∀ i : Fin d, ∑ j with j ≠ i, (Matrix.of fun i j : Fin d => N' i j) i j * z.getD j 0 = 0
    · rw [if_pos (hiff.2 hc), if_pos hc, hzl]
      simp only [List.map_ofFn]
    · rw [if_neg (fun h => hc (hiff.1 h)), if_neg hc]

/-- This meets the hypotheses of `C136_moore_refuted`: 1 and 3 modulo 7, for which the test fails, and three constants modulo 11. -/
example : (Matrix.of fun i j : Fin 2 => (![1, 3] : Fin 2 → Zp 7) i ^ 2 ^ j.1).det ≠ 0 ∧
    (Matrix.of fun i j : Fin 3 => (![1, 2, 3] : Fin 3 → Zp 11) i ^ 2 ^ j.1).det ≠ 0 ∧
    moorePoly (K := Zp 11) id (fun _ _ _ => false) (fun _ => true) [const 1, const 2, const 3] = .error .assertion := by
  refine ⟨?_, ?_, ?_⟩ <;> decide +kernel

end Verif.Props
