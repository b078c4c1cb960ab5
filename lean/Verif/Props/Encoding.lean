import Verif.Props.Stark
import Verif.Props.PolyUtils
/-!
# C167: committed values differ almost everywhere

A column of the trace, `steps` values, is turned into a polynomial by the inverse transform at `G1 = G2^ext` and committed to by its
`steps * ext` values at the powers of `G2`, computed by the transform at `G2`.
-/

namespace Verif.Props
open Poly Stark
open scoped Polynomial
open Polynomial (C X)

variable {K : Type} [Field K] [DecidableEq K]

/-- The hypotheses on the sizes that the theorems share. -/
structure Sizes (G2 : K) (steps ext : Nat) : Prop where
  steps_ok : ∃ k, steps = 2 ^ k ∨ steps = 3 * 2 ^ k
  precision_ok : ∃ k, steps * ext = 2 ^ k ∨ steps * ext = 3 * 2 ^ k
  order : HasOrder G2 (steps * ext)

omit [DecidableEq K] in
theorem Sizes.pos {G2 : K} {steps ext : Nat} (h : Sizes G2 steps ext) : 0 < steps ∧ 0 < ext := by
  have := h.order.1
  exact ⟨Nat.pos_of_mul_pos_right this, Nat.pos_of_mul_pos_left this⟩

theorem extension (p : Nat) [Fact p.Prime] [CharP K p] {G2 : K} {steps ext : Nat} (h : Sizes G2 steps ext) (col : List K)
    (hc : col.length = steps) (fuel : Nat) (hf : steps * ext ≤ fuel) :
    ∃ f v, FFT.nbInvFft fuel p (G2 ^ ext) col = .ok f ∧ FFT.nbFft fuel p G2 f = .ok v ∧ Canon f ∧ f.length ≤ steps ∧
      v = (List.range (steps * ext)).map (fun i => (toPoly f).eval (G2 ^ i)) ∧
      ∀ i, i < steps → (toPoly f).eval (G2 ^ (i * ext)) = col.getD i 0 := by
  obtain ⟨hs, he⟩ := h.pos
  have hg : orderOf (G2 ^ ext) = steps := by
    rw [orderOf_pow_of_dvd (by omega) (by rw [h.order.eq]; exact Dvd.intro_left _ rfl), h.order.eq, Nat.mul_div_cancel _ he]
  have hle : steps ≤ steps * ext := Nat.le_mul_of_pos_right _ he
  obtain ⟨P, h1, h2, h3⟩ := tracePolys_spec (p := p) ((FFT.good_iff _).2 h.steps_ok) hg (witness := [col]) (by simp [hc]) fuel (hle.trans hf)
  obtain ⟨f, e1, e2, e3, e4⟩ := h3 0 col rfl
  have hinv : FFT.nbInvFft fuel p (G2 ^ ext) col = .ok f := by
    obtain ⟨-, g⟩ := (Air.pyMap_iff _ _ _).1 h1
    obtain ⟨b, b1, b2⟩ := g 0 col rfl
    rw [e1] at b1
    cases b1
    exact b2
  refine ⟨f, _, hinv, FFT.fft1d_fwd ((FFT.good_iff _).2 h.precision_ok) G2 h.order.eq p f (e3.trans hle) fuel hf, e2, e3, rfl, fun i hi => ?_⟩
  rw [mul_comm, pow_mul]
  exact e4 i hi

omit [DecidableEq K] in
theorem degree_of_length {f : List K} {n : Nat} (h : f.length ≤ n) : (toPoly f).degree < n :=
  Polynomial.degree_lt_iff_coeff_zero _ _ |>.2 fun _ hm => coeff_eq_zero_of_length_le (by omega)

/-- Polynomials of degree below `n` that agree at `n` different powers of `w` are equal. -/
theorem eq_of_agree {w : K} {N n : Nat} (hw : orderOf w = N) {P Q : K[X]} (hP : P.degree < n) (hQ : Q.degree < n) (I : Finset Nat)
    (hI : ∀ i ∈ I, i < N) (hn : n ≤ I.card) (h : ∀ i ∈ I, P.eval (w ^ i) = Q.eval (w ^ i)) : P = Q := by
  classical
  have hinj : Set.InjOn (fun i => w ^ i) (I : Set Nat) := fun a ha b hb hab =>
    pow_inj_of_order hw a b (hI a ha) (hI b hb) hab
  refine Polynomial.eq_of_degrees_lt_of_eval_finset_eq (I.image fun i => w ^ i) ?_ ?_ ?_
  · rw [Finset.card_image_of_injOn hinj]; exact lt_of_lt_of_le hP (by exact_mod_cast hn)
  · rw [Finset.card_image_of_injOn hinj]; exact lt_of_lt_of_le hQ (by exact_mod_cast hn)
  · intro x hx
    obtain ⟨i, hi, rfl⟩ := Finset.mem_image.1 hx
    exact h i hi

/-- **C167**, distance: the committed values of two different columns agree at fewer than `steps` of the `steps * ext` positions. -/
theorem C167_distance (p : Nat) [Fact p.Prime] [CharP K p] (G2 : K) (steps ext : Nat) (h : Sizes G2 steps ext) (col col' : List K)
    (hc : col.length = steps) (hc' : col'.length = steps) (hne : col ≠ col') :
    ∃ N, ∀ fuel ≥ N, ∃ f f' v v', FFT.nbInvFft fuel p (G2 ^ ext) col = .ok f ∧ FFT.nbInvFft fuel p (G2 ^ ext) col' = .ok f' ∧
      FFT.nbFft fuel p G2 f = .ok v ∧ FFT.nbFft fuel p G2 f' = .ok v' ∧ v.length = steps * ext ∧ v'.length = steps * ext ∧
      ((Finset.range (steps * ext)).filter fun i => v[i]? = v'[i]?).card < steps := by
  refine ⟨steps * ext, fun fuel hf => ?_⟩
  obtain ⟨f, v, a1, a2, a3, a4, a5, a6⟩ := extension p h col hc fuel hf
  obtain ⟨f', v', b1, b2, b3, b4, b5, b6⟩ := extension p h col' hc' fuel hf
  refine ⟨f, f', v, v', a1, b1, a2, b2, by simp [a5], by simp [b5], ?_⟩
  by_contra hge
  have heq := eq_of_agree h.order.eq (degree_of_length a4) (degree_of_length b4) _ (fun i hi => (Finset.mem_range.1 (Finset.mem_filter.1 hi).1))
    (Nat.not_lt.1 hge) (fun i hi => by
      obtain ⟨h1, h2⟩ := Finset.mem_filter.1 hi
      rw [Finset.mem_range] at h1
      simpa [a5, b5, h1] using h2)
  apply hne
  apply List.ext_getElem (hc.trans hc'.symm)
  intro i hi hi'
  have e := a6 i (by omega)
  have e' := b6 i (by omega)
  rw [heq, e'] at e
  simpa [hi, hi'] using e.symm

/-- **C167**, the column itself is among the committed values: every `ext`-th of them. -/
theorem C167_systematic (p : Nat) [Fact p.Prime] [CharP K p] (G2 : K) (steps ext : Nat) (h : Sizes G2 steps ext) (col : List K)
    (hc : col.length = steps) :
    ∃ N, ∀ fuel ≥ N, ∃ f v, FFT.nbInvFft fuel p (G2 ^ ext) col = .ok f ∧ FFT.nbFft fuel p G2 f = .ok v ∧
      ∀ i < steps, v[i * ext]? = col[i]? := by
  refine ⟨steps * ext, fun fuel hf => ?_⟩
  obtain ⟨f, v, a1, a2, a3, a4, a5, a6⟩ := extension p h col hc fuel hf
  refine ⟨f, v, a1, a2, fun i hi => ?_⟩
  have hlt : i * ext < steps * ext := Nat.mul_lt_mul_of_pos_right hi h.pos.2
  rw [a5, List.getElem?_map, List.getElem?_range hlt, Option.map_some, a6 i hi, List.getElem?_eq_getElem (by omega)]
  simp [hc, hi]

/-- **C167**, decoding: from the committed values at any `steps` positions `lagrange_interp` recovers the polynomial of the column. -/
theorem C167_decoding (p : Nat) [Fact p.Prime] [CharP K p] (G2 : K) (steps ext : Nat) (h : Sizes G2 steps ext) (col : List K)
    (hc : col.length = steps) :
    ∃ N, ∀ fuel ≥ N, ∃ f v, FFT.nbInvFft fuel p (G2 ^ ext) col = .ok f ∧ FFT.nbFft fuel p G2 f = .ok v ∧
      ∀ I : List Nat, I.Nodup → I.length = steps → (∀ i ∈ I, i < steps * ext) →
        PolyUtils.lagrangeInterp (I.map fun i => G2 ^ i) (I.map fun i => v.getD i 0) = .ok f := by
  refine ⟨steps * ext, fun fuel hf => ?_⟩
  obtain ⟨f, v, a1, a2, a3, a4, a5, a6⟩ := extension p h col hc fuel hf
  refine ⟨f, v, a1, a2, fun I hI hl hlt => ?_⟩
  have hnd : (I.map fun i => G2 ^ i).Nodup := hI.map_on fun a ha b hb hab =>
    pow_inj_of_order h.order.eq a b (hlt a ha) (hlt b hb) hab
  obtain ⟨r, r1, r2, r3⟩ := C20_lagrange_interp (I.map fun i => G2 ^ i) (I.map fun i => v.getD i 0) hnd (by simp)
  rw [r1]
  congr 1
  refine toPoly_inj r2 a3 (eq_of_agree (n := steps) h.order.eq ?_ (degree_of_length a4) I.toFinset (fun i hi => hlt i (List.mem_toFinset.1 hi))
    (by rw [List.toFinset_card_of_nodup hI, hl]) fun i hi => ?_)
  · have := r3.1.1
    rwa [List.length_map, hl] at this
  · have h2 := r3.1.2
    rw [List.map_map] at h2
    have := List.map_inj_left.1 h2 i (List.mem_toFinset.1 hi)
    have hi' := hlt i (List.mem_toFinset.1 hi)
    rw [Function.comp_apply] at this
    rw [this]
    simp [a5, hi']

/-- **C167**, fewer values do not suffice: for every column and fewer than `steps` positions there is another column whose committed values
at these positions are the same. -/
theorem C167_tight (p : Nat) [Fact p.Prime] [CharP K p] (G2 : K) (steps ext : Nat) (h : Sizes G2 steps ext) (col : List K)
    (hc : col.length = steps) (I : Finset Nat) (hI : I.card < steps) :
    ∃ col' : List K, col' ≠ col ∧ col'.length = steps ∧ ∃ N, ∀ fuel ≥ N, ∃ f f' v v', FFT.nbInvFft fuel p (G2 ^ ext) col = .ok f ∧
      FFT.nbInvFft fuel p (G2 ^ ext) col' = .ok f' ∧ FFT.nbFft fuel p G2 f = .ok v ∧ FFT.nbFft fuel p G2 f' = .ok v' ∧
      ∀ i ∈ I, v[i]? = v'[i]? := by
  obtain ⟨f₀, v₀, c1, c2, c3, c4, c5, c6⟩ := extension p h col hc (steps * ext) le_rfl
  set Z : K[X] := ∏ i ∈ I, (X - C (G2 ^ i)) with hZ
  have hZd : Z.degree = I.card := by
    rw [hZ, Polynomial.degree_prod, Finset.sum_congr rfl fun i _ => Polynomial.degree_X_sub_C (G2 ^ i)]; simp
  have hZ0 : Z ≠ 0 := by rw [hZ, Finset.prod_ne_zero_iff]; exact fun i _ => Polynomial.X_sub_C_ne_zero _
  set col' : List K := (List.range steps).map fun i => (toPoly f₀ + Z).eval (G2 ^ (i * ext)) with hcol
  have hl' : col'.length = steps := by simp [hcol]
  have hdeg : (toPoly f₀ + Z).degree < steps := lt_of_le_of_lt (Polynomial.degree_add_le _ _)
    (max_lt (degree_of_length c4) (by rw [hZd]; exact_mod_cast hI))
  have agree : ∀ {P Q : K[X]}, P.degree < steps → Q.degree < steps →
      (∀ i < steps, P.eval (G2 ^ (i * ext)) = Q.eval (G2 ^ (i * ext))) → P = Q := by
    intro P Q hP hQ hPQ
    refine eq_of_agree h.order.eq hP hQ ((Finset.range steps).image (· * ext)) ?_ ?_ ?_
    · intro i hi
      obtain ⟨j, hj, rfl⟩ := Finset.mem_image.1 hi
      exact Nat.mul_lt_mul_of_pos_right (Finset.mem_range.1 hj) h.pos.2
    · rw [Finset.card_image_of_injective _ (fun a b hab => Nat.eq_of_mul_eq_mul_right h.pos.2 hab), Finset.card_range]
    · intro i hi
      obtain ⟨j, hj, rfl⟩ := Finset.mem_image.1 hi
      exact hPQ j (Finset.mem_range.1 hj)
  refine ⟨col', fun heq => ?_, hl', steps * ext, fun fuel hf => ?_⟩
  · have : toPoly f₀ + Z = toPoly f₀ := agree hdeg (degree_of_length c4) fun i hi => by
      rw [c6 i hi, ← heq]
      simp [hcol, hi]
    exact hZ0 (by simpa using this)
  · obtain ⟨f, v, a1, a2, a3, a4, a5, a6⟩ := extension p h col hc fuel hf
    obtain ⟨f', v', b1, b2, b3, b4, b5, b6⟩ := extension p h col' hl' fuel hf
    have e1 : toPoly f = toPoly f₀ := agree (degree_of_length a4) (degree_of_length c4) fun i hi => by rw [a6 i hi, c6 i hi]
    have e2 : toPoly f' = toPoly f₀ + Z := agree (degree_of_length b4) hdeg fun i hi => by
      rw [b6 i hi]; simp [hcol, hi]
    refine ⟨f, f', v, v', a1, b1, a2, b2, fun i hi => ?_⟩
    have hz : Z.eval (G2 ^ i) = 0 := by
      rw [hZ, Polynomial.eval_prod]
      exact Finset.prod_eq_zero hi (by simp)
    rw [a5, b5, List.getElem?_map, List.getElem?_map, e1, e2]
    by_cases hir : i < steps * ext
    · rw [List.getElem?_range hir, Option.map_some, Option.map_some, Polynomial.eval_add, hz, add_zero]
    · simp [hir]

theorem sizes_7 : Sizes (7 : Zp 17) 4 4 :=
  ⟨⟨2, .inl rfl⟩, ⟨4, .inl rfl⟩, by norm_num, by decide +kernel, fun j h1 h2 => by interval_cases j <;> decide +kernel⟩

/-- The columns 1, 2, 5, 9 and 1, 2, 5, 10 modulo 17, and the values at positions 0, 4 and 8, which agree, and no others. This meets the
hypotheses of `C167_distance`, `C167_systematic`, `C167_decoding` and `C167_tight`. -/
example : Sizes (7 : Zp 17) 4 4 ∧ (do
    let f ← FFT.nbInvFft 16 17 ((7 : Zp 17) ^ 4) [1, 2, 5, 9]
    let f' ← FFT.nbInvFft 16 17 ((7 : Zp 17) ^ 4) [1, 2, 5, 10]
    let v ← FFT.nbFft 16 17 (7 : Zp 17) f
    let v' ← FFT.nbFft 16 17 (7 : Zp 17) f'
    let r ← PolyUtils.lagrangeInterp ([1, 6, 7, 15].map fun i => (7 : Zp 17) ^ i) ([1, 6, 7, 15].map fun i => v.getD i 0)
    .ok ((List.range 16).filter fun i => v[i]? = v'[i]?, r == f) : Py (List Nat × Bool)) = .ok ([0, 4, 8], true) :=
  ⟨sizes_7, by decide +kernel⟩

end Verif.Props
