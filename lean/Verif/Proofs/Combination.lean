import Verif.Proofs.Stark
import Verif.Proofs.Sampling
import Mathlib.Algebra.MvPolynomial.SchwartzZippel
import Mathlib.Algebra.MvPolynomial.Eval
import Mathlib.Data.Int.CardIntervalMod
import Mathlib.Algebra.CharP.Lemmas
import Mathlib.Data.Nat.Cast.Order.Field
import Mathlib.Tactic.LinearCombination
/-!
# The random linear combination of polynomials

Which challenges let polynomials of high degree combine to one of low degree.
-/

namespace Verif.Combination
open Finset Poly Stark
open Polynomial (C X)
open scoped Polynomial

/-! ### Challenges for up to three columns -/

section
variable {K : Type} [Field K]

/-- The combination of three columns as a polynomial in the four challenges. -/
noncomputable def form (v : K) (p d b : Fin 3 → K) : MvPolynomial (Fin 4) K :=
  ∑ i : Fin 3, (1 + MvPolynomial.C v * MvPolynomial.X (Fin.castSucc i)) *
    (MvPolynomial.C (d i) + MvPolynomial.C (p i) * (MvPolynomial.X 0 + MvPolynomial.C v * MvPolynomial.X 1) +
      MvPolynomial.C (b i) * (MvPolynomial.X 2 + MvPolynomial.C v * MvPolynomial.X 3))

theorem form_eq_zero {v : K} (hv : v ≠ 0) {p d b : Fin 3 → K} (h : form v p d b = 0) : p = 0 ∧ d = 0 ∧ b = 0 := by
  have h1 : MvPolynomial.aeval (fun i : Fin 4 => (X : K[X]) ^ (3 ^ i.1)) (form v p d b) = 0 := by rw [h, map_zero]
  have h2 : MvPolynomial.aeval (fun i : Fin 4 => (X : K[X]) ^ (3 ^ i.1)) (form v p d b) =
      C (d 0 + d 1 + d 2) + C (p 0 + p 1 + p 2 + v * d 0) * X ^ 1 + C (v * (p 0 + p 1 + p 2) + v * d 1) * X ^ 3 +
      C (b 0 + b 1 + b 2 + v * d 2) * X ^ 9 + C (v * (b 0 + b 1 + b 2)) * X ^ 27 +
      C (v * p 0) * X ^ 2 + C (v * v * p 1) * X ^ 6 + C (v * b 2) * X ^ 18 + C (v * (v * p 0 + p 1)) * X ^ 4 +
      C (v * (b 0 + p 2)) * X ^ 10 + C (v * v * b 0) * X ^ 28 + C (v * b 1 + v * v * p 2) * X ^ 12 + C (v * v * b 1) * X ^ 30 +
      C (v * v * b 2) * X ^ 36 := by
    simp only [form, Fin.sum_univ_three, map_add, map_mul, map_one, MvPolynomial.aeval_X, MvPolynomial.aeval_C,
      Polynomial.algebraMap_eq]
    simp only [Fin.castSucc_zero, Fin.val_zero, Fin.val_one, Fin.val_two, Fin.val_castSucc, show ((3 : Fin 4) : ℕ) = 3 from rfl]
    ring
  rw [h2] at h1
  have hc : ∀ n, _ := fun n => congrArg (fun f : K[X] => f.coeff n) h1
  simp only [Polynomial.coeff_add, Polynomial.coeff_C_mul_X_pow, Polynomial.coeff_C, Polynomial.coeff_zero] at hc
  have c2 := hc 2
  have c6 := hc 6
  have c18 := hc 18
  have c28 := hc 28
  have c30 := hc 30
  have c10 := hc 10
  have c1 := hc 1
  have c3 := hc 3
  have c9 := hc 9
  norm_num [hv] at c2 c6 c18 c28 c30
  norm_num [hv, c28] at c10
  norm_num [hv, c2, c6, c10, c18, c28, c30] at c1 c3 c9
  refine ⟨funext fun i => ?_, funext fun i => ?_, funext fun i => ?_⟩ <;> fin_cases i <;> assumption

theorem form_totalDegree (v : K) (p d b : Fin 3 → K) : (form v p d b).totalDegree ≤ 2 := by
  have lin : ∀ (c : K) (i : Fin 4), (MvPolynomial.C c * MvPolynomial.X i : MvPolynomial (Fin 4) K).totalDegree ≤ 1 := fun c i =>
    (MvPolynomial.totalDegree_mul _ _).trans (by simp)
  have lin2 : ∀ (i j : Fin 4), (MvPolynomial.X i + MvPolynomial.C v * MvPolynomial.X j : MvPolynomial (Fin 4) K).totalDegree ≤ 1 := fun i j =>
    (MvPolynomial.totalDegree_add _ _).trans (max_le (by simp) (lin _ _))
  have sc : ∀ (c : K) (f : MvPolynomial (Fin 4) K), f.totalDegree ≤ 1 → (MvPolynomial.C c * f).totalDegree ≤ 1 := fun c f hf =>
    (MvPolynomial.totalDegree_mul _ _).trans (by simpa using hf)
  refine MvPolynomial.totalDegree_finsetSum_le fun i _ => (MvPolynomial.totalDegree_mul _ _).trans (add_le_add (a := _) (b := 1) (c := _) (d := 1) ?_ ?_)
  · exact (MvPolynomial.totalDegree_add _ _).trans (max_le (by simp) (lin _ _))
  · exact (MvPolynomial.totalDegree_add _ _).trans (max_le ((MvPolynomial.totalDegree_add _ _).trans (max_le (by simp) (sc _ _ (lin2 _ _)))) (sc _ _ (lin2 _ _)))

/-- The values of the challenges in a field of characteristic `p`. -/
def values [DecidableEq K] (p : Nat) : Finset K := (range p).image fun n : ℕ => (n : K)

theorem card_values [DecidableEq K] (q : Nat) [CharP K q] : #(values q : Finset K) = q := by
  rw [values, card_image_of_injOn, card_range]
  intro a ha b hb h
  exact CharP.natCast_injOn_Iio K q (by simpa using ha) (by simpa using hb) h

theorem mem_values [DecidableEq K] (q : Nat) (hq : 0 < q) [CharP K q] (n : Nat) : (n : K) ∈ (values q : Finset K) :=
  mem_image.2 ⟨n % q, mem_range.2 (Nat.mod_lt _ hq), (CharP.natCast_eq_natCast_mod K q n).symm⟩

/-- The challenges for which the form vanishes. -/
noncomputable def bad [DecidableEq K] (q : Nat) (v : K) (p d b : Fin 3 → K) : Finset (Fin 4 → K) :=
  {x ∈ Fintype.piFinset fun _ => (values q : Finset K) | MvPolynomial.eval x (form v p d b) = 0}

theorem card_bad [DecidableEq K] (q : Nat) (hq : 0 < q) [CharP K q] {v : K} (hv : v ≠ 0) {p d b : Fin 3 → K}
    (h : ¬ (p = 0 ∧ d = 0 ∧ b = 0)) : #(bad q v p d b) ≤ 2 * q ^ 3 := by
  have hne : form v p d b ≠ 0 := fun e => h (form_eq_zero hv e)
  have key := MvPolynomial.schwartz_zippel_totalDegree hne (values q : Finset K)
  rw [card_values q] at key
  have hq' : (0 : ℚ≥0) < q := by exact_mod_cast hq
  rw [div_le_div_iff₀ (by positivity) hq'] at key
  have h2 : ((form v p d b).totalDegree : ℚ≥0) ≤ 2 := by exact_mod_cast form_totalDegree v p d b
  have h3 : (#(bad q v p d b) : ℚ≥0) * q ≤ (2 * q ^ 3) * q := by
    calc (#(bad q v p d b) : ℚ≥0) * q ≤ (form v p d b).totalDegree * q ^ 4 := key
      _ ≤ 2 * q ^ 4 := by gcongr
      _ = _ := by ring
  have := le_of_mul_le_mul_right h3 hq'
  exact_mod_cast this

/-- The coefficients of degree `n`, of up to three columns. -/
noncomputable def coeffs (n : Nat) (P : List (List K)) (i : Fin 3) : K := (toPoly (P.getD i [])).coeff n

theorem ks_small (blake : Bytes → Bytes) (e : Bytes) (k1 k2 k3 k4 : Nat) (hk : Utils.getPseudorandomKs blake e 4 = some [k1, k2, k3, k4])
    (width : Nat) (h3 : width ≤ 3) : Utils.getPseudorandomKs blake e width = some ([k1, k2, k3].take width) := by
  have hk : some [_, _, _, _] = some [k1, k2, k3, k4] := hk
  simp only [Option.some.injEq, List.cons.injEq, and_true] at hk
  obtain ⟨rfl, rfl, rfl, rfl⟩ := hk
  interval_cases width <;> rfl

theorem mem_bad [DecidableEq K] (q : Nat) (hq : 0 < q) [CharP K q] (blake : Bytes → Bytes) (e : Bytes) (P D B : List (List K)) (G : K)
    (deg steps width : Nat) (h0 : 0 < width) (h3 : width ≤ 3) (hP : P.length = width) (hD : D.length = width) (hB : B.length = width)
    (hd : 2 ≤ deg) (k1 k2 k3 k4 : Nat) (hk : Utils.getPseudorandomKs blake e 4 = some [k1, k2, k3, k4]) (l : List K)
    (hl : combination blake e P D B G deg steps width = .ok (some l)) (n : Nat) (hn : (toPoly l).coeff n = 0) :
    ![(k1 : K), k2, k3, k4] ∈ bad q ((G ^ steps) ^ (deg - 1)) (coeffs n P) (coeffs n D) (coeffs n B) := by
  obtain ⟨l', h1, -, h2⟩ := (combination_spec blake e P D B G deg steps width hP hD hB hd h0).1 k1 k2 k3 k4 _ hk
    (ks_small blake e k1 k2 k3 k4 hk width h3) (by simp; omega)
  rw [hl] at h1
  cases h1
  rw [h2] at hn
  generalize (G ^ steps) ^ (deg - 1) = v at hn ⊢
  refine mem_filter.2 ⟨Fintype.mem_piFinset.2 fun i => ?_, ?_⟩
  · fin_cases i <;> exact mem_values q hq _
  · simp only [form, coeffs, Fin.sum_univ_three, map_add, map_mul, map_one, MvPolynomial.eval_X, MvPolynomial.eval_C]
    refine Eq.trans ?_ hn
    have hc : ∀ c x y z, (C c * comb1 k1 k2 k3 k4 v x y z).coeff n =
        c * (y.coeff n + ((k1 : K) + k2 * v) * x.coeff n + ((k3 : K) + k4 * v) * z.coeff n) := fun c x y z => by
      simp only [comb1, Polynomial.coeff_C_mul, Polynomial.coeff_add]
    interval_cases width
    · obtain ⟨p0, rfl⟩ := List.length_eq_one_iff.1 hP
      obtain ⟨d0, rfl⟩ := List.length_eq_one_iff.1 hD
      obtain ⟨b0, rfl⟩ := List.length_eq_one_iff.1 hB
      simp only [show List.range 1 = [0] from rfl, List.map_cons, List.map_nil, List.sum_cons,
        List.sum_nil, add_zero, hc]
      simp [toPoly_nil]
      ring
    · obtain ⟨p0, p1, rfl⟩ := List.length_eq_two.1 hP
      obtain ⟨d0, d1, rfl⟩ := List.length_eq_two.1 hD
      obtain ⟨b0, b1, rfl⟩ := List.length_eq_two.1 hB
      simp only [show List.range 2 = [0, 1] from rfl, List.map_cons, List.map_nil, List.sum_cons,
        List.sum_nil, add_zero, Polynomial.coeff_add, hc]
      simp [toPoly_nil]
      ring
    · obtain ⟨p0, p1, p2, rfl⟩ := List.length_eq_three.1 hP
      obtain ⟨d0, d1, d2, rfl⟩ := List.length_eq_three.1 hD
      obtain ⟨b0, b1, b2, rfl⟩ := List.length_eq_three.1 hB
      simp only [show List.range 3 = [0, 1, 2] from rfl, List.map_cons, List.map_nil, List.sum_cons,
        List.sum_nil, add_zero, Polynomial.coeff_add, hc]
      simp
      ring

/-! ### Random challenges -/

theorem card_preimage [DecidableEq K] (q : Nat) (hq : 0 < q) [CharP K q] {Ω : Type} [Fintype Ω] {N : Nat} (φ : Ω → Nat) (hφ : ∀ d, φ d < N)
    (hi : Function.Injective φ) (x : K) : #{d : Ω | ((φ d : ℕ) : K) = x} ≤ N / q + 1 := by
  classical
  by_cases hx : ∃ d : Ω, ((φ d : ℕ) : K) = x
  · obtain ⟨d0, rfl⟩ := hx
    refine (card_le_card_of_injOn (t := (range N).filter (· ≡ φ d0 [MOD q])) φ ?_ hi.injOn).trans ?_
    · intro d hd
      have hd := (mem_filter.1 hd).2
      exact mem_filter.2 ⟨mem_range.2 (hφ d), (CharP.natCast_eq_natCast K q).1 hd⟩
    · rw [← Nat.count_eq_card_filter_range, Nat.count_modEq_card _ hq]
      refine Nat.add_le_add le_rfl ?_
      split <;> omega
  · rw [filter_eq_empty_iff.2 fun d _ h => hx ⟨d, h⟩]
    simp

theorem card_tuples [DecidableEq K] (q : Nat) (hq : 0 < q) [CharP K q] {Ω : Type} [Fintype Ω] {N : Nat} (φ : Ω → Nat) (hφ : ∀ d, φ d < N)
    (hi : Function.Injective φ) (T : Finset (Fin 4 → K)) [DecidablePred fun ω : Fin 4 → Ω => (fun i => ((φ (ω i) : ℕ) : K)) ∈ T] :
    #{ω : Fin 4 → Ω | (fun i => ((φ (ω i) : ℕ) : K)) ∈ T} ≤ #T * (N / q + 1) ^ 4 := by
  classical
  refine (card_le_mul_card_image_of_maps_to (f := fun (ω : Fin 4 → Ω) i => ((φ (ω i) : ℕ) : K))
    (fun ω hω => (mem_filter.1 hω).2) _ (fun x hx => ?_)).trans_eq (mul_comm _ _)
  refine (card_le_card (t := Fintype.piFinset fun i => {d : Ω | ((φ d : ℕ) : K) = x i}) ?_).trans ?_
  · intro ω hω
    have hω := (mem_filter.1 hω).2
    exact Fintype.mem_piFinset.2 fun i => mem_filter.2 ⟨mem_univ _, congrFun hω i⟩
  · rw [Fintype.card_piFinset]
    refine (prod_le_pow_card _ _ _ fun i _ => card_preimage q hq φ hφ hi (x i)).trans (by simp)

theorem digest_lt (d : Digest) : fromBytes d.1 < 2 ^ 256 := by
  have := fromBytes_lt d.1
  rw [d.2] at this
  exact this.trans_eq (by norm_num)

theorem digest_inj : Function.Injective fun d : Digest => fromBytes d.1 := fun a b h =>
  Subtype.ext (fromBytes_inj _ _ (a.2.trans b.2.symm) h)

theorem fraction_tuples [DecidableEq K] (q : Nat) (hq : 0 < q) [CharP K q] (T : Finset (Fin 4 → K)) (hT : #T ≤ 2 * q ^ 3) :
    fraction (fun ω : Fin 4 → Digest => (fun i => ((fromBytes (ω i).1 : ℕ) : K)) ∈ T) ≤ 2 / q * (1 + q / 2 ^ 256) ^ 4 := by
  classical
  rw [Sampling.fraction_eq]
  have hc : Fintype.card (Fin 4 → Digest) = (2 ^ 256) ^ 4 := by rw [Fintype.card_fun, Sampling.card_digest, Fintype.card_fin]
  have h1 := (card_tuples q hq _ digest_lt digest_inj T).trans (Nat.mul_le_mul_right _ hT)
  rw [hc]
  have hN : 0 < 2 ^ 256 := by positivity
  have hN' : ((2 ^ 256 : ℕ) : ℚ) = 2 ^ 256 := by rw [Nat.cast_pow, Nat.cast_ofNat]
  rw [← hN', Nat.cast_pow]
  clear hN' hc
  generalize 2 ^ 256 = N at *
  generalize #{ω : Fin 4 → Digest | (fun i => ((fromBytes (ω i).1 : ℕ) : K)) ∈ T} = A at *
  have hNq : (0 : ℚ) < N := by exact_mod_cast hN
  have hqq : (0 : ℚ) < q := by exact_mod_cast hq
  have h2 : ((N / q + 1 : ℕ) : ℚ) ≤ N / q + 1 := by
    rw [Nat.cast_add, Nat.cast_one]
    exact add_le_add Nat.cast_div_le le_rfl
  have h3 : (A : ℚ) ≤ 2 * q ^ 3 * ((N / q + 1 : ℕ) : ℚ) ^ 4 := by exact_mod_cast h1
  rw [div_le_iff₀ (by positivity)]
  refine h3.trans ?_
  calc (2 * q ^ 3 * ((N / q + 1 : ℕ) : ℚ) ^ 4 : ℚ) ≤ 2 * q ^ 3 * ((N : ℚ) / q + 1) ^ 4 := by gcongr
    _ = 2 / q * (1 + q / N) ^ 4 * N ^ 4 := by field_simp

end

/-! ### Four to nine columns -/

section
variable {K : Type} [Field K] [DecidableEq K]

/-- Columns for `P`, `D` and `B` whose combination is zero whatever the four challenges are: column `i` has a non-zero multiple of `h`. -/
def forgedP (v : K) (h : List K) : List (List K) := [[], [], mul h (ctor [-1]), mul h (ctor [-v])]
def forgedD (v : K) (h : List K) : List (List K) :=
  [mul h (ctor [(1 + v) / v]), mul h (ctor [1 + v]), mul h (ctor [-((1 + v) / v)]), mul h (ctor [-(1 + v)])]
def forgedB (v : K) (h : List K) : List (List K) := [h, mul h (ctor [v]), [], []]

/-- The columns in their places: the first one for four columns, the second one for more. -/
def place (width : Nat) (L : List (List K)) : List (List K) := if width = 4 then L else [] :: L ++ List.replicate (width - 5) []

theorem ks_large (blake : Bytes → Bytes) (e : Bytes) (k1 k2 k3 k4 : Nat) (hk : Utils.getPseudorandomKs blake e 4 = some [k1, k2, k3, k4])
    (width : Nat) (h5 : 4 < width) (h9 : width ≤ 9) :
    ∃ k0 r, Utils.getPseudorandomKs blake e width = some (k0 :: k1 :: k2 :: k3 :: k4 :: r) ∧ r.length = width - 5 := by
  have hk : some [_, _, _, _] = some [k1, k2, k3, k4] := hk
  simp only [Option.some.injEq, List.cons.injEq, and_true] at hk
  obtain ⟨rfl, rfl, rfl, rfl⟩ := hk
  interval_cases width <;> exact ⟨_, _, rfl, rfl⟩

theorem forged_zero (blake : Bytes → Bytes) (e : Bytes) (G : K) (deg steps width : Nat) (h4 : 4 ≤ width) (h9 : width ≤ 9) (hd : 2 ≤ deg)
    (hG : G ≠ 0) (h : List K) :
    combination blake e (place width (forgedP ((G ^ steps) ^ (deg - 1)) h)) (place width (forgedD ((G ^ steps) ^ (deg - 1)) h))
      (place width (forgedB ((G ^ steps) ^ (deg - 1)) h)) G deg steps width = .ok (some []) := by
  obtain ⟨k1, k2, k3, k4, hk⟩ := ks_four blake e
  have hv : (G ^ steps) ^ (deg - 1) ≠ 0 := pow_ne_zero _ (pow_ne_zero _ hG)
  have hs := combination_spec blake e (place width (forgedP ((G ^ steps) ^ (deg - 1)) h)) (place width (forgedD ((G ^ steps) ^ (deg - 1)) h))
      (place width (forgedB ((G ^ steps) ^ (deg - 1)) h)) G deg steps width
  generalize (G ^ steps) ^ (deg - 1) = v at hs hv ⊢
  have hVU : (C v : K[X]) * C ((1 + v) / v) = 1 + C v := by
    rw [← Polynomial.C_mul, mul_div_cancel₀ _ hv, Polynomial.C_add, Polynomial.C_1]
  have fin : ∀ l : List K, Canon l → toPoly l = 0 → l = [] := fun l h1 h2 => (toPoly_eq_zero h1).1 h2
  rcases Nat.lt_or_ge 4 width with h5 | h5
  · obtain ⟨k0, r, hr, hrl⟩ := ks_large blake e k1 k2 k3 k4 hk width h5 h9
    have hlen : ∀ L : List (List K), L.length = 4 → (place width L).length = width := fun L hL => by
      rw [place, if_neg (by omega)]
      simp [hL]
      omega
    obtain ⟨l, h1, h2, h3⟩ := (hs (hlen _ rfl) (hlen _ rfl) (hlen _ rfl) hd (by omega)).1 k1 k2 k3 k4 _ hk hr (by simp [hrl]; omega)
    rw [h1, fin l h2]
    rw [h3]
    obtain ⟨n, rfl⟩ : ∃ n, width = n + 5 := ⟨width - 5, by omega⟩
    have hz : ∀ L : List (List K), ∀ i, (place (n + 5) L).getD i [] = ([] :: L).getD i [] := fun L i => by
      have : place (n + 5) L = ([] :: L) ++ List.replicate n [] := by simp [place]
      rw [this, List.getD_eq_getElem?_getD, List.getD_eq_getElem?_getD, List.getElem?_append]
      split
      · rfl
      · next hi => rw [List.getElem?_eq_none (l := [] :: L) (by omega), List.getElem?_replicate]; split <;> rfl
    have hzero : ∀ i, 5 ≤ i → comb1 k1 k2 k3 k4 v (toPoly (([] :: forgedP v h).getD i [])) (toPoly (([] :: forgedD v h).getD i []))
        (toPoly (([] :: forgedB v h).getD i [])) = 0 := fun i hi => by
      rw [List.getD_eq_default _ _ (by simpa [forgedP] using hi), List.getD_eq_default _ _ (by simpa [forgedD] using hi),
        List.getD_eq_default _ _ (by simpa [forgedB] using hi)]
      simp [comb1, toPoly_nil]
    simp only [hz]
    rw [add_comm n 5, List.range_add, List.map_append, List.sum_append, List.map_map,
      List.sum_eq_zero (l := List.map _ (List.range n)) (by
        simp only [List.mem_map, Function.comp]
        rintro _ ⟨i, -, rfl⟩
        rw [hzero (5 + i) (by omega), mul_zero])]
    simp only [show List.range 5 = [0, 1, 2, 3, 4] from rfl, List.map_cons, List.map_nil, List.sum_cons, List.sum_nil, List.getD_cons_zero,
      List.getD_cons_succ, forgedP, forgedD, forgedB, comb1, toPoly_nil, toPoly_mul, toPoly_const, map_add, map_mul, map_neg, map_one]
    linear_combination (toPoly h * (C (k1 : K) - C (k3 : K))) * hVU
  · obtain rfl : width = 4 := by omega
    obtain ⟨l, h1, h2, h3⟩ := (hs rfl rfl rfl hd (by omega)).1 k1 k2 k3 k4 _ hk hk rfl
    rw [h1, fin l h2]
    rw [h3]
    simp only [place, if_true, show List.range 4 = [0, 1, 2, 3] from rfl, List.map_cons, List.map_nil, List.sum_cons, List.sum_nil, List.getD_cons_zero,
      List.getD_cons_succ, forgedP, forgedD, forgedB, comb1, toPoly_nil, toPoly_mul, toPoly_const, map_add, map_mul, map_neg, map_one]
    linear_combination (toPoly h * (C (k1 : K) - C (k3 : K))) * hVU

end

end Verif.Combination
