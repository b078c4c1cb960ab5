import Verif.Proofs.StandardFields
import Verif.Spec.StandardFields
import Verif.Props.FiniteField
/-!
# C140: the binary fields of the tests and tutorials

`Documented` is in `Spec/StandardFields`.
-/

namespace Verif.Props
open Poly FF Spec StandardFields
open scoped Polynomial
open Polynomial (C X)

theorem documented_primitive {m : Nat} {P : (Zp 2)[X]} (h : Documented m P) : Primitive P ∧ P.natDegree = m ∧ 2 ≤ m := by
  rcases h with ⟨rfl, rfl⟩ | ⟨rfl, rfl⟩ | ⟨rfl, rfl⟩ | ⟨rfl, rfl⟩
  · exact ⟨primitive_two, natDegree_ev eval_quad (by decide), by omega⟩
  · exact ⟨primitive_four, natDegree_ev eval_four (by decide), by omega⟩
  · exact ⟨primitive_seventeen, natDegree_ev eval_seventeen (by decide +kernel), by omega⟩
  · exact ⟨primitive_sixtyfour, natDegree_ev eval_sixtyfour (by decide +kernel), by omega⟩

/-- The root of a primitive polynomial over Z/2 has order `2^m - 1`. -/
theorem orderOf_root {P : (Zp 2)[X]} (h : Primitive P) : orderOf (AdjoinRoot.root P) = 2 ^ P.natDegree - 1 := by
  obtain ⟨hirr, u, hu, hall⟩ := h
  have : Fact (Irreducible P) := ⟨hirr⟩
  have hcard := Fq.card_adjoinRoot (K := Zp 2) hirr.ne_zero
  rw [card_zp] at hcard
  have hfin : Finite (AdjoinRoot P) := Nat.finite_of_card_ne_zero (by rw [hcard]; positivity)
  have h1 : orderOf u = Nat.card (AdjoinRoot P)ˣ := orderOf_eq_card_of_forall_mem_zpowers fun v => by
    obtain ⟨k, hk⟩ := hall v
    exact ⟨k, hk.symm⟩
  rw [← hu, orderOf_units, h1, Nat.card_units, hcard]

/-- **C140**, the moduli other than `x^9 + x + 1`. Each of them is accepted as the modulus of `FiniteField(2, m, …)`, which has `2^m` elements;
`is_primitive` confirms it; and each element but 0 is `X ** k` for exactly one `k` below `2^m - 1`. -/
theorem C140_fields_partial (m : Nat) (f : List (Zp 2)) (hf : Canon f) (hd : Documented m (toPoly f)) (factorint : Nat → List Nat)
    (hfac : IsFactorint factorint) (draws : Nat → List (Zp 2)) (inner fuel : Nat) :
    finiteField factorint 2 m (some f) draws inner fuel = .ok (.ext f) ∧ isPrimitive factorint 2 m f = .ok true ∧
    Nat.card {L : List (Zp 2) // Canon L ∧ degree L < degree f} = 2 ^ m ∧
    ∀ a : List (Zp 2), Canon a → degree a < degree f → a ≠ [] →
      ∃! k : Nat, k < 2 ^ m - 1 ∧ ∀ fuel : Nat, k < fuel → fqPow f [0, 1] fuel k = .ok a := by
  obtain ⟨hprim, hdeg, hm⟩ := documented_primitive hd
  have hirr := hprim.1
  have hdf : degree f = m := by
    have := natDegree_toPoly hf
    have h0 : f ≠ [] := fun h => hirr.ne_zero (by rw [h, toPoly_nil])
    have := List.length_pos_iff.2 h0
    unfold degree pabs
    omega
  have hX : ¬ Associated (toPoly f) X := fun h => by
    have := Polynomial.natDegree_eq_of_degree_eq (Polynomial.degree_eq_degree_of_associated h)
    rw [Polynomial.natDegree_X] at this
    omega
  refine ⟨?_, ?_, ?_, ?_⟩
  · obtain ⟨b, h1, h2⟩ := C14_is_irreducible 2 f hf (by omega)
    rw [h2.2 hirr] at h1
    have hm1 : m ≠ 1 := by omega
    simp [finiteField, h1, hm1, bind, Except.bind]
  · obtain ⟨b, h1, h2⟩ := C15_is_primitive 2 factorint hfac m f hf hdf (by omega) hX
    rw [h1, h2.2 hprim]
  · rw [(C12_extension_field 2 f hf hirr).2.1, hdeg]
  · intro a ha hda ha0
    obtain ⟨-, -, e, he, -⟩ := C12_extension_field 2 f hf hirr
    have : Fact (Irreducible (toPoly f)) := ⟨hirr⟩
    have hord := orderOf_root hprim
    rw [hdeg] at hord
    have hpos : 0 < 2 ^ m - 1 := by have := Nat.one_lt_two_pow (n := m) (by omega); omega
    have hgen : ∀ y : AdjoinRoot (toPoly f), y ≠ 0 → ∃ k < 2 ^ m - 1, AdjoinRoot.root (toPoly f) ^ k = y := by
      obtain ⟨-, u, hu, hall⟩ := hprim
      intro y hy
      obtain ⟨k, hk⟩ := hall (Units.mk0 y hy)
      have hz : u ^ k ∈ Subgroup.zpowers u := ⟨k, rfl⟩
      have hfo : IsOfFinOrder u := by
        rw [← orderOf_pos_iff, ← orderOf_units, hu, hord]
        exact hpos
      obtain ⟨j, hj, hj2⟩ := (hfo.mem_zpowers_iff_mem_range_orderOf).1 hz |> Finset.mem_image.1
      rw [Finset.mem_range, ← orderOf_units, hu, hord] at hj
      refine ⟨j, hj, ?_⟩
      have := congrArg Units.val (hj2.trans hk.symm)
      rw [← hu]
      simpa using this
    have hxc : Canon ([0, 1] : List (Zp 2)) := fun a h => by simp at h; simp [← h]
    have hx1 : degree ([0, 1] : List (Zp 2)) < degree f := by rw [hdf]; simp [degree, pabs]; omega
    have hxr : AdjoinRoot.mk (toPoly f) (toPoly [0, 1]) = AdjoinRoot.root (toPoly f) := by
      rw [show toPoly ([0, 1] : List (Zp 2)) = X by simp [toPoly_cons, toPoly_nil], AdjoinRoot.mk_X]
    have hpow : ∀ k : Nat, (∀ fuel : Nat, k < fuel → fqPow f [0, 1] fuel k = .ok a) ↔
        AdjoinRoot.root (toPoly f) ^ k = AdjoinRoot.mk (toPoly f) (toPoly a) := by
      intro k
      obtain ⟨r, r1, r2, r3, r4⟩ := C06_pow_extension 2 f hf hirr [0, 1] hxc hx1 k
      rw [hxr] at r4
      rw [← r4]
      constructor
      · intro h
        have := h (k + 1) (by omega)
        rw [r1 (k + 1) (by omega)] at this
        injection this with this
        rw [this]
      · intro h fuel hfu
        rw [r1 fuel hfu]
        have : e ⟨r, r2, r3⟩ = e ⟨a, ha, hda⟩ := by rw [he, he]; exact h
        have := e.injective this
        exact congrArg (fun z => Except.ok z.1) this
    have hne : AdjoinRoot.mk (toPoly f) (toPoly a) ≠ 0 := by
      intro h
      have hnil : degree ([] : List (Zp 2)) < degree f := by rw [hdf]; simp [degree, pabs]; omega
      have : e ⟨a, ha, hda⟩ = e ⟨[], by intro a h; simp at h, hnil⟩ := by
        rw [he, he]
        simpa [toPoly_nil] using h
      exact ha0 (congrArg Subtype.val (e.injective this))
    obtain ⟨k, hk, hk2⟩ := hgen _ hne
    refine ⟨k, ⟨hk, (hpow k).2 hk2⟩, ?_⟩
    rintro j ⟨hj, hj2⟩
    have := (hpow j).1 hj2
    rw [← hk2] at this
    exact pow_injOn_Iio_orderOf (by rw [Set.mem_Iio, hord]; exact hj) (by rw [Set.mem_Iio, hord]; exact hk) this

/-- **C140** is false for `x^9 + x + 1`, "primitive" in test_poly_utils.py:189: it is irreducible and accepted as a modulus, but `X ** 73` is 1
and `is_primitive`, asked with the degree 9, says so. -/
theorem C140_nine_refuted (f : List (Zp 2)) (hf : Canon f) (hP : toPoly f = X ^ 9 + X + 1) (factorint : Nat → List Nat)
    (hfac : IsFactorint factorint) (draws : Nat → List (Zp 2)) (inner fuel : Nat) :
    finiteField factorint 2 9 (some f) draws inner fuel = .ok (.ext f) ∧ (∀ fuel, 73 < fuel → fqPow f [0, 1] fuel 73 = .ok [1]) ∧
    isPrimitive factorint 2 9 f = .ok false ∧ ¬ Primitive (toPoly f) := by
  have hlist : f = [1, 1, 0, 0, 0, 0, 0, 0, 0, 1] := by
    refine toPoly_inj hf (fun a h => by simp at h; simp [← h]) ?_
    rw [hP]
    simp only [toPoly_cons, toPoly_nil, map_one, map_zero]
    ring
  have hirr1 : isIrreducible 2 f = .ok true := by rw [hlist]; decide +kernel
  have hdf : degree f = 9 := by rw [hlist]; rfl
  have hirr : Irreducible (toPoly f) := by
    obtain ⟨b, h1, h2⟩ := C14_is_irreducible 2 f hf (by omega)
    rw [hirr1] at h1
    injection h1 with h1
    exact h2.1 h1.symm
  have h73 : AdjoinRoot.root (toPoly f) ^ 73 = 1 :=
    (root_pow_iff (hP.trans eval_nine) (by decide) (by decide) (by decide) 73 (by decide)).2 (by decide +kernel)
  have hnd : (toPoly f).natDegree = 9 := natDegree_ev (hP.trans eval_nine) (by decide)
  have hnp : ¬ Primitive (toPoly f) := by
    intro h
    have h1 := orderOf_dvd_of_pow_eq_one h73
    rw [orderOf_root h, hnd] at h1
    exact absurd h1 (by decide)
  have hX : ¬ Associated (toPoly f) X := fun h => by
    have := Polynomial.natDegree_eq_of_degree_eq (Polynomial.degree_eq_degree_of_associated h)
    rw [Polynomial.natDegree_X] at this
    omega
  refine ⟨by simp [finiteField, hirr1, bind, Except.bind], ?_, ?_, hnp⟩
  · have hxc : Canon ([0, 1] : List (Zp 2)) := fun a h => by simp at h; simp [← h]
    obtain ⟨r, r1, r2, r3, r4⟩ := C06_pow_extension 2 f hf hirr [0, 1] hxc (by rw [hdf]; decide) 73
    rw [show toPoly ([0, 1] : List (Zp 2)) = X by simp [toPoly_cons, toPoly_nil], AdjoinRoot.mk_X, h73] at r4
    obtain ⟨-, -, e, he, -⟩ := C12_extension_field 2 f hf hirr
    have : e ⟨r, r2, r3⟩ = e ⟨[1], fun a h => by simp at h; simp [← h], by rw [hdf]; decide⟩ := by
      rw [he, he, r4]
      simp [toPoly_cons, toPoly_nil]
    have hr : r = [1] := congrArg Subtype.val (e.injective this)
    intro fuel hfu
    have h := r1 fuel hfu
    rw [hr] at h
    exact h
  · obtain ⟨b, h1, h2⟩ := C15_is_primitive 2 factorint hfac 9 f hf hdf (by omega) hX
    cases b with
    | true => exact absurd (h2.1 rfl) hnp
    | false => exact h1

/-- **C140**, the test in test_poly_utils.py:195 passes all the same: it asks `is_primitive` about `x^9 + x + 1` with the degree 2, and then the
answer is True for every irreducible polynomial over Z/2 of degree 2 or more. -/
theorem C140_wrong_degree_refuted (f : List (Zp 2)) (hf : Canon f) (hirr : Irreducible (toPoly f)) (hd : 2 ≤ degree f) (factorint : Nat → List Nat)
    (hfac : IsFactorint factorint) : isPrimitive factorint 2 2 f = .ok true := by
  have hnd : 2 ≤ (toPoly f).natDegree := by
    rw [natDegree_toPoly hf]
    unfold degree pabs at hd
    omega
  obtain ⟨b, h1, h2⟩ := C14_is_irreducible 2 f hf (by omega)
  rw [h2.2 hirr] at h1
  obtain ⟨c, c1, c2⟩ := primLoop_spec hf (by omega : 1 ≤ (toPoly f).natDegree) 3 (factorint 3)
  have hc : c = true := by
    rw [c2]
    intro q hq
    obtain ⟨q1, q2⟩ := (hfac 3 q (by norm_num)).1 hq
    rw [(Nat.prime_dvd_prime_iff_eq q1 Nat.prime_three).1 q2, Nat.div_self (by norm_num), pow_one]
    intro hr
    rw [← AdjoinRoot.mk_X, ← map_one (AdjoinRoot.mk (toPoly f)), AdjoinRoot.mk_eq_mk] at hr
    have hne : (X - 1 : (Zp 2)[X]) ≠ 0 := by
      have := Polynomial.X_sub_C_ne_zero (1 : Zp 2)
      simpa using this
    have := Polynomial.natDegree_le_of_dvd hr hne
    have h3 : (X - 1 : (Zp 2)[X]).natDegree = 1 := by
      have := Polynomial.natDegree_X_sub_C (1 : Zp 2)
      simpa using this
    omega
  rw [hc] at c1
  simp only [isPrimitive, h1, bind, Except.bind, if_true]
  exact c1

/-- **C140**, the cost of `is_primitive`: it computes `x ** ((p^m - 1) / q)` before it reduces it. The list has one entry more than the exponent: for
`m = 64` over Z/2 more than `2 * 10^12` entries for every prime factor `q` (`C140_size_64_refuted`). -/
theorem C140_size_refuted (p : Nat) [Fact p.Prime] (k : Nat) :
    ∃ y, pyPow one mul (ctor [0, 1] : List (Zp p)) (k : Int) = .ok y ∧ y.length = k + 1 := by
  obtain ⟨y, y1, y2, y3⟩ := pow_X_spec (K := Zp p) k
  refine ⟨y, y1, ?_⟩
  have h := natDegree_toPoly y2
  rw [y3, Polynomial.natDegree_X_pow] at h
  have h0 : y ≠ [] := fun h => by
    rw [h, toPoly_nil] at y3
    exact pow_ne_zero k Polynomial.X_ne_zero y3.symm
  have := List.length_pos_iff.2 h0
  omega

/-- **C140**, the cost for `m = 64`: every exponent is above `2 * 10^12`. -/
theorem C140_size_64_refuted (q : Nat) (hq : q.Prime) (hd : q ∣ 2 ^ 64 - 1) : 2 * 10 ^ 12 < (2 ^ 64 - 1) / q := by
  have e : 2 ^ 64 - 1 = [3, 5, 17, 257, 641, 65537, 6700417].prod := by norm_num
  rw [e] at hd
  obtain ⟨r, hr, hqr⟩ := (Prime.dvd_prod_iff hq.prime).1 hd
  have hp : r.Prime := by
    simp only [List.mem_cons, List.not_mem_nil, or_false] at hr
    rcases hr with rfl | rfl | rfl | rfl | rfl | rfl | rfl <;> norm_num
  rw [(Nat.prime_dvd_prime_iff_eq hq hp).1 hqr]
  simp only [List.mem_cons, List.not_mem_nil, or_false] at hr
  rcases hr with rfl | rfl | rfl | rfl | rfl | rfl | rfl <;> norm_num

/-! ## Instances -/

/-- The lists that the tests and tutorials build: `coefficients = [Zp(0)] * (m + 1)`, then ones at some places. This meets the hypotheses of
`C140_fields_partial`. -/
example : Documented 17 (toPoly ([1, 0, 0, 1, 0, 0, 0, 0, 0, 0, 0, 0, 0, 0, 0, 0, 0, 1] : List (Zp 2))) ∧
    Canon ([1, 0, 0, 1, 0, 0, 0, 0, 0, 0, 0, 0, 0, 0, 0, 0, 0, 1] : List (Zp 2)) := by
  refine ⟨.inr (.inr (.inl ⟨rfl, ?_⟩)), fun a h => by simp at h; simp [← h]⟩
  simp only [toPoly_cons, toPoly_nil, map_one, map_zero]
  ring

/-- Likewise for degree 64. -/
example : Documented 64 (toPoly ([1, 1, 0, 1, 1] ++ List.replicate 59 0 ++ [1] : List (Zp 2))) ∧
    Canon ([1, 1, 0, 1, 1] ++ List.replicate 59 0 ++ [1] : List (Zp 2)) := by
  refine ⟨.inr (.inr (.inr ⟨rfl, ?_⟩)), fun a h => by simp at h; simp [← h]⟩
  rw [toPoly_append, toPoly_append, toPoly_replicate_zero]
  simp only [toPoly_cons, toPoly_nil, map_one, map_zero, List.length_append, List.length_replicate, List.length_cons, List.length_nil]
  ring

/-- This meets the hypotheses of `C140_nine_refuted`. -/
example : toPoly ([1, 1, 0, 0, 0, 0, 0, 0, 0, 1] : List (Zp 2)) = X ^ 9 + X + 1 ∧ Canon ([1, 1, 0, 0, 0, 0, 0, 0, 0, 1] : List (Zp 2)) := by
  refine ⟨?_, fun a h => by simp at h; simp [← h]⟩
  simp only [toPoly_cons, toPoly_nil, map_one, map_zero]
  ring

/-- This meets the hypotheses of `C140_wrong_degree_refuted`. -/
example : Canon ([1, 1, 0, 0, 0, 0, 0, 0, 0, 1] : List (Zp 2)) ∧ 2 ≤ degree ([1, 1, 0, 0, 0, 0, 0, 0, 0, 1] : List (Zp 2)) ∧
    Irreducible (toPoly ([1, 1, 0, 0, 0, 0, 0, 0, 0, 1] : List (Zp 2))) := by
  have hc : Canon ([1, 1, 0, 0, 0, 0, 0, 0, 0, 1] : List (Zp 2)) := fun a h => by simp at h; simp [← h]
  refine ⟨hc, by decide, ?_⟩
  obtain ⟨b, h1, h2⟩ := C14_is_irreducible 2 [1, 1, 0, 0, 0, 0, 0, 0, 0, 1] hc (by decide)
  have : isIrreducible 2 ([1, 1, 0, 0, 0, 0, 0, 0, 0, 1] : List (Zp 2)) = .ok true := by decide +kernel
  rw [this] at h1
  injection h1 with h1
  exact h2.1 h1.symm

/-- This meets the hypotheses of `C140_size_64_refuted`. -/
example : Nat.Prime 6700417 ∧ 6700417 ∣ 2 ^ 64 - 1 := by norm_num

end Verif.Props
