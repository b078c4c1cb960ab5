import Verif.Proofs.Primitive
import Verif.Proofs.SmallPrimes
import Verif.Spec.FiniteField
import Mathlib.GroupTheory.OrderOfElement
import Mathlib.RingTheory.PowerBasis
/-!
# Polynomials over Z/2 as numbers, and the order of `x` modulo one of them

The coefficients of a polynomial are the bits of a number; sums are `xor`, products modulo `x^m + …` are computed by doubling and adding.
-/

namespace Verif.StandardFields
open Polynomial Verif.Spec Verif.Poly

section ring
variable {A : Type _} [CommRing A] (hc : ∀ a : A, a + a = 0) (x : A)

/-- The number read as a polynomial with `k` coefficients, at `x`. -/
def ev (k n : Nat) : A := ∑ i ∈ Finset.range k, if n.testBit i then x ^ i else 0

include hc in
theorem ev_xor (k a b : Nat) : ev x k (a ^^^ b) = ev x k a + ev x k b := by
  rw [ev, ev, ev, ← Finset.sum_add_distrib]
  refine Finset.sum_congr rfl fun i _ => ?_
  rw [Nat.testBit_xor]
  cases a.testBit i <;> cases b.testBit i <;> simp [hc]

theorem ev_double (k a : Nat) : ev x (k + 1) (2 * a) = x * ev x k a := by
  rw [ev, ev, Finset.sum_range_succ', Finset.mul_sum]
  have h0 : (2 * a).testBit 0 = false := by simp [Nat.testBit_zero]
  rw [h0]
  simp only [Bool.false_eq_true, if_false, add_zero]
  refine Finset.sum_congr rfl fun i _ => ?_
  have : (2 * a).testBit (i + 1) = a.testBit i := by rw [Nat.testBit_succ]; congr 1; omega
  rw [this]
  split
  · rw [pow_succ, mul_comm]
  · rw [mul_zero]

theorem ev_lt (k n : Nat) (h : n < 2 ^ k) : ev x (k + 1) n = ev x k n := by
  rw [ev, Finset.sum_range_succ, Nat.testBit_lt_two_pow h]
  simp [ev]

/-- `x · a` modulo `F`, of degree `m`. -/
def dbl (F m a : Nat) : Nat := if (2 * a).testBit m then (2 * a) ^^^ F else 2 * a

variable {F m : Nat} (hF : F < 2 ^ (m + 1)) (hm : F.testBit m = true)
include hF hm

omit [CommRing A] x in
theorem dbl_lt {a : Nat} (ha : a < 2 ^ m) : dbl F m a < 2 ^ m := by
  have h2 : 2 * a < 2 ^ (m + 1) := by rw [pow_succ]; omega
  have key : ∀ n, n < 2 ^ (m + 1) → n.testBit m = false → n < 2 ^ m := by
    intro n hn hb
    by_contra hc
    have := Nat.testBit_two_pow_add_eq (n - 2 ^ m) m
    rw [show 2 ^ m + (n - 2 ^ m) = n by omega, hb, Nat.testBit_lt_two_pow (by rw [pow_succ] at hn; omega)] at this
    simp at this
  unfold dbl
  split
  · rename_i h
    exact key _ (Nat.xor_lt_two_pow h2 hF) (by rw [Nat.testBit_xor, h, hm]; rfl)
  · rename_i h
    exact key _ h2 (by simpa using h)

variable (hx : ev x (m + 1) F = 0)
include hc hx

theorem ev_dbl {a : Nat} (ha : a < 2 ^ m) : ev x m (dbl F m a) = x * ev x m a := by
  rw [← ev_lt x m _ (dbl_lt hF hm ha), ← ev_double]
  unfold dbl
  split
  · rw [ev_xor hc, hx, add_zero]
  · rfl

/-- The product: the first factor bit by bit, from above. -/
def mulLoop (F m a b : Nat) : Nat → Nat → Nat
  | 0, acc => acc
  | k + 1, acc => mulLoop F m a b k (if a.testBit k then dbl F m acc ^^^ b else dbl F m acc)

theorem mulLoop_spec {a b : Nat} (hb : b < 2 ^ m) : ∀ (k acc : Nat), acc < 2 ^ m →
    mulLoop F m a b k acc < 2 ^ m ∧ ev x m (mulLoop F m a b k acc) = x ^ k * ev x m acc + ev x k a * ev x m b
  | 0, acc, h => ⟨h, by
    have : ev x 0 a = 0 := by simp [ev]
    rw [this, mulLoop, zero_mul, pow_zero, one_mul, add_zero]⟩
  | k + 1, acc, h => by
    have h1 := dbl_lt hF hm h
    have h2 := ev_dbl hc x hF hm hx h
    have e : ev x (k + 1) a = ev x k a + if a.testBit k then x ^ k else 0 := by rw [ev, Finset.sum_range_succ]; rfl
    unfold mulLoop
    split
    · rename_i hb1
      obtain ⟨h3, h4⟩ := mulLoop_spec hb k (dbl F m acc ^^^ b) (Nat.xor_lt_two_pow h1 hb)
      refine ⟨h3, ?_⟩
      rw [h4, e, ev_xor hc, h2, if_pos hb1]
      ring
    · rename_i hb1
      obtain ⟨h3, h4⟩ := mulLoop_spec hb k (dbl F m acc) h1
      refine ⟨h3, ?_⟩
      rw [h4, e, h2, if_neg hb1]
      ring

/-- `x^e`: the exponent bit by bit, from above. -/
def powLoop (F m e : Nat) : Nat → Nat → Nat
  | 0, acc => acc
  | k + 1, acc => powLoop F m e k (if e.testBit k then dbl F m (mulLoop F m acc acc m 0) else mulLoop F m acc acc m 0)

theorem powLoop_spec (e : Nat) : ∀ (k acc : Nat), acc < 2 ^ m →
    powLoop F m e k acc < 2 ^ m ∧ ev x m (powLoop F m e k acc) = ev x m acc ^ 2 ^ k * x ^ (e % 2 ^ k)
  | 0, acc, h => ⟨h, by simp [powLoop, Nat.mod_one]⟩
  | k + 1, acc, h => by
    obtain ⟨h1, h2⟩ := mulLoop_spec hc x hF hm hx h (a := acc) m 0 (by positivity)
    have h0 : ev x m 0 = 0 := by simp [ev]
    rw [h0, mul_zero, zero_add] at h2
    have hmod : e % 2 ^ (k + 1) = e % 2 ^ k + 2 ^ k * (e.testBit k).toNat := by
      rw [Nat.mod_pow_succ, Nat.toNat_testBit]
    rw [hmod]
    unfold powLoop
    split
    · rename_i hb
      obtain ⟨h3, h4⟩ := powLoop_spec e k _ (dbl_lt hF hm h1)
      refine ⟨h3, ?_⟩
      rw [h4, ev_dbl hc x hF hm hx h1, h2, hb]
      simp only [Bool.toNat_true, mul_one, pow_add, mul_pow, pow_succ]
      rw [pow_mul]
      ring
    · rename_i hb
      obtain ⟨h3, h4⟩ := powLoop_spec e k _ h1
      refine ⟨h3, ?_⟩
      have hb' : e.testBit k = false := by simpa using hb
      rw [h4, h2, hb']
      simp only [Bool.toNat_false, mul_zero, add_zero, pow_succ, pow_mul, mul_pow]
      ring

/-- The power of `x`. -/
theorem powLoop_eq (h1 : 1 ≤ m) (e k : Nat) (he : e < 2 ^ k) : powLoop F m e k 1 < 2 ^ m ∧ ev x m (powLoop F m e k 1) = x ^ e := by
  obtain ⟨a, b⟩ := powLoop_spec hc x hF hm hx e k 1 (Nat.one_lt_two_pow (by omega))
  refine ⟨a, ?_⟩
  have e1 : ev x m 1 = 1 := by
    obtain ⟨n, rfl⟩ : ∃ n, m = n + 1 := ⟨m - 1, by omega⟩
    rw [ev, Finset.sum_range_succ']
    simp [Nat.testBit_succ]
  rw [b, e1, one_pow, one_mul, Nat.mod_eq_of_lt he]

end ring

/-- A polynomial over a finite field `K` whose root has order `|K|^m - 1` is primitive. -/
theorem primitive_of_order {K : Type _} [Field K] [DecidableEq K] [Finite K] {P : K[X]} (h1 : 1 ≤ P.natDegree)
    (hord : orderOf (AdjoinRoot.root P) = Nat.card K ^ P.natDegree - 1) : Primitive P := by
  have hne : P ≠ 0 := fun h => by simp [h] at h1
  have hcard := FF.Fq.card_adjoinRoot (K := K) hne
  have hK : 1 < Nat.card K := Finite.one_lt_card
  have hbig : 1 < Nat.card K ^ P.natDegree := Nat.one_lt_pow (by omega) hK
  have hfin : Finite (AdjoinRoot P) := Nat.finite_of_card_ne_zero (by rw [hcard]; omega)
  have hnt : Nontrivial (AdjoinRoot P) := Finite.one_lt_card_iff_nontrivial.1 (by rw [hcard]; exact hbig)
  have hpos : 0 < orderOf (AdjoinRoot.root P) := by rw [hord]; omega
  have hunit : IsUnit (AdjoinRoot.root P) := IsUnit.of_pow_eq_one (pow_orderOf_eq_one _) hpos.ne'
  -- every non-zero element is a power of the root
  have hsurj : ∀ y : AdjoinRoot P, y ≠ 0 → ∃ k : Nat, AdjoinRoot.root P ^ k = y := by
    let g : Fin (orderOf (AdjoinRoot.root P)) → {y : AdjoinRoot P // y ≠ 0} := fun i => ⟨AdjoinRoot.root P ^ i.1, (hunit.pow _).ne_zero⟩
    have hinj : Function.Injective g := fun i j h => Fin.ext (pow_injOn_Iio_orderOf i.2 j.2 (congrArg Subtype.val h))
    have hc : Nat.card (Fin (orderOf (AdjoinRoot.root P))) = Nat.card {y : AdjoinRoot P // y ≠ 0} := by
      classical
      have : Fintype (AdjoinRoot P) := Fintype.ofFinite _
      rw [Nat.card_eq_fintype_card (α := AdjoinRoot P)] at hcard
      rw [Nat.card_fin, hord, Nat.card_eq_fintype_card (α := {y : AdjoinRoot P // y ≠ 0})]
      rw [Fintype.card_subtype_compl, hcard, Fintype.card_subtype_eq]
    have hb := (Nat.bijective_iff_injective_and_card g).2 ⟨hinj, hc⟩
    intro y hy
    obtain ⟨i, hi⟩ := hb.2 ⟨y, hy⟩
    exact ⟨i.1, congrArg Subtype.val hi⟩
  have hfield : IsField (AdjoinRoot P) := ⟨⟨0, 1, zero_ne_one⟩, mul_comm, fun {y} hy => by
    obtain ⟨k, rfl⟩ := hsurj y hy
    obtain ⟨u, hu⟩ := hunit.pow k
    exact ⟨↑u⁻¹, by rw [← hu, Units.mul_inv]⟩⟩
  have hirr : Irreducible P := by
    have hmax : (Ideal.span {P} : Ideal K[X]).IsMaximal := Ideal.Quotient.maximal_of_isField _ hfield
    exact ((Ideal.span_singleton_prime hne).1 hmax.isPrime).irreducible
  refine ⟨hirr, hunit.unit, rfl, fun v => ?_⟩
  obtain ⟨k, hk⟩ := hsurj v v.ne_zero
  exact ⟨k, Units.ext (by simp [← hk])⟩

theorem zp2_add_self (a : Zp 2) : a + a = 0 := by
  have h : (1 : Zp 2) + 1 = 0 := by decide
  rw [← mul_one a, ← mul_add, h, mul_zero]

section binary
variable {P : (Zp 2)[X]} {F m : Nat} (hP : P = ev X (m + 1) F) (hF : F < 2 ^ (m + 1)) (hm : F.testBit m = true)

theorem coeff_ev (k n i : Nat) : (ev (X : (Zp 2)[X]) k n).coeff i = if i < k ∧ n.testBit i then 1 else 0 := by
  rw [ev, finsetSum_coeff]
  have : ∀ j, (if n.testBit j then (X : (Zp 2)[X]) ^ j else 0).coeff i = if i = j then (if n.testBit i then 1 else 0) else 0 := by
    intro j
    by_cases hj : i = j
    · subst hj
      split <;> simp
    · rw [if_neg hj]
      split
      · rw [coeff_X_pow, if_neg hj]
      · rfl
  simp only [this, Finset.sum_ite_eq, Finset.mem_range]
  by_cases h1 : i < k <;> by_cases h2 : n.testBit i <;> simp [h1, h2]

theorem mk_ev (P : (Zp 2)[X]) (k n : Nat) : AdjoinRoot.mk P (ev X k n) = ev (AdjoinRoot.root P) k n := by
  rw [ev, ev, map_sum]
  refine Finset.sum_congr rfl fun i _ => ?_
  split
  · rw [map_pow, AdjoinRoot.mk_X]
  · rw [map_zero]

include hP hm in
theorem natDegree_ev : P.natDegree = m := by
  rw [hP]
  refine natDegree_eq_of_le_of_coeff_ne_zero ?_ ?_
  · rw [natDegree_le_iff_coeff_eq_zero]
    intro i hi
    rw [coeff_ev, if_neg (by omega)]
  · rw [coeff_ev, if_pos ⟨by omega, hm⟩]
    decide

include hP hm in
theorem ev_inj {a b : Nat} (ha : a < 2 ^ m) (hb : b < 2 ^ m) (h : ev (AdjoinRoot.root P) m a = ev (AdjoinRoot.root P) m b) : a = b := by
  rw [← mk_ev, ← mk_ev, AdjoinRoot.mk_eq_mk] at h
  have h0 : ev (X : (Zp 2)[X]) m a - ev X m b = 0 := by
    by_contra hne
    have h1 := natDegree_le_of_dvd h hne
    rw [natDegree_ev hP hm] at h1
    have hd : (ev (X : (Zp 2)[X]) m a - ev X m b).degree < (m : WithBot Nat) := by
      rw [degree_lt_iff_coeff_zero]
      intro i hi
      rw [coeff_sub, coeff_ev, coeff_ev, if_neg (by omega), if_neg (by omega), sub_zero]
    rw [degree_eq_natDegree hne] at hd
    have : (ev (X : (Zp 2)[X]) m a - ev X m b).natDegree < m := by exact_mod_cast hd
    omega
  refine Nat.eq_of_testBit_eq fun i => ?_
  by_cases hi : i < m
  · have := congrArg (fun q : (Zp 2)[X] => q.coeff i) h0
    simp only [coeff_sub, coeff_ev, hi, true_and, coeff_zero] at this
    revert this
    cases a.testBit i <;> cases b.testBit i <;> simp
  · rw [Nat.testBit_lt_two_pow (ha.trans_le (Nat.pow_le_pow_right (by omega) (by omega))),
      Nat.testBit_lt_two_pow (hb.trans_le (Nat.pow_le_pow_right (by omega) (by omega)))]

include hP hF hm

theorem root_pow_iff (h1 : 1 ≤ m) (e : Nat) (he : e < 2 ^ m) : AdjoinRoot.root P ^ e = 1 ↔ powLoop F m e m 1 = 1 := by
  have hc : ∀ a : AdjoinRoot P, a + a = 0 := by
    intro a
    have : (AdjoinRoot.of P) (1 + 1) = 0 := by rw [zp2_add_self, map_zero]
    rw [map_add, map_one] at this
    have h2 : a + a = (1 + 1) * a := by ring
    rw [h2, this, zero_mul]
  have hx : ev (AdjoinRoot.root P) (m + 1) F = 0 := by rw [← mk_ev, ← hP, AdjoinRoot.mk_self]
  obtain ⟨a, b⟩ := powLoop_eq hc (AdjoinRoot.root P) hF hm hx h1 e m he
  obtain ⟨-, b0⟩ := powLoop_eq hc (AdjoinRoot.root P) hF hm hx h1 0 0 (by simp)
  rw [pow_zero] at b0
  rw [← b]
  constructor
  · intro h
    rw [← b0] at h
    exact ev_inj hP hm a (Nat.one_lt_two_pow (by omega)) h
  · intro h
    rw [h]
    exact b0

/-- The test of primitivity by exponentiation; `qs` are the prime factors of `2^m - 1`. -/
theorem primitive_of_powers (h1 : 1 ≤ m) (qs : List Nat) (hqs : ∀ q ∈ qs, q.Prime) (hdvd : ∃ k, (2 ^ m - 1) ∣ qs.prod ^ k)
    (hone : powLoop F m (2 ^ m - 1) m 1 = 1) (hprime : ∀ q ∈ qs, powLoop F m ((2 ^ m - 1) / q) m 1 ≠ 1) : Primitive P := by
  have hN : 2 ^ m - 1 < 2 ^ m := Nat.sub_lt (by positivity) one_pos
  have hpos : 0 < 2 ^ m - 1 := by have := Nat.one_lt_two_pow (n := m) (by omega); omega
  have hcard : Nat.card (Zp 2) = 2 := by rw [FF.card_zp]
  have hdeg := natDegree_ev hP hm
  refine primitive_of_order (by omega) ?_
  rw [hcard, hdeg]
  refine orderOf_eq_of_pow_and_pow_div_prime hpos ((root_pow_iff hP hF hm h1 _ hN).2 hone) fun q hq hqN => ?_
  rw [Ne, root_pow_iff hP hF hm h1 _ ((Nat.div_le_self _ _).trans_lt hN)]
  obtain ⟨k, hk⟩ := hdvd
  have := hq.dvd_of_dvd_pow (hqN.trans hk)
  obtain ⟨r, hr, hqr⟩ := (Prime.dvd_prod_iff hq.prime).1 this
  rw [(Nat.prime_dvd_prime_iff_eq hq (hqs r hr)).1 hqr]
  exact hprime r hr

end binary

theorem eval_quad : (X ^ 2 + X + 1 : (Zp 2)[X]) = ev X 3 7 := by
  have : (Finset.range 3).filter (fun i => Nat.testBit 7 i) = {0, 1, 2} := by decide
  rw [ev, ← Finset.sum_filter, this]
  simp
  ring

theorem eval_four : (X ^ 4 + X + 1 : (Zp 2)[X]) = ev X 5 19 := by
  have : (Finset.range 5).filter (fun i => Nat.testBit 19 i) = {0, 1, 4} := by decide
  rw [ev, ← Finset.sum_filter, this]
  simp
  ring

theorem eval_nine : (X ^ 9 + X + 1 : (Zp 2)[X]) = ev X 10 515 := by
  have : (Finset.range 10).filter (fun i => Nat.testBit 515 i) = {0, 1, 9} := by decide
  rw [ev, ← Finset.sum_filter, this]
  simp
  ring

theorem eval_seventeen : (X ^ 17 + X ^ 3 + 1 : (Zp 2)[X]) = ev X 18 131081 := by
  have : (Finset.range 18).filter (fun i => Nat.testBit 131081 i) = {0, 3, 17} := by decide
  rw [ev, ← Finset.sum_filter, this]
  simp
  ring

theorem eval_sixtyfour : (X ^ 64 + X ^ 4 + X ^ 3 + X + 1 : (Zp 2)[X]) = ev X 65 (2 ^ 64 + 27) := by
  have : (Finset.range 65).filter (fun i => Nat.testBit (2 ^ 64 + 27) i) = {0, 1, 3, 4, 64} := by decide +kernel
  rw [ev, ← Finset.sum_filter, this]
  simp
  ring

theorem prime_641 : Nat.Prime 641 := by norm_num
theorem prime_65537 : Nat.Prime 65537 := by norm_num
theorem prime_6700417 : Nat.Prime 6700417 := by norm_num
theorem prime_131071 : Nat.Prime 131071 := by norm_num

theorem primitive_two : Primitive (X ^ 2 + X + 1 : (Zp 2)[X]) :=
  primitive_of_powers eval_quad (by decide) (by decide) (by decide) [3] (by norm_num) ⟨1, by decide⟩ (by decide +kernel) (by decide +kernel)

theorem primitive_four : Primitive (X ^ 4 + X + 1 : (Zp 2)[X]) :=
  primitive_of_powers eval_four (by decide) (by decide) (by decide) [3, 5] (by norm_num) ⟨1, by decide⟩ (by decide +kernel) (by decide +kernel)

theorem primitive_seventeen : Primitive (X ^ 17 + X ^ 3 + 1 : (Zp 2)[X]) :=
  primitive_of_powers eval_seventeen (by decide +kernel) (by decide +kernel) (by decide) [131071]
    (by intro q hq; simp at hq; subst hq; exact prime_131071) ⟨1, by decide +kernel⟩ (by decide +kernel) (by decide +kernel)

theorem primitive_sixtyfour : Primitive (X ^ 64 + X ^ 4 + X ^ 3 + X + 1 : (Zp 2)[X]) :=
  primitive_of_powers eval_sixtyfour (by decide +kernel) (by decide +kernel) (by decide) [3, 5, 17, 257, 641, 65537, 6700417]
    (by
      intro q hq
      simp only [List.mem_cons, List.not_mem_nil, or_false] at hq
      rcases hq with rfl | rfl | rfl | rfl | rfl | rfl | rfl
      · norm_num
      · norm_num
      · norm_num
      · norm_num
      · exact prime_641
      · exact prime_65537
      · exact prime_6700417)
    ⟨1, by decide +kernel⟩ (by decide +kernel) (by decide +kernel)

end Verif.StandardFields
