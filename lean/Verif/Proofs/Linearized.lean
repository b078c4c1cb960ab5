import Verif.Proofs.ReedSolomon
import Verif.Proofs.FiniteField
import Mathlib.Algebra.CharP.Lemmas
import Mathlib.RingTheory.Coprime.Lemmas
/-!
# The vanishing polynomial of a subspace is a linearized polynomial
-/

namespace Verif.ReedSolomon
open Poly PolyUtils
open scoped Polynomial
open Polynomial (C X)

section
variable (p : Nat) [Fact p.Prime]

/-- The items of an affine space over Z/p, in order. -/
def items {V : Type _} [AddCommGroup V] [Module (Zp p) V] : List V → V → List V
  | [], s => [s]
  | b :: bs, s => (List.range p).flatMap fun i => items bs (s + i • b)

theorem items_eq {V : Type _} [AddCommGroup V] [Module (Zp p) V] : ∀ (basis : List V) (s : V),
    affineIter (zpIter p (Zp.ofInt (p := p))) basis s = .ok (items p basis s) := by
  intro basis s
  simp only [affineIter, zpIter, pyMap_const, bind, Except.bind, Except.ok.injEq]
  induction basis generalizing s with
  | nil => simp [pyProduct, items]
  | cons b bs ih =>
    simp only [List.length_cons, List.replicate_succ, pyProduct, items, List.map_flatMap, List.flatMap_map]
    congr 1
    funext i
    rw [← ih, List.map_map]
    have : (Zp.ofInt (i : Int) : Zp p) • b = i • b := Nat.cast_smul_eq_nsmul (Zp p) i b
    simp only [Function.comp_def, List.zip_cons_cons, List.foldl_cons, this]

variable {K : Type _} [Field K]

/-- The linearized polynomial with the given roots. -/
noncomputable def lin : List K → K[X]
  | [] => X
  | b :: bs => lin bs ^ p - C ((lin bs).eval b ^ (p - 1)) * lin bs

variable [CharP K p]

theorem lin_add (bs : List K) (f g : K[X]) : (lin p bs).comp (f + g) = (lin p bs).comp f + (lin p bs).comp g := by
  induction bs with
  | nil => simp [lin]
  | cons b bs ih =>
    simp only [lin, Polynomial.sub_comp, Polynomial.mul_comp, Polynomial.pow_comp, Polynomial.C_comp, ih]
    rw [add_pow_char]
    ring

theorem lin_nat (bs : List K) (n : Nat) (f : K[X]) : (lin p bs).comp (n * f) = n * (lin p bs).comp f := by
  induction n with
  | zero =>
    have := lin_add p bs 0 0
    simp only [add_zero] at this
    simpa using this
  | succ n ih => rw [Nat.cast_succ, add_mul, lin_add, ih]; ring_nf

theorem lin_sub (bs : List K) (f g : K[X]) : (lin p bs).comp (f - g) = (lin p bs).comp f - (lin p bs).comp g := by
  have := lin_add p bs (f - g) g
  rw [sub_add_cancel] at this
  rw [this, add_sub_cancel_right]

theorem prod_sub_nat : ∏ i ∈ Finset.range p, (X - C (i : K)) = X ^ p - X := by
  have hp := (Fact.out : p.Prime)
  have hinj : ∀ i < p, ∀ j < p, (i : K) = j → i = j := fun i hi j hj h => CharP.natCast_injOn_Iio K p hi hj h
  have hm : (X ^ p - X : K[X]).Monic := Polynomial.monic_X_pow_sub (by
    rw [Polynomial.degree_X]; exact_mod_cast hp.one_lt)
  refine (Polynomial.eq_of_monic_of_dvd_of_natDegree_le (Polynomial.monic_prod_of_monic _ _ fun i _ => Polynomial.monic_X_sub_C _) hm ?_ ?_).symm
  · refine Finset.prod_dvd_of_coprime (fun i hi j hj hij => ?_) fun i hi => ?_
    · refine Polynomial.isCoprime_X_sub_C_of_isUnit_sub (sub_ne_zero.2 fun h => hij ?_).isUnit
      exact hinj i (by simpa using hi) j (by simpa using hj) h
    · rw [Polynomial.dvd_iff_isRoot, Polynomial.IsRoot]
      have : ((i : K)) ^ p = i := by
        rw [← frobenius_def, map_natCast]
      simp [this]
  · rw [Polynomial.natDegree_prod_of_monic _ _ fun i _ => Polynomial.monic_X_sub_C _]
    simp only [Polynomial.natDegree_X_sub_C, Finset.sum_const, Finset.card_range, smul_eq_mul, mul_one]
    refine (Polynomial.natDegree_sub_le _ _).trans (max_le (by simp) ?_)
    rw [Polynomial.natDegree_X]; exact hp.one_lt.le

theorem prod_sub_mul (A : K[X]) (b : K) : ∏ i ∈ Finset.range p, (A - (i : K[X]) * C b) = A ^ p - C (b ^ (p - 1)) * A := by
  have hp := (Fact.out : p.Prime)
  by_cases hb : b = 0
  · subst hb
    have : p - 1 ≠ 0 := by have := hp.two_le; omega
    simp [this]
  have h := congrArg (fun P : K[X] => P.comp (C b⁻¹ * A)) (prod_sub_nat (K := K) p)
  simp only [Polynomial.prod_comp, Polynomial.sub_comp, Polynomial.X_comp, Polynomial.C_comp, Polynomial.pow_comp] at h
  have e : ∀ i : Nat, A - (i : K[X]) * C b = C b * (C b⁻¹ * A - C (i : K)) := fun i => by
    rw [mul_sub, ← mul_assoc, ← Polynomial.C_mul, mul_inv_cancel₀ hb]
    simp [mul_comm]
  simp only [e]
  rw [Finset.prod_mul_distrib, h, Finset.prod_const, Finset.card_range]
  have e1 : (C b : K[X]) * C b⁻¹ = 1 := by rw [← Polynomial.C_mul, mul_inv_cancel₀ hb, Polynomial.C_1]
  obtain ⟨k, rfl⟩ : ∃ k, p = k + 1 := ⟨p - 1, by have := hp.pos; omega⟩
  have e2 : (C b : K[X]) ^ (k + 1) * (C b⁻¹ * A) ^ (k + 1) = A ^ (k + 1) := by rw [← mul_pow, ← mul_assoc, e1, one_mul]
  have e3 : (C b : K[X]) ^ (k + 1) * (C b⁻¹ * A) = C b ^ k * A := by rw [pow_succ, mul_assoc, ← mul_assoc (C b), e1, one_mul]
  rw [mul_sub, e2, e3, Nat.add_sub_cancel, Polynomial.C_pow]

theorem prod_flatMap {α β M : Type _} [CommMonoid M] (l : List α) (f : α → List β) (g : β → M) :
    ((l.flatMap f).map g).prod = (l.map fun a => ((f a).map g).prod).prod := by
  induction l with
  | nil => simp
  | cons a l ih => simp [List.flatMap_cons, ih]

theorem items_prod {V : Type _} [AddCommGroup V] [Module (Zp p) V] (cast : V → K) (hadd : ∀ a b, cast (a + b) = cast a + cast b) :
    ∀ (basis : List V) (s : V), ((items p basis s).map fun v => X - C (cast v)).prod =
      (lin p (basis.map cast)).comp (X - C (cast s)) := by
  have hcast : ∀ (n : Nat) v, cast (n • v) = n * cast v := by
    intro n v
    have h0 : cast 0 = 0 := by simpa using hadd 0 0
    induction n with
    | zero => simp [h0]
    | succ n ih => rw [succ_nsmul, hadd, ih]; push_cast; ring
  intro basis
  induction basis with
  | nil => simp [items, lin]
  | cons b bs ih =>
    intro s
    rw [items, prod_flatMap]
    simp only [ih, List.map_cons, lin]
    have e : ∀ i : Nat, (lin p (bs.map cast)).comp (X - C (cast (s + i • b))) =
        (lin p (bs.map cast)).comp (X - C (cast s)) - (i : K[X]) * C ((lin p (bs.map cast)).eval (cast b)) := fun i => by
      rw [hadd, hcast, Polynomial.C_add, ← sub_sub, lin_sub, Polynomial.C_mul, show (C ((i : Nat) : K) : K[X]) = (i : K[X]) by simp, lin_nat,
        Polynomial.comp_C]
    simp only [e]
    have hr : ∀ f : ℕ → K[X], ((List.range p).map f).prod = ∏ i ∈ Finset.range p, f i := fun f => rfl
    rw [hr, prod_sub_mul]
    simp only [Polynomial.sub_comp, Polynomial.mul_comp, Polynomial.pow_comp, Polynomial.C_comp]

end

end Verif.ReedSolomon
