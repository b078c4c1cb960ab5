import Verif.Model.FiniteField
import Verif.Proofs.Polynomial
import Verif.Proofs.Pow
import Verif.Proofs.Modp
import Mathlib.RingTheory.AdjoinRoot
import Mathlib.FieldTheory.Finite.Extension
import Mathlib.RingTheory.IntegralDomain
/-! # F_{p^m} and the irreducibility tests -/

set_option linter.unusedSectionVars false

namespace Verif.FF
open Poly
open scoped Polynomial
open Polynomial (C X)

variable {K : Type _} [Field K] [DecidableEq K]

theorem ctor_X : Canon (ctor [0, 1] : List K) ∧ toPoly (ctor [0, 1] : List K) = X := by
  refine ⟨canon_ctor _, ?_⟩
  rw [toPoly_ctor]; simp [toPoly_cons, toPoly_nil]

/-! ### is_irreducible -/

theorem powmod_spec (f m : List K) (hf : Canon f) (hm : Canon m) (h0 : toPoly m ≠ 0) (n : Nat) :
    ∃ S, pyPowmod one mul mod f n m = .ok S ∧ Canon S ∧ toPoly m ∣ toPoly S - toPoly f ^ n := by
  have hne : m ≠ [] := fun h => h0 ((toPoly_eq_zero hm).mpr h)
  have law : MulLaw (fun a b => mod (mul a b) m) (fun l => AdjoinRoot.mk (toPoly m) (toPoly l)) Canon
      (fun l => l.length < m.length) := by
    intro a b ha hb
    obtain ⟨r, h1, h2, h3, h4⟩ := mod_eq (canon_mul a b) hm hne
    refine ⟨r, h1, h2, h4, ?_⟩
    show AdjoinRoot.mk _ _ = AdjoinRoot.mk _ _ * AdjoinRoot.mk _ _
    rw [← map_mul, AdjoinRoot.mk_eq_mk, h3, toPoly_mul]
    have := EuclideanDomain.div_add_mod (toPoly a * toPoly b) (toPoly m)
    exact ⟨-(toPoly a * toPoly b / toPoly m), by linear_combination this⟩
  obtain ⟨S, h1, h2, h3, -⟩ := powGen_spec law (one := one) (x := f) canon_one (by simp [toPoly_one]) hf n
  refine ⟨S, h1, h2, ?_⟩
  have h3 : AdjoinRoot.mk (toPoly m) (toPoly S) = AdjoinRoot.mk (toPoly m) (toPoly f) ^ n := h3
  rw [← map_pow, AdjoinRoot.mk_eq_mk] at h3; exact h3

theorem degree_eq_zero_iff {g : List K} (hg : Canon g) : degree g = 0 ↔ IsUnit (toPoly g) := by
  rw [Polynomial.isUnit_iff_degree_eq_zero]
  unfold degree pabs
  by_cases h : g = []
  · subst h; simp [toPoly_nil]
  · have hz : toPoly g ≠ 0 := fun h' => h ((toPoly_eq_zero hg).1 h')
    rw [Polynomial.degree_eq_natDegree hz, natDegree_toPoly hg]
    have := List.length_pos_iff.2 h
    constructor
    · intro h'; have : g.length - 1 = 0 := by omega
      rw [this]; rfl
    · intro h'; have : g.length - 1 = 0 := by exact_mod_cast h'
      omega

theorem irrLoop_spec (p : Nat) {f : List K} (hf : Canon f) (h0 : toPoly f ≠ 0) : ∀ (k i : Nat) (t : List K), Canon t →
    toPoly f ∣ toPoly t - X ^ p ^ i → ∃ b, irrLoop p f k t = .ok b ∧
      (b = true ↔ ∀ j, i < j → j ≤ i + k → IsCoprime (toPoly f) (X ^ p ^ j - X))
  | 0, i, t, _, _ => ⟨true, rfl, by simp; intro j h1 h2; omega⟩
  | k + 1, i, t, ht, hd => by
    obtain ⟨t', h1, h2, h3⟩ := powmod_spec t f ht hf h0 p
    have hd' : toPoly f ∣ toPoly t' - X ^ p ^ (i + 1) := by
      have h4 : toPoly f ∣ toPoly t ^ p - (X ^ p ^ i) ^ p := hd.trans (sub_dvd_pow_sub_pow _ _ _)
      rw [← pow_mul, ← pow_succ] at h4
      have := dvd_add h3 h4
      simpa using this
    obtain ⟨g, g1, g2, g3⟩ := gcd_spec polyLaw f (sub t' (ctor [0, 1])) hf (canon_sub _ _)
    have hg : degree g = 0 ↔ IsCoprime (toPoly f) (X ^ p ^ (i + 1) - X) := by
      rw [degree_eq_zero_iff g2]
      have e : toPoly (sub t' (ctor [0, 1])) = toPoly t' - X := by rw [toPoly_sub, ctor_X.2]
      have hdvd : ∀ d, d ∣ toPoly g ↔ d ∣ toPoly f ∧ d ∣ X ^ p ^ (i + 1) - X := by
        intro d
        rw [g3, e]
        constructor
        · rintro ⟨a, b⟩
          refine ⟨a, ?_⟩
          have := dvd_sub b (a.trans hd')
          simpa using this
        · rintro ⟨a, b⟩
          refine ⟨a, ?_⟩
          have := dvd_add b (a.trans hd')
          simpa using this
      rw [← isRelPrime_iff_isCoprime]
      constructor
      · intro hu d ha hb
        exact isUnit_of_dvd_unit ((hdvd d).2 ⟨ha, hb⟩) hu
      · intro h
        have := (hdvd (toPoly g)).1 dvd_rfl
        exact h this.1 this.2
    obtain ⟨b, b1, b2⟩ := irrLoop_spec p hf h0 k (i + 1) t' h2 hd'
    by_cases hz : degree g = 0
    · refine ⟨b, ?_, ?_⟩
      · simp only [irrLoop, h1, g1, bind, Except.bind, hz, not_true_eq_false, if_false]; exact b1
      · rw [b2]
        constructor
        · intro h j hj1 hj2
          by_cases hj : j = i + 1
          · subst hj; exact hg.1 hz
          · exact h j (by omega) (by omega)
        · intro h j hj1 hj2; exact h j (by omega) (by omega)
    · refine ⟨false, ?_, ?_⟩
      · simp only [irrLoop, h1, g1, bind, Except.bind, hz, not_false_eq_true, if_true]
      · simp only [Bool.false_eq_true, false_iff]
        intro h
        exact hz (hg.2 (h (i + 1) (by omega) (by omega)))

/-- The Handbook's criterion (Algorithm 4.69). -/
theorem irreducible_iff_coprime [Finite K] {F : K[X]} (hF : 1 ≤ F.natDegree) :
    (∀ j, 0 < j → j ≤ F.natDegree / 2 → IsCoprime F (X ^ Nat.card K ^ j - X)) ↔ Irreducible F := by
  have hF0 : F ≠ 0 := by rintro rfl; simp at hF
  constructor
  · intro h
    have hnu : ¬ IsUnit F := fun hu => by
      have := Polynomial.natDegree_eq_zero_of_isUnit hu; omega
    by_contra hirr
    -- a factor of degree at most half
    have : ∃ G : K[X], G ∣ F ∧ ¬ IsUnit G ∧ G.natDegree ≤ F.natDegree / 2 := by
      rw [irreducible_iff] at hirr
      push Not at hirr
      obtain ⟨a, b, hab, ha, hb⟩ := hirr hnu
      have ha0 : a ≠ 0 := by rintro rfl; simp at hab; exact hF0 hab
      have hb0 : b ≠ 0 := by rintro rfl; simp at hab; exact hF0 hab
      have hdeg : F.natDegree = a.natDegree + b.natDegree := by rw [hab, Polynomial.natDegree_mul ha0 hb0]
      by_cases hle : a.natDegree ≤ b.natDegree
      · exact ⟨a, ⟨b, hab⟩, ha, by omega⟩
      · exact ⟨b, ⟨a, by rw [hab, mul_comm]⟩, hb, by omega⟩
    obtain ⟨G, hG, hGu, hGd⟩ := this
    have hG0 : G ≠ 0 := ne_zero_of_dvd_ne_zero hF0 hG
    obtain ⟨q, hq, hqG⟩ := WfDvdMonoid.exists_irreducible_factor hGu hG0
    have hqd : q.natDegree ≤ G.natDegree := Polynomial.natDegree_le_of_dvd hqG hG0
    have hqpos : 0 < q.natDegree := hq.natDegree_pos
    have hdvd := hq.natDegree_dvd_iff_dvd_X_pow_card_pow_sub_X.1 (dvd_refl q.natDegree)
    exact hq.not_isUnit ((h q.natDegree hqpos (by omega)).isUnit_of_dvd' (hqG.trans hG) hdvd)
  · intro h j hj1 hj2
    rw [h.coprime_iff_not_dvd]
    intro hd
    have := h.natDegree_dvd_of_dvd_X_pow_card_pow_sub_X hd
    have := Nat.le_of_dvd hj1 this
    omega

theorem isIrreducible_spec [Finite K] {f : List K} (hf : Canon f) (hd : 1 ≤ (toPoly f).natDegree) :
    ∃ b, isIrreducible (Nat.card K) f = .ok b ∧ (b = true ↔ Irreducible (toPoly f)) := by
  have h0 : toPoly f ≠ 0 := by intro h; rw [h] at hd; simp at hd
  obtain ⟨b, h1, h2⟩ := irrLoop_spec (Nat.card K) hf h0 ((degree f).toNat / 2) 0 (ctor [0, 1]) ctor_X.1
    (by rw [ctor_X.2]; simp)
  refine ⟨b, h1, ?_⟩
  rw [h2, ← irreducible_iff_coprime hd, natDegree_toPoly hf]
  have : (degree f).toNat = f.length - 1 := by unfold degree pabs; omega
  rw [this, Nat.zero_add]

theorem isIrreducible_const (p : Nat) {f : List K} (hf : f.length ≤ 1) : isIrreducible p f = .ok true := by
  have : (degree f).toNat / 2 = 0 := by unfold degree pabs; omega
  simp [isIrreducible, this, irrLoop]

theorem card_zp (p : Nat) [hp : Fact p.Prime] : Nat.card (Zp p) = p := by
  rw [Nat.card_congr (Zp.equivZMod (p := p)).toEquiv]; simp

instance (p : Nat) [hp : Fact p.Prime] : Finite (Zp p) := Nat.finite_of_card_ne_zero (by rw [card_zp]; exact hp.out.ne_zero)

/-! ### The field -/

/-- A modulus the class can be built with: canonical and irreducible. -/
class IsModulus (f : List K) : Prop where
  canon : Canon f
  irr : Irreducible (toPoly f)

section fq
variable (f : List K) [hf : IsModulus f]

theorem IsModulus.ne_nil : f ≠ [] := fun h => hf.irr.ne_zero (by rw [h, toPoly_nil])

theorem IsModulus.two_le : 2 ≤ f.length := by
  have h1 := hf.irr.natDegree_pos
  rw [natDegree_toPoly hf.canon] at h1
  omega

/-- The remainder the model computes, as a total function. -/
def red (g : List K) : List K := match mod g f with
  | .ok r => r
  | .error _ => []

theorem mod_eq_red {g : List K} (hg : Canon g) : mod g f = .ok (red f g) ∧ Canon (red f g) ∧ (red f g).length < f.length ∧
    toPoly (red f g) = toPoly g % toPoly f := by
  obtain ⟨r, h1, h2, h3, h4⟩ := mod_eq hg hf.canon (IsModulus.ne_nil f)
  have : red f g = r := by simp [red, h1]
  rw [this]; exact ⟨h1, h2, h4, h3⟩

theorem red_small {g : List K} (hg : Canon g) (hl : g.length < f.length) : red f g = g := by
  obtain ⟨-, h2, h3, h4⟩ := mod_eq_red f hg
  apply toPoly_inj h2 hg
  rw [h4]
  exact (Polynomial.mod_eq_self_iff hf.irr.ne_zero).2 (degree_lt_of_length_lt hg hf.canon hl)

end fq

/-- The values of `FiniteField(p, m, f)` instances: canonical polynomials of degree below that of `f`. -/
def Fq (f : List K) : Type _ := {L : List K // Canon L ∧ L.length < f.length}

namespace Fq
variable {f : List K} [hf : IsModulus f]

instance : DecidableEq (Fq f) := inferInstanceAs (DecidableEq {L : List K // Canon L ∧ L.length < f.length})

/-- Interpretation in `K[X]/(f)`. -/
noncomputable def val (a : Fq f) : AdjoinRoot (toPoly f) := AdjoinRoot.mk _ (toPoly a.1)

theorem val_inj : Function.Injective (val (f := f)) := by
  intro a b h
  unfold val at h
  rw [AdjoinRoot.mk_eq_mk] at h
  have hd : (toPoly a.1 - toPoly b.1).degree < (toPoly f).degree :=
    lt_of_le_of_lt (Polynomial.degree_sub_le _ _) (max_lt (degree_lt_of_length_lt a.2.1 hf.canon a.2.2)
      (degree_lt_of_length_lt b.2.1 hf.canon b.2.2))
  have := Polynomial.eq_zero_of_dvd_of_degree_lt h hd
  exact Subtype.ext (toPoly_inj a.2.1 b.2.1 (sub_eq_zero.1 this))

/-- The element `Fq(g)` for a polynomial `g`. -/
def mk (g : List K) (hg : Canon g) : Fq f := ⟨red f g, (mod_eq_red f hg).2.1, (mod_eq_red f hg).2.2.1⟩

theorem mk_val (g : List K) (hg : Canon g) : (mk g hg : Fq f).val = AdjoinRoot.mk _ (toPoly g) := by
  show AdjoinRoot.mk _ (toPoly (red f g)) = _
  rw [(mod_eq_red f hg).2.2.2, AdjoinRoot.mk_eq_mk]
  have := EuclideanDomain.div_add_mod (toPoly g) (toPoly f)
  exact ⟨-(toPoly g / toPoly f), by linear_combination this⟩

theorem val_surj : Function.Surjective (val (f := f)) := by
  intro y
  obtain ⟨P, rfl⟩ := AdjoinRoot.mk_surjective y
  obtain ⟨g, hg⟩ := CPoly.val_surj P
  exact ⟨mk g.1 g.2, by rw [mk_val]; exact congrArg _ hg⟩

theorem const_mem (c : K) : Canon (ctor [c]) ∧ (ctor [c]).length < f.length := by
  refine ⟨canon_ctor _, ?_⟩
  have := IsModulus.two_le f
  have : (ctor [c]).length ≤ 1 := by unfold ctor strip; rw [List.length_take]; simp
  omega

/-- finitefield.py:83-84 -/
def ofK (c : K) : Fq f := ⟨ofElt c, const_mem c⟩

theorem val_ofK (c : K) : (ofK c : Fq f).val = AdjoinRoot.of _ c := by
  show AdjoinRoot.mk _ (toPoly (ctor [c])) = _
  rw [toPoly_ctor, toPoly_cons, toPoly_nil, mul_zero, add_zero]; rfl

instance : Zero (Fq f) := ⟨ofK 0⟩
instance : One (Fq f) := ⟨ofK 1⟩
instance : Add (Fq f) := ⟨fun a b => mk (add a.1 b.1) (canon_add _ _)⟩
instance : Sub (Fq f) := ⟨fun a b => mk (sub a.1 b.1) (canon_sub _ _)⟩
instance : Mul (Fq f) := ⟨fun a b => mk (mul a.1 b.1) (canon_mul _ _)⟩
instance : Neg (Fq f) := ⟨fun a => mk (neg a.1) (canon_neg _)⟩

@[simp] theorem val_zero : (0 : Fq f).val = 0 := (val_ofK 0).trans (map_zero _)
@[simp] theorem val_one : (1 : Fq f).val = 1 := (val_ofK 1).trans (map_one _)
@[simp] theorem val_add (a b : Fq f) : (a + b).val = a.val + b.val := (mk_val _ _).trans (by rw [toPoly_add, map_add]; rfl)
@[simp] theorem val_sub (a b : Fq f) : (a - b).val = a.val - b.val := (mk_val _ _).trans (by rw [toPoly_sub, map_sub]; rfl)
@[simp] theorem val_mul (a b : Fq f) : (a * b).val = a.val * b.val := (mk_val _ _).trans (by rw [toPoly_mul, map_mul]; rfl)
@[simp] theorem val_neg (a : Fq f) : (-a).val = -a.val := (mk_val _ _).trans (by rw [toPoly_neg, map_neg]; rfl)

theorem fqMul_eq (a b : Fq f) : fqMul f a.1 b.1 = .ok (a * b).1 := (mod_eq_red f (canon_mul _ _)).1
theorem fqAdd_eq (a b : Fq f) : fqAdd f a.1 b.1 = .ok (a + b).1 := (mod_eq_red f (canon_add _ _)).1
theorem fqSub_eq (a b : Fq f) : fqSub f a.1 b.1 = .ok (a - b).1 := (mod_eq_red f (canon_sub _ _)).1
theorem fqNeg_eq (a : Fq f) : fqNeg f a.1 = .ok (-a).1 := (mod_eq_red f (canon_neg _)).1

theorem fqEq_iff (a b : Fq f) : fqEq a.1 b.1 = true ↔ a = b := by
  rw [fqEq, eq_iff]; exact ⟨Subtype.ext, congrArg _⟩

theorem fqInverse_zero : fqInverse f (0 : Fq f).1 = .error .zeroDivision := by
  have : fqEq (0 : Fq f).1 (ofElt 0) = true := eq_iff.2 rfl
  simp [fqInverse, this]

theorem fqInverse_spec (a : Fq f) (ha : a ≠ 0) : ∃ b : Fq f, fqInverse f a.1 = .ok b.1 ∧ a.val * b.val = 1 := by
  have hne : fqEq a.1 (ofElt 0) = false := by
    rw [Bool.eq_false_iff]
    intro h
    exact ha ((fqEq_iff a (0 : Fq f)).1 h)
  obtain ⟨x, y, g, h1, hx, hy, hg, h2, h3⟩ := xgcd_spec polyLaw a.1 f a.2.1 hf.canon
  have ha0 : toPoly a.1 ≠ 0 := fun h => ha (val_inj (by rw [val_zero, val, h, map_zero]))
  have hu : IsUnit (toPoly g) := by
    have hd := (h3 (toPoly g)).1 dvd_rfl
    rcases hf.irr.dvd_iff.1 hd.2 with h | h
    · exact h
    · exfalso
      have := Polynomial.degree_le_of_dvd (h.dvd.trans hd.1) ha0
      have := degree_lt_of_length_lt a.2.1 hf.canon a.2.2
      exact absurd this (not_lt.2 ‹_›)
  have hdeg := (degree_eq_zero_iff hg).2 hu
  have hlen : g.length = 1 := by unfold degree pabs at hdeg; omega
  obtain ⟨c, rfl⟩ := List.length_eq_one_iff.1 hlen
  have hc : c ≠ 0 := hg c (by simp)
  refine ⟨mk x hx * ofK c⁻¹, ?_, ?_⟩
  · have e1 : ofPoly f x = .ok (mk x hx : Fq f).1 := (mod_eq_red f hx).1
    have e2 := fqMul_eq (mk x hx) (ofK c⁻¹ : Fq f)
    simp only [fqInverse, hne, Bool.false_eq_true, if_false, h1, bind, Except.bind, hdeg, ne_eq, not_true_eq_false,
      pyIdx, List.getElem?_cons_zero, pyDiv, hc, one_mul, e1]
    exact e2
  · rw [val_mul, mk_val, val_ofK]
    have := congrArg (AdjoinRoot.mk (toPoly f)) h2
    rw [map_add, map_mul, map_mul, AdjoinRoot.mk_self, zero_mul, add_zero, toPoly_cons, toPoly_nil, mul_zero, add_zero] at this
    rw [← mul_assoc]
    have e : a.val = AdjoinRoot.mk (toPoly f) (toPoly a.1) := rfl
    rw [e, this]
    show AdjoinRoot.of (toPoly f) c * AdjoinRoot.of (toPoly f) c⁻¹ = 1
    rw [← map_mul, mul_inv_cancel₀ hc, map_one]

/-- `inverse()`, with the exception at zero mapped to zero (Mathlib's convention); every model function that divides tests
for zero first. -/
instance : Inv (Fq f) := ⟨fun a => match fqInverse f a.1 with
  | .ok b => mk (ctor b) (canon_ctor b)
  | .error _ => 0⟩

theorem fqInverse_eq (a : Fq f) (ha : a ≠ 0) : fqInverse f a.1 = .ok (a⁻¹).1 ∧ a * a⁻¹ = 1 := by
  obtain ⟨b, h1, h2⟩ := fqInverse_spec a ha
  have : a⁻¹ = b := by
    show (match fqInverse f a.1 with | .ok b => mk (ctor b) (canon_ctor b) | .error _ => 0) = b
    rw [h1]
    apply Subtype.ext
    show red f (ctor b.1) = b.1
    rw [ctor_of_canon b.2.1, red_small f b.2.1 b.2.2]
  rw [this]
  exact ⟨h1, val_inj (by rw [val_mul, h2, val_one])⟩

theorem inv_zero' : (0 : Fq f)⁻¹ = 0 := by
  show (match fqInverse f (0 : Fq f).1 with | .ok b => mk (ctor b) (canon_ctor b) | .error _ => (0 : Fq f)) = 0
  rw [fqInverse_zero]

instance : Field (Fq f) :=
  haveI : Fact (Irreducible (toPoly f)) := ⟨hf.irr⟩
  { add_assoc := fun a b c => val_inj (by simp [add_assoc])
    zero_add := fun a => val_inj (by simp)
    add_zero := fun a => val_inj (by simp)
    add_comm := fun a b => val_inj (by simp [add_comm])
    left_distrib := fun a b c => val_inj (by simp [mul_add])
    right_distrib := fun a b c => val_inj (by simp [add_mul])
    zero_mul := fun a => val_inj (by simp)
    mul_zero := fun a => val_inj (by simp)
    mul_assoc := fun a b c => val_inj (by simp [mul_assoc])
    one_mul := fun a => val_inj (by simp)
    mul_one := fun a => val_inj (by simp)
    neg_add_cancel := fun a => val_inj (by simp)
    sub_eq_add_neg := fun a b => val_inj (by simp [sub_eq_add_neg])
    mul_comm := fun a b => val_inj (by simp [mul_comm])
    nsmul := nsmulRec
    zsmul := zsmulRec
    exists_pair_ne := ⟨0, 1, fun h => by simpa using congrArg val h⟩
    mul_inv_cancel := fun a h => (fqInverse_eq a h).2
    inv_zero := inv_zero'
    nnqsmul := _
    nnqsmul_def := fun _ _ => rfl
    qsmul := _
    qsmul_def := fun _ _ => rfl }

/-- The interpretation is a ring isomorphism. -/
noncomputable def equiv : Fq f ≃+* AdjoinRoot (toPoly f) :=
  { Equiv.ofBijective (val (f := f)) ⟨val_inj, val_surj⟩ with
    map_mul' := val_mul
    map_add' := val_add }

theorem card_adjoinRoot [Finite K] {F : K[X]} (hF : F ≠ 0) : Nat.card (AdjoinRoot F) = Nat.card K ^ F.natDegree := by
  have := (AdjoinRoot.powerBasis hF).finite
  rw [Module.natCard_eq_pow_finrank (K := K), (AdjoinRoot.powerBasis hF).finrank, AdjoinRoot.powerBasis_dim]

theorem card_eq [Finite K] : Nat.card (Fq f) = Nat.card K ^ (toPoly f).natDegree := by
  rw [Nat.card_congr (equiv (f := f)).toEquiv, card_adjoinRoot hf.irr.ne_zero]

/-! powers -/

theorem fqPow_spec (a : Fq f) : ∀ (fuel n : Nat), n < fuel → fqPow f a.1 fuel (n : Int) = .ok (a ^ n).1
  | 0, n, h => by omega
  | fuel + 1, n, h => by
    have hm : (n : Int).fmod 2 = ((n % 2 : Nat) : Int) := by
      rw [Int.fmod_eq_emod_of_nonneg _ (by norm_num)]; omega
    have hd : (n : Int).fdiv 2 = ((n / 2 : Nat) : Int) := by
      rw [Int.fdiv_eq_ediv_of_nonneg _ (by norm_num)]; omega
    unfold fqPow
    by_cases h0 : n = 0
    · subst h0
      have hone : ofList f ([1] : List K) = .ok (1 : Fq f).1 := by
        show mod (ctor [1]) f = _
        have hc := const_mem (f := f) (1 : K)
        rw [(mod_eq_red f hc.1).1, red_small f hc.1 hc.2]; rfl
      simpa using hone
    · by_cases h1 : n = 1
      · subst h1; simp
      · rw [if_neg (by omega), if_neg (by omega), hm, hd]
        by_cases he : n % 2 = 0
        · rw [if_pos (by omega), fqPow_spec a fuel (n / 2) (by omega)]
          simp only [bind, Except.bind]
          rw [fqMul_eq, ← pow_add]
          congr 4; omega
        · rw [if_neg (by omega)]
          have : (n : Int) - 1 = ((n - 1 : Nat) : Int) := by omega
          rw [this, fqPow_spec a fuel (n - 1) (by omega)]
          simp only [bind, Except.bind]
          rw [fqMul_eq, ← pow_succ]
          congr 4; omega

omit hf in
theorem fqPow_neg (a : List K) : ∀ (fuel : Nat) (n : Int), n < 0 → fqPow f a fuel n = .error .diverge
  | 0, n, h => rfl
  | fuel + 1, n, h => by
    unfold fqPow
    rw [if_neg (by omega), if_neg (by omega)]
    have hd : n.fdiv 2 < 0 := by rw [Int.fdiv_eq_ediv_of_nonneg _ (by norm_num)]; omega
    split
    · rw [fqPow_neg a fuel _ hd]; rfl
    · rw [fqPow_neg a fuel _ (by omega)]; rfl

end Fq

end Verif.FF
