import Verif.Proofs.SmallPrimes
import Verif.Proofs.Primitive
import Verif.Spec.FiniteField
import Mathlib.Tactic.NormNum.Prime
import Mathlib.Data.Nat.Factors
/-!
# C12–C16 (and C06 for F_{p^m}): extension fields, irreducible and primitive polynomials

The class of an element is `AdjoinRoot.mk F g`, the residue class of `g` in `(Z/p)[x]/(F)`.
-/

namespace Verif.Props
open Poly FF Spec
open scoped Polynomial
open Polynomial (C X)

section
variable (p : Nat) [hp : Fact p.Prime]

/-- **C12**. For a prime `p` and an irreducible modulus `f` of degree `m`, write `E` for the values the elements take:
canonical polynomials of degree below `m`.  There are exactly `p^m` of them; they correspond one to one to the residue
classes modulo `f`, which form a field; every operator returns, without raising, the value of the class of the result;
`==` is equality and `!=` its negation; the constructors land in `E`. -/
theorem C12_extension_field (f : List (Zp p)) (hf : Canon f) (hirr : Irreducible (toPoly f)) :
    IsField (AdjoinRoot (toPoly f)) ∧
    Nat.card {L : List (Zp p) // Canon L ∧ degree L < degree f} = p ^ (toPoly f).natDegree ∧
    ∃ e : {L : List (Zp p) // Canon L ∧ degree L < degree f} ≃ AdjoinRoot (toPoly f),
      (∀ a, e a = AdjoinRoot.mk (toPoly f) (toPoly a.1)) ∧
      (∀ a b, fqAdd f a.1 b.1 = .ok (e.symm (e a + e b)).1 ∧ fqSub f a.1 b.1 = .ok (e.symm (e a - e b)).1 ∧
        fqMul f a.1 b.1 = .ok (e.symm (e a * e b)).1 ∧ fqNeg f a.1 = .ok (e.symm (-e a)).1 ∧
        (fqEq a.1 b.1 = true ↔ a = b) ∧ fqNe a.1 b.1 = !fqEq a.1 b.1) ∧
      (∀ g, Canon g → ofPoly f g = .ok (e.symm (AdjoinRoot.mk _ (toPoly g))).1) ∧
      (∀ L, ofList f L = .ok (e.symm (AdjoinRoot.mk _ (toPoly L))).1) ∧
      (∀ c, ofElt c = (e.symm (AdjoinRoot.mk _ (C c))).1) := by
  have : IsModulus f := ⟨hf, hirr⟩
  have : Fact (Irreducible (toPoly f)) := ⟨hirr⟩
  have hE : ∀ L : List (Zp p), (Canon L ∧ degree L < degree f) ↔ (Canon L ∧ L.length < f.length) := by
    intro L; simp only [degree, pabs]; constructor <;> rintro ⟨a, b⟩ <;> exact ⟨a, by omega⟩
  let e0 : {L : List (Zp p) // Canon L ∧ degree L < degree f} ≃ Fq f := Equiv.subtypeEquivRight hE
  let e := e0.trans (Fq.equiv (f := f)).toEquiv
  have hsymm : ∀ (x : Fq f), (e.symm x.val).1 = x.1 := by
    intro x
    have : e.symm x.val = e0.symm x := by
      apply e.injective
      rw [Equiv.apply_symm_apply]
      show x.val = (e0 (e0.symm x)).val
      rw [Equiv.apply_symm_apply]
    rw [this]; rfl
  refine ⟨Field.toIsField _, ?_, e, fun a => rfl, ?_, ?_, ?_, ?_⟩
  · rw [Nat.card_congr e0, Fq.card_eq, card_zp]
  · intro a b
    have ea : e a = (e0 a).val := rfl
    have eb : e b = (e0 b).val := rfl
    refine ⟨?_, ?_, ?_, ?_, ?_, rfl⟩
    · rw [ea, eb, ← Fq.val_add, hsymm]; exact Fq.fqAdd_eq (e0 a) (e0 b)
    · rw [ea, eb, ← Fq.val_sub, hsymm]; exact Fq.fqSub_eq (e0 a) (e0 b)
    · rw [ea, eb, ← Fq.val_mul, hsymm]; exact Fq.fqMul_eq (e0 a) (e0 b)
    · rw [ea, ← Fq.val_neg, hsymm]; exact Fq.fqNeg_eq (e0 a)
    · rw [fqEq, eq_iff]; exact ⟨Subtype.ext, congrArg _⟩
  · intro g hg
    rw [← Fq.mk_val g hg, hsymm]; exact (mod_eq_red f hg).1
  · intro L
    rw [← toPoly_ctor L, ← Fq.mk_val (ctor L) (canon_ctor L), hsymm]
    exact (mod_eq_red f (canon_ctor L)).1
  · intro c
    have : AdjoinRoot.mk (toPoly f) (C c) = (Fq.ofK c : Fq f).val := (Fq.val_ofK c).symm
    rw [this, hsymm]; rfl

/-- x² + 1 over Z/3: a concrete irreducible modulus. -/
theorem irr_three :
    Canon ([1, 0, 1] : List (Zp 3)) ∧ Irreducible (toPoly ([1, 0, 1] : List (Zp 3))) := by
  have hc : Canon ([1, 0, 1] : List (Zp 3)) := by intro a h; simp at h; subst h; decide +kernel
  refine ⟨hc, ?_⟩
  obtain ⟨b, h1, h2⟩ := isIrreducible_spec hc (by rw [natDegree_toPoly hc]; simp)
  rw [card_zp] at h1
  have : isIrreducible 3 ([1, 0, 1] : List (Zp 3)) = .ok true := by decide +kernel
  rw [this] at h1
  injection h1 with h1
  exact h2.1 h1.symm

example :
    fqMul ([1, 0, 1] : List (Zp 3)) [1, 1] [1, 2] = .ok [2] ∧ fqAdd ([1, 0, 1] : List (Zp 3)) [1, 1] [1, 2] = .ok [2] ∧
    ofList ([1, 0, 1] : List (Zp 3)) [0, 0, 1] = .ok [2] := by decide +kernel

/-- **C13**. `inverse()` of a nonzero element terminates without raising and multiplies to 1; `inverse()` of 0 raises
`ZeroDivisionError`. -/
theorem C13_inverse (f : List (Zp p)) (hf : Canon f) (hirr : Irreducible (toPoly f)) (a : List (Zp p)) (ha : Canon a)
    (hd : degree a < degree f) :
    (a ≠ [] → ∃ b, fqInverse f a = .ok b ∧ Canon b ∧ degree b < degree f ∧ fqMul f a b = .ok (ofElt 1) ∧
      fqTruediv f (ofElt 1) a = .ok b) ∧
    (a = [] → fqInverse f a = .error .zeroDivision) := by
  have : IsModulus f := ⟨hf, hirr⟩
  have hlen : a.length < f.length := by unfold degree pabs at hd; omega
  let A : Fq f := ⟨a, ha, hlen⟩
  have h00 : (0 : Fq f).1 = [] := (toPoly_eq_zero (canon_ctor _)).1 (by rw [toPoly_ctor]; simp [toPoly_cons, toPoly_nil])
  constructor
  · intro h0
    have hA : A ≠ 0 := fun h => h0 (by have := congrArg Subtype.val h; rw [h00] at this; exact this)
    obtain ⟨h1, h2⟩ := Fq.fqInverse_eq A hA
    refine ⟨_, h1, A⁻¹.2.1, ?_, ?_, ?_⟩
    · have := A⁻¹.2.2; unfold degree pabs; omega
    · exact (Fq.fqMul_eq A A⁻¹).trans (by rw [h2]; rfl)
    · have h1' : fqInverse f a = .ok (A⁻¹).1 := h1
      simp only [fqTruediv, h1', bind, Except.bind]
      have := Fq.fqMul_eq (1 : Fq f) A⁻¹
      rw [one_mul] at this
      exact this
  · intro h
    subst h
    have := Fq.fqInverse_zero (f := f)
    rwa [h00] at this

example :
    fqInverse ([1, 0, 1] : List (Zp 3)) [1, 1] = .ok [2, 1] ∧ fqInverse ([1, 0, 1] : List (Zp 3)) [] = .error .zeroDivision := by
  decide +kernel

/-- **C06** in F_{p^m}: the recursive `**` computes the n-fold product of the class, for every `n ≥ 0`; the recursion
depth `n + 1` allowed here is never exhausted. -/
theorem C06_pow_extension (f : List (Zp p)) (hf : Canon f) (hirr : Irreducible (toPoly f)) (a : List (Zp p)) (ha : Canon a)
    (hd : degree a < degree f) (n : Nat) : ∃ r, (∀ fuel, n < fuel → fqPow f a fuel n = .ok r) ∧ Canon r ∧
      degree r < degree f ∧ AdjoinRoot.mk (toPoly f) (toPoly r) = AdjoinRoot.mk (toPoly f) (toPoly a) ^ n := by
  have : IsModulus f := ⟨hf, hirr⟩
  have hlen : a.length < f.length := by unfold degree pabs at hd; omega
  let A : Fq f := ⟨a, ha, hlen⟩
  refine ⟨(A ^ n).1, fun fuel h => Fq.fqPow_spec A fuel n h, (A ^ n).2.1, ?_, ?_⟩
  · have := (A ^ n).2.2; unfold degree pabs; omega
  · have := map_pow (Fq.equiv (f := f)) A n
    exact this

/-- **C06** in F_{p^m}, negative exponents: no depth of recursion is enough. -/
theorem C06_pow_extension_negative (f a : List (Zp p)) (n : Int) (hn : n < 0) (fuel : Nat) :
    fqPow f a fuel n = .error .diverge := Fq.fqPow_neg a fuel n hn

/-- This meets the hypotheses of `C06_pow_extension`. -/
example :
    fqPow ([1, 0, 1] : List (Zp 3)) [1, 1] 8 7 = .ok [2, 1] := by decide +kernel

/-- **C14**. On polynomials of degree at least 1, `is_irreducible` terminates and returns True exactly for the
irreducible ones. -/
theorem C14_is_irreducible (f : List (Zp p)) (hf : Canon f) (hd : 1 ≤ degree f) :
    ∃ b, isIrreducible p f = .ok b ∧ (b = true ↔ Irreducible (toPoly f)) := by
  have := isIrreducible_spec hf (by rw [natDegree_toPoly hf]; unfold degree pabs at hd; omega)
  rwa [card_zp] at this

example :
    isIrreducible 3 ([1, 0, 1] : List (Zp 3)) = .ok true ∧ isIrreducible 3 ([1, 1, 1] : List (Zp 3)) = .ok false := by
  decide +kernel

/-- **C14**, outside its range: constants, zero included, are all declared irreducible. -/
theorem C14_constants (f : List (Zp p)) (hd : degree f ≤ 0) : isIrreducible p f = .ok true :=
  isIrreducible_const p (by unfold degree pabs at hd; omega)

example : isIrreducible 3 ([2] : List (Zp 3)) = .ok true ∧ isIrreducible 3 ([] : List (Zp 3)) = .ok true :=
  ⟨C14_constants 3 [2] (by decide), C14_constants 3 [] (by decide)⟩

/-- **C15**. With a correct factorisation, for every `f` of degree `m ≥ 1` not an associate of `x`, `is_primitive(f, p, m)`
returns True exactly when `f` is irreducible and the class of `x` generates the multiplicative group modulo `f`. -/
theorem C15_is_primitive (factorint : Nat → List Nat) (hfac : IsFactorint factorint) (m : Nat) (f : List (Zp p))
    (hf : Canon f) (hd : degree f = m) (hm : 1 ≤ m) (hx : ¬ Associated (toPoly f) X) :
    ∃ b, isPrimitive factorint p m f = .ok b ∧ (b = true ↔ Primitive (toPoly f)) := by
  have hnd : (toPoly f).natDegree = m := by rw [natDegree_toPoly hf]; unfold degree pabs at hd; omega
  obtain ⟨b, h1, h2⟩ := isPrimitive_spec hfac hf (by omega)
  rw [card_zp, hnd] at h1
  refine ⟨b, h1, h2.trans ?_⟩
  unfold Primitive
  constructor
  · rintro ⟨a, b⟩; exact ⟨a, (rootGenerates_iff a hx).2 b⟩
  · rintro ⟨a, b⟩; exact ⟨a, (rootGenerates_iff a hx).1 b⟩

example :
    isPrimitive (fun _ => [2]) 3 2 ([2, 1, 1] : List (Zp 3)) = .ok true ∧
    isPrimitive (fun _ => [2]) 3 2 ([1, 0, 1] : List (Zp 3)) = .ok false := by decide +kernel

/-- A correct factorisation exists. -/
example : IsFactorint (fun n => n.primeFactorsList) := fun n q h => by simp [Nat.mem_primeFactorsList h.ne']

/-- **C15**, the exception. For `f = c·x` the answer is True, and `f` is not primitive (its root is 0). -/
theorem C15_is_primitive_x (factorint : Nat → List Nat) (hfac : IsFactorint factorint) (f : List (Zp p))
    (hf : Canon f) (hx : Associated (toPoly f) X) :
    isPrimitive factorint p 1 f = .ok true ∧ ¬ Primitive (toPoly f) := by
  have hirr : Irreducible (toPoly f) := hx.symm.irreducible Polynomial.irreducible_X
  have hnd : (toPoly f).natDegree = 1 := by
    rw [Polynomial.natDegree_eq_of_degree_eq (Polynomial.degree_eq_degree_of_associated hx)]; simp
  have hroot : AdjoinRoot.root (toPoly f) = 0 := by
    by_contra h; exact (root_ne_zero_iff hirr).1 h hx
  have : Fact (Irreducible (toPoly f)) := ⟨hirr⟩
  constructor
  · obtain ⟨b, h1, h2⟩ := isPrimitive_spec hfac hf (by omega)
    rw [card_zp, hnd] at h1
    rw [h1, h2.2]
    refine ⟨hirr, fun q hq hqN => ?_⟩
    rw [card_zp, hnd, pow_one] at hqN ⊢
    rw [hroot, zero_pow]
    · exact zero_ne_one
    · have hpos : 0 < p - 1 := by have := hp.out.one_lt; omega
      exact (Nat.div_pos (Nat.le_of_dvd hpos hqN) hq.pos).ne'
  · rintro ⟨-, u, hu, -⟩
    rw [hroot] at hu
    exact u.ne_zero hu

example :
    isPrimitive (fun _ => [2]) 3 1 ([0, 2] : List (Zp 3)) = .ok true := by decide +kernel

/-- **C16**. `generate_irreducible_polynomial(p, m)`, `m ≥ 1`: whatever the random source draws, the result is monic,
irreducible and of degree `m`. -/
theorem C16_generate_irreducible (m : Nat) (hm : 1 ≤ m) (draws : Nat → List (Zp p)) (hdr : ∀ i, (draws i).length = m)
    (fuel : Nat) (g : List (Zp p)) (h : generateIrreducible p draws fuel = .ok g) :
    Canon g ∧ degree g = m ∧ (toPoly g).Monic ∧ Irreducible (toPoly g) := by
  simp only [generateIrreducible, bind, Except.bind] at h
  split at h
  · cases h
  · rename_i r hr
    injection h with h
    subst h
    obtain ⟨k, h1, h2⟩ := genIrr_sound p draws fuel 0 r.1 r.2 hr
    obtain ⟨c1, c2, c3⟩ := monic_draw (draws k)
    rw [← h1] at c1 c2 c3
    rw [hdr] at c3
    have hdeg : degree r.1 = m := by
      have := natDegree_toPoly c1; rw [c3] at this; unfold degree pabs; omega
    obtain ⟨b, b1, b2⟩ := C14_is_irreducible p r.1 c1 (by omega)
    rw [h2] at b1
    injection b1 with b1
    exact ⟨c1, hdeg, c2, b2.1 b1.symm⟩

/-- **C16** (`is_monic`). The test answers for every non-zero polynomial whether it is monic; on zero it raises `IndexError`. -/
theorem C16_is_monic (f : List (Zp p)) (hf : Canon f) :
    (f ≠ [] → ∃ b, isMonic f = .ok b ∧ (b = true ↔ (toPoly f).Monic)) ∧ isMonic ([] : List (Zp p)) = .error .indexError := by
  refine ⟨fun h0 => ?_, rfl⟩
  obtain ⟨a, h1, h2, h3⟩ := leadingCoefficient_spec hf h0
  refine ⟨decide (a = 1), by simp [isMonic, h1, bind, Except.bind], ?_⟩
  rw [decide_eq_true_eq, Polynomial.Monic, Polynomial.leadingCoeff, natDegree_toPoly hf, h3]

/-- `1 + x` is monic, `1 + 2x` is not. -/
example : isMonic ([1, 1] : List (Zp 3)) = .ok true ∧ isMonic ([1, 2] : List (Zp 3)) = .ok false := by decide +kernel

/-- **C16**. It returns the first irreducible candidate of the stream, however long that takes, and keeps drawing for ever
when there is none. -/
theorem C16_generate_irreducible_returns (m : Nat) (hm : 1 ≤ m) (draws : Nat → List (Zp p)) (hdr : ∀ i, (draws i).length = m) :
    (∀ n, Irreducible (toPoly (draws n ++ [1])) → (∀ k < n, ¬ Irreducible (toPoly (draws k ++ [1]))) →
      ∀ fuel, n < fuel → generateIrreducible p draws fuel = .ok (draws n ++ [1])) ∧
    ((∀ n, ¬ Irreducible (toPoly (draws n ++ [1]))) → ∀ fuel, generateIrreducible p draws fuel = .error .diverge) := by
  have key : ∀ k, ∃ b, isIrreducible p (ctor (draws k ++ [1])) = .ok b ∧ (b = true ↔ Irreducible (toPoly (draws k ++ [1]))) := by
    intro k
    obtain ⟨c1, -, c3⟩ := monic_draw (draws k)
    obtain ⟨b, b1, b2⟩ := C14_is_irreducible p (ctor (draws k ++ [1])) c1 (by
      have := natDegree_toPoly c1; rw [c3, hdr] at this; unfold degree pabs; omega)
    rw [toPoly_ctor] at b2
    exact ⟨b, b1, b2⟩
  have kt : ∀ k, Irreducible (toPoly (draws k ++ [1])) → isIrreducible p (ctor (draws k ++ [1])) = .ok true := by
    intro k h; obtain ⟨b, b1, b2⟩ := key k; rw [b1, b2.2 h]
  have kf : ∀ k, ¬ Irreducible (toPoly (draws k ++ [1])) → isIrreducible p (ctor (draws k ++ [1])) = .ok false := by
    intro k h; obtain ⟨b, b1, b2⟩ := key k
    cases b with
    | false => exact b1
    | true => exact absurd (b2.1 rfl) h
  constructor
  · intro n hn hbef fuel hfuel
    have := genIrr_complete p draws n n 0 fuel (by omega) hfuel (fun k _ hk => kf k (hbef k hk)) (kt n hn)
    have hc : Canon (draws n ++ [1]) := fun a h => by simp at h; simp [← h]
    rw [ctor_of_canon hc] at this
    simp [generateIrreducible, this, bind, Except.bind]
  · intro h fuel
    simp [generateIrreducible, genIrr_none p draws (fun k => kf k (h k)) fuel 0, bind, Except.bind]

/-- This meets the hypotheses of `C16_generate_irreducible`. -/
example :
    generateIrreducible 3 (fun i => if i = 0 then [0, 0] else ([1, 0] : List (Zp 3))) 5 = .ok [1, 0, 1] := by decide +kernel

/-- **C16**, primitive polynomials, for degree `m ≥ 2`.  MISSING: degree 1, where `x` itself can be returned
(`C16_generate_primitive_refuted`). -/
theorem C16_generate_primitive_partial (factorint : Nat → List Nat) (hfac : IsFactorint factorint) (m : Nat) (hm : 2 ≤ m)
    (draws : Nat → List (Zp p)) (hdr : ∀ i, (draws i).length = m) (inner fuel : Nat) (g : List (Zp p))
    (h : generatePrimitive factorint p m draws inner fuel = .ok g) :
    Canon g ∧ degree g = m ∧ (toPoly g).Monic ∧ Primitive (toPoly g) := by
  obtain ⟨k, h1, h2⟩ := genPrim_sound factorint p m draws inner fuel 0 g h
  obtain ⟨c1, c2, c3⟩ := monic_draw (draws k)
  rw [← h1] at c1 c2 c3
  rw [hdr] at c3
  have hdeg : degree g = m := by
    have := natDegree_toPoly c1; rw [c3] at this; unfold degree pabs; omega
  have hx : ¬ Associated (toPoly g) X := by
    intro h
    have := Polynomial.natDegree_eq_of_degree_eq (Polynomial.degree_eq_degree_of_associated h)
    rw [c3, Polynomial.natDegree_X] at this
    omega
  obtain ⟨b, b1, b2⟩ := C15_is_primitive p factorint hfac m g c1 hdeg (by omega) hx
  rw [h2] at b1
  injection b1 with b1
  exact ⟨c1, hdeg, c2, b2.1 b1.symm⟩

example :
    generatePrimitive (fun _ => [2]) 3 2 (fun i => if i = 0 then [1, 0] else ([2, 1] : List (Zp 3))) 5 5 = .ok [2, 1, 1] := by
  decide +kernel

/-- **C16** fails at degree 1: a first draw of 0 makes `generate_primitive_polynomial(p, 1)` return `x`, which is not
primitive, for every prime. -/
theorem C16_generate_primitive_refuted (factorint : Nat → List Nat) (hfac : IsFactorint factorint)
    (draws : Nat → List (Zp p)) (h0 : draws 0 = [0]) (inner fuel : Nat) :
    generatePrimitive factorint p 1 draws (inner + 1) (fuel + 1) = .ok [0, 1] ∧ ¬ Primitive (toPoly ([0, 1] : List (Zp p))) := by
  have hX : toPoly ([0, 1] : List (Zp p)) = X := by simp [toPoly_cons, toPoly_nil]
  have hc : Canon ([0, 1] : List (Zp p)) := fun a h => by simp at h; simp [← h]
  have h := C15_is_primitive_x p factorint hfac [0, 1] hc (by rw [hX])
  refine ⟨?_, h.2⟩
  have h1 : isIrreducible p ([0, 1] : List (Zp p)) = .ok true := by simp [isIrreducible, degree, pabs, irrLoop]
  simp [generatePrimitive, genPrim, genIrr, h0, ctor_of_canon hc, h1, h.1, bind, Except.bind]

example :
    generatePrimitive (fun _ => [2]) 3 1 (fun _ => ([0] : List (Zp 3))) 5 5 = .ok [0, 1] := by decide +kernel

/-- **C12**, construction. For `m ≥ 2` a given modulus of degree `m` is accepted exactly when it is irreducible
(`ValueError` otherwise), and whatever the random source does, a class built without a modulus rests on a monic
irreducible polynomial of degree `m`; so in both cases `C12_extension_field` applies with `p^m` elements. -/
theorem C12_construction (factorint : Nat → List Nat) (hfac : IsFactorint factorint) (m : Nat) (hm : 2 ≤ m)
    (draws : Nat → List (Zp p)) (hdr : ∀ i, (draws i).length = m) (inner fuel : Nat) :
    (∀ f, Canon f → degree f = m → Irreducible (toPoly f) →
      finiteField factorint p m (some f) draws inner fuel = .ok (.ext f)) ∧
    (∀ f, Canon f → degree f = m → ¬ Irreducible (toPoly f) →
      finiteField factorint p m (some f) draws inner fuel = .error .valueError) ∧
    (∀ c, finiteField factorint p m none draws inner fuel = .ok c →
      ∃ f, c = .ext f ∧ Canon f ∧ degree f = m ∧ (toPoly f).Monic ∧ Irreducible (toPoly f)) := by
  have hm1 : m ≠ 1 := by omega
  refine ⟨fun f hf hd hi => ?_, fun f hf hd hi => ?_, fun c hc => ?_⟩
  · obtain ⟨b, b1, b2⟩ := C14_is_irreducible p f hf (by omega)
    rw [b2.2 hi] at b1
    simp [finiteField, b1, hm1, bind, Except.bind]
  · obtain ⟨b, b1, b2⟩ := C14_is_irreducible p f hf (by omega)
    cases b with
    | true => exact absurd (b2.1 rfl) hi
    | false => simp [finiteField, b1, bind, Except.bind]
  · simp only [finiteField, bind, Except.bind, if_true, hm1, if_false] at hc
    split at hc
    · cases hc
    · rename_i f hf
      injection hc with hc
      obtain ⟨a, b, c', d⟩ := C16_generate_primitive_partial p factorint hfac m hm draws hdr inner fuel f hf
      exact ⟨f, hc.symm, a, b, c', d.1⟩

example :
    finiteField (fun _ => [2]) 3 2 (some ([1, 0, 1] : List (Zp 3))) (fun _ => [0, 0]) 0 0 = .ok (.ext [1, 0, 1]) ∧
    finiteField (fun _ => [2]) 3 2 (some ([1, 1, 1] : List (Zp 3))) (fun _ => [0, 0]) 0 0 = .error .valueError := by
  decide +kernel

end

end Verif.Props
