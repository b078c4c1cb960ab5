import Verif.Proofs.FloatingPoint
import Verif.Props.BinaryField
/-!
# C57, C77, C78: floating-point values

`IsFloat f x` says that the significand and exponent of `x` are elements of the field with modulus `f`; `encoded`
(Props/BinaryField) is the integer whose binary digits are the coefficients of an element.
-/

namespace Verif.Props
open Poly FF Spec
open Verif.Float (Fp IsFloat Nested mkFp fix num tp)
open scoped Polynomial
open Polynomial (C X)

theorem modulus_of {f : List (Zp 2)} (hf : Canon f) (hirr : Irreducible (toPoly f)) : IsModulus f := ⟨hf, hirr⟩

theorem floatLift {K : Type _} [Field K] [DecidableEq K] {f : List K} {x : Fp K} (h : IsFloat f x) :
    ∃ v p : Fq f, x = mkFp f v p x.z x.s := ⟨⟨x.v, h.1⟩, ⟨x.p, h.2⟩, rfl⟩

theorem ctor_zero_nil {K : Type _} [Field K] [DecidableEq K] : ctor [(0 : K)] = [] :=
  toPoly_inj (canon_ctor _) (by intro a h; simp at h) (by rw [toPoly_ctor, toPoly_cons, toPoly_nil]; simp)

theorem isFloat_mkFp {K : Type _} [Field K] [DecidableEq K] (f : List K) (v p : Fq f) (z s : Nat) : IsFloat f (mkFp f v p z s) :=
  ⟨v.2, p.2⟩

section
variable {K : Type _} [Field K] [DecidableEq K]

omit [Field K] in
/-- **C57** (equality), the true half. Values with equal components compare equal, and so do two zeros; values that compare
unequal differ in a component. Missing: values that compare equal agree or are both zero, which is false
(`C57_equality_refuted`). -/
theorem C57_equality_partial (x y : Fp K) :
    (x = y → Float.eq x y = true) ∧ (x.z = 1 → y.z = 1 → Float.eq x y = true) ∧ (Float.eq x y = false → x ≠ y) := by
  refine ⟨?_, fun h1 h2 => by simp [Float.eq, h1, h2], ?_⟩
  · rintro rfl; simp [Float.eq]
  · rintro h rfl; simp [Float.eq] at h

/-- **C57** (equality) fails. `x == y` depends on the zero flags only, so in every field there are two non-zero values,
1 and −2, that differ in exponent and sign and compare equal. -/
theorem C57_equality_refuted :
    (∀ x y : Fp K, Float.eq x y = true ↔ x.z = y.z) ∧
    (∀ f : List K, IsModulus f → ∃ x y, IsFloat f x ∧ IsFloat f y ∧ x.z = 0 ∧ y.z = 0 ∧ x.p ≠ y.p ∧ x.s ≠ y.s ∧
      Float.eq x y = true) := by
  have h : ∀ x y : Fp K, Float.eq x y = true ↔ x.z = y.z := by
    intro x y
    simp only [Float.eq, Bool.or_eq_true, Bool.and_eq_true, beq_iff_eq]
    tauto
  refine ⟨h, fun f hf => ⟨mkFp f 1 0 0 0, mkFp f 1 1 0 1, isFloat_mkFp .., isFloat_mkFp .., rfl, rfl, ?_, by simp [mkFp],
    (h _ _).mpr rfl⟩⟩
  intro h
  exact zero_ne_one (α := Fq f) (Subtype.ext h)

/-- **C57** (zero). A zero on the left or on the right of `+` gives back the other operand, component by component; a
product with a zero factor (flags being 0 or 1) is a zero, with zero significand and exponent. -/
theorem C57_zero (f : List K) [IsModulus f] (m : Nat) (x y : Fp K) :
    (x.z = 1 → Float.add f m x y = .ok y) ∧ (y.z = 1 → x.z ≠ 1 → Float.add f m x y = .ok x) ∧
    (x.z ≤ 1 → y.z ≤ 1 → x.z = 1 ∨ y.z = 1 →
      ∃ r, Float.mul f m x y = .ok r ∧ r.z = 1 ∧ r.v = [] ∧ r.p = [] ∧ r.s = x.s ^^^ y.s) := by
  refine ⟨fun h => by simp [Float.add, h], fun h h' => by simp [Float.add, h, h'], fun hx hy h => ?_⟩
  have hz : x.z ||| y.z = 1 := by
    rcases h with h | h
    · have : y.z = 0 ∨ y.z = 1 := by omega
      rcases this with h' | h' <;> simp [h, h']
    · have : x.z = 0 ∨ x.z = 1 := by omega
      rcases this with h' | h' <;> simp [h, h']
  have e0 : (0 : Fq f).1 = [] := ctor_zero_nil
  refine ⟨⟨[], [], 1, x.s ^^^ y.s⟩, ?_, rfl, rfl, rfl, rfl⟩
  simp only [Float.mul, hz, if_true, Float.const_zero, bind, Except.bind, e0]

/-- **C57** (division by zero). Dividing by a value whose zero flag is set, or whose significand is zero, raises
`ZeroDivisionError`; dividing by any other value returns. -/
theorem C57_division_by_zero (f : List K) [IsModulus f] (m : Nat) (x y : Fp K) (hx : IsFloat f x) (hy : IsFloat f y) :
    (y.z = 1 ∨ y.v = [] → Float.truediv f m x y = .error .zeroDivision) ∧
    (y.z ≠ 1 → y.v ≠ [] → ∃ r, Float.truediv f m x y = .ok r ∧ IsFloat f r ∧ r.z = x.z ||| y.z ∧ r.s = x.s ^^^ y.s) := by
  have e0 : (0 : Fq f).1 = [] := ctor_zero_nil
  constructor
  · intro h
    by_cases hz : y.z = 1
    · simp [Float.truediv, hz]
    · have hv : y.v = [] := by tauto
      have : fqEq ([] : List K) [] = true := Poly.eq_iff.mpr rfl
      simp [Float.truediv, hz, hv, Float.const_zero, bind, Except.bind, e0, this]
  · intro hz hv
    obtain ⟨v, p, hx'⟩ := floatLift hx
    obtain ⟨v', p', hy'⟩ := floatLift hy
    have hv0 : v' ≠ 0 := by
      rintro rfl
      exact hv (by rw [hy']; exact e0)
    rw [hx', hy', Float.truediv_ok f m v p v' p' x.z x.s y.z y.s hz hv0]
    refine ⟨_, rfl, ?_, ?_, ?_⟩
    · split <;> exact isFloat_mkFp ..
    · split <;> rfl
    · split <;> rfl

/-- **C57** (subtraction) fails, for every right operand: `x - y` stores the opposite sign bit in `y`, whether or not it
returns, so `y` is never left unchanged. What it returns is `x + y` computed with the flipped sign. -/
theorem C57_subtraction_refuted (f : List K) (m : Nat) (x y : Fp K) :
    let r := Float.sub f m x y
    r.2 ≠ y ∧ r.2 = { y with s := y.s ^^^ 1 } ∧ r.1 = Float.add f m x { y with s := y.s ^^^ 1 } := by
  refine ⟨fun h => ?_, rfl, rfl⟩
  have := congrArg Fp.s h
  simp only [Float.sub] at this
  have h1 : y.s ^^^ 1 ^^^ y.s = 0 := by rw [this]; exact Nat.xor_self _
  rw [Nat.xor_comm, ← Nat.xor_assoc, Nat.xor_self, Nat.zero_xor] at h1
  omega

/-- **C57** (subtraction), the true part. After two subtractions of the same object it is back to its first state, and
significand, exponent and zero flag never change. -/
theorem C57_subtraction_partial (f : List K) (m : Nat) (x x' y : Fp K) :
    let y' := (Float.sub f m x y).2
    y'.v = y.v ∧ y'.p = y.p ∧ y'.z = y.z ∧ (Float.sub f m x' y').2 = y := by
  refine ⟨rfl, rfl, rfl, ?_⟩
  simp only [Float.sub]
  rw [Nat.xor_assoc, Nat.xor_self, Nat.xor_zero]

end

/-- **C57** (multiplication), exactly when it commutes. In a binary field of degree `m` the two products always agree in
significand, zero flag and sign; they are equal exactly when one factor is zero, or the significands have the same degree,
or twice both degrees is at most `m - 1`. Missing: the remaining pairs, where it is false (`C57_mul_comm_refuted`). -/
theorem C57_mul_comm_partial (f : List (Zp 2)) (hf : Canon f) (hirr : Irreducible (toPoly f)) (m : Nat)
    (hm : degree f = m) (x y : Fp (Zp 2)) (hx : IsFloat f x) (hy : IsFloat f y) :
    ∃ r r', Float.mul f m x y = .ok r ∧ Float.mul f m y x = .ok r' ∧ r.v = r'.v ∧ r.z = r'.z ∧ r.s = r'.s ∧
      (r = r' ↔ (x.z ||| y.z = 1 ∨ degree x.v = degree y.v ∨
        (2 * degree x.v ≤ m - 1 ∧ 2 * degree y.v ≤ m - 1))) := by
  have := modulus_of hf hirr
  obtain ⟨v, p, hx'⟩ := floatLift hx
  obtain ⟨v', p', hy'⟩ := floatLift hy
  have ev : x.v = v.1 := by rw [hx']; rfl
  have ev' : y.v = v'.1 := by rw [hy']; rfl
  rw [ev, ev', hx', hy', Float.mul_eq, Float.mul_eq]
  have zc : y.z ||| x.z = x.z ||| y.z := Nat.or_comm ..
  have sc : y.s ^^^ x.s = x.s ^^^ y.s := Nat.xor_comm ..
  simp only [show (mkFp f v p x.z x.s).z = x.z from rfl, show (mkFp f v' p' y.z y.s).z = y.z from rfl]
  rw [zc, sc]
  have hm' : f.length - 1 = m := by unfold degree pabs at hm; omega
  have dv : degree v.1 ≤ m - 1 := by have := v.2.2; unfold degree pabs at hm ⊢; omega
  have dv' : degree v'.1 ≤ m - 1 := by have := v'.2.2; unfold degree pabs at hm ⊢; omega
  have hm2 : m < 2 ^ (f.length - 1) := by rw [hm']; exact Nat.lt_two_pow_self
  by_cases hz : x.z ||| y.z = 1
  · refine ⟨_, _, rfl, rfl, ?_, ?_, ?_, ?_⟩ <;> simp [hz]
  · refine ⟨_, _, rfl, rfl, ?_, ?_, ?_, ?_⟩
    · rw [if_neg hz, if_neg hz, mul_comm v v']; rfl
    · rw [if_neg hz, if_neg hz]; rfl
    · rw [if_neg hz, if_neg hz]; rfl
    · rw [if_neg hz, if_neg hz, mul_comm v' v, add_comm p' p]
      have e : (mkFp f (v * v') (p + p' + num f (degree v.1 + degree v.1 - (m - 1))) (x.z ||| y.z) (x.s ^^^ y.s) =
          mkFp f (v * v') (p + p' + num f (degree v'.1 + degree v'.1 - (m - 1))) (x.z ||| y.z) (x.s ^^^ y.s)) ↔
          num f (degree v.1 + degree v.1 - (m - 1)) = num f (degree v'.1 + degree v'.1 - (m - 1)) := by
        constructor
        · intro h
          have h1 : p + p' + num f (degree v.1 + degree v.1 - (m - 1)) = p + p' + num f (degree v'.1 + degree v'.1 - (m - 1)) :=
            Subtype.ext (congrArg Fp.p h)
          exact add_left_cancel h1
        · intro h; rw [h]
      rw [e, Float.num_inj zp_two f _ _ (by omega) (by omega)]
      constructor
      · intro h; right; omega
      · intro h; rcases h with h | h | h
        · exact absurd h hz
        · rw [h]
        · omega

/-- **C57** (multiplication) fails in every binary field of degree `m ≥ 2`: `1 · x^(m-1)` and `x^(m-1) · 1`, with equal
exponents and signs, differ in the exponent. -/
theorem C57_mul_comm_refuted (f : List (Zp 2)) (hf : Canon f) (hirr : Irreducible (toPoly f)) (m : Nat)
    (hm : degree f = m) (h2 : 2 ≤ m) :
    ∃ x y : Fp (Zp 2), IsFloat f x ∧ IsFloat f y ∧ Float.mul f m x y ≠ Float.mul f m y x := by
  have hl : f.length = m + 1 := by unfold degree pabs at hm; omega
  have c1 : Canon ([1] : List (Zp 2)) := by intro a h; simp at h; subst h; exact one_ne_zero
  have c2 : Canon (List.replicate (m - 1) (0 : Zp 2) ++ [1]) := by intro a h; simp at h; subst h; exact one_ne_zero
  have c0 : Canon ([] : List (Zp 2)) := by intro a h; simp at h
  refine ⟨⟨[1], [], 0, 0⟩, ⟨List.replicate (m - 1) 0 ++ [1], [], 0, 0⟩, ⟨⟨c1, by simp; omega⟩, c0, by simp; omega⟩,
    ⟨⟨c2, by simp; omega⟩, c0, by simp; omega⟩, fun h => ?_⟩
  obtain ⟨r, r', e1, e2, -, -, -, e3⟩ := C57_mul_comm_partial f hf hirr m hm ⟨[1], [], 0, 0⟩
    ⟨List.replicate (m - 1) 0 ++ [1], [], 0, 0⟩ ⟨⟨c1, by simp; omega⟩, c0, by simp; omega⟩
    ⟨⟨c2, by simp; omega⟩, c0, by simp; omega⟩
  rw [e1, e2] at h
  injection h with h
  have := e3.mp h
  simp [degree, pabs] at this
  omega

/-- **C77** (exponentiation). In a binary field of degree `m`, `x ** y` never loops forever: after at most `2^m` rounds it
has multiplied 1 by `x` as many times as the integer that the fixed-point value of `y` encodes, and it returns that
product, or 1 divided by it when the sign bit of `y` is set. The significand of the product is the power of the
significand of `x`. -/
theorem C77_exponentiation (f : List (Zp 2)) (hf : Canon f) (hirr : Irreducible (toPoly f)) (m : Nat)
    (x y : Fp (Zp 2)) (hx : IsFloat f x) (hy : IsFloat f y) :
    ∃ (fixed : List (Zp 2)) (sg : Nat) (one r : Fp (Zp 2)), Float.floatToFix f y = .ok (fixed, sg) ∧
      encoded fixed < 2 ^ (toPoly f).natDegree ∧ one = ⟨[1], [], 0, 0⟩ ∧
      (List.range (encoded fixed)).foldlM (fun out _ => Float.mul f m out x) one = .ok r ∧
      (x.z ≠ 1 → AdjoinRoot.mk (toPoly f) (toPoly r.v) = AdjoinRoot.mk (toPoly f) (toPoly x.v) ^ encoded fixed) ∧
      ∀ fuel, 2 ^ (toPoly f).natDegree ≤ fuel →
        Float.pow f m fuel x y = if y.s = 1 then Float.truediv f m one r else .ok r := by
  have := modulus_of hf hirr
  obtain ⟨v, p, hx'⟩ := floatLift hx
  obtain ⟨v', p', hy'⟩ := floatLift hy
  have hfix : Float.floatToFix f y = .ok ((fix f v' p' y.z).1, if y.z = 1 then 0 else y.s) := by
    conv_lhs => rw [hy']
    exact Float.floatToFix_eq f v' p' y.z y.s
  have e1 : (1 : Fq f).1 = [1] := by
    show ctor [(1 : Zp 2)] = [1]
    exact ctor_of_canon (by intro a h; simp at h; subst h; exact one_ne_zero)
  have e0 : (0 : Fq f).1 = [] := ctor_zero_nil
  have hbound : encoded (fix f v' p' y.z).1 < 2 ^ (toPoly f).natDegree := by
    rw [natDegree_toPoly hf]
    refine lt_of_lt_of_le (bitsVal_lt _) (Nat.pow_le_pow_right (by norm_num) ?_)
    have := (fix f v' p' y.z).2.2
    simp only [List.length_map]; omega
  have hone : (⟨[1], [], 0, 0⟩ : Fp (Zp 2)) = Float.powVal f m v p x.z x.s 0 := by
    simp [Float.powVal, mkFp, e1, e0]
  have hfold : ∀ n, (List.range n).foldlM (fun out _ => Float.mul f m out x) (⟨[1], [], 0, 0⟩ : Fp (Zp 2)) =
      .ok (Float.powVal f m v p x.z x.s n) := by
    intro n
    induction n with
    | zero => rw [hone]; rfl
    | succ n ih =>
      rw [List.range_succ, List.foldlM_append, ih]
      have := Float.powVal_step f m v p x.z x.s n
      rw [← hx'] at this
      simp only [List.foldlM_cons, List.foldlM_nil, bind, Except.bind, this]; rfl
  refine ⟨_, _, _, _, hfix, hbound, rfl, hfold _, fun hz => ?_, fun fuel hfu => ?_⟩
  · have : x.v = v.1 := by rw [hx']; rfl
    rw [this]
    show _ = v.val ^ _
    generalize encoded (fix f v' p' y.z).1 = n
    have hpow : ∀ n : Nat, (v ^ n).val = v.val ^ n := by
      intro n
      induction n with
      | zero => rw [pow_zero, pow_zero, Fq.val_one]
      | succ n ih => rw [pow_succ, Fq.val_mul, ih, pow_succ]
    unfold Float.powVal
    by_cases h0 : n = 0
    · subst h0; rw [if_pos rfl, pow_zero]; exact Fq.val_one
    · rw [if_neg h0, if_neg hz]; exact hpow n
  · have hl := Float.powLoop_eq zp_two f m v p x.z x.s (fix f v' p' y.z) fuel 0 (0 : Fq f).1 (0 : Fq f).2.1 rfl (Nat.zero_le _)
      (by have : bitsVal (enc (fix f v' p' y.z).1) = encoded (fix f v' p' y.z).1 := rfl
          omega)
    rw [← hx', ← hone] at hl
    unfold Float.pow
    simp only [hfix, Float.const_zero, Float.oneFp, Float.const_one, bind, Except.bind, e1, e0] at hl ⊢
    rw [hl]
    rfl

/-- **C78** (addition commutes). In a binary field the two sums of non-zero values agree in significand, exponent and zero
flag, and in sign too unless both operands have the same significand and the same exponent (then the sum is zero). -/
theorem C78_add_comm (f : List (Zp 2)) (hf : Canon f) (hirr : Irreducible (toPoly f)) (m : Nat)
    (hm : degree f = m) (x y : Fp (Zp 2)) (hx : IsFloat f x) (hy : IsFloat f y) (hzx : x.z ≠ 1) (hzy : y.z ≠ 1) :
    ∃ r r', Float.add f m x y = .ok r ∧ Float.add f m y x = .ok r' ∧ IsFloat f r ∧ r.v = r'.v ∧ r.p = r'.p ∧ r.z = r'.z ∧
      ((x.v ≠ y.v ∨ x.p ≠ y.p) → r = r') ∧ (x.v = y.v → x.p = y.p → r.v = [] ∧ r.z = 1) := by
  have := modulus_of hf hirr
  obtain ⟨v, p, hx'⟩ := floatLift hx
  obtain ⟨v', p', hy'⟩ := floatLift hy
  have ev : x.v = v.1 := by rw [hx']; rfl
  have ev' : y.v = v'.1 := by rw [hy']; rfl
  have ep : x.p = p.1 := by rw [hx']; rfl
  have ep' : y.p = p'.1 := by rw [hy']; rfl
  have hm2 : m < 2 ^ (f.length - 1) := by
    have : f.length - 1 = m := by unfold degree pabs at hm; omega
    rw [this]; exact Nat.lt_two_pow_self
  have hfl : ∀ a b c d s, IsFloat f (Float.addSorted f m a b c d s) := by
    intro a b c d s; unfold Float.addSorted; split <;> exact isFloat_mkFp ..
  rw [ev, ev', ep, ep', hx', hy', Float.add_eq zp_two f m hm2 _ _ _ _ _ _ _ _ hzx hzy,
    Float.add_eq zp_two f m hm2 _ _ _ _ _ _ _ _ hzy hzx]
  refine ⟨_, _, rfl, rfl, by split <;> exact hfl .., ?_⟩
  by_cases hpp : p = p'
  · subst hpp
    by_cases hvv : v = v'
    · subst hvv
      have hs : v * Float.tp f (p - p) + v = 0 := by
        have : Float.tp f (p - p) = 1 := by
          apply Fq.val_inj
          rw [Float.tp_val, sub_self, Fq.val_one]
          have : (0 : Fq f).1 = [] := ctor_zero_nil
          rw [this]; simp [twoPowExp]
        rw [this, mul_one, ← Float.sub_eq_add zp_two f, sub_self]
      have hd : bitsVal (enc (p - p).1) ≤ m := by
        rw [sub_self]
        have : (0 : Fq f).1 = [] := ctor_zero_nil
        rw [this]; simp [bitsVal]
      simp only [lt_self_iff_false, le_refl, and_self, or_true, if_true, Float.addSorted, hd, hs]
      refine ⟨rfl, rfl, rfl, ?_, fun _ _ => ⟨rfl, rfl⟩⟩
      intro h; simp at h
    · have hne : bitsVal (enc v.1) ≠ bitsVal (enc v'.1) := fun h => hvv (Subtype.ext (Float.enc_inj zp_two v.2.1 v'.2.1 h))
      have hne' : v.1 ≠ v'.1 := fun h => hvv (Subtype.ext h)
      by_cases hle : bitsVal (enc v.1) ≤ bitsVal (enc v'.1)
      · have : ¬ bitsVal (enc v'.1) ≤ bitsVal (enc v.1) := by omega
        simp [hle, this, hne']
      · have : bitsVal (enc v'.1) ≤ bitsVal (enc v.1) := by omega
        simp [hle, this, hne']
  · have hne : bitsVal (enc p.1) ≠ bitsVal (enc p'.1) := fun h => hpp (Subtype.ext (Float.enc_inj zp_two p.2.1 p'.2.1 h))
    have hne' : p.1 ≠ p'.1 := fun h => hpp (Subtype.ext h)
    have hpp' : p' ≠ p := fun h => hpp h.symm
    by_cases hlt : bitsVal (enc p.1) < bitsVal (enc p'.1)
    · have : ¬ bitsVal (enc p'.1) < bitsVal (enc p.1) := by omega
      simp [hlt, this, hne', hpp, hpp']
    · have : bitsVal (enc p'.1) < bitsVal (enc p.1) := by omega
      simp [hlt, this, hne', hpp, hpp']

/-- **C78** (addition and fixed-point values), part. When every binary digit of the smaller exponent is a digit of the larger
one, and the exponents differ by at most `m`, the fixed-point value of `x + y` is the sum, in the field, of the fixed-point
values of `x` and `y`. Missing: exponents with other digits, where it is false (`C78_add_fixed_refuted`). -/
theorem C78_add_fixed_partial (f : List (Zp 2)) (hf : Canon f) (hirr : Irreducible (toPoly f)) (m : Nat)
    (hm : degree f = m) (x y : Fp (Zp 2)) (hx : IsFloat f x) (hy : IsFloat f y) (hzx : x.z ≠ 1) (hzy : y.z ≠ 1)
    (hn : Nested x.p y.p) (hd : encoded y.p - encoded x.p ≤ m) :
    ∃ r a b c sa sb sc, Float.add f m x y = .ok r ∧ Float.floatToFix f x = .ok (a, sa) ∧
      Float.floatToFix f y = .ok (b, sb) ∧ Float.floatToFix f r = .ok (c, sc) ∧ fqAdd f a b = .ok c := by
  have := modulus_of hf hirr
  obtain ⟨v, p, hx'⟩ := floatLift hx
  obtain ⟨v', p', hy'⟩ := floatLift hy
  have ep : x.p = p.1 := by rw [hx']; rfl
  have ep' : y.p = p'.1 := by rw [hy']; rfl
  rw [ep, ep'] at hn hd
  have hm2 : m < 2 ^ (f.length - 1) := by
    have : f.length - 1 = m := by unfold degree pabs at hm; omega
    rw [this]; exact Nat.lt_two_pow_self
  obtain ⟨-, hval⟩ := Float.nested_sub zp_two f p p' hn
  have hdelta : bitsVal (enc (p' - p).1) ≤ m := by
    have e1 : encoded p'.1 = bitsVal (enc p'.1) := rfl
    have e2 : encoded p.1 = bitsVal (enc p.1) := rfl
    omega
  have htp := Float.tp_nested zp_two f p p' hn
  -- the sum, whichever order it was computed in
  have key : ∀ (w w' : Fq f) (s : Nat), p = p' ∨ (w = v ∧ w' = v') → w * Float.tp f p + w' * Float.tp f p' = v * Float.tp f p + v' * Float.tp f p' →
      ∃ c sc, Float.floatToFix f (Float.addSorted f m w p w' p' s) = .ok (c, sc) ∧
        c = (v * Float.tp f p + v' * Float.tp f p').1 := by
    intro w w' s _ hw
    unfold Float.addSorted
    rw [if_pos hdelta, Float.floatToFix_eq]
    refine ⟨_, _, rfl, ?_⟩
    have hsum : (w' * Float.tp f (p' - p) + w) * Float.tp f p = v * Float.tp f p + v' * Float.tp f p' := by
      rw [← hw, ← htp]; ring
    unfold fix
    by_cases h0 : w' * Float.tp f (p' - p) + w = 0
    · rw [if_pos h0, if_pos rfl, ← hsum, h0, zero_mul]
    · rw [if_neg h0, if_neg (by decide), hsum]
  have hfx : Float.floatToFix f x = .ok ((v * Float.tp f p).1, x.s) := by
    conv_lhs => rw [hx']
    rw [Float.floatToFix_eq, fix, if_neg hzx, if_neg hzx]
  have hfy : Float.floatToFix f y = .ok ((v' * Float.tp f p').1, y.s) := by
    conv_lhs => rw [hy']
    rw [Float.floatToFix_eq, fix, if_neg hzy, if_neg hzy]
  have hadd := Float.add_eq zp_two f m hm2 v p v' p' x.z x.s y.z y.s hzx hzy
  rw [← hx', ← hy'] at hadd
  by_cases hpp : p = p'
  · subst hpp
    by_cases hc : bitsVal (enc v.1) ≤ bitsVal (enc v'.1)
    · rw [if_pos (Or.inr ⟨rfl, hc⟩)] at hadd
      obtain ⟨c, sc, h1, h2⟩ := key v v' y.s (Or.inl rfl) rfl
      exact ⟨_, _, _, c, _, _, sc, hadd, hfx, hfy, h1, by rw [Fq.fqAdd_eq, h2]⟩
    · rw [if_neg (by simp [hc])] at hadd
      obtain ⟨c, sc, h1, h2⟩ := key v' v x.s (Or.inl rfl) (by ring)
      exact ⟨_, _, _, c, _, _, sc, hadd, hfx, hfy, h1, by rw [Fq.fqAdd_eq, h2]⟩
  · have hne : bitsVal (enc p.1) ≠ bitsVal (enc p'.1) := fun h => hpp (Subtype.ext (Float.enc_inj zp_two p.2.1 p'.2.1 h))
    rw [if_pos (Or.inl (by omega))] at hadd
    obtain ⟨c, sc, h1, h2⟩ := key v v' y.s (Or.inr ⟨rfl, rfl⟩) rfl
    exact ⟨_, _, _, c, _, _, sc, hadd, hfx, hfy, h1, by rw [Fq.fqAdd_eq, h2]⟩

/-- **C78** (addition and fixed-point values) fails: modulo `x³ + x + 1`, `1 · 2^1 + 1 · 2^2` has the fixed-point value `x²`, while the
sum of the fixed-point values is `x² + x`. -/
theorem C78_add_fixed_refuted :
    let f : List (Zp 2) := [1, 1, 0, 1]
    let x : Fp (Zp 2) := ⟨[1], [1], 0, 0⟩
    let y : Fp (Zp 2) := ⟨[1], [0, 1], 0, 0⟩
    ∃ r a b c d, Float.add f 3 x y = .ok r ∧ Float.floatToFix f x = .ok (a, 0) ∧ Float.floatToFix f y = .ok (b, 0) ∧
      Float.floatToFix f r = .ok (c, 0) ∧ fqAdd f a b = .ok d ∧ c ≠ d :=
  ⟨⟨[0, 1], [1], 0, 0⟩, [0, 1], [0, 0, 1], [0, 0, 1], [0, 1, 1], by decide +kernel⟩

/-- **C78** (multiplication and fixed-point values), part. When the exponents have no binary digit in common and twice the degree of
the left significand is at most `m - 1`, the fixed-point value of `x * y` is the product of the fixed-point values.
Missing: the other cases, where it is false in general (`C78_mul_fixed_refuted`). -/
theorem C78_mul_fixed_partial (f : List (Zp 2)) (hf : Canon f) (hirr : Irreducible (toPoly f)) (m : Nat)
    (x y : Fp (Zp 2)) (hx : IsFloat f x) (hy : IsFloat f y) (hz : x.z = 0 ∧ y.z = 0)
    (hn : Float.Disjoint x.p y.p) (hd : 2 * degree x.v ≤ m - 1) :
    ∃ r a b c sa sb sc, Float.mul f m x y = .ok r ∧ Float.floatToFix f x = .ok (a, sa) ∧
      Float.floatToFix f y = .ok (b, sb) ∧ Float.floatToFix f r = .ok (c, sc) ∧ fqMul f a b = .ok c := by
  have := modulus_of hf hirr
  obtain ⟨v, p, hx'⟩ := floatLift hx
  obtain ⟨v', p', hy'⟩ := floatLift hy
  have ev : x.v = v.1 := by rw [hx']; rfl
  have ep : x.p = p.1 := by rw [hx']; rfl
  have ep' : y.p = p'.1 := by rw [hy']; rfl
  rw [ev] at hd
  rw [ep, ep'] at hn
  have hnum : num f (degree v.1 + degree v.1 - (m - 1)) = 0 := by
    have : (degree v.1 + degree v.1 - (m - 1)).toNat = 0 := by omega
    have e : Float.numToBinaryList (degree v.1 + degree v.1 - (m - 1)) = [] := by
      rw [Float.numToBinaryList, this]; rfl
    apply Fq.val_inj
    unfold num
    rw [Fq.mk_val, toPoly_ctor, e, Fq.val_zero, List.map_nil, toPoly_nil, map_zero]
  have hsum : p + p' = p' - p := by rw [Float.sub_eq_add zp_two f, add_comm]
  have hnest : Nested p.1 (p + p').1 := by
    intro i hi
    have h0 : p'.1.getD i 0 = 0 := by
      rcases zp_two (p'.1.getD i 0) with h | h
      · exact h
      · exact absurd h (hn i hi)
    rw [hsum, Float.sub_coeff, h0, hi]
    decide +kernel
  have htp := Float.tp_nested zp_two f p (p + p') hnest
  rw [add_sub_cancel_left] at htp
  have hmul := Float.mul_eq f m v p v' p' x.z x.s y.z y.s
  rw [← hx', ← hy', hz.1, hz.2, hnum, add_zero] at hmul
  have hfx : Float.floatToFix f x = .ok ((v * Float.tp f p).1, x.s) := by
    conv_lhs => rw [hx']
    rw [Float.floatToFix_eq, fix, if_neg (by omega), if_neg (by omega)]
  have hfy : Float.floatToFix f y = .ok ((v' * Float.tp f p').1, y.s) := by
    conv_lhs => rw [hy']
    rw [Float.floatToFix_eq, fix, if_neg (by omega), if_neg (by omega)]
  refine ⟨_, _, _, _, _, _, _, hmul, hfx, hfy, by rw [if_neg (by simp)]; exact Float.floatToFix_eq .., ?_⟩
  have e : v * tp f p * (v' * tp f p') = fix f (v * v') (p + p') (0 ||| 0) := by
    rw [fix, if_neg (by simp), ← htp]; ring
  rw [Fq.fqMul_eq, e]

/-- **C78** (multiplication and fixed-point values) fails: modulo `x³ + x + 1`, `(1 · 2^1) · (1 · 2^1)` has the fixed-point value 1
(the exponents are added without carry), while the product of the fixed-point values is `x²`. -/
theorem C78_mul_fixed_refuted :
    let f : List (Zp 2) := [1, 1, 0, 1]
    let x : Fp (Zp 2) := ⟨[1], [1], 0, 0⟩
    ∃ r a c d, Float.mul f 3 x x = .ok r ∧ Float.floatToFix f x = .ok (a, 0) ∧
      Float.floatToFix f r = .ok (c, 0) ∧ fqMul f a a = .ok d ∧ c ≠ d :=
  ⟨⟨[1], [], 0, 0⟩, [0, 1], [1], [0, 0, 1], by decide +kernel⟩

/-! Concrete cases, in GF(8) with modulus `x³ + x + 1`. -/

/-- This meets the hypotheses of `C57_mul_comm_partial`, `C57_mul_comm_refuted`, `C77_exponentiation`, `C78_add_comm`, `C78_add_fixed_partial`, `C78_mul_fixed_partial`. -/
example : let f : List (Zp 2) := [1, 1, 0, 1]
    IsFloat f ⟨[1, 0, 1], [1], 0, 1⟩ ∧ IsFloat f ⟨[0, 1], [1, 1], 0, 0⟩ ∧ Nested ([1] : List (Zp 2)) [1, 1] ∧
    Float.Disjoint ([1] : List (Zp 2)) [0, 1] ∧ encoded [1, 1] - encoded [1] ≤ 3 ∧ degree f = (3 : Nat) := by
  refine ⟨⟨⟨?_, by simp⟩, ?_, by simp⟩, ⟨⟨?_, by simp⟩, ?_, by simp⟩, ?_, ?_, by decide +kernel, by decide⟩
  · intro a h; simp at h; subst h; decide +kernel
  · intro a h; simp at h; subst h; decide +kernel
  · intro a h; simp at h; subst h; decide +kernel
  · intro a h; simp at h; subst h; decide +kernel
  · intro i h
    match i with
    | 0 => decide +kernel
    | i + 1 => simp at h
  · intro i h
    match i with
    | 0 => decide +kernel
    | i + 1 => simp at h

/-- This meets the hypotheses of `C57_division_by_zero`. -/
example : let f : List (Zp 2) := [1, 1, 0, 1]
    Float.add f 3 ⟨[1, 0, 1], [1], 0, 1⟩ ⟨[0, 1], [1, 1], 0, 0⟩ = .ok ⟨[0, 1, 1], [1], 0, 0⟩ ∧
    Float.mul f 3 ⟨[1], [], 0, 0⟩ ⟨[0, 0, 1], [], 0, 1⟩ = .ok ⟨[0, 0, 1], [], 0, 1⟩ ∧
    Float.mul f 3 ⟨[0, 0, 1], [], 0, 1⟩ ⟨[1], [], 0, 0⟩ = .ok ⟨[0, 0, 1], [0, 1], 0, 1⟩ ∧
    Float.pow f 3 8 ⟨[0, 1], [1], 0, 1⟩ ⟨[1, 1], [], 0, 0⟩ = .ok ⟨[1, 1], [1, 1], 0, 1⟩ ∧
    Float.pow f 3 8 ⟨[0, 1], [1], 0, 1⟩ ⟨[1, 1], [], 0, 1⟩ = .ok ⟨[0, 1, 1], [1, 1], 0, 1⟩ ∧
    Float.truediv f 3 ⟨[1], [], 0, 0⟩ ⟨[], [], 1, 0⟩ = .error .zeroDivision := by decide +kernel

end Verif.Props
