import Verif.Spec.MixedElements
import Verif.Proofs.Rationals
import Verif.Proofs.Modp
import Verif.Proofs.SmallPrimes
/-!
# C117: operators between integers modulo p, rationals modulo p, ints and byte strings
-/

namespace Verif.Props

open Verif.Mixed

namespace MixedAux

variable {p : Nat} [hp : Fact p.Prime]

theorem mod_yields (a n : Int) (z : ZMod p) (h : (n : ZMod p) = z) :
    Yields p (.mod p a) (.ok (.mod p (Modp.mk p n))) z := by
  have := Modp.mk_range p hp.out.pos n
  exact ⟨_, rfl, rfl, rfl, this.1, this.2, by rw [Modp.mk_cast, h]⟩

theorem asMod_stands {a : Int} {v : Val} {w : ZMod p} (h : Stands p (.mod p a) v w) :
    ∃ n, asMod p v = .ok n ∧ 0 ≤ n ∧ (n : ZMod p) = w ∧ (¬ Overlong p (.mod p a) v → n < p) := by
  have h0 := hp.out.pos
  match v, h with
  | .plain (.int k), h =>
    have := Modp.mk_range p h0 k
    exact ⟨Modp.mk p k, by simp [asMod, castMod, h0.ne'], this.1, by rw [Modp.mk_cast]; exact h.symm, fun _ => this.2⟩
  | .plain (.bytes b), h =>
    refine ⟨fromBytes b, rfl, by omega, ?_, fun ho => ?_⟩
    · simp only [Stands, Elem.isRat] at h
      rw [h]
      simp
    · by_contra hlt
      exact ho ⟨rfl, b, rfl, by omega⟩
  | .elem (.mod q n), ⟨⟨h1, h2, h3, h4⟩, _⟩ =>
    subst h1
    exact ⟨n, by simp [asMod], h2, h4, fun _ => h3⟩
  | .elem (.rat q x), ⟨_, h⟩ => exact absurd (h rfl) (by simp [Elem.isRat])

theorem asRat_stands {x : Rat.Q} {v : Val} {w : ZMod p} (h : Stands p (.rat p x) v w) :
    ∃ y, asRat p v = .ok y ∧ (y.n : ZMod p) ≠ 0 ∧ Rat.val p y = w := by
  have h0 := hp.out.pos
  have key : ∀ k : Int, ∃ y, Rat.mk1 p k = .ok y ∧ (y.n : ZMod p) ≠ 0 ∧ Rat.val p y = k := by
    intro k
    obtain ⟨y, h1, h2, h3⟩ := Rat.mk1_spec (p := p) k
    exact ⟨y, h1, h2.den, h3⟩
  match v, h with
  | .plain (.int k), h =>
    obtain ⟨y, h1, h2, h3⟩ := key k
    exact ⟨y, by simp [asRat, castRat, h0.ne', h1], h2, h3.trans h.symm⟩
  | .plain (.bytes b), h =>
    simp only [Stands, Elem.isRat, if_true] at h
    obtain ⟨hd, rfl⟩ := h
    set A := fromBytes (b.take 32) with hA
    set B := fromBytes (b.drop 32) with hB
    have hB0 : 0 < B := by
      rcases Nat.eq_zero_or_pos B with h | h
      · rw [h] at hd
        simp at hd
      · exact h
    have e := Rat.reduce_spec (A : Int) (B : Int) (by omega) (by omega)
    have hg : ((Int.gcd (A : Int) (B : Int) : Nat) : Int) ≠ 0 := by
      have := Int.gcd_pos_of_ne_zero_right (A : Int) (b := (B : Int)) (by omega)
      omega
    have e1 : (B : Int) / (Int.gcd (A : Int) (B : Int) : Nat) * (Int.gcd (A : Int) (B : Int) : Nat) = B :=
      Int.ediv_mul_cancel (Int.gcd_dvd_right ..)
    have e2 : (A : Int) / (Int.gcd (A : Int) (B : Int) : Nat) * (Int.gcd (A : Int) (B : Int) : Nat) = A :=
      Int.ediv_mul_cancel (Int.gcd_dvd_left ..)
    have f1 := congrArg (Int.cast : Int → ZMod p) e1
    have f2 := congrArg (Int.cast : Int → ZMod p) e2
    rw [Int.cast_mul] at f1 f2
    have hne : ((B : Int) : ZMod p) ≠ 0 := by simpa using hd
    refine ⟨_, e, ?_, ?_⟩
    · intro h
      simp only at h
      rw [h, zero_mul] at f1
      exact hne f1.symm
    · have hgz : ((((Int.gcd (A : Int) (B : Int) : Nat) : Int)) : ZMod p) ≠ 0 := by
        intro h
        rw [h, mul_zero] at f1
        exact hne f1.symm
      rw [Rat.val]
      simp only
      rw [← mul_div_mul_right _ _ hgz, f1, f2]
      simp
  | .elem (.mod q n), ⟨⟨h1, h2, h3, h4⟩, _⟩ =>
    obtain ⟨y, g1, g2, g3⟩ := key n
    exact ⟨y, by simp [asRat, castRat, h0.ne', g1], g2, g3.trans h4⟩
  | .elem (.rat q y), ⟨⟨h1, h2, h3⟩, _⟩ =>
    subst h1
    exact ⟨y, by simp [asRat], h2.den, h3⟩

theorem frac_ops {x y : Rat.Q} (hx : Rat.Wf p x) (b : (y.n : ZMod p) ≠ 0) :
    (∃ z, Rat.add p x y = .ok z ∧ Rat.Wf p z ∧ Rat.val p z = Rat.val p x + Rat.val p y) ∧
    (∃ z, Rat.sub p x y = .ok z ∧ Rat.Wf p z ∧ Rat.val p z = Rat.val p x - Rat.val p y) ∧
    (∃ z, Rat.mul p x y = .ok z ∧ Rat.Wf p z ∧ Rat.val p z = Rat.val p x * Rat.val p y) ∧
    Rat.eq p x y = decide (Rat.val p x = Rat.val p y) := by
  have a := hx.den
  refine ⟨?_, ?_, ?_, ?_⟩
  · obtain ⟨z, h1, h2, h3⟩ := Rat.finish_spec p (x.m * y.n + y.m * x.n) (x.n * y.n) (by push_cast; exact mul_ne_zero a b)
    refine ⟨z, h1, h2, ?_⟩
    rw [h3, Rat.val, Rat.val]; push_cast; field_simp
  · obtain ⟨z, h1, h2, h3⟩ := Rat.finish_spec p (x.m * y.n - y.m * x.n) (x.n * y.n) (by push_cast; exact mul_ne_zero a b)
    refine ⟨z, h1, h2, ?_⟩
    rw [h3, Rat.val, Rat.val]; push_cast; field_simp
  · obtain ⟨z, h1, h2, h3⟩ := Rat.mk_spec p ((x.m * y.m).fmod p) ((x.n * y.n).fmod p)
      (by rw [Rat.cast_fmod]; push_cast; exact mul_ne_zero a b)
    refine ⟨z, h1, h2, ?_⟩
    rw [h3, Rat.cast_fmod, Rat.cast_fmod, Rat.val, Rat.val]; push_cast; field_simp
  · rw [Bool.eq_iff_iff, decide_eq_true_iff, Rat.eq, beq_iff_eq, Rat.val, Rat.val, div_eq_div_iff a b, fmod_nat, fmod_nat,
      ← ZMod.intCast_eq_intCast_iff']
    push_cast; rfl

theorem range_inj {m n : Int} (hm : 0 ≤ m) (hm' : m < p) (hn : 0 ≤ n) (hn' : n < p) : m = n ↔ (m : ZMod p) = n := by
  refine ⟨fun h => by rw [h], fun h => ?_⟩
  rw [ZMod.intCast_eq_intCast_iff'] at h
  rwa [Int.emod_eq_of_lt hm hm', Int.emod_eq_of_lt hn hn'] at h

theorem inverse_yields {e : Elem} {z : ZMod p} (h : Denotes p e z) (h0 : z ≠ 0) : Yields p e (inverse e) z⁻¹ := by
  match e, h with
  | .mod q n, ⟨h1, h2, h3, h4⟩ =>
    subst h1
    rcases Modp.inverse_spec q n h2 with ⟨-, x, e1, e2⟩ | ⟨h5, -⟩
    · have : (x : ZMod q) = z⁻¹ := by
        push_cast at e2
        rw [h4] at e2
        exact eq_inv_of_mul_eq_one_right e2
      simp only [inverse, e1, bind, Except.bind]
      exact mod_yields n x _ this
    · refine absurd ?_ h5
      rw [← h4, Ne, ZMod.intCast_zmod_eq_zero_iff_dvd] at h0
      have := (Int.isCoprime_iff_gcd_eq_one.1 ((Prime.coprime_iff_not_dvd (Nat.prime_iff_prime_int.1 hp.out)).2 h0).symm)
      exact this
  | .rat q x, ⟨h1, h2, h3⟩ =>
    subst h1
    obtain ⟨y, e1, e2, e3⟩ := Rat.inverse_spec' h2 (by rwa [h3])
    exact ⟨.rat q y, by simp only [inverse, e1, bind, Except.bind], rfl, rfl, e2, by rw [e3, h3]⟩

theorem neg_yields {e : Elem} {z : ZMod p} (h : Denotes p e z) : Yields p e (neg e) (-z) := by
  match e, h with
  | .mod q n, ⟨h1, h2, h3, h4⟩ =>
    subst h1
    exact mod_yields n (-n) _ (by push_cast; rw [h4])
  | .rat q x, ⟨h1, h2, h3⟩ =>
    subst h1
    obtain ⟨y, e1, e2, e3⟩ := Rat.neg_spec h2
    exact ⟨.rat q y, by simp only [neg, e1, bind, Except.bind], rfl, rfl, e2, by rw [e3, h3]⟩

end MixedAux

open MixedAux

/-- **C117**, what holds. Let `e` be an element of `Z/p` in either representation, standing for `z`, and `v` an int, a byte string
or an element with the same modulus `p`, which stands for `w` (and is not a rational beside an `IntegersModP` element). Then
`e + v`, `e - v` and `e * v` return elements of the class of `e` standing for `z + w`, `z - w`, `z * w`; `e == v` is the comparison
of `z` and `w`, unless `v` is a byte string encoding an integer of at least `p`; and `e != v` is its negation on `IntegersModP`
elements. -/
theorem C117_operators_partial (p : Nat) [Fact p.Prime] (e : Elem) (v : Val) (z w : ZMod p) (he : Denotes p e z)
    (hv : Stands p e v w) :
    Yields p e (add e v) (z + w) ∧ Yields p e (sub e v) (z - w) ∧ Yields p e (mul e v) (z * w) ∧
      (¬ Overlong p e v → eq e v = .ok (decide (z = w)) ∧ (e.isRat = false → ne e v = .ok (decide (z ≠ w)))) := by
  match e, he with
  | .mod q n, ⟨h1, h2, h3, h4⟩ =>
    subst h1
    obtain ⟨k, e1, e2, e3, e4⟩ := asMod_stands hv
    simp only [add, sub, mul, eq, ne, e1, bind, Except.bind]
    refine ⟨mod_yields n _ _ (by push_cast; rw [h4, e3]), mod_yields n _ _ (by push_cast; rw [h4, e3]),
      mod_yields n _ _ (by push_cast; rw [h4, e3]), fun ho => ?_⟩
    have := range_inj h2 h3 e2 (e4 ho)
    rw [h4, e3] at this
    refine ⟨?_, fun _ => ?_⟩
    · congr 1
      rw [Bool.eq_iff_iff, decide_eq_true_iff, ← this, Modp.eq, beq_iff_eq]
    · congr 1
      rw [Bool.eq_iff_iff, decide_eq_true_iff, Ne, ← this, Modp.ne, bne_iff_ne]
  | .rat q x, ⟨h1, h2, h3⟩ =>
    subst h1
    obtain ⟨y, e1, e2, e3⟩ := asRat_stands hv
    obtain ⟨⟨a, a1, a2, a3⟩, ⟨b, b1, b2, b3⟩, ⟨c, c1, c2, c3⟩, d⟩ := frac_ops h2 e2
    simp only [add, sub, mul, eq, e1, bind, Except.bind, a1, b1, c1, d, h3, e3]
    exact ⟨⟨_, rfl, rfl, rfl, a2, by rw [a3, h3, e3]⟩, ⟨_, rfl, rfl, rfl, b2, by rw [b3, h3, e3]⟩,
      ⟨_, rfl, rfl, rfl, c2, by rw [c3, h3, e3]⟩, fun _ => ⟨by trivial, fun h => by simp [Elem.isRat] at h⟩⟩

/-- **C117**, with an int or a byte string on the left of the operator; `v / e` needs `e` to be invertible. -/
theorem C117_reflected_partial (p : Nat) [Fact p.Prime] (e : Elem) (v : Plain) (z w : ZMod p) (he : Denotes p e z)
    (hv : Stands p e (.plain v) w) :
    Yields p e (radd v e) (w + z) ∧ Yields p e (rsub v e) (w - z) ∧ Yields p e (rmul v e) (w * z) ∧
      (z ≠ 0 → Yields p e (rtruediv v e) (w / z)) ∧ (¬ Overlong p e (.plain v) → reqv v e = .ok (decide (w = z))) := by
  have hs : ∀ e' : Elem, e'.isRat = e.isRat → Stands p e' (.plain v) w := by
    intro e' h
    cases v with
    | none => exact hv
    | int k => exact hv
    | bytes b => simpa only [Stands, h] using hv
  obtain ⟨h1, -, h3, h4⟩ := C117_operators_partial p e (.plain v) z w he hv
  refine ⟨by rw [add_comm]; exact h1, ?_, by rw [mul_comm]; exact h3, fun h0 => ?_, fun ho => ?_⟩
  · obtain ⟨e', a1, a2, a3⟩ := neg_yields he
    obtain ⟨⟨e'', b1, b2, b3⟩, -⟩ := C117_operators_partial p e' (.plain v) (-z) w a3 (hs e' a2)
    refine ⟨e'', by simp only [rsub, a1, bind, Except.bind, b1], b2.trans a2, ?_⟩
    rw [show w - z = -z + w by ring]
    exact b3
  · obtain ⟨e', a1, a2, a3⟩ := inverse_yields he h0
    obtain ⟨-, -, ⟨e'', b1, b2, b3⟩, -⟩ := C117_operators_partial p e' (.plain v) z⁻¹ w a3 (hs e' a2)
    refine ⟨e'', by simp only [rtruediv, a1, bind, Except.bind, b1], b2.trans a2, ?_⟩
    rw [show w / z = z⁻¹ * w by rw [div_eq_mul_inv, mul_comm]]
    exact b3
  · rw [reqv, (h4 ho).1]
    simp only [eq_comm]

/-- **C117**, division by an element with the same modulus. -/
theorem C117_division_partial (p : Nat) [Fact p.Prime] (e e' : Elem) (z w : ZMod p) (he : Denotes p e z) (he' : Denotes p e' w)
    (hr : e'.isRat → e.isRat) (h0 : w ≠ 0) : Yields p e (truediv e (.elem e')) (z / w) := by
  obtain ⟨i, a1, a2, a3⟩ := inverse_yields he' h0
  obtain ⟨-, -, ⟨e'', b1, b2, b3⟩, -⟩ := C117_operators_partial p e (.elem i) z w⁻¹ he ⟨a3, by rw [a2]; exact hr⟩
  exact ⟨e'', by simp only [truediv, a1, bind, Except.bind, b1], b2, by rw [div_eq_mul_inv]; exact b3⟩

/-- **C117** fails for different moduli: the operators cast the right operand to the class of the left one. For all moduli and all
elements, `a + b` is the sum of the representatives modulo the modulus of `a` and `b + a` that modulo the modulus of `b`; and
for any two different moduli there are elements with `a == b` but not `b == a`. -/
theorem C117_moduli_refuted (p q : Nat) (hp : 0 < p) (hq : 0 < q) (hpq : p ≠ q) :
    (∀ a b : Int, add (.mod p a) (.elem (.mod q b)) = .ok (.mod p ((a + b % p) % p)) ∧
      add (.mod q b) (.elem (.mod p a)) = .ok (.mod q ((b + a % q) % q))) ∧
    ∃ a b : Int, 0 ≤ a ∧ a < p ∧ 0 ≤ b ∧ b < q ∧
      ((eq (.mod p a) (.elem (.mod q b)) = .ok true ∧ eq (.mod q b) (.elem (.mod p a)) = .ok false) ∨
       (eq (.mod p a) (.elem (.mod q b)) = .ok false ∧ eq (.mod q b) (.elem (.mod p a)) = .ok true)) := by
  refine ⟨fun a b => ?_, ?_⟩
  · simp only [add, asMod, castMod, if_neg hpq, if_neg hpq.symm, if_neg hp.ne', if_neg hq.ne', bind, Except.bind, Modp.add, Modp.mk,
      fmod_nat, and_self]
  · simp only [eq, asMod, castMod, if_neg hpq, if_neg hpq.symm, if_neg hp.ne', if_neg hq.ne', bind, Except.bind, Modp.eq, Modp.mk,
      fmod_nat, Except.ok.injEq, beq_iff_eq, beq_eq_false_iff_ne]
    rcases Nat.lt_or_gt_of_ne hpq with h | h
    · exact ⟨0, p, by omega, by omega, by omega, by omega, .inl ⟨by simp, by simp; omega⟩⟩
    · exact ⟨q, 0, by omega, by omega, by omega, by omega, .inr ⟨by simp; omega, by simp⟩⟩

/-- **C117** fails for a rational beside an integer modulo `p`, also with the same modulus: the operators are only defined with
the rational on the left. Rationals with different moduli do not mix at all. -/
theorem C117_rational_operand_refuted (p q : Nat) (n : Int) (x y : Rat.Q) :
    (add (.mod p n) (.elem (.rat q y)) = .error .typeError ∧ sub (.mod p n) (.elem (.rat q y)) = .error .typeError ∧
      mul (.mod p n) (.elem (.rat q y)) = .error .typeError ∧ eq (.mod p n) (.elem (.rat q y)) = .error .typeError ∧
      ne (.mod p n) (.elem (.rat q y)) = .error .typeError) ∧
    (p ≠ q → add (.rat p x) (.elem (.rat q y)) = .error .typeError ∧ sub (.rat p x) (.elem (.rat q y)) = .error .typeError ∧
      mul (.rat p x) (.elem (.rat q y)) = .error .typeError ∧ eq (.rat p x) (.elem (.rat q y)) = .error .typeError ∧
      ne (.rat p x) (.elem (.rat q y)) = .error .typeError) := by
  refine ⟨⟨rfl, rfl, rfl, rfl, rfl⟩, fun h => ?_⟩
  simp only [add, sub, mul, eq, ne, asRat, castRat, if_neg h.symm, bind, Except.bind, and_self]

/-- **C117** fails for byte strings: beside an integer modulo `p`, one that encodes an integer of at least `p` is different from
every element, on either side of `==`, though subtracting the element of the same residue gives zero. -/
theorem C117_bytes_refuted (p : Nat) [Fact p.Prime] (b : Bytes) (hb : p ≤ fromBytes b) :
    (∀ n : Int, n < p → eq (.mod p n) (.plain (.bytes b)) = .ok false ∧ reqv (.bytes b) (.mod p n) = .ok false) ∧
    ∃ n : Int, Denotes p (.mod p n) (fromBytes b : Nat) ∧ sub (.mod p n) (.plain (.bytes b)) = .ok (.mod p 0) := by
  refine ⟨fun n hn => ?_, Modp.mk p (fromBytes b), ?_, ?_⟩
  · have : (n == (fromBytes b : Int)) = false := beq_eq_false_iff_ne.2 (by omega)
    simp only [reqv, eq, asMod, castMod, Modp.mkBytes, bind, Except.bind, Modp.eq, this, and_self]
  · have := Modp.mk_range p (Fact.out : p.Prime).pos (fromBytes b)
    exact ⟨rfl, this.1, this.2, by rw [Modp.mk_cast]; simp⟩
  · simp only [sub, asMod, castMod, Modp.mkBytes, bind, Except.bind, Modp.sub, Modp.mk, fmod_nat]
    simp

/-- **C117** fails for other objects: comparing an element with one, such as `None`, raises `TypeError` on either side. -/
theorem C117_comparison_refuted (e : Elem) :
    eq e (.plain .none) = .error .typeError ∧ ne e (.plain .none) = .error .typeError ∧ reqv .none e = .error .typeError := by
  cases e <;> exact ⟨rfl, rfl, rfl⟩

/-- **C117** fails for division by anything but an element: `e / v` raises `AttributeError`, though `v / e` is defined. -/
theorem C117_divisor_refuted (e : Elem) (v : Plain) : truediv e (.plain v) = .error .attributeError := rfl

/-! ### Concrete cases -/

/-- `3` modulo 7 beside the rational `1/2` modulo 7, an int and byte strings. This meets the hypotheses of `C117_operators_partial`, `C117_reflected_partial`, `C117_division_partial`. -/
example : Denotes 7 (.mod 7 3) 3 ∧ Denotes 7 (.rat 7 ⟨1, 2⟩) 4 ∧ Stands 7 (.rat 7 ⟨1, 2⟩) (.elem (.mod 7 3)) 3 ∧
    Stands 7 (.mod 7 3) (.plain (.bytes [1, 0])) 4 ∧ Stands 7 (.mod 7 3) (.plain (.int (-1))) 6 := by
  refine ⟨⟨rfl, by decide, by decide, by decide⟩, ⟨rfl, ⟨by decide, by decide, by decide, by decide, by decide⟩, ?_⟩,
    ⟨⟨rfl, by decide, by decide, by decide⟩, by simp [Elem.isRat]⟩, ?_, ?_⟩
  · rw [Rat.val, div_eq_iff (by decide)]
    decide
  · show (4 : ZMod 7) = (fromBytes [1, 0] : Nat)
    decide
  · simp only [Stands]
    decide

example : add (.rat 7 ⟨1, 2⟩) (.elem (.mod 7 3)) = .ok (.rat 7 ⟨0, 1⟩) ∧ add (.mod 7 3) (.elem (.rat 7 ⟨1, 2⟩)) = .error .typeError ∧
    rsub (.int 1) (.mod 7 3) = .ok (.mod 7 5) ∧ rtruediv (.int 1) (.mod 7 3) = .ok (.mod 7 5) ∧
    truediv (.rat 7 ⟨1, 2⟩) (.elem (.mod 7 3)) = .ok (.rat 7 ⟨5, 2⟩) := ⟨rfl, rfl, rfl, rfl, rfl⟩

/-- This meets the hypotheses of `C117_moduli_refuted`. -/
example : add (.mod 5 3) (.elem (.mod 7 6)) = .ok (.mod 5 4) ∧ add (.mod 7 6) (.elem (.mod 5 3)) = .ok (.mod 7 2) ∧
    eq (.mod 5 0) (.elem (.mod 7 5)) = .ok true ∧ eq (.mod 7 5) (.elem (.mod 5 0)) = .ok false := ⟨rfl, rfl, rfl, rfl⟩

/-- This meets the hypotheses of `C117_bytes_refuted`. -/
example : eq (.mod 5 3) (.plain (.bytes [8])) = .ok false ∧ sub (.mod 5 3) (.plain (.bytes [8])) = .ok (.mod 5 0) := ⟨rfl, rfl⟩

end Verif.Props
