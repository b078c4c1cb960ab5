import Verif.Model.ForeignOperands
import Verif.Props.Typecheck
/-!
# C121: operands that belong to different fields
-/

namespace Verif.Props
open Poly FF Mv Typecheck
open Typecheck.Val (zp zpoly fq fqpoly mvp mv)

/-- The zero of its class. -/
def IsZeroVal {p : Nat} [Fact p.Prime] {f : List (Zp p)} [IsModulus f] {n : Nat} : Val p f n → Prop
  | .int k => k = 0
  | zp a => a = 0
  | zpoly c => c = 0
  | fq a => a = 0
  | fqpoly c => c = 0
  | mvp d => d = 0
  | mv d => d = 0

/-- The pairs of classes that Python combines although they are over different fields. -/
def Accepted (k l : Kind) : Prop :=
  (k = .zp ∧ l = .zp) ∨ (k = .zpoly ∧ l = .zpoly) ∨ (k = .zpoly ∧ l = .fq) ∨ (k = .fq ∧ l = .zpoly)

variable {p : Nat} [hp : Fact p.Prime] {f : List (Zp p)} [hf : IsModulus f] {n : Nat}
variable {q : Nat} [hq : Fact q.Prime] {g : List (Zp q)} [hg : IsModulus g] {m : Nat}

/-- The polynomial over Z/p with the representatives of `b`'s coefficients. -/
def reread (p : Nat) [Fact p.Prime] (b : CPoly (Zp q)) : CPoly (Zp p) := CPoly.mk (b.1.map fun a => Zp.ofInt a.1)

theorem coeff_mk {R : Type} [CommRing R] [DecidableEq R] (l : List R) (i : Nat) : (CPoly.mk l).val.coeff i = l.getD i 0 := by
  show (toPoly (ctor l)).coeff i = _
  rw [toPoly_ctor, coeff_toPoly]

theorem zero_rep : (0 : Zp q).1 = 0 := Modp.mk_of_range q 0 le_rfl (by exact_mod_cast hq.out.pos)

theorem ofInt_zero_rep : (Zp.ofInt (0 : Zp q).1 : Zp p) = 0 := by
  rw [zero_rep]
  rfl

theorem coeff_reread (b : CPoly (Zp q)) (i : Nat) : (reread p b).val.coeff i = Zp.ofInt (b.val.coeff i).1 := by
  rw [reread, coeff_mk]
  show _ = Zp.ofInt ((toPoly b.1).coeff i).1
  rw [coeff_toPoly]
  simp only [List.getD_eq_getElem?_getD, List.getElem?_map]
  cases h : b.1[i]? with
  | some x => simp
  | none => simp only [Option.map_none, Option.getD_none]; exact ofInt_zero_rep.symm

theorem neg_isZero {v : Val p f n} : IsZeroVal v.neg ↔ IsZeroVal v := by
  cases v <;> simp [IsZeroVal, Val.neg]

theorem kind_neg {v : Val p f n} : v.neg.kind = v.kind := by cases v <;> rfl

theorem addMul_foreign (op : Op) (a : Val p f n) (b : Val q g m) (ha : a.kind ≠ .int) (hb : b.kind ≠ .int) (za : ¬ IsZeroVal a)
    (zb : ¬ IsZeroVal b) (h : ¬ Accepted a.kind b.kind) : Foreign.addMul op a b = .error .typeError := by
  have e1 : ∀ c : CPoly (Zp p), c ≠ 0 → c.1 ≠ [] := fun c hc h => hc (Subtype.ext h)
  have e2 : ∀ c : CPoly (Fq f), c ≠ 0 → c.1 ≠ [] := fun c hc h => hc (Subtype.ext h)
  have e3 : ∀ d : MP n (Zp p), d ≠ 0 → d.1 ≠ [] := fun c hc h => hc (Subtype.ext h)
  have e4 : ∀ d : MP n (Fq f), d ≠ 0 → d.1 ≠ [] := fun c hc h => hc (Subtype.ext h)
  have e5 : ∀ c : CPoly (Zp q), c ≠ 0 → c.1 ≠ [] := fun c hc h => hc (Subtype.ext h)
  have e6 : ∀ c : CPoly (Fq g), c ≠ 0 → c.1 ≠ [] := fun c hc h => hc (Subtype.ext h)
  have e7 : ∀ d : MP m (Zp q), d ≠ 0 → d.1 ≠ [] := fun c hc h => hc (Subtype.ext h)
  have e8 : ∀ d : MP m (Fq g), d ≠ 0 → d.1 ≠ [] := fun c hc h => hc (Subtype.ext h)
  cases a <;> cases b <;> simp only [Val.kind, Accepted, IsZeroVal] at ha hb za zb h <;>
    simp_all [Foreign.addMul, Foreign.typecheck, Val.prec, Foreign.castZpoly, Foreign.castFq, Foreign.castFqpoly,
      Foreign.castMvp, Foreign.castMv, Foreign.conv, bind, Except.bind]

/-- **C121** (everything else). Two non-zero values of classes over different fields are never combined: all three operators and `==`
raise `TypeError`, except for two integers modulo `p` and `q` (C117), two polynomials over Z/p and Z/q, and an element of an extension
field with a polynomial over another prime field. -/
theorem C121_rejected_partial (op : Op) (a : Val p f n) (b : Val q g m) (ha : a.kind ≠ .int) (hb : b.kind ≠ .int) (za : ¬ IsZeroVal a)
    (zb : ¬ IsZeroVal b) (h : ¬ Accepted a.kind b.kind) :
    Foreign.binop op a b = .error .typeError ∧ Foreign.veq a b = .error .typeError := by
  have h' : ¬ Accepted b.neg.kind a.kind := by
    rw [kind_neg]; unfold Accepted at h ⊢; tauto
  have h'' : ¬ Accepted a.kind b.neg.kind := by rwa [kind_neg]
  have hb' : b.neg.kind ≠ .int := by rwa [kind_neg]
  have zb' : ¬ IsZeroVal b.neg := by rwa [neg_isZero]
  have key := addMul_foreign .add a b.neg ha hb' za zb' h''
  have key' := addMul_foreign .add b.neg a hb' ha zb' za h'
  have keys := addMul_foreign .sub a b ha hb za zb h
  refine ⟨?_, ?_⟩
  · cases op
    · exact addMul_foreign .add a b ha hb za zb h
    · have hsub : (match (generalizing := false) Foreign.typecheck .sub a b with
          | .ok (some v) => (.ok (.inl v) : Py (Foreign.Res p f n q g m))
          | .ok none => (do let r ← Foreign.addMul .add b.neg a; .ok r.swap)
          | .error e => .error e) = .error .typeError := by
        rw [key']
        unfold Foreign.addMul at keys
        revert keys
        cases Foreign.typecheck .sub a b with
        | error e => intro k; simpa [bind, Except.bind] using k
        | ok v => cases v with
          | none => intro _; rfl
          | some v => intro k; simp [bind, Except.bind] at k
      cases a with
      | zp x =>
        simp only [Foreign.binop, Foreign.vsub, bind, Except.bind]
        revert hsub
        cases Foreign.typecheck .sub (zp x : Val p f n) b with
        | error e => exact id
        | ok v => cases v <;> exact id
      | fq x =>
        simp only [Foreign.binop, Foreign.vsub, bind, Except.bind]
        revert hsub
        cases Foreign.typecheck .sub (fq x : Val p f n) b with
        | error e => exact id
        | ok v => cases v <;> exact id
      | int k => exact absurd rfl ha
      | zpoly c => exact key
      | fqpoly c => exact key
      | mvp c => exact key
      | mv c => exact key
    · exact addMul_foreign .mul a b ha hb za zb h
  · have e1 : ∀ c : CPoly (Zp p), c ≠ 0 → c.1 ≠ [] := fun c hc h => hc (Subtype.ext h)
    have e2 : ∀ c : CPoly (Fq f), c ≠ 0 → c.1 ≠ [] := fun c hc h => hc (Subtype.ext h)
    have e3 : ∀ d : MP n (Zp p), d ≠ 0 → d.1 ≠ [] := fun c hc h => hc (Subtype.ext h)
    have e4 : ∀ d : MP n (Fq f), d ≠ 0 → d.1 ≠ [] := fun c hc h => hc (Subtype.ext h)
    have e5 : ∀ c : CPoly (Zp q), c ≠ 0 → c.1 ≠ [] := fun c hc h => hc (Subtype.ext h)
    have e6 : ∀ c : CPoly (Fq g), c ≠ 0 → c.1 ≠ [] := fun c hc h => hc (Subtype.ext h)
    have e7 : ∀ d : MP m (Zp q), d ≠ 0 → d.1 ≠ [] := fun c hc h => hc (Subtype.ext h)
    have e8 : ∀ d : MP m (Fq g), d ≠ 0 → d.1 ≠ [] := fun c hc h => hc (Subtype.ext h)
    clear key key' keys h' h'' hb' zb'
    cases a <;> cases b <;> simp only [Val.kind, Accepted, IsZeroVal] at ha hb za zb h <;>
      simp_all [Foreign.veq, Foreign.eqMethod, Val.prec, Foreign.castZpoly, Foreign.castFq, Foreign.castFqpoly,
        Foreign.castMvp, Foreign.castMv, Foreign.conv, bind, Except.bind]

/-- **C121** fails for two polynomials over Z/p and Z/q: the coefficients of the right one are read as integers modulo `p`, whatever the
operator.  For `p < q` the results of `==` in the two orders contradict each other for some polynomials, and for `p ≠ q` the
difference is not the one of the values that are added and compared. -/
theorem C121_polynomials_refuted (a : CPoly (Zp p)) (b : CPoly (Zp q)) :
    (∀ i, (reread p b).val.coeff i = Zp.ofInt (b.val.coeff i).1) ∧
    Foreign.binop .add (zpoly a : Val p f n) (zpoly b : Val q g m) = .ok (.inl (zpoly (a + reread p b))) ∧
    Foreign.binop .sub (zpoly a : Val p f n) (zpoly b : Val q g m) = .ok (.inl (zpoly (a + reread p (-b)))) ∧
    Foreign.binop .mul (zpoly a : Val p f n) (zpoly b : Val q g m) = .ok (.inl (zpoly (a * reread p b))) ∧
    Foreign.veq (zpoly a : Val p f n) (zpoly b : Val q g m) = .ok (decide (a = reread p b)) ∧
    (p < q → ∃ (c : CPoly (Zp p)) (d : CPoly (Zp q)), Foreign.veq (zpoly c : Val p f n) (zpoly d : Val q g m) = .ok true ∧
      Foreign.veq (zpoly d : Val q g m) (zpoly c : Val p f n) = .ok false) ∧
    (p ≠ q → ∃ d : CPoly (Zp q), Foreign.binop .sub (zpoly a : Val p f n) (zpoly d : Val q g m) ≠ .ok (.inl (zpoly (a - reread p d)))) := by
  have hsub : ∀ d : CPoly (Zp q), Foreign.binop .sub (zpoly a : Val p f n) (zpoly d : Val q g m) = .ok (.inl (zpoly (a + reread p (-d)))) :=
    fun d => rfl
  have heq : ∀ (c : CPoly (Zp p)) (d : CPoly (Zp q)), Foreign.veq (zpoly c : Val p f n) (zpoly d : Val q g m) =
      .ok (decide (c = reread p d)) := fun c d => rfl
  refine ⟨coeff_reread b, rfl, hsub b, rfl, heq a b, fun h => ?_, fun h => ?_⟩
  · have h0 : (Zp.ofInt (p : Int) : Zp q).1 = p := Modp.mk_of_range q p (by positivity) (by exact_mod_cast h)
    refine ⟨0, CPoly.mk [Zp.ofInt p], ?_, ?_⟩
    · rw [heq]
      congr 1
      refine decide_eq_true (CPoly.val_inj (Polynomial.ext fun i => ?_))
      rw [coeff_reread, coeff_mk, CPoly.val_zero, Polynomial.coeff_zero]
      rcases i with _ | i
      · refine Zp.toZ_inj ?_
        simp [h0]
      · refine Zp.toZ_inj ?_
        simp [zero_rep]
    · show Except.ok (decide (_ = reread q (0 : CPoly (Zp p)))) = _
      congr 1
      refine decide_eq_false fun e => ?_
      have e1 := congrArg (fun c : CPoly (Zp q) => (c.val.coeff 0).1) e
      simp only [coeff_reread, coeff_mk, CPoly.val_zero, Polynomial.coeff_zero] at e1
      have e2 : (Zp.ofInt ((0 : Zp p).1) : Zp q) = 0 := ofInt_zero_rep
      rw [e2] at e1
      simp only [List.getD_cons_zero, h0] at e1
      have : (0 : Zp q).1 = 0 := zero_rep
      have := hp.out.pos
      omega
  · refine ⟨1, fun e => ?_⟩
    rw [hsub, sub_eq_add_neg] at e
    have e1 : reread p (-1 : CPoly (Zp q)) = -reread p (1 : CPoly (Zp q)) := by simpa using e
    have e2 := congrArg (fun c : CPoly (Zp p) => (c.val.coeff 0).toZ) e1
    simp only [coeff_reread, CPoly.val_neg, CPoly.val_one, Polynomial.coeff_neg, Polynomial.coeff_one_zero, Zp.toZ_ofInt, Zp.toZ_neg] at e2
    set r := (-1 : Zp q).1 with hr
    have r0 : 0 ≤ r ∧ r < q := (-1 : Zp q).2
    have r1 : ((r + 1 : Int) : ZMod q) = 0 := by
      have : ((r : Int) : ZMod q) = (-1 : Zp q).toZ := rfl
      push_cast
      rw [this, Zp.toZ_neg, Zp.toZ_one]
      ring
    have r2 : r + 1 = q := by
      obtain ⟨k, hk⟩ := (ZMod.intCast_zmod_eq_zero_iff_dvd _ _).1 r1
      have h1 : 0 < k := by
        by_contra hc
        have : (q : Int) * k ≤ 0 := mul_nonpos_of_nonneg_of_nonpos (by positivity) (by omega)
        omega
      have h2 : k < 2 := by
        by_contra hc
        have : (q : Int) * 2 ≤ q * k := mul_le_mul_of_nonneg_left (by omega) (by positivity)
        have := hq.out.pos
        omega
      have : k = 1 := by omega
      rw [hk, this, mul_one]
    have one1 : (1 : Zp q).1 = 1 := Modp.mk_of_range q 1 (by norm_num) (by exact_mod_cast hq.out.one_lt)
    rw [one1] at e2
    have e3 : ((r + 1 : Int) : ZMod p) = 0 := by
      push_cast
      rw [e2]
      simp
    rw [r2] at e3
    have e4 : (p : Int) ∣ q := (ZMod.intCast_zmod_eq_zero_iff_dvd _ _).1 e3
    exact h ((Nat.prime_dvd_prime_iff_eq hp.out hq.out).1 (by exact_mod_cast e4))

/-- **C121** fails for an element of an extension field with a polynomial over another prime field: in both orders the coefficients are
read as integers modulo `p`, and the result is an element. -/
theorem C121_elements_refuted (a : Fq f) (b : CPoly (Zp q)) :
    let x : Fq f := Apr.castHom f (reread p b)
    Foreign.binop .add (fq a : Val p f n) (zpoly b : Val q g m) = .ok (.inl (fq (a + x))) ∧
    Foreign.binop .sub (fq a : Val p f n) (zpoly b : Val q g m) = .ok (.inl (fq (a - x))) ∧
    Foreign.binop .mul (fq a : Val p f n) (zpoly b : Val q g m) = .ok (.inl (fq (a * x))) ∧
    Foreign.binop .add (zpoly b : Val q g m) (fq a : Val p f n) = .ok (.inr (fq (a + x))) ∧
    Foreign.binop .sub (zpoly b : Val q g m) (fq a : Val p f n) = .ok (.inr (fq (-a + x))) ∧
    Foreign.binop .mul (zpoly b : Val q g m) (fq a : Val p f n) = .ok (.inr (fq (a * x))) ∧
    Foreign.veq (fq a : Val p f n) (zpoly b : Val q g m) = .ok (decide (a = x)) := by
  refine ⟨rfl, rfl, rfl, rfl, rfl, rfl, rfl⟩

/-- Elements of the fields of 9 and 8 elements are not added, multiplied or compared. -/
example (op : Op) : Foreign.binop op (fq 1 : Val 3 [1, 0, 1] 1) (fq 1 : Val 2 gf8 1) = .error .typeError ∧
    Foreign.veq (fq 1 : Val 3 [1, 0, 1] 1) (fq 1 : Val 2 gf8 1) = .error .typeError :=
  C121_rejected_partial op (fq 1) (fq 1) (by simp [Val.kind]) (by simp [Val.kind]) (one_ne_zero (α := Fq ([1, 0, 1] : List (Zp 3))))
    (one_ne_zero (α := Fq gf8)) (by simp [Accepted, Val.kind])

/-- Nor are those of two fields with 289 elements. -/
example (op : Op) : Foreign.binop op (fq 1 : Val 17 [14, 0, 1] 1) (fq 1 : Val 17 [3, 1, 1] 1) = .error .typeError :=
  (C121_rejected_partial op (fq 1) (fq 1) (by simp [Val.kind]) (by simp [Val.kind]) (one_ne_zero (α := Fq ([14, 0, 1] : List (Zp 17))))
    (one_ne_zero (α := Fq ([3, 1, 1] : List (Zp 17)))) (by simp [Accepted, Val.kind])).1

/-- `x` over Z/2 and `x + 2` over Z/3 are equal in one order only. -/
example : (Foreign.veq (zpoly (CPoly.mk [1, 1]) : Val 2 gf8 1) (zpoly (CPoly.mk [3, 1]) : Val 3 [1, 0, 1] 1)).toOption = some false ∧
    (Foreign.veq (zpoly (CPoly.mk [0, 1]) : Val 2 gf8 1) (zpoly (CPoly.mk [2, 1]) : Val 3 [1, 0, 1] 1)).toOption = some true ∧
    (Foreign.veq (zpoly (CPoly.mk [2, 1]) : Val 3 [1, 0, 1] 1) (zpoly (CPoly.mk [0, 1]) : Val 2 gf8 1)).toOption = some false := by
  decide +kernel

end Verif.Props
