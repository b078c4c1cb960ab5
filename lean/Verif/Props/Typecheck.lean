import Verif.Proofs.Typecheck
import Verif.Props.Apr
/-!
# C103-C106: arithmetic between values of different classes

In the examples `p = 2`, the modulus is `x^3 + x + 1`, and the multivariate polynomials are in two variables.
-/

namespace Verif.Props
open Typecheck Poly FF Mv
open Typecheck.Val hiding neg

section
variable {p : Nat} [hp : Fact p.Prime] {f : List (Zp p)} [hf : IsModulus f] {n : Nat}

/-! ### C103: operators -/

/-- **C103** (one operation). Let `a` and `b` be values whose classes mix with the class of `a'` and `b'`, and let `a'`, `b'` be what
they stand for there.  Then `a + b`, `a - b` and `a * b` do not raise, and stand for the ring operation on `a'` and `b'`; if
one of the two is of the larger class already, the result is exactly that. -/
theorem C103_operators_partial (op : Op) (a b a' b' : Val p f n) (ha : Lift a a') (hb : Lift b b') (hk : a'.kind = b'.kind)
    (ta : Tower a'.kind a.kind) (tb : Tower b'.kind b.kind) :
    ∃ v w, binop op a b = .ok v ∧ result op a' b' = some w ∧ Lift v w ∧
      (a.kind = a'.kind ∨ b.kind = b'.kind → v = w) := by
  obtain ⟨v, w, h1, h2, h3, -⟩ := binop_lift op a b a' b' ha hb hk ta tb
  refine ⟨v, w, h1, h2, h3, fun h => ?_⟩
  obtain ⟨w', h4, h5⟩ := binop_top op a b a' b' ha hb hk ta tb h
  rw [h1] at h4; rw [h2] at h5
  simp only [Except.ok.injEq, Option.some.injEq] at h4 h5
  rw [h4, h5]

/-- **C103** (expressions). An expression in `+`, `-`, `*` and powers whose leaves are values of classes that mix with the class `k`
is computed without an exception, and its result stands for the value of the expression in the ring of `k`. -/
theorem C103_expressions_partial (k : Kind) (e : Expr (Val p f n × Val p f n))
    (h : e.All fun l => Lift l.1 l.2 ∧ l.2.kind = k ∧ Tower k l.1.kind) :
    ∃ v w, (e.map Prod.fst).eval = .ok v ∧ (e.map Prod.snd).value = some w ∧ Lift v w := by
  obtain ⟨v, w, h1, h2, h3, -⟩ := expr_lift k e h
  exact ⟨v, w, h1, h2, h3⟩

/-- **C103** (equality). `a == b` is equality of what the two stand for in the larger of their classes. -/
theorem C103_equality_partial (a b a' b' : Val p f n) (ha : Lift a a') (hb : Lift b b') (hk : a'.kind = b'.kind)
    (ta : Tower a'.kind a.kind) (tb : Tower b'.kind b.kind) (h : a.kind = a'.kind ∨ b.kind = b'.kind) :
    ∃ r, veq a b = .ok r ∧ (r = true ↔ a' = b') := veq_lift a b a' b' ha hb hk ta tb h

/-- **C103** (one order only). A polynomial over the extension field accepts a polynomial over Z/p on its right. -/
theorem C103_right_operand_partial (op : Op) (c c' : CPoly (Fq f)) (d : CPoly (Zp p)) (h : Lift (.zpoly d : Val p f n) (.fqpoly c')) :
    binop op (.fqpoly c) (.zpoly d : Val p f n) = .ok (.fqpoly (op.run c c')) := by
  have hneg : Lift (.zpoly (-d) : Val p f n) (.fqpoly (-c')) := by
    intro i
    rw [CPoly.val_neg, CPoly.val_neg, Polynomial.coeff_neg, Polynomial.coeff_neg, Fq.val_neg, h i, map_neg]
  cases op
  · simp [binop, addMul, typecheck, prec, castFqpoly, mapFq_eq d c' h, bind, Except.bind]
  · simp [binop, vsub, addMul, typecheck, prec, castFqpoly, Val.neg, mapFq_eq _ _ hneg, bind, Except.bind, Op.run, sub_eq_add_neg]
  · simp [binop, addMul, typecheck, prec, castFqpoly, mapFq_eq d c' h, bind, Except.bind]

/-- **C103** fails between a polynomial over the extension field and an element of that field: unless the polynomial is zero, all
three operators raise `TypeError` in both orders, and so does `==`. -/
theorem C103_extension_polynomials_refuted (op : Op) (c : CPoly (Fq f)) (hc : c ≠ 0) (a : Fq f) :
    binop op (.fqpoly c) (.fq a : Val p f n) = .error .typeError ∧ binop op (.fq a) (.fqpoly c : Val p f n) = .error .typeError ∧
    veq (.fqpoly c) (.fq a : Val p f n) = .error .typeError ∧ veq (.fq a) (.fqpoly c : Val p f n) = .error .typeError := by
  have h0 : c.1 ≠ [] := fun h => hc (Subtype.ext h)
  refine ⟨?_, ?_, ?_, ?_⟩
  · cases op <;> simp [binop, vsub, addMul, typecheck, prec, castFq, Val.neg, h0, bind, Except.bind]
  · cases op <;> simp [binop, vsub, addMul, typecheck, prec, castFq, h0, bind, Except.bind]
  · simp [veq, eqMethod, prec, castFq, h0, bind, Except.bind]
  · simp [veq, eqMethod, prec, castFq, h0, bind, Except.bind]

/-- **C103** fails between elements of Z/p and polynomials over the extension field, in one or in several variables. -/
theorem C103_prime_field_elements_refuted (op : Op) (a : Zp p) (c : CPoly (Fq f)) (d : MP n (Fq f)) :
    binop op (.zp a) (.fqpoly c : Val p f n) = .error .typeError ∧ binop op (.fqpoly c) (.zp a : Val p f n) = .error .typeError ∧
    binop op (.zp a) (.mv d : Val p f n) = .error .typeError ∧ binop op (.mv d) (.zp a : Val p f n) = .error .typeError := by
  refine ⟨?_, ?_, ?_, ?_⟩ <;> cases op <;>
    simp [binop, vsub, addMul, typecheck, prec, castFqpoly, castMv, Val.neg, bind, Except.bind]

/-- **C103** fails for a polynomial over Z/p with a non-zero polynomial over the extension field on its right (with the operands
exchanged it holds, `C103_right_operand_partial`). -/
theorem C103_left_operand_refuted (op : Op) (d : CPoly (Zp p)) (c : CPoly (Fq f)) (hc : c ≠ 0) :
    binop op (.zpoly d) (.fqpoly c : Val p f n) = .error .typeError := by
  have h0 : c.1 ≠ [] := fun h => hc (Subtype.ext h)
  have h1 : (-c).1 ≠ [] := fun h => neg_ne_zero.mpr hc (Subtype.ext h)
  cases op <;> simp [binop, vsub, addMul, typecheck, prec, castZpoly, Val.neg, h0, h1, bind, Except.bind]

/-! ### C104: evaluation of polynomials in one variable -/

/-- **C104** (polynomials over Z/p). At an int, an element of Z/p, a polynomial over Z/p, an element of the extension field or a
polynomial in several variables, `g(x)` does not raise and stands for the evaluation of `g` at what `x` stands for; from degree 1 on
it is of the class of `x` (for an int: an element of Z/p). -/
theorem C104_over_prime_field_partial (g : CPoly (Zp p)) :
    (∀ k : Int, callZp g (.int k : Val p f n) = .ok (.zp (g.val.eval (k : Zp p)))) ∧
    (∀ a : Zp p, callZp g (.zp a : Val p f n) = .ok (.zp (g.val.eval a))) ∧
    (∀ c : CPoly (Zp p), ∃ v w, callZp g (.zpoly c : Val p f n) = .ok v ∧ Lift v (.zpoly w) ∧ w.val = g.val.comp c.val ∧
      (1 ≤ g.val.natDegree → v = .zpoly w)) ∧
    (∀ a : Fq f, ∃ v w, callZp g (.fq a : Val p f n) = .ok v ∧ Lift v (.fq w) ∧
      w.val = g.val.eval₂ (AdjoinRoot.of (toPoly f)) a.val ∧ (1 ≤ g.val.natDegree → v = .fq w)) ∧
    (∀ d : MP n (Zp p), ∃ v w, callZp g (.mvp d : Val p f n) = .ok v ∧ Lift v (.mvp w) ∧
      w.val = g.val.eval₂ MvPolynomial.C d.val ∧ (1 ≤ g.val.natDegree → v = .mvp w)) := by
  have hz := fun (x : Val p f n) (X : Zp p) (hx : denZ x = some X) =>
    callZp_den follows_denZ (RingHom.id (Zp p)) (fun _ => rfl) (by simp [denZ]) g x X hx
  have kz : ∀ x v : Val p f n, x.prec ≤ 1 → x.kind = .int ∨ x.kind = .zp → callZp g x = .ok v → v.kind = .zp := by
    intro x v hx hk hv
    refine evalLoop_low x (g.1.map .zp) (.zp 0) (.int 1) v (by simp [kind]) hx (by simp [prec]) ?_ (by simp [prec]) hv
    rcases hk with hk | hk
    · cases x <;> simp [kind] at hk; simp [prec]
    · intro _; exact hk
  refine ⟨fun k => ?_, fun a => ?_, fun c => ?_, fun a => ?_, fun d => ?_⟩
  · obtain ⟨v, h1, h2⟩ := hz (.int k) k rfl
    have := kz _ _ (by simp [prec]) (Or.inl rfl) h1
    cases v <;> simp [kind] at this
    rw [h1]; simp only [denZ, Option.some.injEq] at h2; rw [h2]; rfl
  · obtain ⟨v, h1, h2⟩ := hz (.zp a) a rfl
    have := kz _ _ (by simp [prec]) (Or.inr rfl) h1
    cases v <;> simp [kind] at this
    rw [h1]; simp only [denZ, Option.some.injEq] at h2; rw [h2]; rfl
  · obtain ⟨v, h1, h2⟩ := callZp_den (n := n) (f := f) follows_denP (algebraMap (Zp p) (CPoly (Zp p))) (fun _ => rfl) (by simp [denP]) g (.zpoly c) c rfl
    have h3 := ((denP_iff _ _).1 h2).1
    refine ⟨v, _, h1, h3, ?_, fun h => lift_self h3 ((callZp_kind g h _ _ (by simp [prec]) h1).trans rfl)⟩
    refine (Polynomial.hom_eval₂ g.val (algebraMap (Zp p) (CPoly (Zp p))) (CPoly.equiv (R := Zp p)).toRingHom c).trans ?_
    rw [Polynomial.comp]
    congr 1
    exact RingHom.ext fun a => CPoly.val_algebraMap a
  · obtain ⟨v, h1, h2⟩ := callZp_den (n := n) follows_denF (ofKHom f) (fun _ => rfl) (by simp [denF]) g (.fq a) a rfl
    have h3 := ((denF_iff _ _).1 h2).1
    refine ⟨v, _, h1, h3, ?_, fun h => lift_self h3 ((callZp_kind g h _ _ (by simp [prec]) h1).trans rfl)⟩
    refine (Polynomial.hom_eval₂ g.val (ofKHom f) (Fq.equiv (f := f)).toRingHom a).trans ?_
    congr 1
    exact RingHom.ext fun a => Fq.val_ofK a
  · obtain ⟨v, h1, h2⟩ := callZp_den (f := f) follows_denMP (constHom n (Zp p)) (fun _ => rfl) (by simp [denMP]) g (.mvp d) d rfl
    have h3 := ((denMP_iff _ _).1 h2).1
    refine ⟨v, _, h1, h3, ?_, fun h => lift_self h3 ((callZp_kind g h _ _ (by simp [prec]) h1).trans rfl)⟩
    refine (Polynomial.hom_eval₂ g.val (constHom n (Zp p)) (MP.equiv (n := n) (R := Zp p)).toRingHom d).trans ?_
    congr 1
    exact RingHom.ext fun a => MP.val_const a

/-- **C104** (polynomials over the extension field). At an int, an element of Z/p or of the field, or a polynomial over Z/p (read modulo
the field's modulus), `g(x)` is the field element `g` takes there; at a polynomial in several variables over the field it stands for
the composition. -/
theorem C104_over_extension_field_partial (g : CPoly (Fq f)) :
    (∀ (x : Val p f n) (a : Fq f), Lift x (.fq a) → Tower .fq x.kind → callFq g x = .ok (.fq (g.val.eval a))) ∧
    (∀ d : MP n (Fq f), ∃ v w, callFq g (.mv d : Val p f n) = .ok v ∧ Lift v (.mv w) ∧
      w.val = g.val.eval₂ MvPolynomial.C d.val ∧ (1 ≤ g.val.natDegree → v = .mv w)) := by
  refine ⟨fun x a hx ht => ?_, fun d => ?_⟩
  · obtain ⟨v, h1, h2⟩ := callFq_den follows_denF (RingHom.id (Fq f)) (fun _ => rfl) (by simp [denF]) g x a ((denF_iff _ _).2 ⟨hx, ht⟩)
    have : v.kind = .fq := by
      refine evalLoop_low x (g.1.map .fq) (.fq 0) (.int 1) v (by simp [kind]) ?_ (by simp [prec]) ?_ (by simp [prec]) h1 <;>
        cases x <;> simp [Tower, kind] at ht <;> simp [prec, kind]
    cases v <;> simp [kind] at this
    rw [h1]; simp only [denF, Option.some.injEq] at h2; rw [h2]; rfl
  · obtain ⟨v, h1, h2⟩ := callFq_den follows_denMV (constHom n (Fq f)) (fun _ => rfl) (by simp [denMV]) g (.mv d) d rfl
    have h3 := ((denMV_iff _ _).1 h2).1
    refine ⟨v, _, h1, h3, ?_, fun h => lift_self h3 ((callFq_kind g h _ _ (by simp [prec]) h1).trans rfl)⟩
    refine (Polynomial.hom_eval₂ g.val (constHom n (Fq f)) (MP.equiv (n := n) (R := Fq f)).toRingHom d).trans ?_
    congr 1
    exact RingHom.ext fun a => MP.val_const a

theorem mul_fqpoly_fq (c : CPoly (Fq f)) (hc : c ≠ 0) (a : Fq f) : binop .mul (.fqpoly c) (.fq a : Val p f n) = .error .typeError :=
  (C103_extension_polynomials_refuted .mul c hc a).1

/-- **C104** fails for the composition of polynomials over the extension field: from degree 1 on, `g(h)` raises `TypeError` for every
non-zero polynomial `h`. -/
theorem C104_composition_refuted (g : CPoly (Fq f)) (hg : 1 ≤ g.val.natDegree) (h : CPoly (Fq f)) (hh : h ≠ 0) :
    callFq g (.fqpoly h : Val p f n) = .error .typeError := by
  obtain ⟨a, b, l, e⟩ := two_le_of_natDegree g hg
  rw [callFq, e]
  have e1 : binop .mul (.int 1) (.fq a : Val p f n) = .ok (.fq a) := by
    simp [binop, addMul, typecheck, prec, castFq, bind, Except.bind, Op.run, ofInt_eq, ofK_eq]
  have e2 : binop .add (.fq 0) (.fq a : Val p f n) = .ok (.fq a) := by
    simp [binop, addMul, typecheck, prec, castFq, bind, Except.bind, Op.run]
  have e3 : binop .mul (.int 1) (.fqpoly h : Val p f n) = .ok (.fqpoly h) := by
    simp [binop, addMul, typecheck, prec, castFqpoly, bind, Except.bind, Op.run, ofInt_eq, ofK_eq, mk_const]
  simp only [List.map_cons, evalLoop, e1, e2, e3, bind, Except.bind, mul_fqpoly_fq h hh b]

/-! ### C105: evaluation of polynomials in several variables -/

/-- **C105** (over Z/p). At a list of ints and elements of Z/p the result is the value in Z/p; at a list that may also hold
polynomials over Z/p (or elements of the extension field) it stands for the value there. -/
theorem C105_over_prime_field_partial {w : Nat} (g : MP w (Zp p)) (vals : List (Val p f n)) (hw : vals.length = w) :
    (∀ V : List (Zp p), List.Forall₂ (fun v a => Lift v (.zp a) ∧ Tower .zp v.kind) vals V →
      ∃ v, mvCallZp g vals = .ok v ∧ Lift v (.zp (g.val.eval fun i : Fin w => V.getD i 0))) ∧
    (∀ V : List (CPoly (Zp p)), List.Forall₂ (fun v c => Lift v (.zpoly c) ∧ Tower .zpoly v.kind) vals V →
      ∃ v r, mvCallZp g vals = .ok v ∧ Lift v (.zpoly r) ∧
        r.val = g.val.eval₂ Polynomial.C fun i : Fin w => (V.getD i 0).val) ∧
    (∀ V : List (Fq f), List.Forall₂ (fun v a => Lift v (.fq a) ∧ Tower .fq v.kind) vals V →
      ∃ v r, mvCallZp g vals = .ok v ∧ Lift v (.fq r) ∧
        r.val = g.val.eval₂ (AdjoinRoot.of (toPoly f)) fun i : Fin w => (V.getD i 0).val) := by
  have fa : ∀ {R : Type} (den : Val p f n → Option R) (P : Val p f n → R → Prop) (_ : ∀ v x, P v x → den v = some x) (vals : List (Val p f n))
      (V : List R), List.Forall₂ P vals V → vals.map den = V.map some := by
    intro R den P hP vals V h
    induction h with
    | nil => rfl
    | cons a _ ih => simp [hP _ _ a, ih]
  refine ⟨fun V hV => ?_, fun V hV => ?_, fun V hV => ?_⟩
  · obtain ⟨v, h1, h2⟩ := mvCallZp_den follows_denZ pow_denZ (RingHom.id (Zp p)) (fun _ => rfl) g vals V hw
      (fa denZ _ (fun v x h => (denZ_iff v x).2 h) _ _ hV)
    exact ⟨v, h1, ((denZ_iff _ _).1 h2).1⟩
  · obtain ⟨v, h1, h2⟩ := mvCallZp_den follows_denP pow_denP (algebraMap (Zp p) (CPoly (Zp p))) (fun _ => rfl) g vals V hw
      (fa denP _ (fun v x h => (denP_iff v x).2 h) _ _ hV)
    refine ⟨v, _, h1, ((denP_iff _ _).1 h2).1, ?_⟩
    refine (MvPolynomial.eval₂_comp_left (CPoly.equiv (R := Zp p)).toRingHom _ _ g.val).trans ?_
    congr 1
    exact RingHom.ext fun a => CPoly.val_algebraMap a
  · obtain ⟨v, h1, h2⟩ := mvCallZp_den follows_denF pow_denF (ofKHom f) (fun _ => rfl) g vals V hw
      (fa denF _ (fun v x h => (denF_iff v x).2 h) _ _ hV)
    refine ⟨v, _, h1, ((denF_iff _ _).1 h2).1, ?_⟩
    refine (MvPolynomial.eval₂_comp_left (Fq.equiv (f := f)).toRingHom _ _ g.val).trans ?_
    congr 1
    exact RingHom.ext fun a => Fq.val_ofK a

/-- **C105** (over the extension field). At a list of field elements, ints, elements of Z/p and polynomials over Z/p the result stands
for the value in the field; at a list of polynomials in several variables, field elements and ints, for the composition. -/
theorem C105_over_extension_field_partial {w : Nat} (g : MP w (Fq f)) (vals : List (Val p f n)) (hw : vals.length = w) :
    (∀ V : List (Fq f), List.Forall₂ (fun v a => Lift v (.fq a) ∧ Tower .fq v.kind) vals V →
      ∃ v, mvCallFq g vals = .ok v ∧ Lift v (.fq (g.val.eval fun i : Fin w => V.getD i 0))) ∧
    (∀ V : List (MP n (Fq f)), List.Forall₂ (fun v d => Lift v (.mv d) ∧ Tower .mv v.kind) vals V →
      ∃ v r, mvCallFq g vals = .ok v ∧ Lift v (.mv r) ∧
        r.val = g.val.eval₂ MvPolynomial.C fun i : Fin w => (V.getD i 0).val) := by
  have fa : ∀ {R : Type} (den : Val p f n → Option R) (P : Val p f n → R → Prop) (_ : ∀ v x, P v x → den v = some x) (vals : List (Val p f n))
      (V : List R), List.Forall₂ P vals V → vals.map den = V.map some := by
    intro R den P hP vals V h
    induction h with
    | nil => rfl
    | cons a _ ih => simp [hP _ _ a, ih]
  refine ⟨fun V hV => ?_, fun V hV => ?_⟩
  · obtain ⟨v, h1, h2⟩ := mvCallFq_den follows_denF pow_denF (RingHom.id (Fq f)) (fun _ => rfl) g vals V hw
      (fa denF _ (fun v x h => (denF_iff v x).2 h) _ _ hV)
    exact ⟨v, h1, ((denF_iff _ _).1 h2).1⟩
  · obtain ⟨v, h1, h2⟩ := mvCallFq_den follows_denMV pow_denMV (constHom n (Fq f)) (fun _ => rfl) g vals V hw
      (fa denMV _ (fun v x h => (denMV_iff v x).2 h) _ _ hV)
    refine ⟨v, _, h1, ((denMV_iff _ _).1 h2).1, ?_⟩
    refine (MvPolynomial.eval₂_comp_left (MP.equiv (n := n) (R := Fq f)).toRingHom _ _ g.val).trans ?_
    congr 1
    exact RingHom.ext fun a => MP.val_const a

/-- **C105** fails at polynomials in one variable over the extension field: a non-zero `g` in at least one variable, called with
polynomials the first of which is not zero, raises `TypeError`. -/
theorem C105_polynomial_arguments_refuted {w : Nat} (g : MP w (Fq f)) (hg : g ≠ 0) (h : CPoly (Fq f)) (hh : h ≠ 0)
    (rest : List (Val p f n)) (hw : rest.length + 1 = w) : mvCallFq g (.fqpoly h :: rest) = .error .typeError := by
  rw [mvCallFq, if_pos (by simpa using hw)]
  rcases hd : g.1 with _ | ⟨⟨t, c⟩, l⟩
  · exact absurd (Subtype.ext hd) hg
  · have ht : t.length = w := g.2.len (t, c) (by rw [hd]; simp)
    cases t with
    | nil => simp at ht; omega
    | cons e t =>
      have hp : (vpow (.fqpoly h) e : Val p f n) = .fqpoly (h ^ e) := rfl
      have hne : h ^ e ≠ 0 := by
        intro h0
        have := congrArg (CPoly.equiv (R := Fq f)) h0
        rw [map_pow, map_zero] at this
        have := eq_zero_of_pow_eq_zero this
        exact hh ((CPoly.equiv (R := Fq f)).map_eq_zero_iff.mp this)
      simp only [List.map_cons, sumLoop, Typecheck.monoLoop, hp, (C103_extension_polynomials_refuted .mul (h ^ e) hne 1).2.1, bind, Except.bind]

/-- The wrong number of values is rejected. -/
theorem C105_arity {w : Nat} (g : MP w (Fq f)) (g' : MP w (Zp p)) (vals : List (Val p f n)) (h : vals.length ≠ w) :
    mvCallFq g vals = .error .assertion ∧ mvCallZp g' vals = .error .assertion := by
  simp [mvCallFq, mvCallZp, h]

/-! ### C106: division -/

theorem inverse_zp (a : Zp p) (h : a ≠ 0) : inverse (.zp a : Val p f n) = .ok (.zp a⁻¹) := by
  have hi : (a⁻¹ : Zp p) = match Modp.inverse p a.1 with | .ok x => Zp.ofInt x | .error _ => 0 := rfl
  cases e : Modp.inverse p a.1 with
  | ok x => rw [hi]; simp [inverse, e, bind, Except.bind]
  | error x =>
    rw [e] at hi
    exact absurd hi (inv_ne_zero h)

/-- **C106** (fields). If `b` is a field element and not zero, `a / b` is the quotient, in the larger of the two classes; `a` may be
an int, an element of either field, or (for `b` in the extension field) a polynomial over Z/p. -/
theorem C106_field_division_partial (a : Val p f n) :
    (∀ x y : Zp p, Lift a (.zp x) → Tower .zp a.kind → y ≠ 0 → vdiv a (.zp y) = .ok (.zp (x / y))) ∧
    (∀ x y : Fq f, Lift a (.fq x) → Tower .fq a.kind → y ≠ 0 → vdiv a (.fq y) = .ok (.fq (x / y))) ∧
    (∀ (x : Fq f) (y : Zp p) (z : Fq f), a = .fq x → y ≠ 0 → Lift (.zp y : Val p f n) (.fq z) → vdiv a (.zp y) = .ok (.fq (x / z))) := by
  refine ⟨fun x y ha ht hy => ?_, fun x y ha ht hy => ?_, fun x y z ha hy hz => ?_⟩
  · have := (denZ_iff _ _).2 ⟨ha, ht⟩
    cases a <;> simp [denZ] at this <;> subst this <;>
      simp [vdiv, inverse_zp _ hy, bind, Except.bind, binop, addMul, typecheck, prec, castZp, Op.run, ofInt_eq, div_eq_mul_inv, mul_comm]
  · have := (denF_iff _ _).2 ⟨ha, ht⟩
    cases a <;> simp [denF] at this <;> subst this <;>
      simp [vdiv, inverse, hy, bind, Except.bind, binop, addMul, typecheck, prec, castFq, Op.run, ofInt_eq, ofK_eq, mkFq_eq, div_eq_mul_inv, mul_comm]
  · subst ha
    have := (denF_iff (n := n) _ _).2 ⟨hz, by simp [Tower, kind]⟩
    simp [denF] at this
    subst this
    simp [vdiv, inverse_zp _ hy, bind, Except.bind, binop, addMul, typecheck, prec, castFq, Op.run, ofK_eq, div_eq_mul_inv]

/-- **C106** (polynomials). A polynomial over Z/p divided by a polynomial, an element of Z/p or an int, none of them zero there, is the
quotient of the division with remainder. -/
theorem C106_polynomial_division_partial (c d : CPoly (Zp p)) (b : Val p f n) (hb : Lift b (.zpoly d)) (ht : Tower .zpoly b.kind)
    (hd : d ≠ 0) : ∃ q, vdiv (.zpoly c) b = .ok (.zpoly q) ∧ q.val = c.val / d.val := by
  have h0 : d.1 ≠ [] := fun h => hd (Subtype.ext h)
  obtain ⟨q, r, h1, h2, h3, h4, h5⟩ := divmod_spec c.2 d.2 h0
  have ht' : Poly.truediv c.1 d.1 = .ok q := by
    simp [Poly.truediv, Poly.isZero, h0, h1, bind, Except.bind]
  have hcast : divConv c (castZpoly b) (.zpoly : _ → Val p f n) = .ok (.zpoly (CPoly.mk q)) := by
    have := (denP_iff _ _).2 ⟨hb, ht⟩
    cases b <;> simp [denP] at this <;> subst this <;>
      simp [divConv, castZpoly, ofInt_eq, mk_const, map_intCast, ht', bind, Except.bind]
  refine ⟨CPoly.mk q, ?_, ?_⟩
  · cases b <;> simp [Tower, kind] at ht <;> simpa [vdiv] using hcast
  · rw [CPoly.val_mk]
    exact (div_mod_unique (fun h => h0 ((toPoly_eq_zero d.2).mp h)) h4 (degree_lt_of_length_lt h3 d.2 h5)).1

/-- **C106** (zero). Division by a zero of either field or of either polynomial class never returns a value. -/
theorem C106_zero_divisor (a v : Val p f n) :
    vdiv a (.zp 0) ≠ .ok v ∧ vdiv a (.fq 0) ≠ .ok v ∧ vdiv a (.zpoly 0) ≠ .ok v ∧ vdiv a (.fqpoly 0) ≠ .ok v := by
  have h0 : inverse (.zp 0 : Val p f n) = .error .attributeError := by
    have : Modp.inverse p ((0 : Zp p).1) = .error .attributeError := by
      rcases Modp.inverse_spec p (0 : Zp p).1 (0 : Zp p).2.1 with ⟨h, -⟩ | ⟨-, h⟩
      · rw [show (0 : Zp p).1 = (0 : Int) from rfl, Int.gcd_zero_left] at h
        exact absurd (by simpa using h : p = 1) hp.out.ne_one
      · exact h
    simp [inverse, this, bind, Except.bind]
  have h1 : inverse (.fq 0 : Val p f n) = .error .zeroDivision := by simp [inverse]
  have h2 : inverse (.zpoly 0 : Val p f n) = .error .attributeError := rfl
  have h3 : inverse (.fqpoly 0 : Val p f n) = .error .attributeError := rfl
  have hz : (0 : CPoly (Zp p)).1 = [] := rfl
  have hf : (0 : CPoly (Fq f)).1 = [] := rfl
  have k1 : (CPoly.mk [0] : CPoly (Zp p)).1 = [] := by simp [CPoly.mk, Poly.ctor, Poly.strip, Poly.stripLen]
  have k2 : (CPoly.mk [] : CPoly (Fq f)).1 = [] := rfl
  refine ⟨?_, ?_, ?_, ?_⟩ <;> cases a <;>
    simp [vdiv, h0, h1, h2, h3, k1, k2, divConv, castZpoly, castFqpoly, bind, Except.bind, Poly.truediv, Poly.isZero, hz, hf]

/-- **C106** fails for a field element divided by an int: `AttributeError` (an int divided by a field element is computed). -/
theorem C106_division_by_int_refuted (a : Zp p) (b : Fq f) (k : Int) :
    vdiv (.zp a : Val p f n) (.int k) = .error .attributeError ∧ vdiv (.fq b : Val p f n) (.int k) = .error .attributeError := ⟨rfl, rfl⟩

/-- **C106** fails for a polynomial over the extension field divided by an element of that field. -/
theorem C106_extension_polynomials_refuted (c : CPoly (Fq f)) (hc : c ≠ 0) (a : Fq f) (ha : a ≠ 0) :
    vdiv (.fqpoly c : Val p f n) (.fq a) = .error .typeError := by
  simp [vdiv, inverse, ha, bind, Except.bind, (C103_extension_polynomials_refuted .mul c hc a⁻¹).2.1]

/-! ### Consequences for other properties, over the extension fields -/

/-- **C11** (composition) fails over the extension fields: the composition of two polynomials, the outer one of degree at least 1 and
the inner one not zero, raises `TypeError`. -/
theorem C11_extension_composition_refuted (g h : CPoly (Fq f)) (hg : 1 ≤ g.val.natDegree) (hh : h ≠ 0) :
    callFq g (.fqpoly h : Val p f n) = .error .typeError := C104_composition_refuted g hg h hh

theorem X_ne_zero : (CPoly.mk [0, 1] : CPoly (Fq f)) ≠ 0 := by
  intro h
  have := congrArg CPoly.val h
  rw [CPoly.val_mk, CPoly.val_zero] at this
  simp [toPoly_cons, toPoly_nil] at this

theorem X_pow_ne_zero (k : Nat) : (CPoly.mk [0, 1] : CPoly (Fq f)) ^ k ≠ 0 := by
  intro h
  have := congrArg (CPoly.equiv (R := Fq f)) h
  rw [map_pow, map_zero] at this
  exact X_ne_zero ((CPoly.equiv (R := Fq f)).map_eq_zero_iff.mp (eq_zero_of_pow_eq_zero this))

/-- **C48** fails over every extension field: for any trace with at least one column the construction of the constraint polynomials
raises `TypeError`, and for any number of steps so does that of the remainder polynomials. -/
theorem C48_extension_field_refuted (g last : Fq f) (trace : List (CPoly (Fq f))) (ht : trace ≠ []) (steps : Nat) :
    nextTraces (n := n) g trace = .error .typeError ∧ zNumDen (n := n) steps last = .error .typeError := by
  constructor
  · cases trace with
    | nil => exact absurd rfl ht
    | cons t l =>
      simp [nextTraces, PolyUtils.pyMap, (C103_extension_polynomials_refuted .mul (CPoly.mk [0, 1]) X_ne_zero g).2.1, bind, Except.bind]
  · have : (vpow (.fqpoly (CPoly.mk [0, 1])) steps : Val p f n) = .fqpoly ((CPoly.mk [0, 1]) ^ steps) := rfl
    simp [zNumDen, this, (C103_extension_polynomials_refuted .sub (CPoly.mk [0, 1] ^ steps) (X_pow_ne_zero steps) 1).1, bind, Except.bind]

/-- **C52** fails over every extension field: the term `trace_poly * k2 * powers[i]` raises `TypeError` unless the trace polynomial or
`k2` is zero in the field. -/
theorem C52_extension_field_refuted (D P : CPoly (Fq f)) (hP : P ≠ 0) (k1 k2 : Int) (hk : (k2 : Fq f) ≠ 0) (power : Fq f) :
    combine (n := n) D P k1 k2 power = .error .typeError := by
  have e1 : ∀ k : Int, binop .mul (.fqpoly P) (.int k : Val p f n) = .ok (.fqpoly (P * (k : CPoly (Fq f)))) := by
    intro k
    simp [binop, addMul, typecheck, prec, castFqpoly, bind, Except.bind, Op.run, ofInt_eq, ofK_eq, mk_const]
  have e2 : ∀ c : CPoly (Fq f), binop .add (.fqpoly D) (.fqpoly c : Val p f n) = .ok (.fqpoly (D + c)) := by
    intro c
    simp [binop, addMul, typecheck, prec, castFqpoly, bind, Except.bind, Op.run]
  have hne : P * (k2 : CPoly (Fq f)) ≠ 0 := by
    intro h
    have := congrArg CPoly.val h
    rw [CPoly.val_mul, CPoly.val_zero, cpoly_val_intCast, mul_eq_zero] at this
    rcases this with h | h
    · exact hP (CPoly.val_inj (h.trans CPoly.val_zero.symm))
    · rw [← Polynomial.C_eq_intCast, Polynomial.C_eq_zero] at h
      exact hk h
  simp [combine, e1, e2, (C103_extension_polynomials_refuted .mul _ hne power).1, bind, Except.bind]

end

/-! ### Examples -/

/-- The values over GF(8) with two variables. -/
abbrev V8 := Val 2 gf8 2

/-- `1 + x` in Z/2[x] and what it stands for in GF(8). This meets the hypotheses of `C103_operators_partial`, `C103_equality_partial`, `C103_right_operand_partial`. -/
example : Lift (.zpoly (CPoly.mk [1, 1]) : V8) (.fq (Apr.castHom gf8 (CPoly.mk [1, 1]))) ∧
    Lift (.int 3 : V8) (.fq 1) ∧ Tower (.fq (1 : Fq gf8) : V8).kind (.zpoly (CPoly.mk [1, 1]) : V8).kind := by
  refine ⟨((denF_iff _ _).1 rfl).1, ((denF_iff (.int 3 : V8) 1).1 ?_).1, by simp [Tower, kind]⟩
  decide +kernel

/-- `(x^3 in Z/2[x]) * (x in GF(8)) + 3` is computed: `x^4 + 1 = x^2 + x + 1` in GF(8). This meets the hypotheses of `C103_expressions_partial`. -/
example : (Expr.bin .add (.bin .mul (.leaf (.zpoly (CPoly.mk [0, 0, 0, 1]))) (.leaf (.fq (Apr.castHom gf8 (CPoly.mk [0, 1])))))
      (.leaf (.int 3)) : Expr V8).eval = .ok (.fq (Apr.castHom gf8 (CPoly.mk [1, 1, 1]))) := by
  have h : ∀ a b : Fq gf8, a = b → (Except.ok (.fq a) : Py V8) = .ok (.fq b) := fun a b h => by rw [h]
  exact h _ _ (by decide +kernel)

/-- `1 + 2` as int, element, polynomial and polynomial in two variables are the same to `==`. -/
example : veq (.int 3 : V8) (.zp 1) = .ok true ∧ veq (.zp 1 : V8) (.zpoly 1) = .ok true ∧
    veq (.mvp (MP.const 2 1) : V8) (.int 3) = .ok true ∧ veq (.int 2 : V8) (.fqpoly 0) = .ok true := by decide +kernel

/-- A polynomial over GF(8) and an element. This meets the hypotheses of `C103_left_operand_refuted`, `C104_composition_refuted`, `C11_extension_composition_refuted`, `C106_extension_polynomials_refuted`, `C48_extension_field_refuted`. -/
example : (CPoly.mk [1, 1] : CPoly (Fq gf8)) ≠ 0 ∧ 1 ≤ (CPoly.mk [1, 1] : CPoly (Fq gf8)).val.natDegree ∧
    binop .add (.fqpoly (CPoly.mk [1, 1]) : V8) (.fq 1) = .error .typeError ∧
    binop .add (.zpoly (CPoly.mk [1, 1]) : V8) (.zp 1) = .ok (.zpoly (CPoly.mk [0, 1])) := by
  have h0 : (CPoly.mk [1, 1] : CPoly (Fq gf8)) ≠ 0 := by decide +kernel
  refine ⟨h0, ?_, (C103_extension_polynomials_refuted .add _ h0 1).1, ?_⟩
  · rw [CPoly.val_mk]
    have : (toPoly [1, 1] : Polynomial (Fq gf8)) = Polynomial.X + Polynomial.C 1 := by
      simp [toPoly_cons, toPoly_nil, add_comm]
    rw [this, Polynomial.natDegree_X_add_C]
  · have h : ∀ a b : CPoly (Zp 2), a = b → (Except.ok (.zpoly a) : Py V8) = .ok (.zpoly b) := fun a b h => by rw [h]
    exact h _ _ (by decide +kernel)

/-- `x0 * x1 + 1` at an element of Z/2 and a polynomial. This meets the hypotheses of `C105_over_prime_field_partial`. -/
example : ∃ g : MP 2 (Zp 2), g ≠ 0 ∧ List.Forall₂ (fun v c => Lift v (.zpoly c) ∧ Tower .zpoly v.kind)
    [(.zp 1 : V8), .zpoly (CPoly.mk [0, 1])] [CPoly.mk [1], CPoly.mk [0, 1]] ∧
    mvCallZp g [(.zp 1 : V8), .zpoly (CPoly.mk [0, 1])] = .ok (.zpoly (CPoly.mk [1, 1])) := by
  refine ⟨MP.single 2 [1, 1] 1 + 1, by decide +kernel, ?_, ?_⟩
  · refine .cons ((denP_iff _ _).1 rfl) (.cons ((denP_iff _ _).1 rfl) .nil)
  · have h : ∀ a b : CPoly (Zp 2), a = b → (Except.ok (.zpoly a) : Py V8) = .ok (.zpoly b) := fun a b h => by rw [h]
    exact h _ _ (by decide +kernel)

/-- A non-zero polynomial in two variables over GF(8). This meets the hypotheses of `C105_over_extension_field_partial`, `C105_polynomial_arguments_refuted`, `C105_arity`. -/
example : (MP.single 2 [1, 1] 1 + 1 : MP 2 (Fq gf8)) ≠ 0 := by decide +kernel

/-- `3 / 1` in Z/2, and the cast of `k2 = 1`. -/
example : vdiv (.int 3 : V8) (.zp 1) = .ok (.zp 1) ∧ ((1 : Int) : Fq gf8) ≠ 0 := by
  exact ⟨(C106_field_division_partial (.int 3 : V8)).1 1 1 ((denZ_iff _ _).1 (by decide +kernel)).1 (by simp [Tower, kind]) (by decide), by simp⟩

/-- `(x^2 + 1) / (x + 1)` over Z/2, and division of a polynomial by the int 3. -/
example : (∃ q, vdiv (.zpoly (CPoly.mk [1, 0, 1]) : V8) (.zpoly (CPoly.mk [1, 1])) = .ok (.zpoly q)) ∧
    (∃ q, vdiv (.zpoly (CPoly.mk [1, 0, 1]) : V8) (.int 3) = .ok (.zpoly q)) ∧ (CPoly.mk [1, 1] : CPoly (Zp 2)) ≠ 0 := by
  have h1 : (CPoly.mk [1, 1] : CPoly (Zp 2)) ≠ 0 := by decide +kernel
  obtain ⟨q, hq, -⟩ := C106_polynomial_division_partial (CPoly.mk [1, 0, 1]) (CPoly.mk [1, 1])
    (.zpoly (CPoly.mk [1, 1]) : V8) (lift_refl _) (by simp [Tower, kind]) h1
  obtain ⟨q', hq', -⟩ := C106_polynomial_division_partial (CPoly.mk [1, 0, 1]) ((3 : Int) : CPoly (Zp 2))
    (.int 3 : V8) ((denP_iff _ _).1 rfl).1 (by simp [Tower, kind]) (by decide +kernel)
  exact ⟨⟨q, hq⟩, ⟨q', hq'⟩, h1⟩

end Verif.Props
