import Verif.Spec.Typecheck
import Verif.Model.Air
/-! # Mixed-type arithmetic: proofs -/

namespace Verif.Typecheck
open Poly FF Mv Val

variable {p : Nat} [hp : Fact p.Prime] {f : List (Zp p)} [hf : IsModulus f] {n : Nat}

/-! ### The conversions as ring homomorphisms -/

def ofKHom (f : List (Zp p)) [IsModulus f] : Zp p →+* Fq f where
  toFun := Fq.ofK
  map_one' := rfl
  map_zero' := rfl
  map_mul' a b := Fq.val_inj (by rw [Fq.val_mul, Fq.val_ofK, Fq.val_ofK, Fq.val_ofK, map_mul])
  map_add' a b := Fq.val_inj (by rw [Fq.val_add, Fq.val_ofK, Fq.val_ofK, Fq.val_ofK, map_add])

theorem ofK_eq (a : Zp p) : (Fq.ofK a : Fq f) = ofKHom f a := rfl
theorem ofInt_eq (k : Int) : (Zp.ofInt k : Zp p) = (k : Zp p) := rfl

theorem mk_const {R : Type} [CommRing R] [DecidableEq R] (c : R) : CPoly.mk [c] = algebraMap R (CPoly R) c := rfl

def constHom (n : Nat) (R : Type) [CommRing R] [DecidableEq R] : R →+* MP n R where
  toFun := MP.const n
  map_one' := (MP.const_hom n).1
  map_mul' := (MP.const_hom n).2.1
  map_zero' := (MP.const_hom n).2.2.1
  map_add' := (MP.const_hom n).2.2.2

theorem const_eq {R : Type} [CommRing R] [DecidableEq R] (c : R) : MP.const n c = constHom n R c := rfl

theorem mkFq_eq (c : CPoly (Zp p)) : (Fq.mk c.1 c.2 : Fq f) = Apr.castHom f c := rfl

theorem castHom_const (a : Zp p) : Apr.castHom f (algebraMap _ _ a) = ofKHom f a :=
  Fq.val_inj (by
    rw [Apr.castHom_apply, Fq.mk_val, ← ofK_eq, Fq.val_ofK]
    change AdjoinRoot.mk _ (CPoly.val (algebraMap _ _ a)) = _
    rw [CPoly.val_algebraMap]; rfl)

theorem cpoly_val_intCast {R : Type} [CommRing R] [DecidableEq R] (k : Int) : ((k : CPoly R)).val = (k : Polynomial R) :=
  map_intCast (CPoly.equiv (R := R)) k

theorem mp_val_intCast {R : Type} [CommRing R] [DecidableEq R] (k : Int) : ((k : MP n R)).val = (k : MvPolynomial (Fin n) R) :=
  map_intCast (MP.equiv (R := R) (n := n)) k

theorem fq_val_intCast (k : Int) : ((k : Fq f)).val = (k : AdjoinRoot (toPoly f)) := map_intCast (Fq.equiv (f := f)) k

/-! ### Denotations -/

/-- What a value stands for in each of the rings, where the code's conversions find it. -/
def denI : Val p f n → Option Int
  | int k => some k
  | _ => none
def denZ : Val p f n → Option (Zp p)
  | int k => some k
  | zp a => some a
  | _ => none
def denP : Val p f n → Option (CPoly (Zp p))
  | int k => some k
  | zp a => some (algebraMap _ _ a)
  | zpoly c => some c
  | _ => none
def denF : Val p f n → Option (Fq f)
  | int k => some k
  | zp a => some (ofKHom f a)
  | zpoly c => some (Apr.castHom f c)
  | fq a => some a
  | _ => none
def denFP : Val p f n → Option (CPoly (Fq f))
  | int k => some k
  | fqpoly c => some c
  | _ => none
def denMP : Val p f n → Option (MP n (Zp p))
  | int k => some k
  | zp a => some (constHom n _ a)
  | mvp d => some d
  | _ => none
def denMV : Val p f n → Option (MP n (Fq f))
  | int k => some k
  | fq a => some (constHom n _ a)
  | mv d => some d
  | _ => none

theorem denZ_iff (v : Val p f n) (x : Zp p) : denZ v = some x ↔ Lift v (zp x) ∧ Tower .zp v.kind := by
  cases v <;> simp [denZ, Lift, Tower, kind, eq_comm]

theorem denP_iff (v : Val p f n) (x : CPoly (Zp p)) : denP v = some x ↔ Lift v (zpoly x) ∧ Tower .zpoly v.kind := by
  cases v with
  | int k => simp [denP, Lift, Tower, kind, ← cpoly_val_intCast, CPoly.val_inj.eq_iff, eq_comm]
  | zp a => simp [denP, Lift, Tower, kind, ← CPoly.val_algebraMap, CPoly.val_inj.eq_iff, eq_comm]
  | _ => simp [denP, Lift, Tower, kind]

theorem denF_iff (v : Val p f n) (x : Fq f) : denF v = some x ↔ Lift v (fq x) ∧ Tower .fq v.kind := by
  cases v with
  | int k => simp [denF, Lift, Tower, kind, ← fq_val_intCast, Fq.val_inj.eq_iff, eq_comm]
  | zp a => simp [denF, Lift, Tower, kind, ← Fq.val_ofK, Fq.val_inj.eq_iff, eq_comm, ofK_eq]
  | zpoly c =>
    have : (Apr.castHom f c).val = AdjoinRoot.mk (toPoly f) c.val := by rw [Apr.castHom_apply, Fq.mk_val]; rfl
    simp [denF, Lift, Tower, kind, ← this, Fq.val_inj.eq_iff, eq_comm]
  | _ => simp [denF, Lift, Tower, kind]

theorem denFP_iff (v : Val p f n) (x : CPoly (Fq f)) : denFP v = some x ↔ Lift v (fqpoly x) ∧ Tower .fqpoly v.kind := by
  cases v with
  | int k => simp [denFP, Lift, Tower, kind, ← cpoly_val_intCast, CPoly.val_inj.eq_iff, eq_comm]
  | _ => simp [denFP, Lift, Tower, kind]

theorem denMP_iff (v : Val p f n) (x : MP n (Zp p)) : denMP v = some x ↔ Lift v (mvp x) ∧ Tower .mvp v.kind := by
  cases v with
  | int k => simp [denMP, Lift, Tower, kind, ← mp_val_intCast, MP.val_inj.eq_iff, eq_comm]
  | zp a => simp [denMP, Lift, Tower, kind, ← MP.val_const, MP.val_inj.eq_iff, eq_comm, const_eq]
  | _ => simp [denMP, Lift, Tower, kind]

theorem denMV_iff (v : Val p f n) (x : MP n (Fq f)) : denMV v = some x ↔ Lift v (mv x) ∧ Tower .mv v.kind := by
  cases v with
  | int k => simp [denMV, Lift, Tower, kind, ← mp_val_intCast, MP.val_inj.eq_iff, eq_comm]
  | fq a => simp [denMV, Lift, Tower, kind, ← MP.val_const, MP.val_inj.eq_iff, eq_comm, const_eq]
  | _ => simp [denMV, Lift, Tower, kind]

/-! ### One operation -/

theorem run_map {R S : Type} [CommRing R] [CommRing S] (φ : R →+* S) (op : Op) (a b : R) : φ (op.run a b) = op.run (φ a) (φ b) := by
  cases op <;> simp [Op.run]

theorem run_cast {S : Type} [CommRing S] (op : Op) (a b : Int) : ((op.run a b : Int) : S) = op.run (a : S) (b : S) :=
  run_map (Int.castRingHom S) op a b

/-- The tactic for one tower: run the code on each pair of classes. -/
macro "tower" den:ident op:ident a:ident b:ident ha:ident hb:ident : tactic => `(tactic| (
  cases $a:ident <;> cases $b:ident <;> simp only [$den:ident, Option.some.injEq, reduceCtorEq] at $ha:ident $hb:ident <;>
  subst $ha:ident <;> subst $hb:ident <;> cases $op:ident <;>
  simp [binop, addMul, vsub, typecheck, prec, castZp, castZpoly, castFq, castFqpoly, castMvp, castMv, Op.run, bind, Except.bind, Val.neg, $den:ident,
    ofInt_eq, ofK_eq, mk_const, const_eq, mkFq_eq, castHom_const, map_intCast, add_comm, mul_comm, sub_eq_add_neg]))

theorem binop_denI (op : Op) (a b : Val p f n) (x y : Int) (ha : denI a = some x) (hb : denI b = some y) :
    ∃ v, binop op a b = .ok v ∧ denI v = some (op.run x y) := by
  tower denI op a b ha hb

theorem binop_denZ (op : Op) (a b : Val p f n) (x y : Zp p) (ha : denZ a = some x) (hb : denZ b = some y) :
    ∃ v, binop op a b = .ok v ∧ denZ v = some (op.run x y) := by
  tower denZ op a b ha hb

theorem binop_denP (op : Op) (a b : Val p f n) (x y : CPoly (Zp p)) (ha : denP a = some x) (hb : denP b = some y) :
    ∃ v, binop op a b = .ok v ∧ denP v = some (op.run x y) := by
  tower denP op a b ha hb

theorem binop_denF (op : Op) (a b : Val p f n) (x y : Fq f) (ha : denF a = some x) (hb : denF b = some y) :
    ∃ v, binop op a b = .ok v ∧ denF v = some (op.run x y) := by
  tower denF op a b ha hb

theorem binop_denFP (op : Op) (a b : Val p f n) (x y : CPoly (Fq f)) (ha : denFP a = some x) (hb : denFP b = some y) :
    ∃ v, binop op a b = .ok v ∧ denFP v = some (op.run x y) := by
  tower denFP op a b ha hb

theorem binop_denMP (op : Op) (a b : Val p f n) (x y : MP n (Zp p)) (ha : denMP a = some x) (hb : denMP b = some y) :
    ∃ v, binop op a b = .ok v ∧ denMP v = some (op.run x y) := by
  tower denMP op a b ha hb

theorem binop_denMV (op : Op) (a b : Val p f n) (x y : MP n (Fq f)) (ha : denMV a = some x) (hb : denMV b = some y) :
    ∃ v, binop op a b = .ok v ∧ denMV v = some (op.run x y) := by
  tower denMV op a b ha hb

/-- The class of a result: that of the operand of higher precedence. -/
theorem binop_kind (op : Op) (a b v : Val p f n) (h : binop op a b = .ok v) :
    v.kind = if a.prec < b.prec then b.kind else a.kind := by
  cases a <;> cases b <;> cases op <;>
  simp [binop, addMul, vsub, typecheck, prec, castZp, castZpoly, castFq, castFqpoly, castMvp, castMv, bind, Except.bind, Val.neg] at h <;>
  first
    | (subst h; rfl)
    | (split_ifs at h <;> simp at h <;> (subst h; rfl))

theorem lift_self {v w : Val p f n} (h : Lift v w) (hk : v.kind = w.kind) : v = w := by
  cases v <;> cases w <;> simp_all [kind, Lift]

theorem lift_refl (v : Val p f n) : Lift v v := by cases v <;> simp [Lift]

theorem tower_self (k : Kind) : Tower k k := by cases k <;> simp [Tower]

theorem tower_prec {a b : Val p f n} (h : Tower b.kind a.kind) (hk : a.kind ≠ b.kind) :
    a.prec < b.prec := by
  cases a <;> cases b <;> simp_all [kind, prec, Tower]

/-- One operation in a tower, in the terms of the specification. -/
theorem binop_lift (op : Op) (a b a' b' : Val p f n) (ha : Lift a a') (hb : Lift b b') (hk : a'.kind = b'.kind)
    (ta : Tower a'.kind a.kind) (tb : Tower b'.kind b.kind) :
    ∃ v w, binop op a b = .ok v ∧ result op a' b' = some w ∧ Lift v w ∧ Tower w.kind v.kind ∧ w.kind = a'.kind := by
  cases a' with
  | int x =>
    cases b' <;> simp [kind] at hk
    rename_i y
    cases a <;> simp [Lift] at ha
    cases b <;> simp [Lift] at hb
    subst ha hb
    exact ⟨.int (op.run _ _), _, by cases op <;> rfl, rfl, lift_refl _, rfl, rfl⟩
  | zp x =>
    cases b' <;> simp [kind] at hk
    rename_i y
    obtain ⟨v, h1, h2⟩ := binop_denZ op a b x y ((denZ_iff _ _).2 ⟨ha, ta⟩) ((denZ_iff _ _).2 ⟨hb, tb⟩)
    rw [denZ_iff] at h2
    exact ⟨v, _, h1, rfl, h2.1, h2.2, rfl⟩
  | zpoly x =>
    cases b' <;> simp [kind] at hk
    rename_i y
    obtain ⟨v, h1, h2⟩ := binop_denP op a b x y ((denP_iff _ _).2 ⟨ha, ta⟩) ((denP_iff _ _).2 ⟨hb, tb⟩)
    rw [denP_iff] at h2
    exact ⟨v, _, h1, rfl, h2.1, h2.2, rfl⟩
  | fq x =>
    cases b' <;> simp [kind] at hk
    rename_i y
    obtain ⟨v, h1, h2⟩ := binop_denF op a b x y ((denF_iff _ _).2 ⟨ha, ta⟩) ((denF_iff _ _).2 ⟨hb, tb⟩)
    rw [denF_iff] at h2
    exact ⟨v, _, h1, rfl, h2.1, h2.2, rfl⟩
  | fqpoly x =>
    cases b' <;> simp [kind] at hk
    rename_i y
    obtain ⟨v, h1, h2⟩ := binop_denFP op a b x y ((denFP_iff _ _).2 ⟨ha, ta⟩) ((denFP_iff _ _).2 ⟨hb, tb⟩)
    rw [denFP_iff] at h2
    exact ⟨v, _, h1, rfl, h2.1, h2.2, rfl⟩
  | mvp x =>
    cases b' <;> simp [kind] at hk
    rename_i y
    obtain ⟨v, h1, h2⟩ := binop_denMP op a b x y ((denMP_iff _ _).2 ⟨ha, ta⟩) ((denMP_iff _ _).2 ⟨hb, tb⟩)
    rw [denMP_iff] at h2
    exact ⟨v, _, h1, rfl, h2.1, h2.2, rfl⟩
  | mv x =>
    cases b' <;> simp [kind] at hk
    rename_i y
    obtain ⟨v, h1, h2⟩ := binop_denMV op a b x y ((denMV_iff _ _).2 ⟨ha, ta⟩) ((denMV_iff _ _).2 ⟨hb, tb⟩)
    rw [denMV_iff] at h2
    exact ⟨v, _, h1, rfl, h2.1, h2.2, rfl⟩

/-- If one of the operands is of the larger class, so is the result. -/
theorem binop_top (op : Op) (a b a' b' : Val p f n) (ha : Lift a a') (hb : Lift b b') (hk : a'.kind = b'.kind)
    (ta : Tower a'.kind a.kind) (tb : Tower b'.kind b.kind) (h : a.kind = a'.kind ∨ b.kind = b'.kind) :
    ∃ w, binop op a b = .ok w ∧ result op a' b' = some w := by
  obtain ⟨v, w, h1, h2, h3, h4, h5⟩ := binop_lift op a b a' b' ha hb hk ta tb
  have hv := binop_kind op a b v h1
  have : v.kind = w.kind := by
    rw [h5, hv]
    split
    · rename_i hlt
      rcases h with h | h
      · by_contra hne
        have : Tower a.kind b.kind := by rw [h, hk]; exact tb
        by_cases e : b.kind = a.kind
        · exact hne (e.trans h)
        · exact absurd (tower_prec this e) (by omega)
      · rw [h, hk]
    · rename_i hlt
      rcases h with h | h
      · exact h
      · by_contra hne
        have : Tower b.kind a.kind := by rw [h, ← hk]; exact ta
        by_cases e : a.kind = b.kind
        · exact hne (e.trans (h.trans hk.symm))
        · exact hlt (tower_prec this e)
  exact ⟨w, by rw [h1, lift_self h3 this], h2⟩

theorem vpow_lift (a a' : Val p f n) (k : Nat) (ha : Lift a a') (ta : Tower a'.kind a.kind) :
    Lift (vpow a k) (vpow a' k) ∧ (vpow a k).kind = a.kind ∧ (vpow a' k).kind = a'.kind := by
  refine ⟨?_, by cases a <;> rfl, by cases a' <;> rfl⟩
  cases a' with
  | int x => cases a <;> simp [Lift] at ha; subst ha; simp [Lift, vpow]
  | zp x =>
    have := (denZ_iff _ _).2 ⟨ha, ta⟩
    refine ((denZ_iff _ _).1 ?_).1
    cases a <;> simp [denZ] at this <;> subst this <;> simp [vpow, denZ]
  | zpoly x =>
    have := (denP_iff _ _).2 ⟨ha, ta⟩
    refine ((denP_iff _ _).1 ?_).1
    cases a <;> simp [denP] at this <;> subst this <;> simp [vpow, denP]
  | fq x =>
    have := (denF_iff _ _).2 ⟨ha, ta⟩
    refine ((denF_iff _ _).1 ?_).1
    cases a <;> simp [denF] at this <;> subst this <;> simp [vpow, denF]
  | fqpoly x =>
    have := (denFP_iff _ _).2 ⟨ha, ta⟩
    refine ((denFP_iff _ _).1 ?_).1
    cases a <;> simp [denFP] at this <;> subst this <;> simp [vpow, denFP]
  | mvp x =>
    have := (denMP_iff _ _).2 ⟨ha, ta⟩
    refine ((denMP_iff _ _).1 ?_).1
    cases a <;> simp [denMP] at this <;> subst this <;> simp [vpow, denMP]
  | mv x =>
    have := (denMV_iff _ _).2 ⟨ha, ta⟩
    refine ((denMV_iff _ _).1 ?_).1
    cases a <;> simp [denMV] at this <;> subst this <;> simp [vpow, denMV]

theorem expr_lift (k : Kind) : ∀ e : Expr (Val p f n × Val p f n),
    e.All (fun l => Lift l.1 l.2 ∧ l.2.kind = k ∧ Tower k l.1.kind) →
    ∃ v w, (e.map Prod.fst).eval = .ok v ∧ (e.map Prod.snd).value = some w ∧ Lift v w ∧ w.kind = k ∧ Tower k v.kind
  | .leaf l, h => ⟨l.1, l.2, rfl, rfl, h.1, h.2.1, h.2.2⟩
  | .bin op l r, h => by
    obtain ⟨v1, w1, a1, a2, a3, a4, a5⟩ := expr_lift k l h.1
    obtain ⟨v2, w2, b1, b2, b3, b4, b5⟩ := expr_lift k r h.2
    obtain ⟨v, w, c1, c2, c3, c4, c5⟩ := binop_lift op v1 v2 w1 w2 a3 b3 (a4.trans b4.symm) (a4 ▸ a5) (b4 ▸ b5)
    refine ⟨v, w, ?_, ?_, c3, c5.trans a4, ?_⟩
    · simp [Expr.map, Expr.eval, a1, b1, bind, Except.bind, c1]
    · simp [Expr.map, Expr.value, a2, b2, c2]
    · rw [← a4, ← c5]; exact c4
  | .pow e j, h => by
    obtain ⟨v1, w1, a1, a2, a3, a4, a5⟩ := expr_lift k e h
    obtain ⟨h1, h2, h3⟩ := vpow_lift v1 w1 j a3 (a4 ▸ a5)
    refine ⟨vpow v1 j, vpow w1 j, ?_, ?_, h1, h3.trans a4, by rw [h2]; exact a5⟩
    · simp [Expr.map, Expr.eval, a1, bind, Except.bind]
    · simp [Expr.map, Expr.value, a2]

/-! ### Equality -/

theorem veq_lift (a b a' b' : Val p f n) (ha : Lift a a') (hb : Lift b b') (hk : a'.kind = b'.kind)
    (ta : Tower a'.kind a.kind) (tb : Tower b'.kind b.kind) (h : a.kind = a'.kind ∨ b.kind = b'.kind) :
    ∃ r, veq a b = .ok r ∧ (r = true ↔ a' = b') := by
  cases a' with
  | int x =>
    cases b' <;> simp [kind] at hk
    cases a <;> simp [Lift] at ha
    cases b <;> simp [Lift] at hb
    subst ha hb
    simp [veq]
  | zp x =>
    cases b' <;> simp [kind] at hk
    have A := (denZ_iff _ _).2 ⟨ha, ta⟩
    have B := (denZ_iff _ _).2 ⟨hb, tb⟩
    cases a <;> cases b <;> simp [denZ, kind] at A B h <;> subst A <;> subst B <;>
      simp [veq, eqMethod, prec, castZp, bind, Except.bind, ofInt_eq, eq_comm]
  | zpoly x =>
    cases b' <;> simp [kind] at hk
    have A := (denP_iff _ _).2 ⟨ha, ta⟩
    have B := (denP_iff _ _).2 ⟨hb, tb⟩
    cases a <;> cases b <;> simp [denP, kind] at A B h <;> subst A <;> subst B <;>
      simp [veq, eqMethod, prec, castZpoly, bind, Except.bind, ofInt_eq, mk_const, map_intCast, eq_comm]
  | fq x =>
    cases b' <;> simp [kind] at hk
    have A := (denF_iff _ _).2 ⟨ha, ta⟩
    have B := (denF_iff _ _).2 ⟨hb, tb⟩
    cases a <;> cases b <;> simp [denF, kind] at A B h <;> subst A <;> subst B <;>
      simp [veq, eqMethod, prec, castFq, bind, Except.bind, ofInt_eq, ofK_eq, mkFq_eq, map_intCast, eq_comm]
  | fqpoly x =>
    cases b' <;> simp [kind] at hk
    have A := (denFP_iff _ _).2 ⟨ha, ta⟩
    have B := (denFP_iff _ _).2 ⟨hb, tb⟩
    cases a <;> cases b <;> simp [denFP, kind] at A B h <;> subst A <;> subst B <;>
      simp [veq, eqMethod, prec, castFqpoly, bind, Except.bind, ofInt_eq, ofK_eq, mk_const, map_intCast, eq_comm]
  | mvp x =>
    cases b' <;> simp [kind] at hk
    have A := (denMP_iff _ _).2 ⟨ha, ta⟩
    have B := (denMP_iff _ _).2 ⟨hb, tb⟩
    cases a <;> cases b <;> simp [denMP, kind] at A B h <;> subst A <;> subst B <;>
      simp [veq, eqMethod, prec, castMvp, bind, Except.bind, ofInt_eq, const_eq, map_intCast, eq_comm]
  | mv x =>
    cases b' <;> simp [kind] at hk
    have A := (denMV_iff _ _).2 ⟨ha, ta⟩
    have B := (denMV_iff _ _).2 ⟨hb, tb⟩
    cases a <;> cases b <;> simp [denMV, kind] at A B h <;> subst A <;> subst B <;>
      simp [veq, eqMethod, prec, castMv, bind, Except.bind, ofInt_eq, ofK_eq, const_eq, map_intCast, eq_comm]

/-! ### Evaluation -/

section eval
variable {R : Type} [CommRing R] (den : Val p f n → Option R)

/-- `den` follows the code's arithmetic. -/
def Follows : Prop := ∀ op a b x y, den a = some x → den b = some y → ∃ v, binop op a b = .ok v ∧ den v = some (op.run x y)

theorem follows_denZ : Follows (denZ (f := f) (n := n) (p := p)) := binop_denZ
theorem follows_denP : Follows (denP (f := f) (n := n) (p := p)) := binop_denP
theorem follows_denF : Follows (denF (f := f) (n := n) (p := p)) := binop_denF
theorem follows_denMP : Follows (denMP (f := f) (n := n) (p := p)) := binop_denMP
theorem follows_denMV : Follows (denMV (f := f) (n := n) (p := p)) := binop_denMV

variable {den}

theorem evalLoop_den (hd : Follows den) (x : Val p f n) (X : R) (hx : den x = some X) : ∀ (l : List (Val p f n)) (L : List R)
    (y pw : Val p f n) (Y PW : R), l.map den = L.map some → den y = some Y → den pw = some PW →
    ∃ v, evalLoop x l y pw = .ok v ∧ den v = some (Y + PW * (toPoly L).eval X)
  | [], L, y, pw, Y, PW, hl, hy, hw => by
    cases L with
    | nil => exact ⟨y, rfl, by simpa [toPoly_nil] using hy⟩
    | cons _ _ => simp at hl
  | a :: l, L, y, pw, Y, PW, hl, hy, hw => by
    cases L with
    | nil => simp at hl
    | cons b L =>
      simp only [List.map_cons, List.cons.injEq] at hl
      obtain ⟨t, h1, h2⟩ := hd .mul pw a _ _ hw hl.1
      obtain ⟨y', h3, h4⟩ := hd .add y t _ _ hy h2
      obtain ⟨pw', h5, h6⟩ := hd .mul pw x _ _ hw hx
      obtain ⟨v, h7, h8⟩ := evalLoop_den hd x X hx l L y' pw' _ _ hl.2 h4 h6
      refine ⟨v, ?_, ?_⟩
      · simp [evalLoop, h1, h3, h5, h7, bind, Except.bind]
      · rw [h8]; simp [Op.run, toPoly_cons]; ring

theorem monoLoop_den (hd : Follows den) (hpow : ∀ a x k, den a = some x → den (vpow a k) = some (x ^ k)) :
    ∀ (vals : List (Val p f n)) (V : List R) (t : List Nat) (acc : Val p f n) (A : R), vals.map den = V.map some → den acc = some A →
    ∃ v, monoLoop vals t acc = .ok v ∧ den v = some (A * (List.zipWith (fun x e => x ^ e) V t).prod)
  | [], V, t, acc, A, hv, ha => by
    cases V with
    | nil => exact ⟨acc, by simp [monoLoop], by simpa using ha⟩
    | cons _ _ => simp at hv
  | x :: vals, V, t, acc, A, hv, ha => by
    cases V with
    | nil => simp at hv
    | cons X V =>
      simp only [List.map_cons, List.cons.injEq] at hv
      cases t with
      | nil => exact ⟨acc, by simp [monoLoop], by simpa using ha⟩
      | cons e t =>
        obtain ⟨a', h1, h2⟩ := hd .mul acc (vpow x e) _ _ ha (hpow _ _ e hv.1)
        obtain ⟨v, h3, h4⟩ := monoLoop_den hd hpow vals V t a' _ hv.2 h2
        refine ⟨v, by simp [monoLoop, h1, h3, bind, Except.bind], ?_⟩
        rw [h4]; simp [Op.run, mul_assoc]

theorem sumLoop_den (hd : Follows den) (hpow : ∀ a x k, den a = some x → den (vpow a k) = some (x ^ k)) (one : Val p f n)
    (h1 : den one = some 1) (vals : List (Val p f n)) (V : List R) (hv : vals.map den = V.map some) :
    ∀ (l : List (List Nat × Val p f n)) (L : List (List Nat × R)) (y : Val p f n) (Y : R),
    l.map (fun e => (e.1, den e.2)) = L.map (fun e => (e.1, some e.2)) → den y = some Y →
    ∃ v, sumLoop one vals l y = .ok v ∧
      den v = some (Y + (L.map fun e => e.2 * (List.zipWith (fun x k => x ^ k) V e.1).prod).sum)
  | [], L, y, Y, hl, hy => by
    cases L with
    | nil => exact ⟨y, rfl, by simpa using hy⟩
    | cons _ _ => simp at hl
  | (t, c) :: l, L, y, Y, hl, hy => by
    cases L with
    | nil => simp at hl
    | cons b L =>
      obtain ⟨t', C⟩ := b
      simp only [List.map_cons, List.cons.injEq, Prod.mk.injEq] at hl
      obtain ⟨⟨rfl, hc⟩, hl⟩ := hl
      obtain ⟨m, a1, a2⟩ := monoLoop_den hd hpow vals V t one _ hv h1
      obtain ⟨s, b1, b2⟩ := hd .mul c m _ _ hc a2
      obtain ⟨y', c1, c2⟩ := hd .add y s _ _ hy b2
      obtain ⟨v, d1, d2⟩ := sumLoop_den hd hpow one h1 vals V hv l L y' _ hl c2
      refine ⟨v, by simp [sumLoop, a1, b1, c1, d1, bind, Except.bind], ?_⟩
      rw [d2]; simp [Op.run, add_assoc]

end eval

theorem prec_of_kind {a b : Val p f n} (h : a.kind = b.kind) : a.prec = b.prec := by
  cases a <;> cases b <;> simp_all [kind, prec]

theorem evalLoop_kind (x : Val p f n) : ∀ (l : List (Val p f n)) (y pw v : Val p f n), (∀ a ∈ l, a.prec < x.prec) →
    y.kind = x.kind → pw.kind = x.kind → evalLoop x l y pw = .ok v → v.kind = x.kind
  | [], y, pw, v, _, hy, _, h => by simp [evalLoop] at h; rw [← h, hy]
  | a :: l, y, pw, v, hl, hy, hw, h => by
    simp only [evalLoop, Air.bind_iff] at h
    obtain ⟨t, h1, y', h2, pw', h3, h4⟩ := h
    have ha := hl a (by simp)
    have e1 := binop_kind _ _ _ _ h1
    have e2 := binop_kind _ _ _ _ h2
    have e3 := binop_kind _ _ _ _ h3
    have p1 := prec_of_kind hw
    rw [if_neg (by omega), hw] at e1
    rw [if_neg (by rw [prec_of_kind hy, prec_of_kind e1]; omega), hy] at e2
    rw [if_neg (by omega), hw] at e3
    exact evalLoop_kind x l y' pw' v (fun b hb => hl b (by simp [hb])) e2 e3 h4

/-- With at least two coefficients the result is of the argument's class. -/
theorem evalLoop_kind_two (x a b : Val p f n) (l : List (Val p f n)) (y v : Val p f n) (hl : ∀ c ∈ a :: b :: l, c.prec < x.prec)
    (hy : y.prec < x.prec) (ha : 0 < a.prec) (h : evalLoop x (a :: b :: l) y (.int 1) = .ok v) : v.kind = x.kind := by
  simp only [evalLoop, Air.bind_iff] at h
  obtain ⟨t, h1, y', h2, pw', h3, t2, h4, y2, h5, pw2, h6, h7⟩ := h
  have hpa := hl a (by simp)
  have hpb := hl b (by simp)
  have pi : (Val.int 1 : Val p f n).prec = 0 := rfl
  have e1 := binop_kind _ _ _ _ h1
  rw [if_pos (by omega)] at e1
  have e3 := binop_kind _ _ _ _ h3
  rw [if_pos (by omega)] at e3
  have q1 := prec_of_kind e1
  have q3 := prec_of_kind e3
  have e2 : y'.prec < x.prec := by
    have := binop_kind _ _ _ _ h2
    split at this
    · rw [prec_of_kind this]; omega
    · rw [prec_of_kind this]; omega
  have e4 := binop_kind _ _ _ _ h4
  rw [if_neg (by omega), e3] at e4
  have q4 := prec_of_kind e4
  have e5 := binop_kind _ _ _ _ h5
  rw [if_pos (by omega), e4] at e5
  have e6 := binop_kind _ _ _ _ h6
  rw [if_neg (by omega), e3] at e6
  exact evalLoop_kind x l y2 pw2 v (fun c hc => hl c (by simp [hc])) e5 e6 h7

/-! ### Polynomials -/

theorem toPoly_map {R S : Type} [CommRing R] [CommRing S] (φ : R →+* S) : ∀ l : List R, toPoly (l.map φ) = (toPoly l).map φ
  | [] => by simp [toPoly_nil]
  | a :: l => by simp [toPoly_cons, toPoly_map φ l]

theorem mapFq_eq (d : CPoly (Zp p)) (c' : CPoly (Fq f)) (h : Lift (.zpoly d : Val p f n) (.fqpoly c')) :
    CPoly.mk (d.1.map Fq.ofK) = c' := by
  apply CPoly.val_inj
  have : (CPoly.mk (d.1.map (Fq.ofK : Zp p → Fq f))).val = d.val.map (ofKHom f) :=
    (CPoly.val_mk _).trans (toPoly_map (ofKHom f) d.1)
  rw [this]
  ext i
  apply Fq.val_inj
  rw [Polynomial.coeff_map, ← ofK_eq, Fq.val_ofK]
  exact (h i).symm

section call
variable {R : Type} [CommRing R] {den : Val p f n → Option R}

theorem callZp_den (hd : Follows den) (φ : Zp p →+* R) (hφ : ∀ a, den (.zp a) = some (φ a)) (hi : den (.int 1) = some 1)
    (g : CPoly (Zp p)) (x : Val p f n) (X : R) (hx : den x = some X) :
    ∃ v, callZp g x = .ok v ∧ den v = some (g.val.eval₂ φ X) := by
  obtain ⟨v, h1, h2⟩ := evalLoop_den hd x X hx (g.1.map .zp) (g.1.map φ) (.zp 0) (.int 1) (φ 0) 1
    (by simp [hφ]) (hφ 0) hi
  refine ⟨v, h1, ?_⟩
  rw [h2, toPoly_map, Polynomial.eval_map]
  simp [CPoly.val]

theorem callFq_den (hd : Follows den) (φ : Fq f →+* R) (hφ : ∀ a, den (.fq a) = some (φ a)) (hi : den (.int 1) = some 1)
    (g : CPoly (Fq f)) (x : Val p f n) (X : R) (hx : den x = some X) :
    ∃ v, callFq g x = .ok v ∧ den v = some (g.val.eval₂ φ X) := by
  obtain ⟨v, h1, h2⟩ := evalLoop_den hd x X hx (g.1.map .fq) (g.1.map φ) (.fq 0) (.int 1) (φ 0) 1
    (by simp [hφ]) (hφ 0) hi
  refine ⟨v, h1, ?_⟩
  rw [h2, toPoly_map, Polynomial.eval_map]
  simp [CPoly.val]

end call

theorem two_le_of_natDegree {R : Type} [CommRing R] [DecidableEq R] (g : CPoly R) (h : 1 ≤ g.val.natDegree) :
    ∃ a b l, g.1 = a :: b :: l := by
  rcases hg : g.1 with _ | ⟨a, _ | ⟨b, l⟩⟩
  · rw [CPoly.val, hg, toPoly_nil] at h; simp at h
  · rw [CPoly.val, hg, toPoly_cons, toPoly_nil] at h; simp at h
  · exact ⟨a, b, l, rfl⟩

theorem callZp_kind (g : CPoly (Zp p)) (h : 1 ≤ g.val.natDegree) (x v : Val p f n) (hx : 1 < x.prec) (hv : callZp g x = .ok v) :
    v.kind = x.kind := by
  obtain ⟨a, b, l, hg⟩ := two_le_of_natDegree g h
  rw [callZp, hg] at hv
  refine evalLoop_kind_two x (.zp a) (.zp b) (l.map .zp) (.zp 0) v ?_ hx (by simp [prec]) hv
  intro c hc
  simp only [List.mem_cons, List.mem_map] at hc
  rcases hc with rfl | rfl | ⟨c, -, rfl⟩ <;> exact hx

theorem callFq_kind (g : CPoly (Fq f)) (h : 1 ≤ g.val.natDegree) (x v : Val p f n) (hx : 3 < x.prec) (hv : callFq g x = .ok v) :
    v.kind = x.kind := by
  obtain ⟨a, b, l, hg⟩ := two_le_of_natDegree g h
  rw [callFq, hg] at hv
  refine evalLoop_kind_two x (.fq a) (.fq b) (l.map .fq) (.fq 0) v ?_ hx (by simp [prec]) hv
  intro c hc
  simp only [List.mem_cons, List.mem_map] at hc
  rcases hc with rfl | rfl | ⟨c, -, rfl⟩ <;> exact hx

/-- The result keeps the class of the running sum when the other values have lower precedence. -/
theorem evalLoop_low (x : Val p f n) : ∀ (l : List (Val p f n)) (y pw v : Val p f n), (∀ a ∈ l, a.kind = y.kind) →
    x.prec ≤ y.prec → pw.prec ≤ y.prec → (x.prec = y.prec → x.kind = y.kind) → (pw.prec = y.prec → pw.kind = y.kind) →
    evalLoop x l y pw = .ok v → v.kind = y.kind
  | [], y, pw, v, _, _, _, _, _, h => by simp [evalLoop] at h; rw [h]
  | a :: l, y, pw, v, hl, hx, hw, kx, kw, h => by
    simp only [evalLoop, Air.bind_iff] at h
    obtain ⟨t, h1, y', h2, pw', h3, h4⟩ := h
    have ha := hl a (by simp)
    have pa := prec_of_kind ha
    have e1 : t.kind = y.kind := by
      have := binop_kind _ _ _ _ h1
      split at this
      · rw [this, ha]
      · rw [this]; exact kw (by omega)
    have e2 : y'.kind = y.kind := by
      have := binop_kind _ _ _ _ h2
      split at this
      · rw [this, e1]
      · exact this
    have e3 : pw'.prec ≤ y.prec ∧ (pw'.prec = y.prec → pw'.kind = y.kind) := by
      have := binop_kind _ _ _ _ h3
      split at this
      · exact ⟨by rw [prec_of_kind this]; exact hx, fun h => by rw [this]; exact kx (by rw [← h, prec_of_kind this])⟩
      · exact ⟨by rw [prec_of_kind this]; exact hw, fun h => by rw [this]; exact kw (by rw [← h, prec_of_kind this])⟩
    have py := prec_of_kind e2
    exact (evalLoop_low x l y' pw' v (fun b hb => by rw [hl b (by simp [hb]), e2])
      (by omega) (by omega) (fun h => by rw [e2]; exact kx (by omega)) (fun h => by rw [e2]; exact e3.2 (by omega)) h4).trans e2

/-! ### Polynomials in several variables -/

theorem zipWith_prod {R : Type} [CommRing R] : ∀ (w : Nat) (V : List R) (t : List Nat), V.length = w → t.length = w →
    (List.zipWith (fun x k => x ^ k) V t).prod = ∏ i : Fin w, V.getD i 0 ^ t.getD i 0
  | 0, V, t, hV, _ => by simp [List.length_eq_zero_iff.mp hV]
  | w + 1, V, t, hV, ht => by
    cases V with
    | nil => simp at hV
    | cons x V =>
      cases t with
      | nil => simp at ht
      | cons e t =>
        rw [Fin.prod_univ_succ]
        simp [zipWith_prod w V t (by simpa using hV) (by simpa using ht)]

theorem toMv_eval {R S : Type} [CommRing R] [DecidableEq R] [CommRing S] (φ : R →+* S) (w : Nat) (V : List S) (hV : V.length = w) :
    ∀ d : Dict R, (∀ e ∈ d, e.1.length = w) →
    (d.map fun e => φ e.2 * (List.zipWith (fun x k => x ^ k) V e.1).prod).sum = (toMv w d).eval₂ φ (fun i : Fin w => V.getD i 0)
  | [], _ => by simp
  | e :: d, h => by
    rw [List.map_cons, List.sum_cons, toMv_eval φ w V hV d fun e he => h e (by simp [he]), toMv_cons, MvPolynomial.eval₂_add,
      MvPolynomial.eval₂_monomial, zipWith_prod w V e.1 hV (h e (by simp))]
    congr 2
    rw [Finsupp.prod_fintype _ _ (by simp)]
    rfl

section mvcall
variable {R : Type} [CommRing R] {den : Val p f n → Option R}

theorem mvCallZp_den (hd : Follows den) (hpow : ∀ a x k, den a = some x → den (vpow a k) = some (x ^ k)) (φ : Zp p →+* R)
    (hφ : ∀ a, den (.zp a) = some (φ a)) {w : Nat} (g : MP w (Zp p)) (vals : List (Val p f n)) (V : List R) (hw : vals.length = w)
    (hv : vals.map den = V.map some) :
    ∃ v, mvCallZp g vals = .ok v ∧ den v = some (g.val.eval₂ φ (fun i : Fin w => V.getD i 0)) := by
  have hV : V.length = w := by rw [← hw]; simpa using (congrArg List.length hv).symm
  obtain ⟨v, h1, h2⟩ := sumLoop_den hd hpow (.zp 1) (by rw [hφ, map_one]) vals V hv (g.1.map fun e => (e.1, .zp e.2))
    (g.1.map fun e => (e.1, φ e.2)) (.zp 0) 0 (by simp [hφ]) (by rw [hφ, map_zero])
  refine ⟨v, by rw [mvCallZp, if_pos hw, h1], ?_⟩
  rw [h2, zero_add, List.map_map]
  congr 1
  exact toMv_eval φ w V hV g.1 g.2.len

theorem mvCallFq_den (hd : Follows den) (hpow : ∀ a x k, den a = some x → den (vpow a k) = some (x ^ k)) (φ : Fq f →+* R)
    (hφ : ∀ a, den (.fq a) = some (φ a)) {w : Nat} (g : MP w (Fq f)) (vals : List (Val p f n)) (V : List R) (hw : vals.length = w)
    (hv : vals.map den = V.map some) :
    ∃ v, mvCallFq g vals = .ok v ∧ den v = some (g.val.eval₂ φ (fun i : Fin w => V.getD i 0)) := by
  have hV : V.length = w := by rw [← hw]; simpa using (congrArg List.length hv).symm
  obtain ⟨v, h1, h2⟩ := sumLoop_den hd hpow (.fq 1) (by rw [hφ, map_one]) vals V hv (g.1.map fun e => (e.1, .fq e.2))
    (g.1.map fun e => (e.1, φ e.2)) (.fq 0) 0 (by simp [hφ]) (by rw [hφ, map_zero])
  refine ⟨v, by rw [mvCallFq, if_pos hw, h1], ?_⟩
  rw [h2, zero_add, List.map_map]
  congr 1
  exact toMv_eval φ w V hV g.1 g.2.len

end mvcall

theorem pow_denZ (a : Val p f n) (x : Zp p) (k : Nat) (h : denZ a = some x) : denZ (vpow a k) = some (x ^ k) := by
  cases a <;> simp [denZ] at h <;> subst h <;> simp [vpow, denZ]
theorem pow_denP (a : Val p f n) (x : CPoly (Zp p)) (k : Nat) (h : denP a = some x) : denP (vpow a k) = some (x ^ k) := by
  cases a <;> simp [denP] at h <;> subst h <;> simp [vpow, denP]
theorem pow_denF (a : Val p f n) (x : Fq f) (k : Nat) (h : denF a = some x) : denF (vpow a k) = some (x ^ k) := by
  cases a <;> simp [denF] at h <;> subst h <;> simp [vpow, denF]
theorem pow_denMP (a : Val p f n) (x : MP n (Zp p)) (k : Nat) (h : denMP a = some x) : denMP (vpow a k) = some (x ^ k) := by
  cases a <;> simp [denMP] at h <;> subst h <;> simp [vpow, denMP]
theorem pow_denMV (a : Val p f n) (x : MP n (Fq f)) (k : Nat) (h : denMV a = some x) : denMV (vpow a k) = some (x ^ k) := by
  cases a <;> simp [denMV] at h <;> subst h <;> simp [vpow, denMV]

end Verif.Typecheck
