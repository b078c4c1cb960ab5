import Verif.Model.Stark
import Verif.Spec.Stark
import Verif.Proofs.Air
import Verif.Proofs.PolyUtils
import Verif.Proofs.FFT
import Mathlib.Algebra.Polynomial.FieldDivision
import Mathlib.LinearAlgebra.Lagrange
import Mathlib.RingTheory.Polynomial.Basic
/-!
# Proofs about the polynomial constructions of the STARK
-/

namespace Verif.Stark
open Poly PolyUtils Air
open Mv (Dict toMv)
open scoped Polynomial
open Polynomial (C X)

set_option linter.unusedSectionVars false
variable {K : Type _} [Field K] [DecidableEq K]

/-- The interpretation of polynomial objects, as an algebra map. -/
noncomputable def valAlg : CPoly K →ₐ[K] K[X] :=
  { (CPoly.equiv (R := K)).toRingHom with commutes' := fun c => CPoly.val_algebraMap c }

theorem valAlg_apply (f : CPoly K) : valAlg f = f.val := rfl

/-- The polynomial a value stands for. -/
noncomputable def PVal.toP : PVal K → K[X]
  | .elt c => C c
  | .poly f => toPoly f

def PVal.Good : PVal K → Prop
  | .elt _ => True
  | .poly f => Canon f

theorem call_cpoly (f : List K) (x : CPoly K) : toPoly (call f x).1 = (toPoly f).comp x.val := by
  change (call f x).val = _
  rw [call_spec, ← valAlg_apply, ← Polynomial.aeval_algHom_apply, valAlg_apply, ← Polynomial.comp_eq_aeval]

theorem scaledX_val (g : K) : (scaledX g).val = C g * X := by
  simp [scaledX, toPoly_cons, toPoly_nil]

theorem callAt_toP (f : List K) (x : CPoly K) : (callAt f x).toP = (toPoly f).comp x.val := by
  unfold callAt
  split
  · next h =>
    match f, h with
    | [], _ => simp [PVal.toP, toPoly_nil]
    | [c], _ => simp [PVal.toP, toPoly_cons, toPoly_nil]
  · exact call_cpoly f x

theorem callAt_good (f : List K) (x : CPoly K) : (callAt f x).Good := by
  unfold callAt
  split
  · trivial
  · exact (call f x).2

theorem psub_toP (a b : PVal K) : (psub a b).toP = a.toP - b.toP := by
  cases a <;> cases b <;> simp [psub, PVal.toP, toPoly_add, toPoly_neg, toPoly_sub, toPoly_ctor, toPoly_cons, toPoly_nil]
  all_goals ring

theorem psub_good {a b : PVal K} : (psub a b).Good := by
  cases a <;> cases b <;> simp [psub, PVal.Good, canon_add, canon_sub]

theorem mvCallAt_spec {n : Nat} {f : Dict K} (h : ∀ e ∈ f, e.1.length = n) (vals : List (List K)) (hv : vals.length = n) :
    ∃ r, mvCallAt n f vals = .ok r ∧ r.toP = MvPolynomial.aeval (fun i : Fin n => toPoly (vals.getD i [])) (toMv n f) ∧
      (f ≠ [] → ∃ g, r = .poly g) ∧ (f = [] → r = .elt 0) := by
  rw [mvCallAt, Mv.call_spec h (vals.map CPoly.mk) (by simpa using hv)]
  simp only [bind, Except.bind]
  have e : (MvPolynomial.aeval (fun i : Fin n => (vals.map CPoly.mk).getD i 0) (toMv n f) : CPoly K).val =
      MvPolynomial.aeval (fun i : Fin n => toPoly (vals.getD i [])) (toMv n f) := by
    rw [← valAlg_apply, MvPolynomial.comp_aeval_apply]
    congr 2
    funext i
    have hi : (i : Nat) < vals.length := by rw [hv]; exact i.2
    simp [hi, valAlg_apply]
  refine ⟨_, rfl, ?_, ?_, ?_⟩
  · split
    · next he =>
      rw [List.isEmpty_iff] at he
      subst he
      simp [PVal.toP, Mv.toMv]
    · exact e
  · intro hne
    rw [if_neg (by simpa using hne)]
    exact ⟨_, rfl⟩
  · rintro rfl
    rfl

/-- The constraint polynomial of one coordinate. -/
noncomputable def cpoly (n : Nat) (g : K) (P : List (List K)) (f : Dict K) (pd : List K) : K[X] :=
  (toPoly pd).comp (C g * X) - MvPolynomial.aeval (fun i : Fin n => toPoly (P.getD i [])) (toMv n f)

theorem constraintPolys_spec {n : Nat} {polys : List (Dict K)} (hw : ∀ f ∈ polys, Mv.WF n f) (P : List (List K)) (hP : P.length = n)
    (hp : n ≤ polys.length) (g : K) :
    ∃ cps, constraintPolys n polys P g = .ok cps ∧ cps.length = n ∧ ∀ d, d < n → ∃ c, cps[d]? = some c ∧
      c.toP = cpoly n g P (polys.getD d []) (P.getD d []) ∧ c.Good ∧
      (polys.getD d [] ≠ [] ∨ 2 ≤ (P.getD d []).length → ∃ h, c = .poly h) ∧
      (polys.getD d [] = [] → (P.getD d []).length ≤ 1 → ∃ a, c = .elt a) := by
  have hmap : ∀ nf ∈ (P.map fun f => callAt f (scaledX g)).zip polys, ∃ r, (do
      let s ← mvCallAt n nf.2 P
      .ok (psub nf.1 s) : Py (PVal K)) = .ok r := by
    intro nf hnf
    obtain ⟨r, h1, -⟩ := mvCallAt_spec (hw nf.2 (List.of_mem_zip hnf).2).len P hP
    exact ⟨psub nf.1 r, by rw [h1]; rfl⟩
  have hall : ∃ cps, constraintPolys n polys P g = .ok cps := by
    unfold constraintPolys
    revert hmap
    generalize ((P.map fun f => callAt f (scaledX g)).zip polys) = l
    intro hmap
    induction l with
    | nil => exact ⟨[], rfl⟩
    | cons a l ih =>
      obtain ⟨r, hr⟩ := hmap a (by simp)
      obtain ⟨rs, hrs⟩ := ih fun x hx => hmap x (by simp [hx])
      exact ⟨r :: rs, by simp only [pyMap]; rw [hr, hrs]; rfl⟩
  obtain ⟨cps, hc⟩ := hall
  obtain ⟨h1, h2⟩ := (pyMap_iff _ _ _).1 hc
  refine ⟨cps, hc, by simpa [hP, hp] using h1, ?_⟩
  intro d hd
  have hdP : d < P.length := by omega
  have hdp : d < polys.length := by omega
  obtain ⟨c, e1, e2⟩ := h2 d (callAt P[d] (scaledX g), polys[d]) (by
    simp [hdP, hdp])
  rw [bind_iff] at e2
  obtain ⟨s, e3, e4⟩ := e2
  cases e4
  obtain ⟨r, f1, f2, f3, f4⟩ := mvCallAt_spec (hw polys[d] (List.getElem_mem hdp)).len P hP
  rw [f1] at e3
  cases e3
  refine ⟨_, e1, ?_, psub_good, ?_, ?_⟩
  · rw [psub_toP, callAt_toP, scaledX_val, f2]
    simp [cpoly, hdP, hdp]
  · rintro (hne | hne)
    · obtain ⟨h, rfl⟩ := f3 (by simpa [hdp] using hne)
      cases callAt P[d] (scaledX g) <;> exact ⟨_, rfl⟩
    · rw [List.getD_eq_getElem?_getD, List.getElem?_eq_getElem hdP, Option.getD_some] at hne
      rw [callAt, if_neg (by omega)]
      cases s <;> exact ⟨_, rfl⟩
  · intro h0 h1
    rw [List.getD_eq_getElem?_getD, List.getElem?_eq_getElem hdP, Option.getD_some] at h1
    rw [callAt, if_pos h1, f4 (by simpa [hdp] using h0)]
    exact ⟨_, rfl⟩

/-! ### The vanishing polynomial -/

/-- `(x - 1)(x - g)⋯(x - g^(k-1))` -/
noncomputable def zprod (g : K) (k : Nat) : K[X] := ∏ i ∈ Finset.range k, (X - C (g ^ i))

theorem zprod_dvd_iff {g : K} {k : Nat} (hinj : ∀ i j, i < k → j < k → g ^ i = g ^ j → i = j) (f : K[X]) :
    zprod g k ∣ f ↔ ∀ i, i < k → f.eval (g ^ i) = 0 := by
  constructor
  · intro h i hi
    have : (X - C (g ^ i)) ∣ f := (Finset.dvd_prod_of_mem (fun i => X - C (g ^ i)) (Finset.mem_range.2 hi)).trans h
    exact Polynomial.dvd_iff_isRoot.1 this
  · intro h
    apply Finset.prod_dvd_of_coprime
    · intro i hi j hj hij
      have hi' : i < k := by simpa using hi
      have hj' : j < k := by simpa using hj
      apply Polynomial.isCoprime_X_sub_C_of_isUnit_sub
      exact (sub_ne_zero.2 fun e => hij (hinj i j hi' hj' e)).isUnit
    · intro i hi
      exact Polynomial.dvd_iff_isRoot.2 (h i (Finset.mem_range.1 hi))

theorem zprod_monic (g : K) (k : Nat) : (zprod g k).Monic := Polynomial.monic_prod_of_monic _ _ fun _ _ => Polynomial.monic_X_sub_C _

theorem zprod_natDegree (g : K) (k : Nat) : (zprod g k).natDegree = k := by
  unfold zprod
  rw [Polynomial.natDegree_prod_of_monic _ _ fun i _ => Polynomial.monic_X_sub_C _]
  simp only [Polynomial.natDegree_X_sub_C]
  simp

theorem pow_inj_of_order {g : K} {n : Nat} (hg : orderOf g = n) : ∀ i j, i < n → j < n → g ^ i = g ^ j → i = j := by
  subst hg
  exact fun i j hi hj h => pow_injOn_Iio_orderOf hi hj h

theorem zprod_full {g : K} {n : Nat} (h0 : 0 < n) (hg : orderOf g = n) : zprod g n = X ^ n - 1 := by
  have hm : (X ^ n - 1 : K[X]).Monic := by simpa using Polynomial.monic_X_pow_sub_C (1 : K) h0.ne'
  symm
  apply Polynomial.eq_of_monic_of_dvd_of_natDegree_le (zprod_monic _ _) hm
  · rw [zprod_dvd_iff (pow_inj_of_order hg)]
    intro i hi
    have h1 : g ^ n = 1 := hg ▸ pow_orderOf_eq_one g
    simp only [Polynomial.eval_sub, Polynomial.eval_pow, Polynomial.eval_X, Polynomial.eval_one]
    rw [← pow_mul, mul_comm, pow_mul, h1, one_pow, sub_self]
  · rw [zprod_natDegree]
    have := Polynomial.natDegree_X_pow_sub_C (n := n) (r := (1 : K))
    rw [Polynomial.C_1] at this
    rw [this]

theorem zPoly_spec {g : K} {n : Nat} (h0 : 0 < n) (hg : orderOf g = n) :
    ∃ z, zPoly n (g ^ (n - 1)) = .ok z ∧ Canon z ∧ toPoly z = zprod g (n - 1) := by
  obtain ⟨Xn, h1, h2, h3⟩ := pyPow_interp (φ := toPoly) (P := Canon) (canon_one (R := K)) toPoly_one
    (fun a b _ _ => ⟨canon_mul a b, toPoly_mul a b⟩) (canon_ctor [(0 : K), 1]) n
  have hX : toPoly (ctor [(0 : K), 1]) = X := by simp [toPoly_ctor, toPoly_cons, toPoly_nil]
  set num := add Xn (ctor [-1]) with hnum
  set den := add (ctor [(0 : K), 1]) (ctor [-(g ^ (n - 1))]) with hden
  have enum : toPoly num = X ^ n - 1 := by
    rw [hnum, toPoly_add, h3, hX, toPoly_ctor]; simp [toPoly_cons, toPoly_nil]; ring
  have eden : toPoly den = X - C (g ^ (n - 1)) := by
    rw [hden, toPoly_add, hX, toPoly_ctor]; simp [toPoly_cons, toPoly_nil]; ring
  have hden0 : den ≠ [] := by
    intro h
    rw [h, toPoly_nil] at eden
    exact Polynomial.X_sub_C_ne_zero _ eden.symm
  have hfac : toPoly num = toPoly den * zprod g (n - 1) := by
    rw [enum, eden, ← zprod_full h0 hg]
    conv_lhs => rw [show n = n - 1 + 1 by omega, zprod, Finset.prod_range_succ, mul_comm]
    rfl
  obtain ⟨r, e1, e2, e3, -⟩ := mod_eq (canon_add _ _) (canon_add _ _) hden0 (f := num)
  obtain ⟨q, f1, f2, f3⟩ := truediv_eq (canon_add _ _) (canon_add _ _) hden0 (f := num)
  have hden1 : toPoly den ≠ 0 := by rw [eden]; exact Polynomial.X_sub_C_ne_zero _
  have hr : r = [] := by
    rw [← toPoly_eq_zero e2, e3, hfac, EuclideanDomain.mod_eq_zero]
    exact dvd_mul_right _ _
  refine ⟨q, ?_, f2, ?_⟩
  · have hc : ctor [(0 : K)] = [] := (toPoly_eq_zero (canon_ctor _)).1 (by simp [toPoly_ctor, toPoly_cons, toPoly_nil])
    simp only [zPoly, h1, bind, Except.bind]
    rw [← hnum, ← hden, e1, hr]
    simp only [hc]
    rw [show eq ([] : List K) [] = true from eq_iff.2 rfl]
    exact f1
  · rw [f3, hfac, mul_div_cancel_left₀ _ hden1]

/-! ### Remainder polynomials -/

theorem pyMap_all {α β : Type _} {f : α → Py β} : ∀ {l : List α}, (∀ a ∈ l, ∃ b, f a = .ok b) → ∃ r, pyMap f l = .ok r
  | [], _ => ⟨[], rfl⟩
  | a :: l, h => by
    obtain ⟨b, hb⟩ := h a (by simp)
    obtain ⟨r, hr⟩ := pyMap_all (l := l) fun x hx => h x (by simp [hx])
    exact ⟨b :: r, by simp only [pyMap, hb, hr, bind, Except.bind]⟩

theorem pyMap_fails {α β : Type _} {f : α → Py β} {e : PyErr} : ∀ {l : List α}, (∀ a ∈ l, (∃ b, f a = .ok b) ∨ f a = .error e) →
    (∃ a ∈ l, f a = .error e) → pyMap f l = .error e
  | [], _, h => by simp at h
  | a :: l, h1, h2 => by
    rcases h1 a (by simp) with ⟨b, hb⟩ | he
    · have : ∃ a ∈ l, f a = .error e := by
        obtain ⟨x, hx, hxe⟩ := h2
        rcases List.mem_cons.1 hx with rfl | hx
        · rw [hb] at hxe; cases hxe
        · exact ⟨x, hx, hxe⟩
      simp only [pyMap, hb, pyMap_fails (fun x hx => h1 x (by simp [hx])) this, bind, Except.bind]
    · simp only [pyMap, he, bind, Except.bind]

theorem ctor_zero : ctor [(0 : K)] = [] :=
  (toPoly_eq_zero (canon_ctor _)).1 (by simp [toPoly_ctor, toPoly_cons, toPoly_nil])

theorem checkCp_spec {z f : List K} (hz : Canon z) (hf : Canon f) (h0 : z ≠ []) :
    (toPoly z ∣ toPoly f → checkCp z (.poly f) = .ok f) ∧ (¬ toPoly z ∣ toPoly f → checkCp z (.poly f) = .error .assertion) := by
  obtain ⟨r, e1, e2, e3, -⟩ := mod_eq hf hz h0
  have hr : toPoly z ∣ toPoly f ↔ r = [] := by
    rw [← toPoly_eq_zero e2, e3, EuclideanDomain.mod_eq_zero]
  simp only [checkCp, e1, bind, Except.bind, ctor_zero]
  constructor
  · intro h
    rw [hr.1 h, show eq ([] : List K) [] = true from eq_iff.2 rfl]
    rfl
  · intro h
    have : eq r [] = false := by
      rw [← Bool.not_eq_true, eq_iff]
      exact fun e => h (hr.2 e)
    rw [this]
    rfl

theorem pyMap_raises {α β : Type _} (f : α → Py β) (e : PyErr) : ∀ l : List α, (∀ a ∈ l, (∃ b, f a = .ok b) ∨ f a = .error e) →
    (∃ a ∈ l, f a = .error e) → pyMap f l = .error e
  | [], _, h => by simp at h
  | a :: l, h, ⟨b, hb, hb'⟩ => by
    rcases h a (by simp) with ⟨c, hc⟩ | hc
    · have : pyMap f l = .error e := by
        refine pyMap_raises f e l (fun x hx => h x (by simp [hx])) ⟨b, ?_, hb'⟩
        rcases List.mem_cons.1 hb with rfl | hb
        · rw [hc] at hb'; cases hb'
        · exact hb
      simp only [pyMap, hc, this, bind, Except.bind]
    · simp only [pyMap, hc, bind, Except.bind]

/-- A constraint that is a field element makes the prover raise `TypeError`, if all the others are divisible. -/
theorem remainder_elt {g : K} {n : Nat} (h0 : 0 < n) (hg : orderOf g = n) (cps : List (PVal K)) (hc : ∀ c ∈ cps, c.Good)
    (hd : ∀ c ∈ cps, zprod g (n - 1) ∣ c.toP) (he : ∃ a, .elt a ∈ cps) : remainderPolys cps n (g ^ (n - 1)) = .error .typeError := by
  obtain ⟨z, z1, z2, z3⟩ := zPoly_spec h0 hg
  have hz0 : z ≠ [] := by
    intro h
    rw [h, toPoly_nil] at z3
    exact (zprod_monic g (n - 1)).ne_zero z3.symm
  have : pyMap (checkCp z) cps = .error .typeError := by
    refine pyMap_raises _ _ _ (fun c hcm => ?_) (he.elim fun a ha => ⟨_, ha, rfl⟩)
    cases c with
    | elt a => exact Or.inr rfl
    | poly f => exact Or.inl ⟨f, (checkCp_spec z2 (hc _ hcm) hz0).1 (by rw [z3]; exact hd _ hcm)⟩
  simp only [remainderPolys, z1, this, bind, Except.bind]

theorem remainder_spec {g : K} {n : Nat} (h0 : 0 < n) (hg : orderOf g = n) (cps : List (PVal K))
    (hc : ∀ c ∈ cps, ∃ f, c = .poly f ∧ Canon f) :
    ((∀ c ∈ cps, zprod g (n - 1) ∣ c.toP) → ∃ D, remainderPolys cps n (g ^ (n - 1)) = .ok D ∧ D.length = cps.length ∧
      ∀ (d : Nat) (c : PVal K), cps[d]? = some c → ∃ q, D[d]? = some q ∧ Canon q ∧ c.toP = zprod g (n - 1) * toPoly q) ∧
    ((¬ ∀ c ∈ cps, zprod g (n - 1) ∣ c.toP) → remainderPolys cps n (g ^ (n - 1)) = .error .assertion) := by
  obtain ⟨z, z1, z2, z3⟩ := zPoly_spec h0 hg
  have hz0 : z ≠ [] := by
    intro h
    rw [h, toPoly_nil] at z3
    exact (zprod_monic g (n - 1)).ne_zero z3.symm
  constructor
  · intro hd
    have hmap : pyMap (checkCp z) cps = .ok (cps.map fun c => match c with | .poly f => f | .elt _ => []) := by
      apply pyMap_ok
      intro c hcm
      obtain ⟨f, rfl, hf⟩ := hc c hcm
      exact (checkCp_spec z2 hf hz0).1 (by rw [z3]; exact hd _ hcm)
    obtain ⟨D, hD⟩ := pyMap_all (f := fun f => truediv f z)
      (l := cps.map fun c => match c with | .poly f => f | .elt _ => []) (by
        intro f hf
        obtain ⟨c, hcm, rfl⟩ := List.mem_map.1 hf
        obtain ⟨f, rfl, hf'⟩ := hc c hcm
        obtain ⟨q, f1, -⟩ := truediv_eq hf' z2 hz0
        exact ⟨q, f1⟩)
    obtain ⟨g1, g2⟩ := (pyMap_iff _ _ _).1 hD
    refine ⟨D, ?_, by simpa using g1, ?_⟩
    · simp only [remainderPolys, z1, hmap, hD, bind, Except.bind]
    · intro d c hcd
      have hcm : c ∈ cps := List.mem_of_getElem? hcd
      obtain ⟨f, rfl, hf⟩ := hc c hcm
      obtain ⟨q, f1, f2⟩ := g2 d f (by simp [hcd])
      obtain ⟨q', f3, f4, f5⟩ := truediv_eq hf z2 hz0
      rw [f2] at f3
      cases f3
      refine ⟨q, f1, f4, ?_⟩
      rw [f5, z3]
      exact (EuclideanDomain.mul_div_cancel' (zprod_monic g (n - 1)).ne_zero (hd _ hcm)).symm
  · intro hd
    push Not at hd
    obtain ⟨c, hcm, hcd⟩ := hd
    have : pyMap (checkCp z) cps = .error .assertion := by
      apply pyMap_fails
      · intro c hcm
        obtain ⟨f, rfl, hf⟩ := hc c hcm
        by_cases h : toPoly z ∣ toPoly f
        · exact .inl ⟨_, (checkCp_spec z2 hf hz0).1 h⟩
        · exact .inr ((checkCp_spec z2 hf hz0).2 h)
      · refine ⟨c, hcm, ?_⟩
        obtain ⟨f, rfl, hf⟩ := hc c hcm
        exact (checkCp_spec z2 hf hz0).2 (by rw [z3]; exact hcd)
    simp only [remainderPolys, z1, this, bind, Except.bind]

/-- The row of the trace at step `i`: the values of the trace polynomials at `g^i`. -/
noncomputable def row (g : K) (P : List (List K)) (i : Nat) : List K := P.map fun f => (toPoly f).eval (g ^ i)

theorem cpoly_eval (n : Nat) (g : K) (P : List (List K)) (f : Dict K) (pd : List K) (x : K) :
    (cpoly n g P f pd).eval x = (toPoly pd).eval (g * x) -
      MvPolynomial.aeval (fun j : Fin n => (toPoly (P.getD j [])).eval x) (toMv n f) := by
  rw [cpoly, Polynomial.eval_sub, Polynomial.eval_comp]
  simp only [Polynomial.eval_mul, Polynomial.eval_C, Polynomial.eval_X]
  congr 1
  have := MvPolynomial.comp_aeval_apply (f := fun i : Fin n => toPoly (P.getD i [])) (Polynomial.aeval (R := K) x) (toMv n f)
  simpa [Polynomial.coe_aeval_eq_eval] using this

theorem cpoly_vanish {n : Nat} {polys : List (Dict K)} (hw : ∀ f ∈ polys, Mv.WF n f) (P : List (List K)) (hP : P.length = n)
    (hp : n ≤ polys.length) (g : K) (i : Nat) :
    (∀ d, d < n → (cpoly n g P (polys.getD d []) (P.getD d [])).eval (g ^ i) = 0) ↔
      IsStep n n polys (row g P i) (row g P (i + 1)) := by
  unfold IsStep
  rw [and_iff_right (by simp [row, hP])]
  refine forall_congr' fun d => imp_congr_right fun hd => ?_
  have hdp : d < polys.length := by omega
  have hdP : d < P.length := by omega
  have hc : Mv.call n polys[d] (row g P i) =
      .ok (MvPolynomial.aeval (fun j : Fin n => (row g P i).getD j 0) (toMv n polys[d])) :=
    Mv.call_spec (hw _ (List.getElem_mem hdp)).len _ (by simp [row, hP])
  have hrow : (fun j : Fin n => (row g P i).getD j 0) = fun j : Fin n => (toPoly (P.getD j [])).eval (g ^ i) := by
    funext j
    have hj : (j : Nat) < P.length := by rw [hP]; exact j.2
    simp [row, hj]
  rw [hrow] at hc
  rw [cpoly_eval, sub_eq_zero, ← pow_succ']
  simp only [List.getD_eq_getElem?_getD, List.getElem?_eq_getElem hdp, List.getElem?_eq_getElem hdP, Option.getD_some,
    Option.some.injEq, exists_eq_left', row, List.getElem?_map, Option.map_some]
  simp only [List.getD_eq_getElem?_getD, row] at hc
  rw [hc, Except.ok.injEq]
  exact eq_comm

theorem zprod_dvd_exec {n steps : Nat} {polys : List (Dict K)} (hw : ∀ f ∈ polys, Mv.WF n f) (P : List (List K)) (hP : P.length = n)
    (hp : n ≤ polys.length) {g : K} (hg : orderOf g = steps) :
    (∀ d, d < n → zprod g (steps - 1) ∣ cpoly n g P (polys.getD d []) (P.getD d [])) ↔
      ∀ i, i + 1 < steps → IsStep n n polys (row g P i) (row g P (i + 1)) := by
  simp only [← cpoly_vanish hw P hP hp g]
  constructor
  · intro h i hi d hd
    exact (zprod_dvd_iff (fun a b ha hb => pow_inj_of_order hg a b (by omega) (by omega)) _).1 (h d hd) i (by omega)
  · intro h d hd
    exact (zprod_dvd_iff (fun a b ha hb => pow_inj_of_order hg a b (by omega) (by omega)) _).2 fun i hi => h i (by omega) d hd

/-! ### Boundary polynomials -/

theorem ctor_pair {a b : K} (hb : b ≠ 0) : ctor [a, b] = [a, b] :=
  ctor_of_canon (fun x h => by simp at h; rw [← h]; exact hb)

theorem ctor_pair_zero (a : K) : (ctor [a, 0]).length ≤ 1 := by
  refine length_le_of_canon (canon_ctor _) 1 fun i hi => ?_
  rw [toPoly_ctor, coeff_toPoly]
  match i, hi with
  | 1, _ => rfl
  | i + 2, _ => simp

theorem toPoly_zeroPoly2 (last : K) : toPoly (zeroPoly2 last) = (X - 1) * (X - C last) := by
  simp only [zeroPoly2, toPoly_mul, toPoly_ctor, toPoly_cons, toPoly_nil]
  simp
  ring

theorem zeroPoly2_ne (last : K) : zeroPoly2 last ≠ [] := by
  intro h
  have := toPoly_zeroPoly2 last
  rw [h, toPoly_nil] at this
  exact mul_ne_zero (Polynomial.X_sub_C_ne_zero (1 : K)) (Polynomial.X_sub_C_ne_zero last) (by simpa using this.symm)

theorem interpolant_spec {witness : List (List K)} {boundary : List (Nat × Nat × K)} {last : K} {dim : Nat} {i j : Nat} {inp out : K}
    {col : List K} (h0 : last ≠ 0) (h1 : last ≠ 1) (hb : boundary[dim]? = some (i, j, inp)) (hw : witness[dim]? = some col)
    (ho : col.getLast? = some out) :
    (out ≠ 0 → ∃ r, interpolant witness boundary last dim = .ok r ∧ Canon r ∧ r.length ≤ 2 ∧
      (toPoly r).eval 1 = inp ∧ (toPoly r).eval last = out) ∧
    (out = 0 → interpolant witness boundary last dim = .error .indexError) := by
  have e : interpolant witness boundary last dim = lagrangeInterp2 [1, last] (ctor [inp, out]) := by
    simp only [interpolant, pyIdx, hb, hw, pyLast, ho, bind, Except.bind, ctor_pair h0]
  rw [e]
  constructor
  · intro h
    rw [ctor_pair h]
    exact lagrangeInterp2_spec 1 last inp out h1.symm
  · rintro rfl
    have hl := ctor_pair_zero inp
    have n1 : -last + 1 * 1 ≠ 0 := by rw [one_mul, neg_add_eq_sub]; exact sub_ne_zero.2 h1.symm
    have n2 : -(1 : K) + 1 * last ≠ 0 := by rw [one_mul, neg_add_eq_sub]; exact sub_ne_zero.2 h1
    have hr : recip ((-last + 1 * 1) * (-1 + 1 * last)) = .ok (((-last + 1 * 1) * (-1 + 1 * last))⁻¹) := by
      rw [recip, pyDiv, if_neg (mul_ne_zero n1 n2), one_mul]
    simp only [lagrangeInterp2, pyIdx, List.getElem?_cons_zero, List.getElem?_cons_succ, bind, Except.bind, ctor_two,
      call_two, hr]
    rcases hc : (ctor [inp, (0 : K)])[0]? with _ | y0
    · rfl
    · rw [List.getElem?_eq_none (show (ctor [inp, (0 : K)]).length ≤ 1 from hl)]

theorem boundary_spec {tr witness : List (List K)} {boundary : List (Nat × Nat × K)} {last : K} {width : Nat}
    (h0 : last ≠ 0) (h1 : last ≠ 1) (ht : tr.length = width)
    (inp out : Nat → K)
    (hb : ∀ d, d < width → ∃ i j, boundary[d]? = some (i, j, inp d))
    (hw : ∀ d, d < width → ∃ col, witness[d]? = some col ∧ col.getLast? = some (out d)) :
    ((∀ d, d < width → out d ≠ 0) → ∃ B, boundaryPolys tr witness boundary last width = .ok B ∧ B.length = width ∧
      ∀ (d : Nat) (pd : List K), tr[d]? = some pd → ∃ b I, B[d]? = some b ∧ Canon b ∧ Canon I ∧ I.length ≤ 2 ∧ (toPoly I).eval 1 = inp d ∧
        (toPoly I).eval last = out d ∧ toPoly b = (toPoly pd - toPoly I) / ((X - 1) * (X - C last)) ∧
        ((toPoly pd).eval 1 = inp d → (toPoly pd).eval last = out d →
          toPoly pd = toPoly I + toPoly b * ((X - 1) * (X - C last)))) ∧
    ((∃ d, d < width ∧ out d = 0) → boundaryPolys tr witness boundary last width = .error .indexError) := by
  constructor
  · intro hout
    obtain ⟨is, his⟩ := pyMap_all (f := interpolant witness boundary last) (l := List.range width) (by
      intro d hd
      have hd' := List.mem_range.1 hd
      obtain ⟨i, j, hbd⟩ := hb d hd'
      obtain ⟨col, hc, ho⟩ := hw d hd'
      obtain ⟨r, hr, -⟩ := (interpolant_spec h0 h1 hbd hc ho).1 (hout d hd')
      exact ⟨r, hr⟩)
    obtain ⟨g1, g2⟩ := (pyMap_range_iff _ _ _).1 his
    have hI : ∀ d, d < width → ∃ r, is[d]? = some r ∧ Canon r ∧ r.length ≤ 2 ∧ (toPoly r).eval 1 = inp d ∧
        (toPoly r).eval last = out d := by
      intro d hd
      obtain ⟨r, e1, e2⟩ := g2 d hd
      obtain ⟨i, j, hbd⟩ := hb d hd
      obtain ⟨col, hc, ho⟩ := hw d hd
      obtain ⟨r', hr, h2⟩ := (interpolant_spec h0 h1 hbd hc ho).1 (hout d hd)
      rw [e2] at hr
      cases hr
      exact ⟨r, e1, h2⟩
    obtain ⟨B, hB⟩ := pyMap_all (f := fun pi : List K × List K => truediv (sub pi.1 pi.2) (zeroPoly2 last)) (l := tr.zip is) (by
      intro pi _
      obtain ⟨q, hq, -⟩ := truediv_eq (canon_sub pi.1 pi.2) (canon_mul _ _) (zeroPoly2_ne last)
      exact ⟨q, hq⟩)
    obtain ⟨k1, k2⟩ := (pyMap_iff _ _ _).1 hB
    refine ⟨B, by simp only [boundaryPolys, his, bind, Except.bind]; exact hB, by simpa [ht, g1] using k1, ?_⟩
    intro d pd hpd
    have hd : d < width := by rw [← ht]; exact (List.getElem?_eq_some_iff.1 hpd).1
    obtain ⟨I, i1, i2, i3, i4, i5⟩ := hI d hd
    obtain ⟨b, b1, b2⟩ := k2 d (pd, I) (by rw [List.getElem?_zip_eq_some]; exact ⟨hpd, i1⟩)
    obtain ⟨q, q1, q2, q3⟩ := truediv_eq (canon_sub pd I) (canon_mul _ _) (zeroPoly2_ne last)
    have : b = q := by
      have := b2.symm.trans q1
      cases this; rfl
    subst this
    rw [toPoly_sub] at q3
    have q3' : toPoly b = (toPoly pd - toPoly I) / ((X - 1) * (X - C last)) := by rw [← toPoly_zeroPoly2]; exact q3
    refine ⟨b, I, b1, q2, i2, i3, i4, i5, q3', ?_⟩
    intro p1 p2
    have hdvd : ((X - 1) * (X - C last) : K[X]) ∣ toPoly pd - toPoly I := by
      apply IsCoprime.mul_dvd
      · rw [← Polynomial.C_1]
        exact Polynomial.isCoprime_X_sub_C_of_isUnit_sub (sub_ne_zero.2 h1.symm).isUnit
      · rw [← Polynomial.C_1]
        exact Polynomial.dvd_iff_isRoot.2 (by simp [p1, i4])
      · exact Polynomial.dvd_iff_isRoot.2 (by simp [p2, i5])
    have hne : ((X - 1) * (X - C last) : K[X]) ≠ 0 := by
      rw [← Polynomial.C_1]
      exact mul_ne_zero (Polynomial.X_sub_C_ne_zero _) (Polynomial.X_sub_C_ne_zero _)
    have := EuclideanDomain.mul_div_cancel' hne hdvd
    rw [q3', mul_comm _ ((X - 1) * (X - C last) : K[X]), this]
    ring
  · rintro ⟨d, hd, hz⟩
    have : pyMap (interpolant witness boundary last) (List.range width) = .error .indexError := by
      apply pyMap_fails
      · intro d hd
        have hd' := List.mem_range.1 hd
        obtain ⟨i, j, hbd⟩ := hb d hd'
        obtain ⟨col, hc, ho⟩ := hw d hd'
        by_cases hz : out d = 0
        · exact .inr ((interpolant_spec h0 h1 hbd hc ho).2 hz)
        · obtain ⟨r, hr, -⟩ := (interpolant_spec h0 h1 hbd hc ho).1 hz
          exact .inl ⟨r, hr⟩
      · obtain ⟨i, j, hbd⟩ := hb d hd
        obtain ⟨col, hc, ho⟩ := hw d hd
        exact ⟨d, List.mem_range.2 hd, (interpolant_spec h0 h1 hbd hc ho).2 hz⟩
    simp only [boundaryPolys, this, bind, Except.bind]

/-! ### The linear combination -/

theorem powers_eq (w : K) : ∀ k, powers w (k + 1) = (List.range (k + 1)).map fun i => w ^ i
  | 0 => by simp [powers]
  | k + 1 => by
    have ih := powers_eq w k
    simp only [powers, Nat.add_sub_cancel] at ih ⊢
    rw [List.range_succ, List.foldl_append, ih]
    conv_rhs => rw [List.range_succ, List.map_append]
    simp [List.getLastD_eq_getLast?, List.range_succ, pow_succ]

theorem lastPower_eq (w : K) (deg : Nat) : lastPower w deg = if deg ≤ 1 then .error .unboundLocal else .ok (w ^ (deg - 1)) := by
  unfold lastPower
  split
  · rfl
  · next h =>
    obtain ⟨k, rfl⟩ : ∃ k, deg = k + 1 := ⟨deg - 1, by omega⟩
    rw [pyIdx_iff, powers_eq]
    simp

theorem ks_four (blake : Bytes → Bytes) (e : Bytes) : ∃ k1 k2 k3 k4, Utils.getPseudorandomKs blake e 4 = some [k1, k2, k3, k4] :=
  ⟨_, _, _, _, rfl⟩

theorem toPoly_const (c : K) : toPoly (ctor [c]) = C c := by simp [toPoly_ctor, toPoly_cons, toPoly_nil]

theorem foldl_add_toPoly : ∀ (ts : List (List K)) (a : List K), toPoly (ts.foldl add a) = toPoly a + (ts.map toPoly).sum
  | [], a => by simp
  | t :: ts, a => by rw [List.foldl_cons, foldl_add_toPoly ts, toPoly_add, List.map_cons, List.sum_cons, add_assoc]

theorem canon_foldl_add : ∀ (ts : List (List K)) (a : List K), Canon a → Canon (ts.foldl add a)
  | [], _, h => h
  | t :: ts, a, _ => canon_foldl_add ts _ (canon_add a t)

/-- The combination of one coordinate. -/
noncomputable def comb1 (k1 k2 k3 k4 : Nat) (v : K) (p d b : K[X]) : K[X] :=
  d + C ((k1 : K) + k2 * v) * p + C ((k3 : K) + k4 * v) * b

theorem combination_spec (blake : Bytes → Bytes) (e : Bytes) (P D B : List (List K)) (G : K) (deg steps width : Nat)
    (hP : P.length = width) (hD : D.length = width) (hB : B.length = width) (hd : 2 ≤ deg) (h0 : 0 < width) :
    (∀ k1 k2 k3 k4 ks, Utils.getPseudorandomKs blake e 4 = some [k1, k2, k3, k4] → Utils.getPseudorandomKs blake e width = some ks →
      ks.length = width →
      ∃ l, combination blake e P D B G deg steps width = .ok (some l) ∧ Canon l ∧
        toPoly l = ((List.range width).map fun i => C (1 + (ks.getD i 0 : K) * (G ^ steps) ^ (deg - 1)) *
          comb1 k1 k2 k3 k4 ((G ^ steps) ^ (deg - 1)) (toPoly (P.getD i [])) (toPoly (D.getD i [])) (toPoly (B.getD i []))).sum) ∧
    (Utils.getPseudorandomKs blake e width = none → combination blake e P D B G deg steps width = .error .typeError) := by
  obtain ⟨k1, k2, k3, k4, hk⟩ := ks_four blake e
  set v := (G ^ steps) ^ (deg - 1) with hv
  have hlp : lastPower (G ^ steps) deg = .ok v := by rw [lastPower_eq, if_neg (by omega)]
  obtain ⟨ls, hls⟩ : ∃ ls, combination1d blake e P D B (G ^ steps) deg = .ok ls := by
    rw [combination1d, hk]
    simp only [hlp, bind, Except.bind]
    exact pyMap_all fun a _ => ⟨_, rfl⟩
  have hls' := hls
  rw [combination1d, hk] at hls'
  simp only [hlp, bind, Except.bind] at hls'
  obtain ⟨g1, g2⟩ := (pyMap_iff _ _ _).1 hls'
  have hlen : ls.length = width := by rw [g1]; simp [hP, hD, hB]
  have hl : ∀ i, i < width → ∃ l, ls[i]? = some l ∧
      toPoly l = comb1 k1 k2 k3 k4 v (toPoly (P.getD i [])) (toPoly (D.getD i [])) (toPoly (B.getD i [])) := by
    intro i hi
    have h1 : i < P.length := by omega
    have h2 : i < D.length := by omega
    have h3 : i < B.length := by omega
    obtain ⟨l, e1, e2⟩ := g2 i (P[i], D[i], B[i]) (by
      rw [List.getElem?_zip_eq_some]
      exact ⟨by simp [h1], by rw [List.getElem?_zip_eq_some]; exact ⟨by simp [h2], by simp [h3]⟩⟩)
    cases e2
    refine ⟨_, e1, ?_⟩
    simp only [toPoly_add, toPoly_mul, toPoly_const, comb1, List.getD_eq_getElem?_getD, List.getElem?_eq_getElem h1,
      List.getElem?_eq_getElem h2, List.getElem?_eq_getElem h3, Option.getD_some, Polynomial.C_add, Polynomial.C_mul]
    ring
  constructor
  · intro k1' k2' k3' k4' ks hk' hks hkl
    rw [hk] at hk'
    simp only [Option.some.injEq, List.cons.injEq, and_true] at hk'
    obtain ⟨rfl, rfl, rfl, rfl⟩ := hk'
    obtain ⟨terms, ht⟩ := pyMap_all (f := fun lk : List K × Nat => do
      let v ← lastPower (G ^ steps) deg
      .ok (add lk.1 (mul (mul lk.1 (ctor [(lk.2 : K)])) (ctor [v]))) ) (l := ls.zip ks) (by
        intro a _
        rw [hlp]
        exact ⟨_, rfl⟩)
    obtain ⟨f1, f2⟩ := (pyMap_iff _ _ _).1 ht
    have htl : terms.length = width := by rw [f1]; simp [hlen, hkl]
    have htv : terms.map toPoly = (List.range width).map fun i => C (1 + (ks.getD i 0 : K) * v) *
          comb1 k1 k2 k3 k4 v (toPoly (P.getD i [])) (toPoly (D.getD i [])) (toPoly (B.getD i [])) := by
      apply List.ext_getElem (by simp [htl])
      intro i h1 h2
      have hi : i < width := by simpa [htl] using h1
      obtain ⟨l, e1, e2⟩ := hl i hi
      have hki : i < ks.length := by omega
      obtain ⟨t, t1, t2⟩ := f2 i (l, ks[i]) (by
        rw [List.getElem?_zip_eq_some]; exact ⟨e1, by simp [hki]⟩)
      rw [hlp] at t2
      cases t2
      have : terms[i]'(by omega) = _ := (List.getElem?_eq_some_iff.1 t1).2
      rw [List.getElem_map, List.getElem_map, List.getElem_range, this]
      simp only [toPoly_add, toPoly_mul, toPoly_const, e2]
      rw [show ks.getD i 0 = ks[i] by rw [List.getD_eq_getElem?_getD, List.getElem?_eq_getElem hki, Option.getD_some], Polynomial.C_add, Polynomial.C_mul,
        Polynomial.C_1]
      ring
    cases terms with
    | nil => simp at htl; omega
    | cons t ts =>
      refine ⟨ts.foldl add (add t (ctor [0])), ?_, canon_foldl_add _ _ (canon_add _ _), ?_⟩
      · simp only [bind, Except.bind] at ht
        simp only [combination, hls, hks, bind, Except.bind, ht]
      · rw [foldl_add_toPoly, toPoly_add, toPoly_const, Polynomial.C_0, add_zero, ← htv, List.map_cons, List.sum_cons]
  · intro hks
    simp only [combination, hls, hks, bind, Except.bind]

/-! ### Trace polynomials -/

theorem tracePolys_spec {p : Nat} [Fact p.Prime] [CharP K p] {g : K} {steps : Nat} (hgood : FFT.Good steps) (hg : orderOf g = steps)
    {witness : List (List K)} (hw : ∀ col ∈ witness, col.length ≤ steps) (fuel : Nat) (hf : steps ≤ fuel) :
    ∃ P, tracePolys fuel p g witness = .ok P ∧ P.length = witness.length ∧
      ∀ (d : Nat) (col : List K), witness[d]? = some col → ∃ f, P[d]? = some f ∧ Canon f ∧ f.length ≤ steps ∧
        ∀ i, i < steps → (toPoly f).eval (g ^ i) = col.getD i 0 := by
  have hcol : ∀ col ∈ witness, ∃ f, FFT.nbInvFft fuel p g col = .ok f ∧ Canon f ∧ f.length ≤ steps ∧
        ∀ i, i < steps → (toPoly f).eval (g ^ i) = col.getD i 0 := by
    intro col hc
    have hl := hw col hc
    have e : FFT.nbInvFft fuel p g col = .ok (ctor ((FFT.dft g⁻¹ steps col).map fun x => x * (steps : K)⁻¹)) := by
      simp only [FFT.nbInvFft, FFT.fft1d_inv hgood g hg p col hl fuel hf, bind, Except.bind]
    refine ⟨_, e, canon_ctor _, length_le_of_canon (canon_ctor _) steps (fun i hi => by
        rw [toPoly_ctor]; exact coeff_eq_zero_of_length_le (by simpa using hi)), ?_⟩
    intro i hi
    set v := FFT.pad (FFT.powers g (steps + 1)) col with hv
    have h1 : v.length = steps := FFT.pad_length g steps col hl
    have h2 : toPoly v = toPoly col := FFT.toPoly_pad _ _
    have h3 := FFT.dft_dft_inv hgood.pos hg v h1
    rw [FFT.dft_congr g⁻¹ steps h2] at h3
    have h4 := congrArg (fun l : List K => l[i]?) h3
    simp only [FFT.dft_getElem? _ _ _ _ hi] at h4
    rw [toPoly_ctor, ← coeff_toPoly, ← h2, coeff_toPoly, List.getD_eq_getElem?_getD, ← h4]
    rfl
  obtain ⟨P, hP⟩ := pyMap_all (f := FFT.nbInvFft fuel p g) (l := witness) fun a ha => by
    obtain ⟨f, hf, -⟩ := hcol a ha
    exact ⟨f, hf⟩
  obtain ⟨h1, h2⟩ := (pyMap_iff _ _ _).1 hP
  refine ⟨P, hP, h1, fun d col hd => ?_⟩
  obtain ⟨f, f1, f2⟩ := h2 d col hd
  obtain ⟨f', f3, f4⟩ := hcol col (List.mem_of_getElem? hd)
  rw [f2] at f3
  cases f3
  exact ⟨f, f1, f4⟩

theorem row_eq_wrow {g : K} {steps : Nat} {witness P : List (List K)} (hl : P.length = witness.length)
    (h : ∀ (d : Nat) (col : List K), witness[d]? = some col → ∃ f, P[d]? = some f ∧ Canon f ∧ f.length ≤ steps ∧
        ∀ i, i < steps → (toPoly f).eval (g ^ i) = col.getD i 0) (i : Nat) (hi : i < steps) : row g P i = wrow witness i := by
  apply List.ext_getElem (by simp [row, wrow, hl])
  intro d h1 h2
  have hd : d < witness.length := by simpa [wrow] using h2
  obtain ⟨f, f1, -, -, f2⟩ := h d witness[d] (by simp)
  have : P[d]'(by omega) = f := (List.getElem?_eq_some_iff.1 f1).2
  simp only [row, wrow, List.getElem_map, this, f2 i hi]

/-! ### Degrees -/

theorem natDegree_toPoly_le {f : List K} {n : Nat} (h : f.length ≤ n + 1) : (toPoly f).natDegree ≤ n := by
  rw [Polynomial.natDegree_le_iff_coeff_eq_zero]
  intro i hi
  exact coeff_eq_zero_of_length_le (by omega)

theorem length_le_of_natDegree {f : List K} {n : Nat} (hc : Canon f) (h : (toPoly f).natDegree ≤ n) : f.length ≤ n + 1 :=
  length_le_of_canon hc _ fun i hi => Polynomial.coeff_eq_zero_of_natDegree_lt (by omega)

theorem natDegree_cpoly {n steps m : Nat} {g : K} {P : List (List K)} {f : Dict K} {pd : List K} (hm : (toMv n f).totalDegree ≤ m)
    (hpd : pd.length ≤ steps) (hP : ∀ q ∈ P, q.length ≤ steps) :
    (cpoly n g P f pd).natDegree ≤ max 1 m * (steps - 1) := by
  refine (Polynomial.natDegree_sub_le _ _).trans (max_le ?_ ?_)
  · refine (Polynomial.natDegree_comp_le).trans ?_
    have h1 : (toPoly pd).natDegree ≤ steps - 1 := natDegree_toPoly_le (by omega)
    have h2 : (C g * X : K[X]).natDegree ≤ 1 := (Polynomial.natDegree_C_mul_le _ _).trans Polynomial.natDegree_X_le
    calc _ ≤ (steps - 1) * 1 := Nat.mul_le_mul h1 h2
      _ ≤ _ := by rw [mul_comm]; exact Nat.mul_le_mul_right _ (le_max_left _ _)
  · refine (MvPolynomial.aeval_natDegree_le _ hm _ (n := steps - 1) ?_).trans (Nat.mul_le_mul_right _ (le_max_right _ _))
    intro i
    apply natDegree_toPoly_le
    rw [List.getD_eq_getElem?_getD]
    rcases hq : P[(i : Nat)]? with _ | q
    · simp
    · have := hP q (List.mem_of_getElem? hq)
      simp only [Option.getD_some]; omega

/-- A quotient of a constraint polynomial by the vanishing polynomial has at most `precision` coefficients. -/
theorem quotient_length {g : K} {c : K[X]} {q : List K} {steps m : Nat} (hq : Canon q) (h : c = zprod g (steps - 1) * toPoly q)
    (hc : c.natDegree ≤ max 1 m * (steps - 1)) : q.length ≤ (max 1 m - 1) * (steps - 1) + 1 := by
  apply length_le_of_natDegree hq
  by_cases h0 : toPoly q = 0
  · simp [h0]
  · rw [h, (zprod_monic g _).natDegree_mul' h0, zprod_natDegree] at hc
    rw [Nat.sub_mul, one_mul]
    omega

theorem boundary_length {last : K} {pd b I : List K} {n : Nat} (hb : Canon b) (hn : 1 ≤ n) (hp : pd.length ≤ n + 1) (hI : I.length ≤ 2)
    (h : toPoly b = (toPoly pd - toPoly I) / ((X - 1) * (X - C last))) : b.length ≤ n + 1 := by
  apply length_le_of_natDegree hb
  rw [h]
  refine (Polynomial.natDegree_le_natDegree (Polynomial.degree_div_le _ _)).trans ((Polynomial.natDegree_sub_le _ _).trans (max_le ?_ ?_))
  · exact natDegree_toPoly_le hp
  · exact (natDegree_toPoly_le (n := 1) hI).trans hn

end Verif.Stark
