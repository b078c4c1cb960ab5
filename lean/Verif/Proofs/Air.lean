import Verif.Spec.Air
import Verif.Proofs.PolyUtils
import Mathlib.Algebra.MvPolynomial.Rename
import Mathlib.Algebra.MvPolynomial.Degrees
/-!
# Proofs about the AIR
-/

namespace Verif.Air
open Mv PolyUtils
open MvPolynomial (aeval)

theorem pyMap_iff {α β : Type _} (g : α → Py β) : ∀ (l : List α) (r : List β),
    pyMap g l = .ok r ↔ r.length = l.length ∧ ∀ (i : Nat) (a : α), l[i]? = some a → ∃ b, r[i]? = some b ∧ g a = .ok b
  | [], r => by
    simp only [pyMap, List.length_nil, Except.ok.injEq]
    constructor
    · rintro rfl; simp
    · rintro ⟨h, -⟩; exact (List.length_eq_zero_iff.1 h).symm
  | a :: l, r => by
    have ih := pyMap_iff g l
    constructor
    · intro h
      simp only [pyMap, bind, Except.bind] at h
      cases h1 : g a with
      | error e => rw [h1] at h; simp at h
      | ok b =>
        rw [h1] at h
        simp only at h
        cases h2 : pyMap g l with
        | error e => rw [h2] at h; simp at h
        | ok bs =>
          rw [h2] at h
          simp only [Except.ok.injEq] at h
          subst h
          obtain ⟨h3, h4⟩ := (ih bs).1 h2
          refine ⟨by simp [h3], ?_⟩
          intro i x hx
          cases i with
          | zero => simp at hx; subst hx; exact ⟨b, by simp, h1⟩
          | succ i => simpa using h4 i x (by simpa using hx)
    · rintro ⟨h1, h2⟩
      cases r with
      | nil => simp at h1
      | cons b bs =>
        obtain ⟨b', e, h3⟩ := h2 0 a (by simp)
        simp at e
        subst e
        have h4 : pyMap g l = .ok bs := (ih bs).2 ⟨by simpa using h1, fun i x hx => by simpa using h2 (i + 1) x (by simpa using hx)⟩
        simp [pyMap, h3, h4, bind, Except.bind]

theorem pyMap_range_iff {β : Type _} (g : Nat → Py β) (k : Nat) (r : List β) :
    pyMap g (List.range k) = .ok r ↔ r.length = k ∧ ∀ i, i < k → ∃ b, r[i]? = some b ∧ g i = .ok b := by
  rw [pyMap_iff, List.length_range]
  refine and_congr_right fun _ => ⟨fun h i hi => h i i (by simp [hi]), fun h i a ha => ?_⟩
  obtain ⟨hi, rfl⟩ := List.getElem?_eq_some_iff.1 ha
  simpa using h i (by simpa using hi)

theorem pyIdx_iff {α : Type _} (l : List α) (i : Nat) (a : α) : pyIdx l i = .ok a ↔ l[i]? = some a := by
  unfold pyIdx
  cases l[i]? <;> simp

theorem bind_iff {α β : Type _} (x : Py α) (f : α → Py β) (b : β) : (x >>= f) = .ok b ↔ ∃ a, x = .ok a ∧ f a = .ok b := by
  cases x <;> simp [bind, Except.bind]

set_option linter.unusedSectionVars false
variable {R : Type _} [CommRing R] [DecidableEq R]

theorem nextState_iff (n width : Nat) (polys : List (Dict R)) (x y : List R) :
    nextState n width polys x = .ok y ↔ IsStep n width polys x y := by
  rw [nextState, pyMap_range_iff, IsStep]
  refine and_congr_right fun _ => forall_congr' fun i => imp_congr_right fun hi => ?_
  simp only [bind_iff, pyIdx_iff]
  constructor
  · rintro ⟨v, h1, f, h2, h3⟩; exact ⟨f, h2, v, h1, h3⟩
  · rintro ⟨f, h2, v, h1, h3⟩; exact ⟨v, h1, f, h2, h3⟩

/-- An execution: consecutive states are related by the step. -/
def Exec (n width : Nat) (polys : List (Dict R)) (tr : List (List R)) : Prop :=
  ∀ (i : Nat) (x y : List R), tr[i]? = some x → tr[i + 1]? = some y → IsStep n width polys x y

theorem traceLoop_iff (n width : Nat) (polys : List (Dict R)) : ∀ (k : Nat) (before : List (List R)) (last : List R)
    (tr : List (List R)) (out : List R), traceLoop n width polys k before last = .ok (tr, out) ↔
      ∃ rest, tr = before ++ last :: rest ∧ rest.length = k ∧ Exec n width polys (last :: rest) ∧ (last :: rest).getLast? = some out
  | 0, before, last, tr, out => by
    simp only [traceLoop, Except.ok.injEq, Prod.mk.injEq]
    constructor
    · rintro ⟨rfl, rfl⟩
      exact ⟨[], rfl, rfl, fun i x y h1 h2 => by simp at h2, rfl⟩
    · rintro ⟨rest, rfl, h, -, h2⟩
      obtain rfl := List.length_eq_zero_iff.1 h
      simp at h2
      exact ⟨rfl, h2⟩
  | k + 1, before, last, tr, out => by
    rw [traceLoop, bind_iff]
    simp only [nextState_iff, traceLoop_iff n width polys k]
    constructor
    · rintro ⟨nx, h1, rest, rfl, h2, h3, h4⟩
      refine ⟨nx :: rest, by simp, by simp [h2], ?_, by simpa using h4⟩
      intro i x y hx hy
      cases i with
      | zero => simp at hx hy; subst hx hy; exact h1
      | succ i => exact h3 i x y (by simpa using hx) (by simpa using hy)
    · rintro ⟨rest, rfl, h2, h3, h4⟩
      cases rest with
      | nil => simp at h2
      | cons nx rest =>
        exact ⟨nx, h3 0 last nx (by simp) (by simp), rest, by simp, by simpa using h2,
          fun i x y hx hy => h3 (i + 1) x y (by simpa using hx) (by simpa using hy), by simpa using h4⟩

theorem nextState_total {width : Nat} {polys : List (Dict R)} (hw : ∀ f ∈ polys, WF width f) (hp : width ≤ polys.length)
    (x : List R) (hx : x.length = width) : ∃ y, nextState width width polys x = .ok y ∧ y.length = width := by
  have h := pyMap_ok (fun i => pyIdx polys i >>= fun f => call width f x)
    (fun i => aeval (fun j : Fin width => x.getD j 0) (toMv width (polys.getD i []))) (List.range width) (by
      intro i hi
      have hi' : i < polys.length := by have := List.mem_range.1 hi; omega
      rw [bind_iff]
      refine ⟨polys[i], by rw [pyIdx_iff]; simp [hi'], ?_⟩
      rw [Mv.call_spec (hw _ (List.getElem_mem hi')).len x hx]
      simp [List.getElem?_eq_getElem hi'])
  exact ⟨_, h, by simp⟩

theorem traceLoop_total {width : Nat} {polys : List (Dict R)} (hw : ∀ f ∈ polys, WF width f) (hp : width ≤ polys.length) :
    ∀ (k : Nat) (before : List (List R)) (x : List R), x.length = width → ∃ r, traceLoop width width polys k before x = .ok r
  | 0, before, x, _ => ⟨_, rfl⟩
  | k + 1, before, x, hx => by
    obtain ⟨y, h1, h2⟩ := nextState_total hw hp x hx
    obtain ⟨r, hr⟩ := traceLoop_total hw hp k (before ++ [x]) y h2
    exact ⟨r, by rw [traceLoop, bind_iff]; exact ⟨y, h1, hr⟩⟩

/-! ### The constraint polynomials -/

theorem length_xiList (n : Nat) : (xiList n : List (MP n R)).length = n := by simp [xiList]

theorem val_xiList (n i : Nat) (hi : i < n) (h : i < (xiList n : List (MP n R)).length) :
    (xiList n : List (MP n R))[i].val = MvPolynomial.X ⟨i, hi⟩ := by
  simp only [xiList, List.getElem_map, List.getElem_finRange]
  exact toMv_xi n i hi

/-- The values of polynomial objects, as an algebra homomorphism. -/
noncomputable def valHom (n : Nat) : MP n R →ₐ[R] MvPolynomial (Fin n) R :=
  { toFun := MP.val
    map_one' := MP.val_one
    map_mul' := MP.val_mul
    map_zero' := MP.val_zero
    map_add' := MP.val_add
    commutes' := fun c => MP.val_const c }

theorem valHom_apply (n : Nat) (f : MP n R) : valHom n f = f.val := rfl

/-- The embedding of the state variables among all variables. -/
def emb (w : Nat) : Fin w → Fin (2 * w) := fun i => ⟨i, by omega⟩

theorem emb_inj (w : Nat) : Function.Injective (emb w) := fun i j h => by
  simpa [emb, Fin.ext_iff] using h

/-- The `i`-th constraint, mathematically. -/
noncomputable def con (w i : Nat) (hi : i < w) (p : MvPolynomial (Fin w) R) : MvPolynomial (Fin (2 * w)) R :=
  MvPolynomial.X ⟨w + i, by omega⟩ - MvPolynomial.rename (emb w) p

theorem call_xs {w : Nat} {f : Dict R} (hf : WF w f) :
    ∃ v : MP (2 * w) R, call w f ((xiList (2 * w) : List (MP (2 * w) R)).take w) = .ok v ∧
      v.val = MvPolynomial.rename (emb w) (toMv w f) := by
  have hl : ((xiList (2 * w) : List (MP (2 * w) R)).take w).length = w := by simp [length_xiList]; omega
  refine ⟨_, Mv.call_spec hf.len _ hl, ?_⟩
  rw [← valHom_apply, ← AlgHom.comp_apply]
  congr 1
  apply MvPolynomial.algHom_ext
  intro i
  simp only [AlgHom.comp_apply, MvPolynomial.aeval_X, MvPolynomial.rename_X, valHom_apply]
  have hi := i.2
  have h1 : (i : Nat) < (xiList (2 * w) : List (MP (2 * w) R)).length := by rw [length_xiList]; omega
  rw [List.getD_eq_getElem?_getD, List.getElem?_take_of_lt hi, List.getElem?_eq_getElem h1, Option.getD_some, val_xiList _ _ (by omega)]
  rfl

theorem constraints_spec {w : Nat} {polys : List (Dict R)} (hw : ∀ f ∈ polys, WF w f) (hp : w ≤ polys.length) :
    ∃ Ps, constraints w w polys = .ok Ps ∧ Ps.length = w ∧
      ∀ (i : Nat) (hi : i < w) (h : i < Ps.length), Ps[i].val = con w i hi (toMv w (polys[i]'(by omega))) := by
  have hstep : ∀ i, i < w → ∃ P : MP (2 * w) R, ((do
      let f ← pyIdx polys i
      let y ← pyIdx ((xiList (2 * w) : List (MP (2 * w) R)).drop w) i
      let v ← call w f ((xiList (2 * w)).take w)
      .ok (y - v)) : Py (MP (2 * w) R)) = .ok P ∧
      ∀ hi : i < w, P.val = con w i hi (toMv w (polys[i]'(by omega))) := by
    intro i hi
    have hi' : i < polys.length := by omega
    obtain ⟨v, h1, h2⟩ := call_xs (hw _ (List.getElem_mem hi'))
    have hx : w + i < (xiList (2 * w) : List (MP (2 * w) R)).length := by rw [length_xiList]; omega
    refine ⟨(xiList (2 * w))[w + i] - v, ?_, ?_⟩
    · simp only [bind_iff, pyIdx_iff]
      exact ⟨polys[i], by simp [hi'], _, by rw [List.getElem?_drop, List.getElem?_eq_getElem hx], v, h1, rfl⟩
    · intro _
      rw [MP.val_sub, val_xiList _ _ (by omega), h2, con]
  choose! P hP1 hP2 using hstep
  refine ⟨(List.range w).map P, pyMap_ok _ P _ (fun i hi => hP1 i (List.mem_range.1 hi)), by simp, ?_⟩
  intro i hi h
  simp only [List.getElem_map, List.getElem_range]
  exact hP2 i hi hi

theorem call_con {w i : Nat} (hi : i < w) {f : Dict R} (hf : WF w f) {P : MP (2 * w) R} (hP : P.val = con w i hi (toMv w f))
    {x y : List R} (hx : x.length = w) (hy : y.length = w) :
    ∃ v, call w f x = .ok v ∧ call (2 * w) P.dict (x ++ y) = .ok (y.getD i 0 - v) := by
  refine ⟨_, Mv.call_spec hf.len x hx, ?_⟩
  rw [Mv.call_spec P.wf_dict.len _ (by simp [hx, hy]; omega)]
  change Except.ok (aeval _ P.val) = _
  rw [hP, con, map_sub, MvPolynomial.aeval_X, MvPolynomial.aeval_rename]
  have h1 : (x ++ y).getD (w + i) 0 = y.getD i 0 := by
    simp only [List.getD_eq_getElem?_getD]
    rw [List.getElem?_append_right (by omega), hx, Nat.add_sub_cancel_left]
  have h2 : ((fun j : Fin (2 * w) => (x ++ y).getD j 0) ∘ emb w) = fun j : Fin w => x.getD j 0 := by
    funext j
    simp only [Function.comp_apply, emb, List.getD_eq_getElem?_getD]
    rw [List.getElem?_append_left (by omega)]
  simp only [h1, h2]

theorem con_vanish {w : Nat} {polys : List (Dict R)} (hw : ∀ f ∈ polys, WF w f) (hp : w ≤ polys.length)
    {Ps : List (MP (2 * w) R)} (hl : Ps.length = w)
    (hPs : ∀ (i : Nat) (hi : i < w) (h : i < Ps.length), Ps[i].val = con w i hi (toMv w (polys[i]'(by omega))))
    {x y : List R} (hx : x.length = w) (hy : y.length = w) :
    (∀ P ∈ Ps, call (2 * w) P.dict (x ++ y) = .ok 0) ↔ IsStep w w polys x y := by
  constructor
  · intro h
    refine ⟨hy, fun i hi => ⟨polys[i], by simp [show i < polys.length by omega], y[i], by simp [hy, hi], ?_⟩⟩
    obtain ⟨v, h1, h2⟩ := call_con hi (hw polys[i] (List.getElem_mem _)) (hPs i hi (by omega)) hx hy
    rw [h _ (List.getElem_mem _)] at h2
    rw [h1]
    congr 1
    have := Except.ok.inj h2
    rw [List.getD_eq_getElem?_getD, List.getElem?_eq_getElem (by omega), Option.getD_some] at this
    exact (sub_eq_zero.1 this.symm).symm
  · rintro ⟨-, h⟩ P hP
    obtain ⟨i, hi, rfl⟩ := List.getElem_of_mem hP
    have hi' : i < w := by omega
    obtain ⟨v, h1, h2⟩ := call_con hi' (hw (polys[i]'(by omega)) (List.getElem_mem _)) (hPs i hi' hi) hx hy
    obtain ⟨f, hf, u, hu, hc⟩ := h i hi'
    rw [List.getElem?_eq_getElem (by omega)] at hf
    cases hf
    rw [h1] at hc
    cases hc
    rw [h2, List.getD_eq_getElem?_getD, hu, Option.getD_some, sub_self]

theorem circuit_spec {w : Nat} {polys : List (Dict R)} (hw : ∀ f ∈ polys, WF w f) (hp : w ≤ polys.length)
    {Ps : List (MP (2 * w) R)} (hl : Ps.length = w)
    (hPs : ∀ (i : Nat) (hi : i < w) (h : i < Ps.length), Ps[i].val = con w i hi (toMv w (polys[i]'(by omega))))
    (steps : Int) (tr : List (List R)) (ht : steps ≤ tr.length) (htw : ∀ x ∈ tr, x.length = w) :
    ∃ b, circuit steps w Ps tr = .ok b ∧ (b = true ↔ ∀ (i : Nat) (x y : List R), (i : Int) + 1 < steps →
      tr[i]? = some x → tr[i + 1]? = some y → IsStep w w polys x y) := by
  have hg : ∀ i, i ∈ List.range (steps - 1).toNat → ((do
      let w0 ← pyIdx tr i
      let w1 ← pyIdx tr (i + 1)
      pyMap (fun j => do
        let P ← pyIdx Ps j
        call (2 * w) P.dict (w0 ++ w1)) (List.range w)) : Py (List R)) =
      .ok ((List.range w).map fun j => aeval (fun k : Fin (2 * w) => (tr.getD i [] ++ tr.getD (i + 1) []).getD k 0) (Ps.getD j 0).val) := by
    intro i hi
    have hi' : i + 1 < tr.length := by have := List.mem_range.1 hi; omega
    have hi0 : i < tr.length := by omega
    simp only [bind_iff, pyIdx_iff]
    refine ⟨tr[i], by simp [hi0], tr[i + 1], by simp [hi'], ?_⟩
    apply pyMap_ok
    intro j hj
    have hj' : j < Ps.length := by rw [hl]; exact List.mem_range.1 hj
    rw [bind_iff]
    refine ⟨Ps[j], by rw [pyIdx_iff]; simp [hj'], ?_⟩
    rw [Mv.call_spec Ps[j].wf_dict.len _ (by
      rw [List.length_append, htw _ (List.getElem_mem hi0), htw _ (List.getElem_mem hi')]; omega)]
    simp only [List.getD_eq_getElem?_getD, List.getElem?_eq_getElem hi', List.getElem?_eq_getElem hi0, List.getElem?_eq_getElem hj',
      Option.getD_some]
    rfl
  refine ⟨_, by
    rw [circuit, bind_iff]
    exact ⟨_, pyMap_ok _ _ _ hg, rfl⟩, ?_⟩
  simp only [List.map_map, List.all_map, List.all_eq_true, List.mem_range, Function.comp_apply, id, decide_eq_true_eq]
  have key : ∀ i (h0 : i < tr.length) (h1 : i + 1 < tr.length), (∀ j, j < w →
      aeval (fun k : Fin (2 * w) => (tr.getD i [] ++ tr.getD (i + 1) []).getD k 0) (Ps.getD j 0).val = 0) ↔
        IsStep w w polys tr[i] tr[i + 1] := by
    intro i h0 h1
    rw [← con_vanish hw hp hl hPs (htw _ (List.getElem_mem h0)) (htw _ (List.getElem_mem h1))]
    have e : ∀ P : MP (2 * w) R, call (2 * w) P.dict (tr[i] ++ tr[i + 1]) =
        .ok (aeval (fun k : Fin (2 * w) => (tr.getD i [] ++ tr.getD (i + 1) []).getD k 0) P.val) := by
      intro P
      rw [Mv.call_spec P.wf_dict.len _ (by
        rw [List.length_append, htw _ (List.getElem_mem h0), htw _ (List.getElem_mem h1)]; omega)]
      simp only [List.getD_eq_getElem?_getD, List.getElem?_eq_getElem h1, List.getElem?_eq_getElem h0, Option.getD_some]
      rfl
    simp only [e, Except.ok.injEq]
    constructor
    · intro h P hP
      obtain ⟨j, hj, rfl⟩ := List.getElem_of_mem hP
      simpa [List.getElem?_eq_getElem hj] using h j (by omega)
    · intro h j hj
      have := h (Ps[j]'(by omega)) (List.getElem_mem _)
      simpa [List.getElem?_eq_getElem (show j < Ps.length by omega)] using this
  constructor
  · intro h i x y hi hx hy
    obtain ⟨h0, rfl⟩ := List.getElem?_eq_some_iff.1 hx
    obtain ⟨h1, rfl⟩ := List.getElem?_eq_some_iff.1 hy
    exact (key i h0 h1).1 (h i (by omega))
  · intro h i hi
    have h1 : i + 1 < tr.length := by omega
    exact (key i (by omega) h1).2 (h i _ _ (by omega) (List.getElem?_eq_getElem (by omega)) (List.getElem?_eq_getElem h1))

/-! ### Degrees -/

theorem totalDegree_con {w i : Nat} (hi : i < w) [Nontrivial R] (p : MvPolynomial (Fin w) R) :
    (con w i hi p).totalDegree = max 1 p.totalDegree := by
  classical
  have hc0 : ∀ u : Fin (2 * w) →₀ ℕ, u ⟨w + i, by omega⟩ ≠ 0 → (MvPolynomial.rename (emb w) p).coeff u = 0 := by
    intro u hu
    by_contra hne
    obtain ⟨v, rfl, -⟩ := MvPolynomial.coeff_rename_ne_zero _ _ _ hne
    apply hu
    apply Finsupp.mapDomain_of_notMem_range
    rintro ⟨j, hj⟩
    have := congrArg Fin.val hj
    simp only [emb] at this
    omega
  have e : (MvPolynomial.rename (emb w) p).totalDegree = p.totalDegree := by
    apply le_antisymm (MvPolynomial.totalDegree_rename_le _ _)
    rw [MvPolynomial.totalDegree, Finset.sup_le_iff]
    intro s hs
    have h1 : (MvPolynomial.rename (emb w) p).coeff (Finsupp.mapDomain (emb w) s) ≠ 0 := by
      rw [MvPolynomial.coeff_rename_mapDomain _ (emb_inj w)]
      exact MvPolynomial.mem_support_iff.1 hs
    refine le_trans (le_of_eq ?_) (MvPolynomial.le_totalDegree (MvPolynomial.mem_support_iff.2 h1))
    rw [Finsupp.sum_mapDomain_index (by simp) (by simp)]
  apply le_antisymm
  · refine (MvPolynomial.totalDegree_sub _ _).trans ?_
    rw [MvPolynomial.totalDegree_X, e]
  · apply max_le
    · have h1 : (con w i hi p).coeff (Finsupp.single ⟨w + i, by omega⟩ 1) ≠ 0 := by
        rw [con, MvPolynomial.coeff_sub, hc0 _ (by simp), MvPolynomial.coeff_X, if_pos rfl, sub_zero]
        exact one_ne_zero
      refine le_trans (le_of_eq ?_) (MvPolynomial.le_totalDegree (MvPolynomial.mem_support_iff.2 h1))
      simp
    · rw [← e, MvPolynomial.totalDegree, Finset.sup_le_iff]
      intro s hs
      have hs' := MvPolynomial.mem_support_iff.1 hs
      have h0 : s ⟨w + i, by omega⟩ = 0 := by
        by_contra h
        exact hs' (hc0 s h)
      apply MvPolynomial.le_totalDegree
      rw [MvPolynomial.mem_support_iff, con, MvPolynomial.coeff_sub, MvPolynomial.coeff_X, if_neg, zero_sub, neg_ne_zero]
      · exact hs'
      · rintro rfl
        simp at h0

theorem pyMax_le {l : List Nat} (hl : l ≠ []) : ∃ m, pyMax l = .ok m ∧ m ∈ l ∧ ∀ x ∈ l, x ≤ m := by
  cases l with
  | nil => exact absurd rfl hl
  | cons a l =>
    refine ⟨_, rfl, ?_, ?_⟩
    · induction l generalizing a with
      | nil => simp
      | cons c l ih =>
        rw [List.foldl_cons]
        have := ih (max a c) (by simp)
        rcases List.mem_cons.1 this with h | h
        · rw [h]; rcases max_choice a c with h | h <;> rw [h] <;> simp
        · simp [h]
    · have := (le_foldl_max l a _).1 le_rfl
      intro x hx
      rcases List.mem_cons.1 hx with rfl | hx
      exacts [this.1, this.2 x hx]

end Verif.Air
