import Verif.Proofs.MvOrder
import Verif.Props.Multivariate
/-!
# C147: the order of a polynomial's dictionary is not observable

`Computes n e d` (in `Verif.Model.MvOrder`) says that a run of the expression `e` may end with a polynomial storing the dictionary `d`,
in insertion order; the order in which `+` walks through a `set` is left open.  `denote n e` (in `Verif.Spec.MvOrder`) is the
polynomial of `R[X_1, …, X_n]` that `e` stands for.
-/

namespace Verif.Props
open MvO
open Mv (Tup Dict toMv tupF)

variable {R : Type _} [CommRing R] [DecidableEq R] {n : Nat}

/-- **C147** (runs agree). Two runs of one expression, whatever the orders of the dictionaries and of the sets, end with polynomials
that compare equal and that `len`, `is_zero`, `degree`, indexing, iteration and evaluation do not tell apart. -/
theorem C147_runs (e : Expr R) (he : Proper n e) (d d' : Dict R) (hd : Computes n e d) (hd' : Computes n e d') :
    MvO.eq d d' = true ∧ MvO.len d = MvO.len d' ∧ Mv.isZero d = Mv.isZero d' ∧ Mv.degree d = Mv.degree d' ∧
    (∀ t : Tup, MvO.getItem d t = MvO.getItem d' t) ∧ MvO.iter d = MvO.iter d' ∧
    ∀ (A : Type) [CommRing A] [Algebra R A] (vals : List A), MvO.call n d vals = MvO.call n d' vals := by
  obtain ⟨s, v⟩ := computes_spec hd he
  obtain ⟨s', v'⟩ := computes_spec hd' he
  have hi : iter d = iter d' := iter_eq_of_toMv s s' (v.trans v'.symm)
  have hp : d.Perm d' := ((iter_perm d).symm.trans (hi ▸ List.Perm.refl _)).trans (iter_perm d')
  refine ⟨(MvO.eq_iff s s').2 (v.trans v'.symm), hp.length_eq, ?_, degree_perm hp,
    fun t => by rw [getItem_eq, getItem_eq, get_perm hp s'.good], hi, fun A _ _ vals => by rw [MvO.call, MvO.call, hi]⟩
  rw [Bool.eq_iff_iff, Mv.isZero, Mv.isZero, List.isEmpty_iff, List.isEmpty_iff]
  exact ⟨fun h => (h ▸ hp).symm.eq_nil, fun h => (h ▸ hp).eq_nil⟩

/-- **C147** (runs are right). Every run of an expression ends, and its polynomial is the one the expression denotes: `[]` reads its
coefficients, iteration lists exactly its terms, each once, in increasing order of the exponent tuples, `len` counts them, and
evaluation is the mathematical one. -/
theorem C147_values (e : Expr R) (he : Proper n e) :
    (∃ d, Computes n e d) ∧ ∀ d, Computes n e d →
      (∀ t : Tup, MvO.getItem d t = if t.length = n then (denote n e).coeff (tupF n t) else 0) ∧
      (MvO.iter d).Pairwise (fun a b => a.1 < b.1) ∧
      (∀ (t : Tup) (c : R), (t, c) ∈ MvO.iter d ↔ t.length = n ∧ c = (denote n e).coeff (tupF n t) ∧ c ≠ 0) ∧
      MvO.len d = (denote n e).support.card ∧ (MvO.iter d).length = MvO.len d ∧
      Mv.degree d = (denote n e).totalDegree ∧ (Mv.isZero d = true ↔ denote n e = 0) ∧
      ∀ (A : Type) [CommRing A] [Algebra R A] (vals : List A), MvO.call n d vals =
        if vals.length = n then .ok (MvPolynomial.aeval (point n vals) (denote n e)) else .error .assertion := by
  refine ⟨computes_exists e he, fun d hd => ?_⟩
  obtain ⟨s, v⟩ := computes_spec hd he
  have w := wf_iter s
  have hv : toMv n (iter d) = denote n e := by rw [toMv_iter, v]
  have hget : ∀ t : Tup, t.length = n → (denote n e).coeff (tupF n t) = Mv.get d t := fun t ht => by
    rw [← v, Mv.coeff_toMv s.good ht]
  have hmem : ∀ (t : Tup) (c : R), (t, c) ∈ MvO.iter d ↔ t.length = n ∧ c = (denote n e).coeff (tupF n t) ∧ c ≠ 0 := by
    intro t c
    constructor
    · intro h
      have hl := w.len _ h
      exact ⟨hl, by rw [← hv, Mv.coeff_toMv w.good hl, Mv.get_eq_of_mem w.good h], w.nz _ h⟩
    · rintro ⟨hl, hc, hne⟩
      rw [← hv, Mv.coeff_toMv w.good hl] at hc
      obtain ⟨x, hx, hxt⟩ := List.mem_map.1 ((Mv.mem_keys_iff w t).2 (hc ▸ hne))
      have := Mv.get_eq_of_mem w.good hx
      rw [hxt] at this
      have : x = (t, c) := Prod.ext hxt (by rw [hc, this])
      exact this ▸ hx
  refine ⟨fun t => ?_, w.sorted, hmem, ?_, (iter_perm d).length_eq, ?_, ?_, fun A _ _ vals => ?_⟩
  · rw [getItem_eq]
    split
    · next h => rw [hget t h]
    · next h => exact Mv.get_eq_of_len s.good h
  · have hs : (denote n e).support = ((iter d).map fun x => tupF n x.1).toFinset := by
      ext m
      obtain ⟨t, ht, rfl⟩ := Mv.tupF_surj n m
      rw [MvPolynomial.mem_support_iff, List.mem_toFinset, List.mem_map]
      constructor
      · intro h
        exact ⟨(t, _), (hmem t _).2 ⟨ht, rfl, h⟩, rfl⟩
      · rintro ⟨x, hx, hxt⟩
        have h := (hmem x.1 x.2).1 hx
        have : x.1 = t := Mv.tupF_inj h.1 ht hxt
        rw [← this, ← h.2.1]; exact h.2.2
    have hnd : ((iter d).map fun x => tupF n x.1).Nodup := by
      rw [List.nodup_iff_pairwise_ne, List.pairwise_map]
      refine w.sorted.imp_of_mem fun ha hb hlt heq => ?_
      exact absurd (Mv.tupF_inj (w.len _ ha) (w.len _ hb) heq) (ne_of_lt hlt)
    rw [hs, List.toFinset_card_of_nodup hnd, List.length_map, (iter_perm d).length_eq]; rfl
  · rw [← degree_perm (iter_perm d), Mv.degree_eq w, hv]
  · rw [Mv.isZero, List.isEmpty_iff]
    constructor
    · rintro rfl
      rw [← v, Mv.toMv_nil]
    · intro h
      have : iter d = [] := Mv.toMv_inj w (Mv.wf_nil n) (by rw [hv, h, Mv.toMv_nil])
      exact (this ▸ iter_perm d).symm.eq_nil
  · have := C39_evaluation (iter d) w vals
    rw [hv] at this
    rw [← this]; rfl

/-- **C147** (comparison). Polynomials computed by two expressions compare equal exactly when the expressions denote the same
polynomial; the polynomial built from what iteration yields compares equal to the one iterated over. -/
theorem C147_comparison (e e' : Expr R) (he : Proper n e) (he' : Proper n e') (d d' : Dict R) (hd : Computes n e d) (hd' : Computes n e' d') :
    (MvO.eq d d' = true ↔ denote n e = denote n e') ∧ MvO.eq (MvO.ofDict (MvO.iter d)) d = true := by
  obtain ⟨s, v⟩ := computes_spec hd he
  obtain ⟨s', v'⟩ := computes_spec hd' he'
  refine ⟨by rw [MvO.eq_iff s s', v, v'], (MvO.eq_iff (stored_ofDict (wf_iter s).good) s).2 ?_⟩
  rw [MvO.ofDict, Mv.toMv_removeZero, toMv_iter]

/-- The expression `(3 X + 2 Y) + (X + Y^2)` over `Z/5`: two runs that store their terms in different orders. -/
example :
    let e : Expr (Zp 5) := .add (.poly [([1, 0], 3), ([0, 1], 2)]) (.poly [([0, 2], 1), ([1, 0], 1)])
    let d : Dict (Zp 5) := [([1, 0], 4), ([0, 1], 2), ([0, 2], 1)]
    let d' : Dict (Zp 5) := [([0, 2], 1), ([1, 0], 4), ([0, 1], 2)]
    Proper 2 e ∧ Computes 2 e d ∧ Computes 2 e d' ∧ d ≠ d' ∧ MvO.eq d d' = true ∧
      MvO.iter d' = [([0, 1], 2), ([0, 2], 1), ([1, 0], 4)] := by
  -- This meets the hypotheses of `C147_runs`, `C147_values` and `C147_comparison`.
  refine ⟨⟨⟨by decide, by decide⟩, ⟨by decide, by decide⟩⟩, ?_, ?_, by decide +kernel, by decide +kernel, by decide +kernel⟩
  · have h := Computes.add (n := 2) (.poly (List.Perm.refl [([1, 0], (3 : Zp 5)), ([0, 1], 2)])) (.poly (List.Perm.refl [([0, 2], (1 : Zp 5)), ([1, 0], 1)]))
      (order := [[1, 0], [0, 1], [0, 2]]) ⟨by decide, fun t => ?_⟩
    · convert h using 1; decide +kernel
    · rw [show (MvO.ofDict [([1, 0], (3 : Zp 5)), ([0, 1], 2)]).map Prod.fst = [[1, 0], [0, 1]] by decide +kernel,
        show (MvO.ofDict [([0, 2], (1 : Zp 5)), ([1, 0], 1)]).map Prod.fst = [[0, 2], [1, 0]] by decide +kernel]
      simp only [List.mem_cons, List.not_mem_nil, or_false]; tauto
  · have h := Computes.add (n := 2) (.poly (List.Perm.refl [([1, 0], (3 : Zp 5)), ([0, 1], 2)])) (.poly (List.Perm.refl [([0, 2], (1 : Zp 5)), ([1, 0], 1)]))
      (order := [[0, 2], [1, 0], [0, 1]]) ⟨by decide, fun t => ?_⟩
    · convert h using 1; decide +kernel
    · rw [show (MvO.ofDict [([1, 0], (3 : Zp 5)), ([0, 1], 2)]).map Prod.fst = [[1, 0], [0, 1]] by decide +kernel,
        show (MvO.ofDict [([0, 2], (1 : Zp 5)), ([1, 0], 1)]).map Prod.fst = [[0, 2], [1, 0]] by decide +kernel]
      simp only [List.mem_cons, List.not_mem_nil, or_false]; tauto

end Verif.Props
