import Verif.Model.FriQueries
import Verif.Props.Fri
/-!
# C122: successive queries
-/

namespace Verif.Props
open Poly PolyUtils ReedSolomon Fri

section
variable {p : Nat} [hp : Fact p.Prime] {V F : Type} [AddCommGroup V] [Module (Zp p) V] [Field F] [DecidableEq F]
variable (basis : List V) (shift : V) (cast : V → F) (rho : Rate) (challenge : Nat → Py F)

/-- `query`, split at the place where it appends to its list. -/
theorem query_split (rounds : Int) (hr : rounds ≤ 1) :
    let o := friObj p basis shift cast rho rounds challenge
    (∃ e, ∀ c f draw, queryAppended o (some c) = .error e ∧ query o f (some c) draw = .error e) ∨
    ∃ q items, ∀ c, ∃ last, queryAppended o (some c) = .ok last ∧
      ∀ f draw, query o f (some c) draw = if 0 < rounds then do
        let x ← challenge 0
        let L0e ← affineIter o.fieldIter (basis.take 2) 0
        let fs := f ++ [fun e => .ok (call last (Sum.elim cast id e))]
        let b ← queryOnce o fs q items L0e x (draw 0)
        if b then queryOnce o fs q items L0e x (draw 1) else .ok false
      else .ok true := by
  intro o
  obtain ⟨items, h1, -⟩ := C22_affine_space p basis shift
  obtain ⟨q, -, hq, -⟩ := C23_affine_vanishing_partial p cast (basis.take 2) 0
  cases hc : checkRate rho with
  | error e =>
    exact Or.inl ⟨e, fun c f d => ⟨by simp [o, queryAppended, friObj, hc, bind, Except.bind], by simp [o, query, friObj, hc, bind, Except.bind]⟩⟩
  | ok u =>
  cases hl : affineLenBuiltin p 1 basis with
  | error e =>
    exact Or.inl ⟨e, fun c f d => ⟨by simp [o, queryAppended, friObj, hc, hl, bind, Except.bind],
      by simp [o, query, friObj, hc, hl, bind, Except.bind]⟩⟩
  | ok len =>
    refine Or.inr ⟨q, items, fun c => ?_⟩
    obtain ⟨r, r1, -⟩ := lagrangeInterp_sum (items.map fun v => call q (cast v))
      ((items.map fun v => call q (cast v)).map fun v => call (ctor c) v) (by simp)
    refine ⟨r, ?_, fun f draw => ?_⟩
    · simp only [o, queryAppended, friObj, hc, hl, selectSubspace, evalOnSubspace, hq, h1, r1, bind, Except.bind,
        if_neg (show ¬ 0 < rounds - 1 by omega)]
    · simp only [o, query, friObj, hc, hl, selectSubspace, evalOnSubspace, hq, h1, r1, bind, Except.bind,
        if_neg (show ¬ 0 < rounds - 1 by omega)]

/-- **C122** fails: for every object on which `query` gets through its rate and size checks, and at most one round, each call appends a
function to the list it was given. -/
theorem C122_list_refuted (hlen : p ^ basis.length ≤ 2 ^ 63 - 1) (hrho : checkRate rho = .ok ()) (rounds : Int) (hr : rounds ≤ 1)
    (f : List (Fn V F)) (c : List F) :
    ∃ g, queryList (friObj p basis shift cast rho rounds challenge) f (some c) = f ++ [g] := by
  obtain ⟨items, h2, -⟩ := C22_affine_space p basis shift
  obtain ⟨q, -, hq, -⟩ := C23_affine_vanishing_partial p cast (basis.take 2) 0
  obtain ⟨r, r1, -⟩ := lagrangeInterp_sum (items.map fun v => call q (cast v))
    ((items.map fun v => call q (cast v)).map fun v => call (ctor c) v) (by simp)
  have h1 : queryAppended (friObj p basis shift cast rho rounds challenge) (some c) = .ok r := by
    simp only [queryAppended, friObj, hrho, lenBuiltin basis hlen, selectSubspace, evalOnSubspace, hq, h2, r1, bind, Except.bind,
      if_neg (show ¬ 0 < rounds - 1 by omega)]
  exact ⟨_, by rw [queryList, h1]⟩

omit hp [Module (Zp p) V] in
theorem queryOnce_append (o : Obj (Zp p) V F) (f0 g : Fn V F) (l : List (Fn V F)) (q : List F) (items L0 : List V) (x : F) (n : Nat) :
    queryOnce o (f0 :: g :: l) q items L0 x n = queryOnce o [f0, g] q items L0 x n := rfl

/-- **C122** fails: from the second call on, `query` checks the first proof again instead of the one it is given. -/
theorem C122_stale_refuted (rounds : Int) (hr : rounds ≤ 1) (f0 : Fn V F) (c : List F) (draw : Nat → Nat)
    (cs : List (List F × (Nat → Nat))) :
    let o := friObj p basis shift cast rho rounds challenge
    queries o [f0] (((c, draw) :: cs).map fun cd => (some cd.1, cd.2)) = ((c, draw) :: cs).map fun cd => query o [f0] (some c) cd.2 := by
  intro o
  rw [List.map_cons, List.map_cons, queries]
  congr 1
  rcases query_split (p := p) basis shift cast rho challenge rounds hr with ⟨e, h⟩ | ⟨q, items, h⟩
  · have hL : ∀ f c, queryList o f (some c) = f := fun f c => by rw [queryList, (h c f fun _ => 0).1]
    rw [hL]
    clear draw
    induction cs with
    | nil => rfl
    | cons cd cs ih =>
      rw [List.map_cons, List.map_cons, queries, hL, ih]
      congr 1
      exact (h _ _ _).2.trans (h _ _ _).2.symm
  · obtain ⟨last, h1, h2⟩ := h c
    have hL : queryList o [f0] (some c) = f0 :: (fun e => .ok (call last (Sum.elim cast id e))) :: [] := by
      rw [queryList, h1]; rfl
    rw [hL]
    suffices hs : ∀ l, queries o (f0 :: (fun e => .ok (call last (Sum.elim cast id e))) :: l) (cs.map fun cd => (some cd.1, cd.2)) =
        cs.map fun cd => query o [f0] (some c) cd.2 from hs []
    clear draw
    induction cs with
    | nil => exact fun _ => rfl
    | cons cd cs ih =>
      intro l
      rw [List.map_cons, List.map_cons, queries]
      obtain ⟨last', g1, g2⟩ := h cd.1
      rw [queryList, g1]
      congr 1
      · rw [h2, g2]
        simp only [List.cons_append, List.nil_append, queryOnce_append]
      · exact ih _

/-- **C122**, what holds: with one function, one round and an independent basis, no answer depends on the earlier calls (since none
depends on the proof at all, `C97_soundness_refuted`). -/
theorem C122_answers_partial (hadd : ∀ a b, cast (a + b) = cast a + cast b) (hind : LinearIndependent (Zp p) basis.get)
    (hb : basis ≠ []) (f0 : Fn V F) (cs : List (List F × (Nat → Nat))) :
    let o := friObj p basis shift cast rho 1 challenge
    queries o [f0] (cs.map fun cd => (some cd.1, cd.2)) = cs.map fun cd => query o [f0] (some cd.1) cd.2 := by
  intro o
  cases cs with
  | nil => rfl
  | cons cd cs =>
    have := C122_stale_refuted (p := p) basis shift cast rho challenge 1 le_rfl f0 cd.1 cd.2 cs
    rw [this]
    refine List.map_congr_left fun cd' _ => ?_
    exact C97_soundness_refuted basis shift cast rho challenge hadd hind hb f0 cd'.2 cd.1 cd'.1

end

/-- The space of the single element 0 and the rate 4 (one round): a fresh list has the proof `[0]` rejected, but a list used before
accepts it. This meets the hypotheses of `C122_list_refuted`. -/
example : query (friObj 2 ([] : List (CPoly (Zp 2))) 0 (Apr.castHom gf8) (.int 4) 1 fun _ => .ok 1) [fun _ => .ok 0] (some [0]) (fun _ => 1) =
      .ok false ∧
    queries (friObj 2 ([] : List (CPoly (Zp 2))) 0 (Apr.castHom gf8) (.int 4) 1 fun _ => .ok 1) [fun _ => .ok 0]
      [(some [1], fun _ => 1), (some [0], fun _ => 1)] = [.ok true, .ok true] := by
  constructor
  · decide +kernel
  · refine (C122_stale_refuted (p := 2) ([] : List (CPoly (Zp 2))) 0 (Apr.castHom gf8) (.int 4) (fun _ => .ok 1) 1 le_rfl
      (fun _ => .ok 0) [1] (fun _ => 1) [([0], fun _ => 1)]).trans ?_
    decide +kernel

end Verif.Props
