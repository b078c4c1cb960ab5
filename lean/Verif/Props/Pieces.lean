import Verif.Props.Air
import Mathlib.Data.Fintype.Pigeonhole
import Mathlib.Data.Fintype.Vector
/-!
# C163: a long computation can be run in pieces
-/

namespace Verif.Props
open Air Mv

variable {R : Type _} [CommRing R] [DecidableEq R]

/-- **C163.** The trace of `m + k` steps is the trace of the first `m` states followed by that of the computation started from the `m`-th
state, which is `k + 1` states long and begins with the one the first piece ends with; and the outputs agree. -/
theorem C163_pieces (n width : Nat) (inp : List R) (m k : Nat) (hm : 1 ≤ m) (polys : List (Dict R)) (tr : List (List R)) (out : List R) :
    getTrace n inp (m + k : ℕ) width polys = .ok (tr, out) ↔
      ∃ first middle second, getTrace n inp m width polys = .ok (first, middle) ∧
        getTrace n middle (k + 1 : ℕ) width polys = .ok (second, out) ∧ tr = first ++ second.tail := by
  simp only [C44_trace]
  constructor
  · rintro ⟨h1, h2, h3, h4⟩
    have hl : tr.length = m + k := by omega
    have hm1 : m - 1 < tr.length := by omega
    refine ⟨tr.take m, tr[m - 1], tr.drop (m - 1), ⟨by simp; omega, ?_, ?_, ?_⟩, ⟨by simp; omega, ?_, ?_, ?_⟩, ?_⟩
    · rw [List.head?_eq_getElem?, List.getElem?_take_of_lt (by omega), ← List.head?_eq_getElem?, h2]
    · rw [List.getLast?_eq_getElem?, List.length_take, List.getElem?_take_of_lt (by omega), Nat.min_eq_left (by omega),
        List.getElem?_eq_getElem hm1]
    · intro i x y hx hy
      rw [List.getElem?_take] at hx hy
      split_ifs at hx hy
      exact h4 i x y hx hy
    · rw [List.head?_eq_getElem?, List.getElem?_drop, Nat.add_zero, List.getElem?_eq_getElem hm1]
    · rw [List.getLast?_drop, if_neg (by omega), h3]
    · intro i x y hx hy
      rw [List.getElem?_drop] at hx hy
      exact h4 (m - 1 + i) x y hx (by rw [← hy]; congr 1)
    · rw [List.tail_drop, Nat.sub_add_cancel hm, List.take_append_drop]
  · rintro ⟨first, middle, second, ⟨a1, a2, a3, a4⟩, ⟨b1, b2, b3, b4⟩, rfl⟩
    obtain ⟨s, rfl⟩ : ∃ s, second = middle :: s := by
      cases second with
      | nil => simp at b2
      | cons a s => simp at b2; exact ⟨s, by rw [b2]⟩
    obtain ⟨f, rfl⟩ : ∃ f, first = f ++ [middle] := by
      rcases List.eq_nil_or_concat first with rfl | ⟨f, a, rfl⟩
      · simp at a3
      · simp at a3; exact ⟨f, by rw [a3]; simp⟩
    simp only [List.length_append, List.length_cons, List.length_nil] at a1 b1
    refine ⟨by simp; omega, ?_, ?_, ?_⟩
    · cases f <;> simpa using a2
    · rcases List.eq_nil_or_concat s with rfl | ⟨s', a, rfl⟩
      · simpa using b3
      · simpa using b3
    · intro i x y hx hy
      simp only [List.tail_cons] at hx hy
      rcases Nat.lt_or_ge i f.length with hi | hi
      · refine a4 i x y ?_ ?_
        · rwa [List.getElem?_append_left (by simp; omega)] at hx
        · rwa [List.getElem?_append_left (by simp; omega)] at hy
      · refine b4 (i - f.length) x y ?_ ?_
        · rw [List.append_assoc, List.getElem?_append_right hi] at hx
          exact hx
        · rw [List.append_assoc, List.getElem?_append_right (by omega)] at hy
          rw [← hy]
          simp only [List.singleton_append]
          congr 1; omega

/-- **C163**, the states repeat: once a state occurs a second time, everything after it does. -/
theorem C163_repeats (n width : Nat) (inp : List R) (steps : Int) (polys : List (Dict R)) (tr : List (List R)) (out : List R)
    (h : getTrace n inp steps width polys = .ok (tr, out)) (i j d : Nat) (hi : i + d < tr.length) (hj : j + d < tr.length)
    (hij : tr[i]? = tr[j]?) : tr[i + d]? = tr[j + d]? := by
  obtain ⟨-, -, -, h4⟩ := (C44_trace _ _ _ _ _ _ _).1 h
  induction d with
  | zero => exact hij
  | succ d ih =>
    have := ih (by omega) (by omega)
    have e1 := List.getElem?_eq_getElem (l := tr) (i := i + d) (by omega)
    have e2 := List.getElem?_eq_getElem (l := tr) (i := j + d) (by omega)
    have s1 := h4 (i + d) _ _ e1 (List.getElem?_eq_getElem (by omega))
    have s2 := h4 (j + d) _ _ e2 (List.getElem?_eq_getElem (by omega))
    rw [e1, e2, Option.some.injEq] at this
    rw [this] at s1
    rw [← Nat.add_assoc, ← Nat.add_assoc, List.getElem?_eq_getElem (by omega), List.getElem?_eq_getElem (by omega)]
    rw [Option.some.injEq]
    refine List.ext_getElem (by rw [s1.1, s2.1]) fun l h1 h2 => ?_
    obtain ⟨f, f1, v, f2, f3⟩ := s1.2 l (by rw [← s1.1]; exact h1)
    obtain ⟨g, g1, w, g2, g3⟩ := s2.2 l (by rw [← s1.1]; exact h1)
    rw [f1, Option.some.injEq] at g1
    subst g1
    rw [f3] at g3
    cases g3
    rw [List.getElem?_eq_getElem h1, Option.some.injEq] at f2
    rw [List.getElem?_eq_getElem h2, Option.some.injEq] at g2
    rw [f2, g2]

/-- **C163**, a computation over a field of `q` elements runs into a cycle: among the first `q^width + 1` states two are equal. -/
theorem C163_cycle [Fintype R] (width : Nat) (inp : List R) (steps : Int) (polys : List (Dict R)) (hw : ∀ f ∈ polys, WF width f)
    (hp : width ≤ polys.length) (hi : inp.length = width) (tr : List (List R)) (out : List R)
    (h : getTrace width inp steps width polys = .ok (tr, out)) (hs : Fintype.card R ^ width < steps) :
    ∃ i j, i < j ∧ j ≤ Fintype.card R ^ width ∧ ∀ d, j + d < tr.length → tr[i + d]? = tr[j + d]? := by
  obtain ⟨tr', out', h', hlen⟩ := C44_total width inp steps polys hw hp hi
  rw [h] at h'
  cases h'
  obtain ⟨h1, -⟩ := (C44_trace _ _ _ _ _ _ _).1 h
  have hl : Fintype.card R ^ width < tr.length := by
    have : ((Fintype.card R ^ width : ℕ) : Int) < steps := by exact_mod_cast hs
    omega
  let f : Fin (Fintype.card R ^ width + 1) → List.Vector R width := fun i => ⟨tr[i.1]'(by omega), hlen _ (List.getElem_mem _)⟩
  obtain ⟨a, b, hab, hf⟩ := Fintype.exists_ne_map_eq_of_card_lt f (by rw [card_vector, Fintype.card_fin]; omega)
  have hf' : tr[a.1]? = tr[b.1]? := by
    rw [List.getElem?_eq_getElem (by omega), List.getElem?_eq_getElem (by omega)]
    exact congrArg some (congrArg Subtype.val hf)
  rcases Nat.lt_or_gt_of_ne (fun h => hab (Fin.ext h)) with hlt | hlt
  · exact ⟨a, b, hlt, by omega, fun d hd => C163_repeats _ _ _ _ _ _ _ h a b d (by omega) hd hf'⟩
  · exact ⟨b, a, hlt, by omega, fun d hd => C163_repeats _ _ _ _ _ _ _ h b a d (by omega) hd hf'.symm⟩

/-- The Fibonacci numbers modulo 17 have period 36: the states 0 and 36 agree, and so do 4 and 40; nine steps are the first four and five
more from where they end. This meets the hypotheses of `C163_pieces`, `C163_repeats` and (with `17² + 1` steps) `C163_cycle`. -/
example : getTrace 2 [(1 : Zp 17), 1] (4 : ℕ) 2 fib = .ok ([[1, 1], [1, 2], [2, 3], [3, 5]], [3, 5]) ∧
    getTrace 2 [(3 : Zp 17), 5] (5 + 1 : ℕ) 2 fib = .ok ([[3, 5], [5, 8], [8, 13], [13, 4], [4, 0], [0, 4]], [0, 4]) ∧
    getTrace 2 [(1 : Zp 17), 1] (4 + 5 : ℕ) 2 fib =
      .ok ([[1, 1], [1, 2], [2, 3], [3, 5], [5, 8], [8, 13], [13, 4], [4, 0], [0, 4]], [0, 4]) ∧
    ((getTrace 2 [(1 : Zp 17), 1] 41 2 fib).map fun r =>
      decide (r.1.length = 41 ∧ r.1[0]? = r.1[36]? ∧ r.1[4]? = r.1[40]? ∧ r.1[40]? = some [5, 8])) = .ok true ∧
    (∀ f ∈ fib, WF 2 f) ∧ 2 ≤ fib.length := by
  refine ⟨by decide +kernel, by decide +kernel, by decide +kernel, by decide +kernel, wf_fib, by decide⟩

end Verif.Props
