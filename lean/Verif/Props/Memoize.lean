import Verif.Proofs.Memoize
/-!
# C17: memoised constructors

The property holds for histories of positional calls and fails for keyword arguments.
-/

namespace Verif.Props
variable {A K V B : Type _} [DecidableEq A] [DecidableEq K]

/-- **C17** for positional calls. After any history `pre`, a call that returns `b` returns a value the wrapped function
really produced on these very arguments; every later call with the same arguments, after any further history, returns the
same object; and in the log of evaluations no successful evaluation is followed by another one on the same arguments.

Missing from the full property: the values of keyword arguments are not distinguished (`C17_kwargs_refuted`). -/
theorem C17_memoize_positional_partial (hashable : A → Bool) (f : Nat → Call A K V → Py B)
    (pre mid : List (Call A K V)) (c : Call A K V) (b : B)
    (hpre : ∀ d ∈ pre, d.kwargs = []) (hc : c.kwargs = [])
    (hres : (memoCall hashable f (memoRun hashable f ⟨[], []⟩ pre).2 c).1 = .ok b) :
    let st := (memoCall hashable f (memoRun hashable f ⟨[], []⟩ pre).2 c).2
    (∃ k, f k c = .ok b) ∧
    (memoCall hashable f (memoRun hashable f st mid).2 c).1 = .ok b ∧
    (∀ k l d d' b', k < l → st.log[k]? = some d → st.log[l]? = some d' → d.args = d'.args → f k d ≠ .ok b') := by
  intro st
  obtain ⟨hh, hl⟩ := memoCall_ok hres
  have hinv : st.Inv f := memoCall_inv (memoRun_inv pre _ Memo.inv_empty) c
  have hlog : ∀ d ∈ st.log, d.kwargs = [] := by
    intro d hd
    rcases memoCall_log_mem hd with hd | rfl
    · rcases memoRun_log_mem pre _ d hd with hd | hd
      · simp at hd
      · exact hpre d hd
    · exact hc
  refine ⟨?_, ?_, ?_⟩
  · obtain ⟨k, d, h1, h2, h3⟩ := hinv.sound _ _ hl
    have := argTuple_pos (hlog d (List.mem_of_getElem? h1)) hc h2
    subst this
    exact ⟨k, h3⟩
  · rw [memoCall_of_lookup hh (memoRun_lookup_mono mid st hl)]
  · intro k l d d' b' hkl h1 h2 h3
    refine hinv.once k l d d' b' hkl h1 h2 ?_
    simp [Call.argTuple, hlog d (List.mem_of_getElem? h1), hlog d' (List.mem_of_getElem? h2), h3]

/-- **C17**, the failing part: whenever a call with keyword argument `name = v` has succeeded, the next call with the same
positional arguments and `name = w` returns the result for `v`, whatever `w` is. -/
theorem C17_kwargs_collide (hashable : A → Bool) (f : Nat → Call A K V → Py B) (st : Memo A K V B)
    (args : List A) (name : K) (v w : V) (b : B)
    (hres : (memoCall hashable f st ⟨args, [(name, v)]⟩).1 = .ok b) :
    (memoCall hashable f (memoCall hashable f st ⟨args, [(name, v)]⟩).2 ⟨args, [(name, w)]⟩).1 = .ok b := by
  obtain ⟨hh, hl⟩ := memoCall_ok hres
  rw [memoCall_of_lookup (c := ⟨args, [(name, w)]⟩) hh hl]

/-- A call with a keyword argument whose value is returned again for another value of that argument. -/
example : (memoCall (K := String) (V := Nat) (fun _ : Nat => true) (fun _ c => .ok c.kwargs) ⟨[], []⟩ ⟨[5], [("k", 1)]⟩).1 = .ok [("k", 1)] := rfl

/-- **C17** as stated is false: it is not the case that after every history a memoised function returns a value the
wrapped function can return on those arguments (`FiniteField(p, m, polynomialModulus=g)` after
`FiniteField(p, m, polynomialModulus=f)` is the field for `f`). -/
theorem C17_kwargs_refuted :
    ¬ ∀ (f : Nat → Call Nat String Nat → Py Nat) (pre : List (Call Nat String Nat)) (c : Call Nat String Nat) (b : Nat),
      (memoCall (fun _ => true) f (memoRun (fun _ => true) f ⟨[], []⟩ pre).2 c).1 = .ok b → ∃ k, f k c = .ok b := by
  intro h
  obtain ⟨k, hk⟩ := h (fun _ c => .ok ((c.kwargs.map (·.2)).sum)) [⟨[7, 2], [("polynomialModulus", 1)]⟩]
    ⟨[7, 2], [("polynomialModulus", 5)]⟩ 1 (by decide)
  simp at hk

/-- This meets the hypotheses of `C17_memoize_positional_partial`, `C17_kwargs_collide`. -/
example : ∃ b, (memoCall (K := String) (V := Nat) (fun _ : Nat => true) (fun k c => .ok (k, c.args)) (memoRun (fun _ => true)
    (fun k c => .ok (k, c.args)) ⟨[], []⟩ [⟨[7], []⟩, ⟨[5], []⟩, ⟨[7], []⟩]).2 ⟨[5], []⟩).1 = .ok b ∧ b = (1, [5]) :=
  ⟨_, rfl, rfl⟩

end Verif.Props
