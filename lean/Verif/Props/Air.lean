import Verif.Proofs.Air
import Verif.Proofs.Modp
import Verif.Proofs.SmallPrimes
import Mathlib.Tactic.NormNum
/-!
# C44–C46: the algebraic intermediate representation

`IsStep n width polys x y` (in `Verif.Spec.Air`) says that `y` is the list of the values of the step polynomials at `x`.
-/

namespace Verif.Props
open Air Mv

variable {R : Type _} [CommRing R] [DecidableEq R]

/-- **C44**. Whatever the arguments, if the call returns a trace and an output, the trace has `max(steps, 1)` states, the first
is the input, consecutive ones are related by the step polynomials, and the output is the last one; and this is the only such
list. -/
theorem C44_trace (n width : Nat) (inp : List R) (steps : Int) (polys : List (Dict R)) (tr : List (List R)) (out : List R) :
    getTrace n inp steps width polys = .ok (tr, out) ↔
      (tr.length : Int) = max steps 1 ∧ tr.head? = some inp ∧ tr.getLast? = some out ∧
        ∀ (i : Nat) (x y : List R), tr[i]? = some x → tr[i + 1]? = some y → IsStep n width polys x y := by
  rw [getTrace, traceLoop_iff]
  constructor
  · rintro ⟨rest, rfl, h1, h2, h3⟩
    exact ⟨by simp; omega, by simp, by simpa using h3, h2⟩
  · rintro ⟨h1, h2, h3, h4⟩
    cases tr with
    | nil => simp at h2
    | cons x rest =>
      simp at h2
      subst h2
      exact ⟨rest, rfl, by simp at h1; omega, h4, h3⟩

/-- **C44** (it returns). With at least `width` step polynomials in `width` variables and an input of `width` elements the trace is
always produced, and all its states have `width` elements. -/
theorem C44_total (width : Nat) (inp : List R) (steps : Int) (polys : List (Dict R)) (hw : ∀ f ∈ polys, WF width f)
    (hp : width ≤ polys.length) (hi : inp.length = width) :
    ∃ tr out, getTrace width inp steps width polys = .ok (tr, out) ∧ ∀ x ∈ tr, x.length = width := by
  obtain ⟨⟨tr, out⟩, h⟩ := traceLoop_total hw hp (steps - 1).toNat [] inp hi
  refine ⟨tr, out, h, ?_⟩
  obtain ⟨-, h2, -, h4⟩ := (C44_trace width width inp steps polys tr out).1 h
  intro x hx
  obtain ⟨i, hi', rfl⟩ := List.getElem_of_mem hx
  cases i with
  | zero =>
    rw [List.head?_eq_getElem?, List.getElem?_eq_getElem hi'] at h2
    cases h2; exact hi
  | succ i => exact (h4 i _ _ (List.getElem?_eq_getElem (by omega)) (List.getElem?_eq_getElem hi')).1

/-- The Fibonacci step of the test suite, `(a, b) ↦ (b, a + b)`, over `Z/17`. -/
def fib : List (Dict (Zp 17)) := [ofDict [([0, 1], 1)], ofDict [([1, 0], 1), ([0, 1], 1)]]

theorem wf_fib : ∀ f ∈ fib, WF 2 f := by
  intro f hf
  simp only [fib, List.mem_cons, List.not_mem_nil, or_false] at hf
  rcases hf with rfl | rfl
  · exact wf_ofDict ⟨by decide, by decide⟩
  · exact wf_ofDict ⟨by decide, by decide⟩

example : getTrace 2 [(0 : Zp 17), 1] 5 2 fib = .ok ([[0, 1], [1, 1], [1, 2], [2, 3], [3, 5]], [3, 5]) := by decide +kernel

/-- **C45** (constraints). There is one constraint polynomial per coordinate, and all of them vanish at a pair of states
exactly when the second is the step of the first. -/
theorem C45_constraints (width : Nat) (polys : List (Dict R)) (hw : ∀ f ∈ polys, WF width f) (hp : width ≤ polys.length) :
    ∃ Ps, constraints width width polys = .ok Ps ∧ Ps.length = width ∧
      ∀ x y : List R, x.length = width → y.length = width →
        ((∀ P ∈ Ps, call (2 * width) P.dict (x ++ y) = .ok 0) ↔ IsStep width width polys x y) := by
  obtain ⟨Ps, h1, h2, h3⟩ := constraints_spec hw hp
  exact ⟨Ps, h1, h2, fun x y hx hy => con_vanish hw hp h2 h3 hx hy⟩

example : ∃ Ps, constraints 2 2 fib = .ok Ps ∧ Ps.map MP.dict = [[([0, 0, 1, 0], 1), ([0, 1, 0, 0], 16)],
    [([0, 0, 0, 1], 1), ([0, 1, 0, 0], 16), ([1, 0, 0, 0], 16)]] := ⟨_, rfl, by decide +kernel⟩

/-- **C45** (circuit). On any sequence of states, the circuit says True exactly when the first `steps` states are an execution. -/
theorem C45_circuit (width : Nat) (polys : List (Dict R)) (hw : ∀ f ∈ polys, WF width f) (hp : width ≤ polys.length)
    (Ps : List (MP (2 * width) R)) (hPs : constraints width width polys = .ok Ps) (steps : Int) (tr : List (List R))
    (ht : steps ≤ tr.length) (htw : ∀ x ∈ tr, x.length = width) :
    ∃ b, circuit steps width Ps tr = .ok b ∧ (b = true ↔ ∀ (i : Nat) (x y : List R), (i : Int) + 1 < steps →
      tr[i]? = some x → tr[i + 1]? = some y → IsStep width width polys x y) := by
  obtain ⟨Ps', h1, h2, h3⟩ := constraints_spec hw hp
  rw [hPs] at h1
  cases h1
  exact circuit_spec hw hp h2 h3 steps tr ht htw

/-- A valid and an invalid sequence of states. -/
example : ∃ Ps, constraints 2 2 fib = .ok Ps ∧ circuit 3 2 Ps [[0, 1], [1, 1], [1, 2]] = .ok true ∧
    circuit 3 2 Ps [[0, 1], [1, 1], [1, 3]] = .ok false := ⟨_, rfl, by decide +kernel, by decide +kernel⟩

theorem mkAIR_iff (n width : Nat) (inp : List R) (steps : Int) (polys : List (Dict R)) (a : AIR R) :
    mkAIR n width inp steps polys = .ok a ↔ steps = 511 ∧ ∃ tr out, getTrace n inp steps width polys = .ok (tr, out) ∧
      ∃ Ps, constraints n width polys = .ok Ps ∧ ∃ C, circuit steps width Ps tr = .ok C ∧ ∃ cd, cDegree width Ps = .ok cd ∧
        cd ≤ 1024 ∧ ∃ B, boundary width inp = .ok B ∧
          a = { width, inp, steps, trace := tr, output := out, polys := Ps, C, cdegree := cd, B } := by
  have ha : ∀ (c : Bool) (b : Unit), pyAssert c = .ok b ↔ c = true := by intro c b; cases c <;> simp [pyAssert]
  simp only [mkAIR, bind_iff, ha, decide_eq_true_eq, exists_const, Prod.exists, Except.ok.injEq, show (2 : Int) ^ 9 - 1 = 511 by norm_num,
    show (2 : Nat) ^ 10 = 1024 by norm_num]
  constructor
  · rintro ⟨h1, tr, out, h2, Ps, h3, C, h4, cd, h5, h6, B, h7, h8⟩
    exact ⟨h1, tr, out, h2, Ps, h3, C, h4, cd, h5, h6, B, h7, h8.symm⟩
  · rintro ⟨h1, tr, out, h2, Ps, h3, C, h4, cd, h5, h6, B, h7, h8⟩
    exact ⟨h1, tr, out, h2, Ps, h3, C, h4, cd, h5, h6, B, h7, h8.symm⟩

/-- An instance can only be built with step polynomials in `width ≥ 1` variables, at least `width` of them, and an input of
`width` elements. -/
theorem mkAIR_shape {n width : Nat} {inp : List R} {steps : Int} {polys : List (Dict R)} {a : AIR R}
    (h : mkAIR n width inp steps polys = .ok a) : 0 < width ∧ n = width ∧ width ≤ polys.length ∧ inp.length = width := by
  obtain ⟨rfl, tr, out, h2, Ps, h3, C, h4, cd, h5, -, B, h7, -⟩ := (mkAIR_iff n width inp steps polys a).1 h
  have hpos : 0 < width := by
    rcases Nat.eq_zero_or_pos width with rfl | h
    · simp [cDegree, PolyUtils.pyMap, pyMax, bind, Except.bind] at h5
    · exact h
  have hasrt : ∀ {A : Type _} [CommRing A] [Algebra R A] (f : Dict R) (vals : List A) (v : A), call n f vals = .ok v → vals.length = n := by
    intro A _ _ f vals v hv
    rw [call, bind_iff] at hv
    obtain ⟨_, h, -⟩ := hv
    by_contra hne
    simp [pyAssert, hne] at h
  have hall : ∀ i, i < width → i < polys.length := by
    intro i hi
    obtain ⟨P, -, h⟩ := ((pyMap_range_iff _ _ _).1 h3).2 i hi
    simp only [bind_iff, pyIdx_iff] at h
    obtain ⟨f, hf, -⟩ := h
    exact (List.getElem?_eq_some_iff.1 hf).1
  have hn : n = width := by
    obtain ⟨P, -, h⟩ := ((pyMap_range_iff _ _ _).1 h3).2 0 hpos
    simp only [bind_iff, pyIdx_iff] at h
    obtain ⟨f, -, y, -, v, hv, -⟩ := h
    have := hasrt f _ v hv
    rw [List.length_take, length_xiList] at this
    omega
  refine ⟨hpos, hn, ?_, ?_⟩
  · have := hall (width - 1) (by omega); omega
  · obtain ⟨h6, h7', h8, h9⟩ := (C44_trace n width inp 511 polys tr out).1 h2
    have hl : 1 < tr.length := by omega
    obtain ⟨-, hs⟩ := h9 0 inp tr[1] (by rw [← h7', List.head?_eq_getElem?]) (List.getElem?_eq_getElem hl)
    obtain ⟨f, -, v, -, hv⟩ := hs 0 hpos
    rw [hasrt f _ v hv, hn]

/-- **C45** (instances). Every instance that can be constructed has circuit output True, whatever the arguments. -/
theorem C45_air_accepts (n width : Nat) (inp : List R) (steps : Int) (polys : List (Dict R)) (hw : ∀ f ∈ polys, WF n f) (a : AIR R)
    (h : mkAIR n width inp steps polys = .ok a) : a.C = true := by
  obtain ⟨-, rfl, hp, hi⟩ := mkAIR_shape h
  obtain ⟨-, tr, out, h2, Ps, h3, C, h4, cd, -, -, B, -, rfl⟩ := (mkAIR_iff n n inp steps polys a).1 h
  obtain ⟨tr', out', h2', hl⟩ := C44_total n inp steps polys hw hp hi
  rw [h2] at h2'
  cases h2'
  obtain ⟨h5, -, -, h6⟩ := (C44_trace n n inp steps polys tr out).1 h2
  obtain ⟨b, hb, hb'⟩ := C45_circuit n polys hw hp Ps h3 steps tr (by omega) hl
  rw [h4] at hb
  cases hb
  exact hb'.2 fun i x y _ => h6 i x y

/-- **C45** (which instances can be constructed). Over a field, with step polynomials and an input of the right shape: exactly the
ones with 511 steps and step polynomials of degree at most 1024. -/
theorem C45_constructor [Nontrivial R] (width : Nat) (h0 : 0 < width) (inp : List R) (steps : Int) (polys : List (Dict R))
    (hw : ∀ f ∈ polys, WF width f) (hp : width ≤ polys.length) (hi : inp.length = width) :
    (∃ a, mkAIR width width inp steps polys = .ok a) ↔
      steps = 511 ∧ ∀ f ∈ polys.take width, (toMv width f).totalDegree ≤ 1024 := by
  obtain ⟨Ps, h1, h2, h3⟩ := constraints_spec hw hp
  have hds : ∃ cd, cDegree width Ps = .ok cd ∧ (cd ≤ 1024 ↔ ∀ f ∈ polys.take width, (toMv width f).totalDegree ≤ 1024) := by
    have hm : PolyUtils.pyMap (fun j => do
        let P ← pyIdx Ps j
        Except.ok (degree P.dict)) (List.range width) =
        (.ok ((List.range width).map fun j => degree (Ps.getD j 0).dict) : Py (List Nat)) := by
      apply PolyUtils.pyMap_ok
      intro j hj
      rw [bind_iff]
      have hj' : j < Ps.length := by rw [h2]; exact List.mem_range.1 hj
      exact ⟨Ps[j], by rw [pyIdx_iff]; simp [hj'], by simp [List.getElem?_eq_getElem hj']⟩
    obtain ⟨m, e1, e2, e3⟩ := pyMax_le (l := (List.range width).map fun j => degree (Ps.getD j 0).dict)
      (by simp; omega)
    have hdeg : ∀ j (hj : j < width), degree (Ps.getD j 0).dict = max 1 (toMv width (polys[j]'(by omega))).totalDegree := by
      intro j hj
      rw [List.getD_eq_getElem?_getD, List.getElem?_eq_getElem (by omega), Option.getD_some, degree_eq (MP.wf_dict _)]
      change (MP.val _).totalDegree = _
      rw [h3 j hj (by omega), totalDegree_con]
    refine ⟨m, by rw [cDegree, bind_iff]; exact ⟨_, hm, e1⟩, ?_⟩
    constructor
    · intro h f hf
      obtain ⟨j, hj, rfl⟩ := List.getElem_of_mem hf
      have hj' : j < width := by simp at hj; omega
      have := e3 _ (List.mem_map.2 ⟨j, List.mem_range.2 hj', rfl⟩)
      rw [hdeg j hj'] at this
      rw [List.getElem_take]
      omega
    · intro h
      obtain ⟨j, hj, rfl⟩ := List.mem_map.1 e2
      have hj' := List.mem_range.1 hj
      rw [hdeg j hj']
      have := h polys[j] (by rw [List.mem_take_iff_getElem]; exact ⟨j, by omega, rfl⟩)
      omega
  obtain ⟨cd, hcd, hcd'⟩ := hds
  constructor
  · rintro ⟨a, ha⟩
    obtain ⟨h5, tr, out, h6, Ps', h7, C, h8, cd', h9, h10, -⟩ := (mkAIR_iff _ _ _ _ _ a).1 ha
    rw [h1] at h7
    cases h7
    rw [hcd] at h9
    cases h9
    exact ⟨h5, hcd'.1 h10⟩
  · rintro ⟨h5, h6⟩
    obtain ⟨tr, out, h7, hl⟩ := C44_total width inp steps polys hw hp hi
    obtain ⟨h8, -⟩ := (C44_trace width width inp steps polys tr out).1 h7
    obtain ⟨b, hb, -⟩ := circuit_spec hw hp h2 h3 steps tr (by omega) hl
    have hB : boundary width inp = .ok ((List.range width).map fun j => (0, j, inp.getD j 0)) := by
      apply PolyUtils.pyMap_ok
      intro j hj
      have hj' : j < inp.length := by rw [hi]; exact List.mem_range.1 hj
      rw [bind_iff]
      exact ⟨inp[j], by rw [pyIdx_iff]; simp [hj'], by simp [List.getElem?_eq_getElem hj']⟩
    exact ⟨_, (mkAIR_iff _ _ _ _ _ _).2 ⟨h5, tr, out, h7, Ps, h1, b, hb, cd, hcd, hcd'.2 h6, _, hB, rfl⟩⟩

/-- The Fibonacci instance of the test suite can be constructed. -/
theorem fib_air : ∃ a, mkAIR 2 2 [(0 : Zp 17), 1] 511 fib = .ok a := by
  refine (C45_constructor 2 (by omega) _ _ _ wf_fib (by decide) rfl).2 ⟨rfl, ?_⟩
  intro f hf
  have hf' := List.mem_of_mem_take hf
  rw [← degree_eq (wf_fib f hf')]
  simp only [fib, List.mem_cons, List.not_mem_nil, or_false] at hf'
  rcases hf' with rfl | rfl <;> decide +kernel

/-- **C46**. For every instance, the witness has one row per coordinate with one entry per step and is the transpose of the
trace; the boundary constraints are `(0, j, inp[j])` for each coordinate `j` in order; and the witness satisfies each of them. -/
theorem C46_witness_boundary (n width : Nat) (inp : List R) (steps : Int) (polys : List (Dict R)) (hw : ∀ f ∈ polys, WF n f)
    (a : AIR R) (h : mkAIR n width inp steps polys = .ok a) :
    ∃ W, witness a = .ok W ∧ W.length = width ∧ (∀ col ∈ W, (col.length : Int) = steps) ∧
      (∀ i j, i < a.trace.length → j < width → ∃ col row v, W[j]? = some col ∧ a.trace[i]? = some row ∧ col[i]? = some v ∧
        row[j]? = some v) ∧
      a.B.length = width ∧ (∀ j, j < width → ∃ α, inp[j]? = some α ∧ a.B[j]? = some (0, j, α)) ∧
      ∀ i j α, (i, j, α) ∈ a.B → ∃ col, W[j]? = some col ∧ col[i]? = some α := by
  obtain ⟨-, rfl, hp, hi⟩ := mkAIR_shape h
  obtain ⟨hs, tr, out, h2, Ps, h3, C, h4, cd, -, -, B, hB, rfl⟩ := (mkAIR_iff n n inp steps polys a).1 h
  obtain ⟨tr', out', h2', hl⟩ := C44_total n inp steps polys hw hp hi
  rw [h2] at h2'
  cases h2'
  obtain ⟨h5, h6, -, -⟩ := (C44_trace n n inp steps polys tr out).1 h2
  have hlen : tr.length = steps.toNat := by omega
  obtain ⟨hB1, hB2⟩ := (pyMap_range_iff _ _ _).1 hB
  have hB3 : ∀ j, j < n → ∃ α, inp[j]? = some α ∧ B[j]? = some (0, j, α) := by
    intro j hj
    obtain ⟨b, e1, e2⟩ := hB2 j hj
    simp only [bind_iff, pyIdx_iff] at e2
    obtain ⟨α, e3, e4⟩ := e2
    cases e4
    exact ⟨α, e3, e1⟩
  have hcol : ∀ j ∈ List.range n, PolyUtils.pyMap (fun i => do
      let row ← pyIdx tr i
      pyIdx row j) (List.range steps.toNat) = .ok ((List.range steps.toNat).map fun i => (tr.getD i []).getD j 0) := by
    intro j hj
    apply PolyUtils.pyMap_ok
    intro i hi'
    have h1 : i < tr.length := by rw [hlen]; exact List.mem_range.1 hi'
    have h2 : j < tr[i].length := by rw [hl _ (List.getElem_mem h1)]; exact List.mem_range.1 hj
    rw [bind_iff]
    exact ⟨tr[i], by rw [pyIdx_iff]; simp [h1], by
      rw [pyIdx_iff]; simp [List.getElem?_eq_getElem h1, h2]⟩
  have key : ∀ i j, i < tr.length → j < n →
      ∃ col row v, ((List.range n).map fun j => (List.range steps.toNat).map fun i => (tr.getD i []).getD j (0 : R))[j]? = some col ∧
        tr[i]? = some row ∧ col[i]? = some v ∧ row[j]? = some v := by
    intro i j h1 hj
    have h2 : j < tr[i].length := by rw [hl _ (List.getElem_mem h1)]; exact hj
    exact ⟨_, tr[i], tr[i][j], by rw [List.getElem?_map, List.getElem?_range hj]; rfl, by simp [h1], by
      rw [List.getElem?_map, List.getElem?_range (by omega)]; simp [List.getElem?_eq_getElem h1, h2], by simp [h2]⟩
  refine ⟨_, PolyUtils.pyMap_ok _ _ _ hcol, by simp, ?_, key, hB1, hB3, ?_⟩
  · intro col hc
    obtain ⟨j, -, rfl⟩ := List.mem_map.1 hc
    simp; omega
  · intro i j α hb
    change (i, j, α) ∈ B at hb
    obtain ⟨k, hk, e⟩ := List.getElem_of_mem hb
    obtain ⟨α', e1, e2⟩ := hB3 k (by omega)
    rw [List.getElem?_eq_getElem hk, e] at e2
    cases e2
    obtain ⟨col, row, v, f1, f2, f3, f4⟩ := key 0 j (by omega) (by omega)
    rw [List.head?_eq_getElem?, f2] at h6
    cases h6
    rw [e1] at f4
    cases f4
    exact ⟨col, f1, f3⟩

/-- This meets the hypotheses of `C45_air_accepts`, `C45_constructor`. -/
example : ∃ a W, mkAIR 2 2 [(0 : Zp 17), 1] 511 fib = .ok a ∧ witness a = .ok W ∧ W.length = 2 := by
  obtain ⟨a, ha⟩ := fib_air
  obtain ⟨W, h1, h2, -⟩ := C46_witness_boundary 2 2 _ _ _ wf_fib a ha
  exact ⟨a, W, ha, h1, h2⟩

example : boundary 2 [(0 : Zp 17), 1] = .ok [(0, 0, 0), (0, 1, 1)] := by decide +kernel

end Verif.Props
