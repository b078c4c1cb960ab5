import Verif.Proofs.Multivariate
import Verif.Model.PolyUtils
/-!
# Model of starks/air.py

The field is any commutative ring `R` of Mathlib, states are lists of its elements (ints in the input would be cast by the first
operation on them, numbertype.py:25-48).  `n` is the `num_vars` of the step polynomials, which the caller chose.
`extension_factor`, the aliases `F`, `T`, `w` and the printing are dropped.
-/

namespace Verif.Mv
variable {R : Type _} [CommRing R] [DecidableEq R]

theorem MP.const_hom (n : Nat) : (MP.const n (1 : R) = 1) ∧ (∀ a b : R, MP.const n (a * b) = MP.const n a * MP.const n b) ∧
    (MP.const n (0 : R) = 0) ∧ (∀ a b : R, MP.const n (a + b) = MP.const n a + MP.const n b) := by
  refine ⟨?_, fun a b => ?_, ?_, fun a b => ?_⟩ <;> apply MP.val_inj <;> simp [MP.val_const]

/-- A field element as operand of a multivariate polynomial is cast to the constant polynomial (numbertype.py:25-48,
multivariate_polynomial.py:82-83). -/
instance MP.algebra (n : Nat) : Algebra R (MP n R) :=
  RingHom.toAlgebra
    { toFun := MP.const n
      map_one' := (MP.const_hom n).1
      map_mul' := (MP.const_hom n).2.1
      map_zero' := (MP.const_hom n).2.2.1
      map_add' := (MP.const_hom n).2.2.2 }

end Verif.Mv

namespace Verif.Air
open Mv

variable {R : Type _} [CommRing R] [DecidableEq R]

/-- air.py:48 `[step_polys[i](computational_trace[-1]) for i in range(width)]` -/
def nextState (n width : Nat) (polys : List (Dict R)) (state : List R) : Py (List R) :=
  PolyUtils.pyMap (fun i => do
    let f ← pyIdx polys i
    call n f state) (List.range width)

/-- air.py:46-49: the loop, `k` iterations to go.  The trace is the list of the earlier states and the last one. -/
def traceLoop (n width : Nat) (polys : List (Dict R)) : Nat → List (List R) → List R → Py (List (List R) × List R)
  | 0, before, last => .ok (before ++ [last], last)
  | k + 1, before, last => do
    let next ← nextState n width polys last
    traceLoop n width polys k (before ++ [last]) next

/-- air.py:31-52 `get_computational_trace(inp, steps, width, step_polys)`: the trace and the output. -/
def getTrace (n : Nat) (inp : List R) (steps : Int) (width : Nat) (polys : List (Dict R)) : Py (List (List R) × List R) :=
  traceLoop n width polys (steps - 1).toNat [] inp

/-- utils.py:40-56 `generate_Xi_s`, as polynomial objects. -/
def xiList (n : Nat) : List (MP n R) := (List.finRange n).map fun i : Fin n => MP.mk (xi n i) (wf_xi n i i.2)

/-- air.py:170-193 `generate_constraint_polynomials` -/
def constraints (n width : Nat) (polys : List (Dict R)) : Py (List (MP (2 * width) R)) :=
  let multivars := xiList (2 * width)
  let xs := multivars.take width
  let ys := multivars.drop width
  PolyUtils.pyMap (fun i => do
    let f ← pyIdx polys i
    let y ← pyIdx ys i
    let v ← call n f xs
    .ok (y - v)) (List.range width)

/-- air.py:138-145: `output_eval`. -/
def outputEval {m : Nat} (steps : Int) (width : Nat) (Ps : List (MP m R)) (trace : List (List R)) : Py (List (List R)) :=
  PolyUtils.pyMap (fun i => do
    let w0 ← pyIdx trace i
    let w1 ← pyIdx trace (i + 1)
    PolyUtils.pyMap (fun j => do
      let P ← pyIdx Ps j
      call m P.dict (w0 ++ w1)) (List.range width)) (List.range (steps - 1).toNat)

/-- air.py:134-158 `generate_monotone_circuit`.  `output_eval[i]` has `width` entries, so lines 147-152 are the conjunction of
`x == 0` over it, and lines 154-158 the conjunction over the transitions. -/
def circuit {m : Nat} (steps : Int) (width : Nat) (Ps : List (MP m R)) (trace : List (List R)) : Py Bool := do
  let ev ← outputEval steps width Ps trace
  .ok ((ev.map fun temp => temp.all fun x => decide (x = 0)).all id)

/-- Python's `max` of a list of non-negative ints. -/
def pyMax : List Nat → Py Nat
  | [] => .error .valueError
  | a :: l => .ok (l.foldl max a)

/-- air.py:160-164 `C_degree` -/
def cDegree {m : Nat} (width : Nat) (Ps : List (MP m R)) : Py Nat := do
  let ds ← PolyUtils.pyMap (fun j => do
    let P ← pyIdx Ps j
    .ok (degree P.dict)) (List.range width)
  pyMax ds

/-- air.py:167-168 `get_degree` -/
def getDegree (polys : List (Dict R)) : Py Nat := pyMax (polys.map degree)

/-- air.py:126-132 `generate_boundary_constraints` -/
def boundary (width : Nat) (inp : List R) : Py (List (Nat × Nat × R)) :=
  PolyUtils.pyMap (fun ind => do
    let a ← pyIdx inp ind
    .ok (0, ind, a)) (List.range width)

/-- An `AIR` object. -/
structure AIR (R : Type _) [CommRing R] where
  width : Nat
  inp : List R
  steps : Int
  trace : List (List R)
  output : List R
  polys : List (MP (2 * width) R)
  C : Bool
  cdegree : Nat
  B : List (Nat × Nat × R)

/-- air.py:90-120 `AIR.__init__` (`inp` already a list, lines 94-95). -/
def mkAIR (n width : Nat) (inp : List R) (steps : Int) (polys : List (Dict R)) : Py (AIR R) := do
  pyAssert (decide (steps = 2 ^ 9 - 1))
  let (trace, output) ← getTrace n inp steps width polys
  let Ps ← constraints n width polys
  let C ← circuit steps width Ps trace
  let cd ← cDegree width Ps
  pyAssert (decide (cd ≤ 2 ^ 10))
  let B ← boundary width inp
  .ok { width, inp, steps, trace, output, polys := Ps, C, cdegree := cd, B }

/-- air.py:122-124 `generate_witness` -/
def witness (a : AIR R) : Py (List (List R)) :=
  PolyUtils.pyMap (fun j => PolyUtils.pyMap (fun i => do
    let row ← pyIdx a.trace i
    pyIdx row j) (List.range a.steps.toNat)) (List.range a.width)

end Verif.Air
