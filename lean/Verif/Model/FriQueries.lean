import Verif.Model.Fri
/-!
# Model of successive calls of `query` (starks/fri.py:103-167) with one list of functions
-/

namespace Verif.Fri
open PolyUtils ReedSolomon Poly

variable {K V F : Type _} [AddCommGroup V] [SMul K V] [Field F] [DecidableEq F]

/-- fri.py:104-129: the polynomial that `query` appends to the list it was given, or the exception raised before that. -/
def queryAppended (o : Obj K V F) (coeff : Option (List F)) : Py (List F) := do
  checkRate o.rho
  let _ ← affineLenBuiltin o.p o.m o.basis
  let L0 := selectSubspace o.basis 2
  let q ← affineVanishing o.fieldIter o.cast L0.1 L0.2
  if 0 < o.rounds - 1 then
    let _ ← evalOnSubspace o.fieldIter o.cast q o.basis o.shift
    .error .attributeError
  else
    let P' ← (match coeff with
      | some c => .ok (ctor c)
      | none => .error .typeError : Py (List F))
    let xs ← evalOnSubspace o.fieldIter o.cast q o.basis o.shift
    lagrangeInterp xs (xs.map fun v => call P' v)

/-- fri.py:129 `f.append(...)`: the caller's list after the call, also if it raises later. -/
def queryList (o : Obj K V F) (f : List (Fn V F)) (coeff : Option (List F)) : List (Fn V F) :=
  match queryAppended o coeff with
  | .ok last => f ++ [(fun e => .ok (call last (Sum.elim o.cast id e)) : Fn V F)]
  | .error _ => f

/-- The answers to successive calls `query(f, coeff)` with the same list object `f`; each call has its proof and its draws. -/
def queries (o : Obj K V F) : List (Fn V F) → List (Option (List F) × (Nat → Nat)) → List (Py Bool)
  | _, [] => []
  | f, c :: cs => query o f c.1 c.2 :: queries o (queryList o f c.1) cs

end Verif.Fri
