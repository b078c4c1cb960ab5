import Verif.Model.PolyUtils
import Mathlib.Algebra.Module.Defs
/-!
# Model of starks/reedsolomon.py (`AffineSpace`) and of `construct_affine_vanishing_polynomial`

The elements added up (field elements or polynomials) live in a module `V` over the field `K`; `val * basis_elt` is scalar
multiplication.
-/

namespace Verif.ReedSolomon
open PolyUtils

/-- `itertools.product(*ls)`: all choices of one item per list, the last position varying fastest. -/
def pyProduct {α : Type _} : List (List α) → List (List α)
  | [] => [[]]
  | l :: ls => l.flatMap fun a => (pyProduct ls).map (a :: ·)

/-- reedsolomon.py:28-34 `__len__` as called directly (`len(aff)` itself raises `OverflowError` above `sys.maxsize`). -/
def affineLen {V : Type _} (p m : Nat) (basis : List V) : Nat := (p ^ m) ^ basis.length

/-- `len(aff)`: Python turns the result of `__len__` into a machine word. -/
def affineLenBuiltin {V : Type _} (p m : Nat) (basis : List V) : Py Nat :=
  if affineLen p m basis ≤ 2 ^ 63 - 1 then .ok (affineLen p m basis) else .error .overflow

/-- reedsolomon.py:36-45 `__iter__`, fully consumed.  `fieldIter` is the outcome of `self.field.__iter__()`, called once per
basis element. -/
def affineIter {K V : Type _} [Add V] [SMul K V] (fieldIter : Py (List K)) (basis : List V) (shift : V) : Py (List V) := do
  let its ← pyMap (fun _ => fieldIter) basis
  .ok ((pyProduct its).map fun vals => (vals.zip basis).foldl (fun elt vb => elt + vb.1 • vb.2) shift)

/-- modp.py:11-16, 104: `IntegersModP(p).__iter__()`, the field elements in order; `cast` is the class constructor. -/
def zpIter {K : Type _} (p : Nat) (cast : Int → K) : Py (List K) := .ok ((List.range p).map fun i : Nat => cast (i : Int))

/-- finitefield.py:57-203: the classes built by `FiniteField(p, m)` for `m > 1` define no `__iter__` (numbertype.py has none
either), so `self.field.__iter__` raises `AttributeError`. -/
def fqIter {K : Type _} : Py (List K) := .error .attributeError

/-- poly_utils.py:62-70 `construct_affine_vanishing_polynomial(field, aff)`; `cast` is the constructor of `field`, applied to
the elements of the space on line 65.  The scalars of the space (`aff.field`, here `K₀`) need not be those of `field`: the
library's own uses take scalars in Z/p, basis elements in Z/p[x] and `field` an extension field. -/
def affineVanishing {K₀ V K : Type _} [Add V] [SMul K₀ V] [Field K] [DecidableEq K] (fieldIter : Py (List K₀)) (cast : V → K)
    (basis : List V) (shift : V) : Py (List K) := do
  let elts ← affineIter fieldIter basis shift
  .ok (zpoly (elts.map cast))

end Verif.ReedSolomon
