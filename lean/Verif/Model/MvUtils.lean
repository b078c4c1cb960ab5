import Verif.Proofs.Multivariate
import Verif.Proofs.Polynomial
/-!
# Model of the multivariate part of starks/poly_utils.py

`field` is a Mathlib field or commutative ring; int operands are cast by `typecheck` (numbertype.py:25-48), and `0 + f`, `c * f`
with a multivariate `f` go through `__radd__`, `__rmul__` (numbertype.py:58-65): they are `f + 0` and `f * c`.
-/

namespace Verif.Mv

variable {R : Type _} [CommRing R] [DecidableEq R]

/-- poly_utils.py:38-40: `up_poly = 0; for degree, coeff in enumerate(..): up_poly += coeff * X_i**degree`.  The accumulator is
`none` while it is the int 0. -/
def makeLoop (n i : Nat) : Nat → List R → Option (Dict R) → Py (Option (Dict R))
  | _, [], acc => .ok acc
  | k, c :: cs, acc => do
    let xk ← pow n (xi n i) k
    let term := mul xk (ofElt n c)
    let acc' := match acc with
      | none => add term (ofElt n 0)
      | some a => add a term
    makeLoop n i (k + 1) cs (some acc')

/-- poly_utils.py:24-41 `make_multivar(poly, i, field, width)`, with `n` the width and `f` the coefficients of `poly`; `none` is
the int 0. -/
def makeMultivar (n i : Nat) (f : List R) : Py (Option (Dict R)) := makeLoop n i 0 f none

/-- poly_utils.py:50-54: the loop of `project_to_univariate`, over the sorted monomials.  `single` is the constructor on
`{term_minus_i: coeff}`.  The accumulator is `none` while it is the int 0. -/
def projLoop (n i : Nat) : Dict R → Option (List (MP (n - 1) R)) → Py (Option (List (MP (n - 1) R)))
  | [], acc => .ok acc
  | (t, c) :: d, acc => do
    let rest := t.take i ++ t.drop (i + 1)
    let e ← pyIdx t i
    let xe ← pyPow Poly.one Poly.mul (Poly.ctor [0, 1]) (e : Int)
    let term := Poly.mul (Poly.ctor [MP.single (n - 1) rest c]) xe
    let acc' := match acc with
      | none => Poly.add term (Poly.ctor [0])
      | some a => Poly.add a term
    projLoop n i d (some acc')

/-- poly_utils.py:43-55 `project_to_univariate(multivar_poly, i, field, width)`: a univariate polynomial whose coefficients are
multivariate polynomials in one variable less; `none` is the int 0. -/
def project (n i : Nat) (d : Dict R) : Py (Option (List (MP (n - 1) R))) := projLoop n i d none

section delta
variable {K : Type _} [Field K] [DecidableEq K]

/-- poly_utils.py:256-257: `x_i_term = [0] * n; x_i_term[i] = 1` -/
def unitTup (n i : Nat) : Py Tup :=
  if i < n then .ok ((List.replicate n 0).set i 1) else .error .indexError

/-- poly_utils.py:253-260: the loop of `construct_multivariate_dirac_delta`, from index `i`.  The dictionary holds the int 1, here
the field's 1: it is compared with 0, multiplied with and added to field elements only.  The accumulator is `none` while it is
the field element `field(1)`. -/
def diracLoop (q n : Nat) : Nat → List K → Option (Dict K) → Py (Option (Dict K))
  | _, [], acc => .ok acc
  | i, v :: vs, acc => do
    let u ← unitTup n i
    let t0 := ofDict [(List.replicate n 0, -v), (u, 1)]
    let tq ← pow n t0 (q - 1 : Nat)
    let term := add (neg tq) (ofElt n 1)
    let acc' := match acc with
      | none => mul term (ofElt n 1)
      | some a => mul a term
    diracLoop q n (i + 1) vs (some acc')

/-- poly_utils.py:242-261 `construct_multivariate_dirac_delta(field, values, n)`, with `q` the `field_size`; `none` is the field
element 1, returned for an empty list of values. -/
def dirac (q n : Nat) (values : List K) : Py (Option (Dict K)) := diracLoop q n 0 values none

/-- poly_utils.py:294 `itertools.product(*[range(p) for _ in range(m)])` -/
def indices (p : Nat) : Nat → List (List Nat)
  | 0 => [[]]
  | m + 1 => (List.range p).flatMap fun x => (indices p m).map fun r => x :: r

/-- poly_utils.py:295-298: the loop of `construct_multivariate_coefficients`. -/
def coeffLoop (q n : Nat) (step : List K → Py K) : List (List Nat) → Dict K → Py (Dict K)
  | [], acc => .ok acc
  | idx :: rest, acc => do
    let index := idx.map fun k : Nat => (k : K)
    let term ← dirac q n index
    let s ← step index
    let acc' := match term with
      | none => add acc (ofElt n (s * 1))
      | some t => add acc (mul t (ofElt n s))
    coeffLoop q n step rest acc'

/-- poly_utils.py:264-299 `construct_multivariate_coefficients(field, step_fn, n)`, for a field of characteristic `p` and degree
`m` over `Z/p` (`m = 1` for `Z/p` itself), with `q` its `field_size`. -/
def coefficients (p m q n : Nat) (step : List K → Py K) : Py (Dict K) :=
  coeffLoop q n step (indices p m) (ofElt n 0)

end delta

end Verif.Mv
