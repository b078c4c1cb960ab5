import Verif.Model.FiniteField
import Verif.Model.Numbertype
/-!
# Model of the memoised constructor `FiniteField` (finitefield.py:57-69, numbertype.py:7-22)

One prime `p` is fixed, with `K` the type of the elements of Z/p; what the constructor does for other values of its first argument is the
parameter `other`.
-/

namespace Verif.FF
variable {K : Type _} [Field K] [DecidableEq K]

/-- An argument of `FiniteField`: a non-negative int, a polynomial over Z/p, or `None`. -/
inductive Arg (K : Type _)
  | int (n : Nat)
  | poly (f : List K)
  | none
deriving DecidableEq

/-- `Polynomial` defines `__eq__` without `__hash__` (polynomial.py:99), which makes its objects unhashable. -/
def Arg.hashable : Arg K → Bool
  | .poly _ => false
  | _ => true

/-- The names of the parameters of `FiniteField` (finitefield.py:58). -/
def paramNames : List String := ["p", "m", "polynomialModulus"]

/-- Python's binding of one parameter, number `i`: the positional value if there is one, else the keyword value. -/
def bindParam (c : Call (Arg K) String (Arg K)) (i : Nat) : Option (Arg K) :=
  match c.args[i]? with
  | some a => some a
  | none => c.kwargs.lookup (paramNames.getD i "")

/-- Python's binding of the arguments: `TypeError` for too many positional values, an unknown keyword, a parameter given twice or a
missing one; `polynomialModulus` defaults to `None`. -/
def bindArgs (c : Call (Arg K) String (Arg K)) : Py (Arg K × Arg K × Arg K) :=
  if 3 < c.args.length then .error .typeError
  else if c.kwargs.any (fun kv => !(paramNames.drop c.args.length).contains kv.1) then .error .typeError
  else match bindParam c 0, bindParam c 1 with
    | some P, some m => .ok (P, m, (bindParam c 2).getD .none)
    | _, _ => .error .typeError

/-- finitefield.py:58-69: the wrapped function.  The `k`-th evaluation takes its random polynomials from `draws k`; a modulus that is no
polynomial, or a degree that is no int, raises (some exception, here `TypeError`). -/
def ffBody (factorint : Nat → List Nat) (p : Nat) (draws : Nat → Nat → List K) (inner fuel : Nat)
    (other : Call (Arg K) String (Arg K) → Py (FieldClass K)) (k : Nat) (c : Call (Arg K) String (Arg K)) : Py (FieldClass K) := do
  let a ← bindArgs c
  if a.1 = .int p then
    match a.2.1, a.2.2 with
    | .int m, .poly f => finiteField factorint p m (some f) (draws k) inner fuel
    | .int m, .none => finiteField factorint p m none (draws k) inner fuel
    | _, _ => .error .typeError
  else other c

end Verif.FF
