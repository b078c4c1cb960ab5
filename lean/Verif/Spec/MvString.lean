import Verif.Model.MvString
/-!
# How sympy prints a polynomial with integer coefficients

`Poly(2*X_1**2*X_3 - X_2 + 5, …)`: terms with nonzero coefficient, in some order; a factor `X_i` for every variable that occurs, with
`**e` if its power is not 1; a coefficient 1 before a variable is not written; the sign of a term stands before it, between blanks
unless it is the first.  A term is its power tuple and its coefficient.
-/

namespace Verif.Spec.Sympy
open MvString Mv

/-- `X_i` or `X_i**e` -/
def factor (i e : Nat) : Str := "X_".toList ++ strNat i ++ if e = 1 then [] else "**".toList ++ strNat e

/-- The factors of a monomial; `k` is the number of variables before. -/
def factors : Nat → Tup → List Str
  | _, [] => []
  | k, e :: t => if e = 0 then factors (k + 1) t else factor (k + 1) e :: factors (k + 1) t

/-- A term without its sign. -/
def term (t : Tup) (c : Nat) : Str :=
  if factors 0 t = [] then strNat c
  else if c = 1 then ['*'].intercalate (factors 0 t)
  else strNat c ++ '*' :: ['*'].intercalate (factors 0 t)

/-- The terms after the first. -/
def rest : List (Tup × Int) → Str
  | [] => []
  | (t, c) :: l => (if c < 0 then " - ".toList else " + ".toList) ++ term t c.natAbs ++ rest l

/-- The polynomial. -/
def poly : List (Tup × Int) → Str
  | [] => ['0']
  | (t, c) :: l => (if c < 0 then ['-'] else []) ++ term t c.natAbs ++ rest l

/-- A polynomial in `n` variables as sympy keeps it: distinct monomials, nonzero coefficients. -/
def IsPoly (n : Nat) (l : List (Tup × Int)) : Prop :=
  (l.map Prod.fst).Nodup ∧ ∀ e ∈ l, e.1.length = n ∧ e.2 ≠ 0

/-- The last term is a constant, or its last factor has a power other than 1: the printed string ends in the digits of a number that is
not the index of a variable. -/
def EndsInNumber (l : List (Tup × Int)) : Prop :=
  ∃ t c, l.getLast? = some (t, c) ∧ (t.filter (· ≠ 0)).getLast? ≠ some 1

instance (l : List (Tup × Int)) : Decidable (EndsInNumber l) :=
  match h : l.getLast? with
  | none => isFalse fun ⟨t, c, h', _⟩ => by simp [h] at h'
  | some (t, c) =>
    if h2 : (t.filter (· ≠ 0)).getLast? ≠ some 1 then isTrue ⟨t, c, h, h2⟩
    else isFalse fun ⟨t', c', h', h3⟩ => by
      rw [h] at h'
      cases h'
      exact h2 h3

/-- What sympy answers when asked to divide a polynomial in `X_1, …, X_n` with the coefficients `a`, not constant, by one in another
variable `x` with the coefficients `cs`, not constant: no power of `x` divides a term of the first, so the quotient is 0.  (The
coefficients are residues, so nothing cancels; a coefficient that is itself a polynomial is printed in `x` too.) -/
def QuotientZero (sympy : Str → Str → Py Str) : Prop :=
  ∀ (n : Nat) (a : List (Tup × Nat)) (cs : List (List Nat)), (∀ e ∈ a, e.1.length = n ∧ 0 < e.2) → (∃ e ∈ a, e.1 ≠ List.replicate n 0) →
    2 ≤ cs.length → 0 < (cs.getLastD []).getLastD 0 →
    ∃ r, sympy (mvRepr n (a.map fun e => (e.1, strNat e.2))) (polyRepr (cs.map fun b => polyRepr (b.map strNat))) =
      .ok ("(Poly(0,".toList ++ r)

end Verif.Spec.Sympy
