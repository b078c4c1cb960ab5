import Verif.Py
/-!
# Model of `starks/numbertype.py`
-/

namespace Verif

/-- numbertype.py:75-82 and 94-101: the `while i <= n` loop shared by `__pow__` (where `mul` is `*`) and
`powmod` (where `mul` is `* … % modulus` and may raise). State `i, Q, R`. -/
def powLoop {α : Type _} (mul : α → α → Py α) (n : Int) : Nat → Nat → α → α → Py α
  | 0, _, _, _ => .error .diverge
  | fuel + 1, i, Q, R =>
    if (i : Int) ≤ n then do
      let Q' ← mul Q Q
      let R' ← if n.toNat &&& i = i then mul Q' R else .ok R
      powLoop mul n fuel (i <<< 1) Q' R'
    else .ok R

/-- numbertype.py:72-84 / 91-103. `n & 1` on a Python int is `n mod 2`. -/
def powGen {α : Type _} (one : α) (mul : α → α → Py α) (x : α) (n : Int) : Py α :=
  powLoop mul n (n.toNat + 1) 2 x (if n.fmod 2 = 1 then x else one)

/-- numbertype.py:68-84 `DomainElement.__pow__`, for an element type with unit `one` and product `mul`. -/
def pyPow {α : Type _} (one : α) (mul : α → α → α) (x : α) (n : Int) : Py α :=
  powGen one (fun a b => .ok (mul a b)) x n

/-- numbertype.py:86-103 `DomainElement.powmod`; `mod a b` is the Python `a % b`. -/
def pyPowmod {α : Type _} (one : α) (mul : α → α → α) (mod : α → α → Py α)
    (x : α) (n : Int) (modulus : α) : Py α :=
  powGen one (fun a b => mod (mul a b) modulus) x n

/-- A call of a memoised function: positional values and keyword arguments. -/
structure Call (A K V : Type _) where
  args : List A
  kwargs : List (K × V)

/-- A component of the cache key: a positional value or a keyword name. -/
inductive MemoKey (A K : Type _)
  | pos (a : A)
  | name (k : K)
deriving DecidableEq

/-- numbertype.py:16 `argTuple = args + tuple(kwargs)`: positional values followed by keyword **names** (iterating a
dict yields its keys), not keyword values. -/
def Call.argTuple {A K V : Type _} (c : Call A K V) : List (MemoKey A K) :=
  c.args.map .pos ++ c.kwargs.map (fun kv => .name kv.1)

/-- The state behind a memoised function: the dictionary `cache` (numbertype.py:13), and a ghost log of the calls on
which the wrapped function was evaluated. -/
structure Memo (A K V B : Type _) where
  cache : List (List (MemoKey A K) × B)
  log : List (Call A K V)

/-- numbertype.py:15-19 `memoizedFunction`. The wrapped function `f` may raise (the cache is then left as it was), and
may return a fresh object each time it is evaluated: its first argument is the number of evaluations so far. Looking up
a tuple with an unhashable component raises `TypeError`. Python's `==` on keys is modelled by equality of `A`, `K`. -/
def memoCall {A K V B : Type _} [DecidableEq A] [DecidableEq K] (hashable : A → Bool)
    (f : Nat → Call A K V → Py B) (st : Memo A K V B) (c : Call A K V) : Py B × Memo A K V B :=
  if c.args.all hashable then
    match st.cache.lookup c.argTuple with
    | some b => (.ok b, st)
    | none =>
      match f st.log.length c with
      | .ok b => (.ok b, ⟨(c.argTuple, b) :: st.cache, st.log ++ [c]⟩)
      | .error e => (.error e, ⟨st.cache, st.log ++ [c]⟩)
  else (.error .typeError, st)

/-- A history of calls: the results, in order, and the final state. -/
def memoRun {A K V B : Type _} [DecidableEq A] [DecidableEq K] (hashable : A → Bool)
    (f : Nat → Call A K V → Py B) : Memo A K V B → List (Call A K V) → List (Py B) × Memo A K V B
  | st, [] => ([], st)
  | st, c :: cs =>
    let r := memoCall hashable f st c
    let rest := memoRun hashable f r.2 cs
    (r.1 :: rest.1, rest.2)

end Verif
