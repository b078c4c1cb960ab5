import Verif.Model.BlockchainJson
/-!
# When two JSON values are the same

`Json` keeps a dictionary as a list; the order of the keys is not part of the value.
-/

namespace Verif.Spec.ChainJson
open Verif.ChainJson

/-- The same value: dictionaries have the same keys, with the same values, in whatever order. -/
inductive Same {N : Type} : Json N → Json N → Prop
  | null : Same .null .null
  | bool (b : Bool) : Same (.bool b) (.bool b)
  | num (n : N) : Same (.num n) (.num n)
  | str (s : String) : Same (.str s) (.str s)
  | arr {l l' : List (Json N)} (hl : l.length = l'.length) (h : ∀ (i : Nat) a a', l[i]? = some a → l'[i]? = some a' → Same a a') : Same (.arr l) (.arr l')
  | obj {d d' : List (String × Json N)} (hk : ∀ k, (d.lookup k).isSome = (d'.lookup k).isSome)
      (h : ∀ k a a', d.lookup k = some a → d'.lookup k = some a' → Same a a') : Same (.obj d) (.obj d')

/-- What is used of the texts of numbers: different numbers have different texts; a text begins with a digit, `-`, `I` (for `Infinity`) or `N`
(for `NaN`) and contains none of `,`, `]`, `}`. -/
structure NumberTexts {N : Type} (num : N → Bytes) : Prop where
  inj : ∀ a b, num a = num b → a = b
  head : ∀ a, ∃ c t, num a = c :: t ∧ (48 ≤ c ∧ c ≤ 57 ∨ c = 45 ∨ c = 73 ∨ c = 78)
  plain : ∀ a, ∀ c ∈ num a, c ≠ 44 ∧ c ≠ 93 ∧ c ≠ 125

end Verif.Spec.ChainJson
