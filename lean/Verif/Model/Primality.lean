import Verif.Py
/-!
# Model of `misc/primality.py`

`random.randint` draws are a parameter: the base tried in round `i` is `draw i`.
-/

namespace Verif.Primality

/-- primality.py:7-11: the loop of `decompose` -/
def decomposeLoop : Nat → Nat → Int → Py (Nat × Int)
  | 0, _, _ => .error .diverge
  | fuel + 1, e, n => if n % 2 = 0 then decomposeLoop fuel (e + 1) (n / 2) else .ok (e, n)

/-- primality.py:4-11 `decompose`. The loop body runs at most `log2 |n|` times for `n ≠ 0`, so the fuel is never exhausted then
(`C65_decompose`); for `n = 0` the Python loop does not end. -/
def decompose (n : Int) : Py (Nat × Int) := decomposeLoop (n.natAbs + 1) 0 n

/-- `pow(a, e, p)` for `p > 0`, `e ≥ 0` -/
def powMod (a : Int) (e : Nat) (p : Int) : Int := a ^ e % p

/-- primality.py:14-23 `isWitness`; `remainder` is non-negative at its only call -/
def isWitness (a p : Int) (exponent : Nat) (remainder : Nat) : Bool :=
  if powMod a remainder p = 1 then false
  else if (List.range exponent).any fun i => powMod a (2 ^ i * remainder) p == p - 1 then false
  else true

/-- primality.py:34-37: the loop of `probablyPrime`, from round `i` on, with `k` rounds to go -/
def witnessLoop (p : Int) (exponent remainder : Nat) (draw : Nat → Int) : Nat → Nat → Bool
  | 0, _ => true
  | k + 1, i => if isWitness (draw i) p exponent remainder then false else witnessLoop p exponent remainder draw k (i + 1)

/-- primality.py:26-39 `probablyPrime` -/
def probablyPrime (p : Int) (accuracy : Nat) (draw : Nat → Int) : Py Bool :=
  if p = 2 ∨ p = 3 then .ok true
  else if p < 2 ∨ p % 2 = 0 then .ok false
  else do
    let er ← decompose (p - 1)
    .ok (witnessLoop p er.1 er.2.toNat draw accuracy 0)

end Verif.Primality
