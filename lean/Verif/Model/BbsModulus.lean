import Verif.Model.Commitment
/-!
# Model of the search for a modulus in `misc/blum_blum_shub.py`

The randomness is a parameter: `rnd i` is what the `i`-th `random.getrandbits(num_bits)` returns and `bases i` are the bases that
`probablyPrime` draws when it tests `rnd i`.
-/

namespace Verif.Bbs

/-- blum_blum_shub.py:28-29: the `while` loop, with `i` candidates drawn so far and `draw` the bases for the present one. -/
def findLoop (rnd : Nat → Int) (bases : Nat → Nat → Int) : Nat → Nat → Int → (Nat → Int) → Py Int
  | 0, _, _, _ => .error .diverge
  | fuel + 1, i, candidate, draw => do
    let good ← goodPrime candidate draw
    if good then .ok candidate else findLoop rnd bases fuel (i + 1) (rnd i) (bases i)

/-- blum_blum_shub.py:24-31 `find_good_prime`; the first candidate, 1, is rejected before any base is drawn. -/
def findGoodPrime (fuel : Nat) (rnd : Nat → Int) (bases : Nat → Nat → Int) : Py Int := findLoop rnd bases fuel 0 1 (fun _ => 0)

/-- blum_blum_shub.py:34-36 `make_modulus`; each call has its own randomness. -/
def makeModulus (fuel : Nat) (rnd rnd' : Nat → Int) (bases bases' : Nat → Nat → Int) : Py Int := do
  let p ← findGoodPrime fuel rnd bases
  let q ← findGoodPrime fuel rnd' bases'
  .ok (p * q)

/-- blum_blum_shub.py:46-56 `blum_blum_shub`: the function returned, applied to `x`. -/
def blumBlumShub (fuel : Nat) (rnd rnd' : Nat → Int) (bases bases' : Nat → Nat → Int) : Py (Int → Int) := do
  let M ← makeModulus fuel rnd rnd' bases bases'
  .ok (bbs M)

end Verif.Bbs
