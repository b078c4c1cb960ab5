/-!
# Binary words multiplied without carries

The arithmetic of `GF(2^m)` on `m`-bit words, as the tutorial "Binary Finite Fields Pt 2" describes it: bit `i` of a word is the
coefficient of `x^i`.
-/

namespace Verif.Words

/-- The product without carries: the exclusive or of the words `a << i` for the bits `i` of `b`. -/
def clmul (a b : Nat) : Nat := (List.range (b.log2 + 1)).foldl (fun r i => if b.testBit i then r ^^^ (a <<< i) else r) 0

/-- Reduction of the word `g` by the modulus `f`: from the top downwards, a bit at or above the top bit of `f` is cleared by an
exclusive or with a shifted copy of `f`. -/
def reduce (f g : Nat) : Nat :=
  (List.range (g.log2 + 1)).reverse.foldl (fun r i => if r.testBit (i + f.log2) then r ^^^ (f <<< i) else r) g

end Verif.Words
