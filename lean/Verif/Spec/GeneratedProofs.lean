import Verif.Spec.Compression
/-! # The size of a generated proof of proximity -/

namespace Verif.SmoothFri

/-- The number of list entries of the compressed form of a proof for `2^k` values, the bound `d` and `spots` positions: each layer is one
separator, a root, and for every position a separator and five branches, each followed by a separator; the branch of the column has
`k - 1` entries, each of the four of the row `k + 1`; after the first layer there are 40 positions. The direct component is a
separator and the values. -/
def proofEntries (k d spots : Nat) : Nat :=
  if d ≤ 16 then 1 + 2 ^ k else 2 + spots * (1 + (k + 4 * (k + 2))) + proofEntries (k - 2) (d / 4) 40
termination_by d
decreasing_by omega

end Verif.SmoothFri
