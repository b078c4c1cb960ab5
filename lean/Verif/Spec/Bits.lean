/-! # The number a list of bits denotes -/

namespace Verif.Spec

/-- The number with the given binary digits, least significant first. -/
def bitsVal : List Bool → Nat
  | [] => 0
  | b :: bs => b.toNat + 2 * bitsVal bs

end Verif.Spec
