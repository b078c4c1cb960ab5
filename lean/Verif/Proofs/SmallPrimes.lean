import Mathlib.Data.Nat.Prime.Basic
import Mathlib.Tactic.NormNum.Prime
/-! # The small primes used by the concrete examples -/

namespace Verif.Props
instance fact2 : Fact (Nat.Prime 2) := ⟨by norm_num⟩
instance fact3 : Fact (Nat.Prime 3) := ⟨by norm_num⟩
instance fact5 : Fact (Nat.Prime 5) := ⟨by norm_num⟩
instance fact7 : Fact (Nat.Prime 7) := ⟨by norm_num⟩
instance fact11 : Fact (Nat.Prime 11) := ⟨by norm_num⟩
instance fact13 : Fact (Nat.Prime 13) := ⟨by norm_num⟩
instance fact17 : Fact (Nat.Prime 17) := ⟨by norm_num⟩
end Verif.Props
