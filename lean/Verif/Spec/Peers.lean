import Verif.Spec.Chain
import Verif.Model.Blockchain
/-! # Specification: the answers of the peers of a node -/

namespace Verif.Spec
open Verif.Chain

variable {Tx Hs : Type}

/-- Among the answers there is one with status 200 that claims the length `l` for a valid chain `c`. -/
def Offered (C : Crypto Tx Hs) (answers : List (Resp Tx Hs)) (l : Int) (c : List (Block Tx Hs)) : Prop :=
  Resp.answer 200 l c ∈ answers ∧ c ≠ [] ∧ Linked C c

/-- Among the chains offered with more than `n` blocks, `c` is one for which most are claimed. -/
def Best (C : Crypto Tx Hs) (n : Int) (answers : List (Resp Tx Hs)) (c : List (Block Tx Hs)) : Prop :=
  ∃ l, Offered C answers l c ∧ n < l ∧ ∀ l' c', Offered C answers l' c' → l' ≤ l

end Verif.Spec
