import Verif.Model.BlockchainResolve
import Verif.Spec.Chain
/-! # Specification: requests that overlap -/

namespace Verif.Spec
open Verif.Chain

variable {Tx Hs : Type}

/-- A request that has read the chain and has yet to change it: a `/mine` request that has found its proof, a `/nodes/resolve` request that asks its peers. -/
def Busy : QPc Tx Hs → Prop
  | .mine pc => pc.held ≠ none
  | .polling _ _ => True
  | _ => False

instance (pc : QPc Tx Hs) : Decidable (Busy pc) :=
  match pc with
  | .new => .isFalse id
  | .done => .isFalse id
  | .polling _ _ => .isTrue trivial
  | .mine pc => match h : pc.held with
    | none => .isFalse fun hb => hb h
    | some _ => .isTrue fun hn => by rw [h] at hn; cases hn

/-- No two requests are in that state. -/
def NoOverlap (c : QConf Tx Hs) : Prop := ∀ i j, Busy (c.threads i) → Busy (c.threads j) → i = j

/-- The peers say how long their chains are. -/
def Truthful (sched : List (QChoice Tx Hs)) : Prop := ∀ i l c, QChoice.poll i (.answer 200 l c) ∈ sched → l = c.length

end Verif.Spec
