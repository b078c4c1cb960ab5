import Verif.Model.BlockchainJson
/-!
# What a node accepts and needs, in terms of JSON values

Only the JSON type and the arbitrary functions (`hash`, `valid_proof`) of the model are used here.
-/

namespace Verif.Spec.ChainJson
open Verif.ChainJson

variable {N : Type}

/-- `j` is a dictionary with value `v` at key `k`. -/
def HasKey (j : Json N) (k : String) (v : Json N) : Prop := ∃ d, j = .obj d ∧ d.lookup k = some v

/-- A number, or a truth value, which Python counts as a number. -/
def IsNumber (j : Json N) : Prop := (∃ n, j = .num n) ∨ ∃ b, j = .bool b

/-- A block on which another one can be mined: a dictionary with a proof and a number as index. -/
def IsBlock (j : Json N) : Prop := (∃ p, HasKey j "proof" p) ∧ ∃ i, HasKey j "index" i ∧ IsNumber i

/-- A list whose last element is such a block. -/
def Usable (c : Json N) : Prop := ∃ l b, c = .arr (l ++ [b]) ∧ IsBlock b

/-- Every block of the list carries the hash of the one before it, and a proof valid for it. -/
def Links (hash : Json N → String) (vp : Json N → Json N → String → Bool) (l : List (Json N)) : Prop :=
  ∀ i (h : i + 1 < l.length), HasKey l[i + 1] "previous_hash" (.str (hash l[i])) ∧
    ∃ p q, HasKey l[i] "proof" p ∧ HasKey l[i + 1] "proof" q ∧ vp p q (hash l[i]) = true

/-- The body of a transaction: a dictionary with the three keys. -/
def IsTransaction (body sender recipient amount : Json N) : Prop :=
  HasKey body "sender" sender ∧ HasKey body "recipient" recipient ∧ HasKey body "amount" amount

end Verif.Spec.ChainJson
