import Verif.Model.ColoringSession
/-! # Specification: histories of calls on a prover and a verifier of the 3-colouring protocol -/

namespace Verif.Color

variable {S T : Type}

/-- One call, with what was drawn in it. Arguments are arbitrary: nobody is assumed to follow the protocol. -/
inductive Call (S T : Type)
  | commit (perm : List Int) (secrets : Int → List S)
  | reveal (u v : Int)
  | choose (committed : List (Int × List (T × Nat))) (draw : Nat)
  | accepts (revealed : List S × List S)

/-- A call to `commit_to_coloring`. -/
def Call.IsCommit : Call S T → Prop
  | .commit .. => True
  | _ => False

/-- A call to `choose_edge`. -/
def Call.IsChoose : Call S T → Prop
  | .choose .. => True
  | _ => False

/-- The two objects after a call. -/
def step (owp : S → T) (hp : S → Nat) (s : Prover S × Verifier T) : Call S T → Prover S × Verifier T
  | .commit perm secrets => ((s.1.commit owp hp perm secrets).1, s.2)
  | .choose c draw => (s.1, (s.2.choose c draw).1)
  | .reveal .. => s
  | .accepts .. => s

/-- The two objects after a history of calls. -/
def after (owp : S → T) (hp : S → Nat) (s : Prover S × Verifier T) (calls : List (Call S T)) : Prover S × Verifier T :=
  calls.foldl (step owp hp) s

/-- The list of the two secrets of every vertex. -/
def two (sec : Int → S × S) (v : Int) : List S := [(sec v).1, (sec v).2]

end Verif.Color
