import Verif.Model.Commitment
/-!
# Model of the objects of `misc/zkp_3_coloring.py`

The functions of `Model/Commitment` say what one call does; here are the two objects, with what a call leaves behind in them.  The
dictionaries that are passed around are not changed by anybody, so that references and copies are not distinguished.
-/

namespace Verif.Color
open Commit

variable {S T : Type} [DecidableEq T]

/-- A `ZK3ColProver`: the arguments `graph` and `coloring`, and `self.vertexToScheme`, `None` or the secrets of each vertex. -/
structure Prover (S : Type) where
  graph : List (Int × Int)
  coloring : List (Int × Int)
  schemes : Option (Int → List S)

/-- zkp_3_coloring.py:19-29: the constructor; `num_vertices` raises on a graph without edges. -/
def Prover.new (G coloring : List (Int × Int)) : Py (Prover S) := do
  let _ ← ZK.numVertices G
  .ok ⟨G, coloring, none⟩

/-- zkp_3_coloring.py:31-46 `commit_to_coloring`: the object afterwards and the outcome. The new schemes are stored (line 34) before the
colours are looked up (line 41). -/
def Prover.commit (owp : S → T) (hp : S → Nat) (P : Prover S) (perm : List Int) (secrets : Int → List S) :
    Prover S × Py (List (Int × List (T × Nat))) :=
  ({ P with schemes := some secrets }, commitColoring owp hp P.graph P.coloring perm secrets)

/-- zkp_3_coloring.py:48-56 `reveal_colors`: `None[u]` raises `TypeError`. -/
def Prover.reveal (P : Prover S) (u v : Int) : Py (List S × List S) :=
  match P.schemes with
  | none => if (min u v, max u v) ∈ sortEdges P.graph then .error .typeError else .error .exception
  | some secrets => revealColors P.graph secrets u v

/-- A `ZK3ColVerifier`: the argument `graph`, `self.committed_coloring`, and `self.chosen_edge`, an attribute the constructor does not set. -/
structure Verifier (T : Type) where
  graph : List (Int × Int)
  committed : Option (List (Int × List (T × Nat)))
  chosen : Option (Int × Int)

/-- zkp_3_coloring.py:62-71: the constructor -/
def Verifier.new (G : List (Int × Int)) : Verifier T := ⟨G, none, none⟩

/-- zkp_3_coloring.py:73-76 `choose_edge`: the object afterwards and the outcome; `draw` is the number `random.choice` drew. It raises
`IndexError` on an empty graph, after the commitments have been stored. -/
def Verifier.choose (V : Verifier T) (committed : List (Int × List (T × Nat))) (draw : Nat) : Verifier T × Py (Int × Int) :=
  match (sortEdges V.graph)[draw % V.graph.length]? with
  | none => ({ V with committed := some committed }, .error .indexError)
  | some e => ({ V with committed := some committed, chosen := some e }, .ok e)

/-- zkp_3_coloring.py:78-87 `accepts`: reading the missing attribute raises `AttributeError`; `None[w]` would raise `TypeError`. -/
def Verifier.accepts (owp : S → T) (hp : S → Nat) (V : Verifier T) (revealed : List S × List S) : Py Bool :=
  match V.chosen with
  | none => .error .attributeError
  | some edge =>
    match V.committed with
    | none => .error .typeError
    | some committed => Color.accepts owp hp committed edge revealed

end Verif.Color
