import Mathlib.Data.List.Basic
/-!
# What a boundary constraint says

A boundary constraint `(i, j, v)` says that register `j` has the value `v` at step `i`.
-/

namespace Verif.Stark

/-- The constraint `(i, j, v)` holds of the columns `W`, one per register, with one entry per step. -/
def Holds {K : Type _} (W : List (List K)) (con : Nat × Nat × K) : Prop :=
  ∃ col, W[con.2.1]? = some col ∧ col[con.1]? = some con.2.2

/-- The values in the first `width` places of a list of constraints, whatever their steps and registers. -/
def firstValues {K : Type _} (width : Nat) (boundary : List (Nat × Nat × K)) : List (Option K) :=
  (List.range width).map fun d => (boundary[d]?).map fun con => con.2.2

/-- The last entries of the first `width` columns. -/
def lastEntries {K : Type _} (width : Nat) (W : List (List K)) : List (Option K) :=
  (List.range width).map fun d => (W[d]?).bind fun col => col.getLast?

end Verif.Stark
