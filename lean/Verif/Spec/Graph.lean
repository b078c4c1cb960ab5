import Mathlib.Logic.Equiv.Defs
import Mathlib.Data.List.Perm.Basic
import Mathlib.Data.Int.Basic
/-!
# Specification: graphs given as lists of edges, relabellings, isomorphism
-/

namespace Verif.Spec

/-- All vertices of `G` are among `1, …, n`. -/
def InRange (n : Nat) (G : List (Int × Int)) : Prop := ∀ e ∈ G, (1 ≤ e.1 ∧ e.1 ≤ n) ∧ 1 ≤ e.2 ∧ e.2 ≤ n

/-- `n` is the largest vertex of `G`. -/
def IsTop (n : Nat) (G : List (Int × Int)) : Prop := InRange n G ∧ ∃ e ∈ G, e.1 = n ∨ e.2 = n

/-- `L` lists `0, …, n-1` in some order. -/
def IsPerm (n : Nat) (L : List Int) : Prop := L.Perm ((List.range n).map Int.ofNat)

/-- The vertex `L` sends the vertex `v` to: both are counted from 1. -/
def relabel (L : List Int) (v : Int) : Int := L.getD (v - 1).toNat 0 + 1

/-- The graph with every vertex renamed by `g`. -/
def rename (g : Int → Int) (G : List (Int × Int)) : List (Int × Int) := G.map fun e => (g e.1, g e.2)

/-- Adjacency in an undirected graph. -/
def Adj (G : List (Int × Int)) (a b : Int) : Prop := (a, b) ∈ G ∨ (b, a) ∈ G

/-- Graph isomorphism: a bijection of the vertices that preserves and reflects adjacency. -/
def Isomorphic (G1 G2 : List (Int × Int)) : Prop := ∃ σ : Equiv.Perm Int, ∀ a b, Adj G1 a b ↔ Adj G2 (σ a) (σ b)

/-- `v` is an endpoint of an edge of `G`. -/
def Vertex (G : List (Int × Int)) (v : Int) : Prop := ∃ e ∈ G, v = e.1 ∨ v = e.2

/-- `c` is a proper colouring: the ends of every edge have different colours. -/
def Proper {α : Type} (G : List (Int × Int)) (c : Int → α) : Prop := ∀ e ∈ G, c e.1 ≠ c e.2

/-- The graph can be coloured with `k` colours. -/
def Colorable (k : Nat) (G : List (Int × Int)) : Prop := ∃ c : Int → Fin k, Proper G c

end Verif.Spec
