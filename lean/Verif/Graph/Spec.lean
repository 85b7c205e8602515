import Mathlib.Logic.Relation

/-!
# Specification of graph utilities

Everything is stated in terms of edges of a graph.
-/

namespace Tsar
namespace Graph

variable {N : Type}

/-- There is an edge from `a` to `b`. -/
def Edge (ch : N → List N) (a b : N) : Prop := b ∈ ch a

/-- There is a (possibly empty) path from `a` to `b`. -/
def Reach (ch : N → List N) : N → N → Prop := Relation.ReflTransGen (Edge ch)

/-- There is a non-empty path from `a` to `b`. -/
def Path (ch : N → List N) : N → N → Prop := Relation.TransGen (Edge ch)

/-- A cycle is reachable from the entry. -/
def HasCycle (ch : N → List N) (entry : N) : Prop := ∃ n, Reach ch entry n ∧ Path ch n n

/-- All nodes which are reachable from the entry are in the finite list. -/
def Within (ch : N → List N) (entry : N) (nodes : List N) : Prop :=
  ∀ n, Reach ch entry n → n ∈ nodes

/-- A graph is a forest: each node has at most one parent, there are no multiple edges and there are
no cycles. The part of a forest reachable from a node is a tree. -/
structure Forest (ch : N → List N) : Prop where
  parent : ∀ a a' b, Edge ch a b → Edge ch a' b → a = a'
  nodup : ∀ a, (ch a).Nodup
  acyclic : ∀ a, ¬ Path ch a a

/-- `p` is a proper ancestor of all nodes in the list. -/
def CommonAncestor (ch : N → List N) (p : N) (ns : List N) : Prop := ∀ n ∈ ns, Path ch p n

/-- `p` is the lowest proper common ancestor of nodes: every other common ancestor is above it. -/
def LowestCommonAncestor (ch : N → List N) (p : N) (ns : List N) : Prop :=
  CommonAncestor ch p ns ∧ ∀ q, CommonAncestor ch q ns → Reach ch q p

end Graph
end Tsar
