import Verif.Graph.Model
import Mathlib.Logic.Relation

/-! # Specification vocabulary for the graph package -/

namespace Mdp.Graph

variable {D : Type}

/-- There is an edge from `u` to `v`. Only the graph's own edge list is consulted. -/
def Adj (g : G D) (u v : NodeId) : Prop := ∃ e ∈ g.edges, e.head = u ∧ e.tail = v

/-- There is an edge between `u` and `v` in either direction. -/
def UAdj (g : G D) (u v : NodeId) : Prop := Adj g u v ∨ Adj g v u

/-- `v` can be reached from `u` along zero or more directed edges. -/
def Reach (g : G D) : NodeId → NodeId → Prop := Relation.ReflTransGen (Adj g)

/-- `v` can be reached from `u` ignoring the direction of edges. -/
def UReach (g : G D) : NodeId → NodeId → Prop := Relation.ReflTransGen (UAdj g)

/-- `v` lies on a directed cycle. -/
def OnCycle (g : G D) (v : NodeId) : Prop := Relation.TransGen (Adj g) v v

def Cyclic (g : G D) : Prop := ∃ v, OnCycle g v

/-- Walks with exactly `n` steps of a relation. -/
inductive Walk (R : NodeId → NodeId → Prop) : Nat → NodeId → NodeId → Prop
  | refl (u) : Walk R 0 u u
  | step {n u v w} : Walk R n u v → R v w → Walk R (n + 1) u w

/-- The distance of `u` from `root` is at most the distance of `v` from `root`. -/
def NoFarther (R : NodeId → NodeId → Prop) (root u v : NodeId) : Prop :=
  ∀ n, Walk R n root v → ∃ m, m ≤ n ∧ Walk R m root u

/-- The book-keeping of a graph is consistent: the edge lists kept by the nodes are exactly the
edges of the graph that start / end there, every edge joins two nodes of the graph, no node or
edge is listed twice. -/
structure Consistent (g : G D) : Prop where
  nodes_nodup : g.nodes.Nodup
  edges_nodup : g.edges.Nodup
  ein_eq : ∀ n, g.ein n = g.edges.filter (fun e => e.tail == n)
  eout_eq : ∀ n, g.eout n = g.edges.filter (fun e => e.head == n)
  ends : ∀ e ∈ g.edges, e.head ∈ g.nodes ∧ e.tail ∈ g.nodes
  node_lt : ∀ n ∈ g.nodes, n < g.nextNode
  edge_lt : ∀ e ∈ g.edges, e.id < g.nextEdge

/-- The graphs a program can build: any sequence of calls, including calls that raise. The nodes
passed to `add_edge`/`add_full_connectivity` must be nodes of the graph; nothing is assumed about
the arguments of the other calls. -/
inductive Reachable : G D → Prop
  | empty : Reachable G.empty
  | addNode {g} (d) : Reachable g → Reachable (addNode g d).1
  | addEdge {g} (h t) : Reachable g → h ∈ g.nodes → t ∈ g.nodes → Reachable (addEdge g h t).1
  | removeEdge {g} (e) : Reachable g → Reachable (removeEdge g e).1
  | removeNode {g} (n) : Reachable g → Reachable (removeNode g n).1
  | addNodes {g} (ds) : Reachable g → Reachable (addNodes g ds).1
  | addFull {g} (fs ts) : Reachable g → (∀ n ∈ fs, n ∈ g.nodes) → (∀ n ∈ ts, n ∈ g.nodes) →
      Reachable (addFullConnectivity g fs ts).1
  | addTree {g} (t) : Reachable g → Reachable (addTree g t).1

/-- `l` lists every node once and the head of every edge before its tail. -/
def IsTopologicalOrder (g : G D) (l : List NodeId) : Prop :=
  l.Perm g.nodes ∧ ∀ u v, Adj g u v → l.idxOf u < l.idxOf v

/-! ### Trees -/

mutual
/-- A nested sequence describes a tree: a value, or a non-empty sequence whose first element is
a value (the root) and whose other elements describe the children. -/
def Nested.isTree {α : Type} : Nested α → Bool
  | .leaf _ => true
  | .seq [] => false
  | .seq (.leaf _ :: cs) => Nested.areTrees cs
  | .seq (.seq _ :: _) => false
def Nested.areTrees {α : Type} : List (Nested α) → Bool
  | [] => true
  | t :: ts => Nested.isTree t && Nested.areTrees ts
end

mutual
/-- The values of a nested sequence from left to right. -/
def Nested.values {α : Type} : Nested α → List α
  | .leaf a => [a]
  | .seq l => Nested.valuesL l
def Nested.valuesL {α : Type} : List (Nested α) → List α
  | [] => []
  | t :: ts => Nested.values t ++ Nested.valuesL ts
end

mutual
/-- Two nested sequences have the same shape and related entries. -/
def Nested.Rel {α β : Type} (R : α → β → Prop) : Nested α → Nested β → Prop
  | .leaf a, .leaf b => R a b
  | .seq l, .seq m => Nested.RelL R l m
  | _, _ => False
def Nested.RelL {α β : Type} (R : α → β → Prop) : List (Nested α) → List (Nested β) → Prop
  | [], [] => True
  | a :: l, b :: m => Nested.Rel R a b ∧ Nested.RelL R l m
  | _, _ => False
end

/-- The root of a tree description. -/
def Nested.root? {α : Type} : Nested α → Option α
  | .leaf a => some a
  | .seq (.leaf a :: _) => some a
  | _ => none

mutual
/-- All (parent, child) pairs of a tree description. -/
def Nested.links {α : Type} : Nested α → List (α × α)
  | .leaf _ => []
  | .seq [] => []
  | .seq (.leaf r :: cs) => Nested.linksL r cs
  | .seq (.seq _ :: _) => []
def Nested.linksL {α : Type} (r : α) : List (Nested α) → List (α × α)
  | [] => []
  | c :: cs => ((Nested.root? c).toList.map fun s => (r, s)) ++ Nested.links c ++ Nested.linksL r cs
end

end Mdp.Graph
