import Verif.Nodes.NeuralGas

/-! # Specification vocabulary for the neural gas nodes -/

namespace Mdp.NeuralGas

open Mdp.Graph (G Edge)
open Mdp.Cov (Row)

variable {F : Type} [Field F] [LinearOrder F] {d : Nat}

/-- The edge joins the nodes `u` and `v` (in either direction). -/
def Joins (e : Edge) (u v : Nat) : Prop := (e.head = u ∧ e.tail = v) ∨ (e.head = v ∧ e.tail = u)

/-- No edge joins a node with itself and no two edges join the same two nodes. -/
def Simple (g : G Unit) : Prop :=
  (∀ e ∈ g.edges, ¬ Joins e e.head e.head) ∧
    ∀ e ∈ g.edges, ∀ e' ∈ g.edges, Joins e' e.head e.tail → e' = e

/-- Some edge of the list ends at the node. -/
def Touched (l : List Edge) (n : Nat) : Prop := ∃ e ∈ l, e.head = n ∨ e.tail = n

/-- Every node has an edge. -/
def NoIsolated (g : G Unit) : Prop := ∀ n ∈ g.nodes, Touched g.edges n

/-- What numpy promises about `argsort`: the indices of the array, each once, in an order in which
the values do not decrease. -/
def IsArgsort (argsort : List F → List Nat) : Prop :=
  ∀ l : List F, (argsort l).Perm (List.range l.length) ∧
    (argsort l).Pairwise fun i j => ∀ a b, l[i]? = some a → l[j]? = some b → a ≤ b

/-- A set of points that contains every point between two of its points. -/
def ConvexSet (C : Row F d → Prop) : Prop :=
  ∀ a b t, C a → C b → 0 ≤ t → t ≤ 1 → C fun i => a i + t * (b i - a i)

/-- The squared Euclidean distance. -/
def sqDist (a b : Row F d) : F := ∑ i, (a i - b i) ^ 2

end Mdp.NeuralGas
