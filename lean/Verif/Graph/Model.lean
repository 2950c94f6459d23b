import Verif.Py.Loop

/-!
# Model of `mdp/graph/graph.py`

Node and edge objects are represented by an identity (`Nat`), drawn from counters that stand for
object allocation.  Python compares `GraphNode`/`GraphEdge` by identity (no `__eq__` is defined),
which is equality of ids here.  Data slots of edges are not modelled; data of nodes is.
-/

namespace Mdp.Graph

/-- Node objects are identified by a number. -/
scoped notation "NodeId" => Nat

/-- `GraphEdge` (graph.py:113-132). `id` stands for object identity. -/
structure Edge where
  id : Nat
  head : NodeId
  tail : NodeId
deriving DecidableEq, Repr

/-- Exceptions raised by the graph package. -/
inductive Err where
  /-- `GraphException` (graph.py:12) -/
  | graph
  /-- `GraphTopologicalException` with the list of ordered nodes (graph.py:16, 275) -/
  | topological (l : List NodeId)
  /-- `ValueError` of `list.remove` -/
  | value
  /-- `KeyError` of a dict access -/
  | key
  /-- `TypeError` (`reduce` of an empty sequence) -/
  | type
  /-- `AttributeError` (a list used as a node) -/
  | attribute
  /-- `IndexError` (`self.nodes[0]` of an empty graph) -/
  | index
deriving DecidableEq, Repr

/-- `Graph` together with the edge lists stored in its `GraphNode`s (graph.py:46-54, 134-141).
`nextNode`/`nextEdge` are the allocation counters (not in the code). -/
structure G (D : Type) where
  nodes : List NodeId
  edges : List Edge
  ein : NodeId → List Edge
  eout : NodeId → List Edge
  data : NodeId → Option D
  nextNode : Nat
  nextEdge : Nat

variable {D : Type}

/-- `Graph.__init__` (graph.py:137-141). -/
def G.empty : G D :=
  { nodes := [], edges := [], ein := fun _ => [], eout := fun _ => [], data := fun _ => none,
    nextNode := 0, nextEdge := 0 }

/-- Update of one entry of a function (assignment to an attribute of one object). -/
def upd {α : Type} (f : Nat → α) (k : Nat) (v : α) : Nat → α := fun n => if n = k then v else f n

/-- `list.remove(x)`: `none` stands for `ValueError`. -/
def listRemove {α : Type} [DecidableEq α] (x : α) : List α → Option (List α)
  | [] => none
  | y :: ys => if y = x then some ys else (listRemove x ys).map (y :: ·)

/-- `Graph.add_node` (graph.py:144-147). Returns the new node. -/
def addNode (g : G D) (d : Option D) : G D × NodeId :=
  let n := g.nextNode
  ({ g with nodes := g.nodes ++ [n], ein := upd g.ein n [], eout := upd g.eout n [],
            data := upd g.data n d, nextNode := n + 1 }, n)

/-- `Graph.add_edge` (graph.py:162-174). Note that it does not check that the nodes belong to
the graph. -/
def addEdge (g : G D) (h t : NodeId) : G D × Edge :=
  let e : Edge := ⟨g.nextEdge, h, t⟩
  let eout := upd g.eout h (g.eout h ++ [e])
  let ein := upd g.ein t (g.ein t ++ [e])
  ({ g with edges := g.edges ++ [e], ein := ein, eout := eout, nextEdge := g.nextEdge + 1 }, e)

/-- `Graph.remove_edge` (graph.py:176-183, 62-66). The three `list.remove` calls happen in this
order; the state mutated before a `ValueError` is kept. -/
def removeEdge (g : G D) (e : Edge) : G D × Except Err Unit :=
  match listRemove e (g.eout e.head) with
  | none => (g, .error .value)
  | some l =>
    let g := { g with eout := upd g.eout e.head l }
    match listRemove e (g.ein e.tail) with
    | none => (g, .error .value)
    | some l =>
      let g := { g with ein := upd g.ein e.tail l }
      match listRemove e g.edges with
      | none => (g, .error .value)
      | some l => ({ g with edges := l }, .ok ())

/-- `GraphNode.get_edges()` without argument (graph.py:84-88). -/
def getEdges (g : G D) (n : NodeId) : List Edge := g.ein n ++ g.eout n

/-- The loop `for edge in node.get_edges(): self.remove_edge(edge)` (graph.py:156-157). -/
def removeEdges (g : G D) : List Edge → G D × Except Err Unit
  | [] => (g, .ok ())
  | e :: es =>
    match removeEdge g e with
    | (g', .ok ()) => removeEdges g' es
    | (g', .error x) => (g', .error x)

/-- `Graph.remove_node` (graph.py:149-159). -/
def removeNode (g : G D) (n : NodeId) : G D × Except Err Unit :=
  if n ∉ g.nodes then (g, .error .graph)
  else
    match removeEdges g (getEdges g n) with
    | (g', .error x) => (g', .error x)
    | (g', .ok ()) =>
      match listRemove n g'.nodes with
      | none => (g', .error .value)
      | some l => ({ g' with nodes := l }, .ok ())

/-- `GraphNode.in_neighbors` (graph.py:102-104). -/
def inNeighbors (g : G D) (n : NodeId) : List NodeId := (g.ein n).map Edge.head

/-- `GraphNode.out_neighbors` (graph.py:106-108). -/
def outNeighbors (g : G D) (n : NodeId) : List NodeId := (g.eout n).map Edge.tail

/-- `GraphNode.neighbors` (graph.py:110-111). -/
def neighbors (g : G D) (n : NodeId) : List NodeId := inNeighbors g n ++ outNeighbors g n

/-- `GraphNode.in_degree` (graph.py:90-92). -/
def inDegree (g : G D) (n : NodeId) : Nat := (g.ein n).length

/-- `GraphNode.out_degree` (graph.py:94-96). -/
def outDegree (g : G D) (n : NodeId) : Nat := (g.eout n).length

/-! ## Populate functions -/

/-- `Graph.add_nodes` for a sequence of data values (graph.py:187-194). -/
def addNodes (g : G D) : List (Option D) → G D × List NodeId
  | [] => (g, [])
  | d :: ds =>
    let (g1, n) := addNode g d
    let (g2, ns) := addNodes g1 ds
    (g2, n :: ns)

/-- `[self.add_edge(from_, x) for x in to_nodes]` (graph.py:237). -/
def addEdgesTo (g : G D) (h : NodeId) : List NodeId → G D × List Edge
  | [] => (g, [])
  | t :: ts =>
    let (g1, e) := addEdge g h t
    let (g2, es) := addEdgesTo g1 h ts
    (g2, e :: es)

/-- `Graph.add_full_connectivity` (graph.py:225-238). -/
def addFullConnectivity (g : G D) : List NodeId → List NodeId → G D × List (List Edge)
  | [], _ => (g, [])
  | f :: fs, to =>
    let (g1, es) := addEdgesTo g f to
    let (g2, ess) := addFullConnectivity g1 fs to
    (g2, es :: ess)

/-- A nested sequence as accepted by `add_tree`: a value, or a list/tuple of nested sequences. -/
inductive Nested (α : Type) where
  | leaf (a : α)
  | seq (l : List (Nested α))

mutual
/-- The inner function `_func` of `recursive_map(self.add_node, ·)` (graph.py:25-32): for an atom
call `add_node`, for a sequence recurse. -/
def addNested (g : G D) : Nested (Option D) → G D × Nested NodeId
  | .leaf d => let (g', n) := addNode g d; (g', .leaf n)
  | .seq l => let (g', ns) := addNestedList g l; (g', .seq ns)
/-- `recursive_map(self.add_node, seq)` (graph.py:25-32, 221). -/
def addNestedList (g : G D) : List (Nested (Option D)) → G D × List (Nested NodeId)
  | [] => (g, [])
  | t :: ts =>
    let (g1, n) := addNested g t
    let (g2, ns) := addNestedList g1 ts
    (g2, n :: ns)
end

/-- `_add_edge(root, son)` of `add_tree` (graph.py:217-219) applied to things that may turn out
to be lists instead of nodes. `head.add_edge_out` on a list raises `AttributeError`; if `head` is a
node and `tail` a list, the edge has already been appended to `head.eout`. -/
def addTreeEdge (g : G D) (r s : Nested NodeId) : G D × Except Err (Nested NodeId) :=
  match r, s with
  | .leaf h, .leaf t => ((addEdge g h t).1, .ok r)
  | .leaf _, .seq _ => (g, .error .attribute) -- simplification: the dangling edge in h.eout is dropped
  | .seq _, _ => (g, .error .attribute)

mutual
/-- `recursive_reduce(func, seq)` (graph.py:34-42) with `func = _add_edge`. -/
def reduceSeq (g : G D) : List (Nested NodeId) → G D × Except Err (Nested NodeId)
  | [] => (g, .error .type)
  | x :: ys => reduceFrom g x ys
/-- The accumulation of `reduce`: `x` is the accumulator. -/
def reduceFrom (g : G D) (x : Nested NodeId) : List (Nested NodeId) → G D × Except Err (Nested NodeId)
  | [] => (g, .ok x)
  | .leaf n :: ys =>
    match addTreeEdge g x (.leaf n) with
    | (g', .error e) => (g', .error e)
    | (g', .ok x') => reduceFrom g' x' ys
  | .seq l :: ys =>
    match reduceSeq g l with
    | (g', .error e) => (g', .error e)
    | (g', .ok y) =>
      match addTreeEdge g' x y with
      | (g', .error e) => (g', .error e)
      | (g', .ok x') => reduceFrom g' x' ys
end

/-- `Graph.add_tree` (graph.py:196-223). -/
def addTree (g : G D) (tree : List (Nested (Option D))) :
    G D × Except Err (List (Nested NodeId)) :=
  let (g1, ns) := addNestedList g tree
  match reduceSeq g1 ns with
  | (g2, .error e) => (g2, .error e)
  | (g2, .ok _) => (g2, .ok ns)

/-! ## Graph algorithms -/

/-- Loop state of `topological_sort`: result list, queue, and the dict `remaining_indegree`. -/
structure TopoState where
  list : List NodeId
  queue : List NodeId
  rem : NodeId → Option Int

/-- Initialisation loop of `topological_sort` (graph.py:254-259). -/
def topoInit (g : G D) : List NodeId → TopoState → TopoState
  | [], s => s
  | n :: ns, s =>
    if inDegree g n = 0 then topoInit g ns { s with queue := s.queue ++ [n] }
    else topoInit g ns { s with rem := upd s.rem n (some (inDegree g n)) }

/-- Inner loop over the sons of a node (graph.py:267-270). -/
def topoSons : List NodeId → TopoState → Except Err TopoState
  | [], s => .ok s
  | son :: sons, s =>
    match s.rem son with
    | none => .error .key
    | some k =>
      let s := { s with rem := upd s.rem son (some (k - 1)) }
      if k - 1 = 0 then topoSons sons { s with queue := s.queue ++ [son] }
      else topoSons sons s

/-- Body of the `while len(topological_queue)` loop and the final check (graph.py:262-277). -/
def topoStep (g : G D) (s : TopoState) : TopoState ⊕ Except Err (List NodeId) :=
  match s.queue with
  | [] =>
    if s.list.length ≠ g.nodes.length then .inr (.error (.topological s.list))
    else .inr (.ok s.list)
  | n :: q =>
    match topoSons (outNeighbors g n) { s with list := s.list ++ [n], queue := q } with
    | .error e => .inr (.error e)
    | .ok s' => .inl s'

/-- `Graph.topological_sort()` terminates with the given outcome (graph.py:242-277). -/
def TopologicalSort (g : G D) (r : Except Err (List NodeId)) : Prop :=
  Py.Returns (topoStep g) (topoInit g g.nodes ⟨[], [], fun _ => none⟩) r

/-- Loop state of `_dfs`/`_bfs`: result, visited set (keys of the dict), stack/queue and the
accumulated effect of `visit_fct`. -/
structure SearchState (α : Type) where
  list : List NodeId
  visited : List NodeId
  work : List NodeId
  acc : α

/-- The loop adding unvisited neighbours (graph.py:304-307, 379-382): returns the new visited set
and the nodes appended to the work list. -/
def pushSons (visited work : List NodeId) : List NodeId → List NodeId × List NodeId
  | [] => (visited, work)
  | son :: sons =>
    if son ∈ visited then pushSons visited work sons
    else pushSons (visited ++ [son]) (work ++ [son]) sons

/-- Body of the `_dfs` loop: `dfs_stack.pop()` takes the last element (graph.py:296-309). -/
def dfsStep {α : Type} (nb : NodeId → List NodeId) (visit : α → NodeId → α) (s : SearchState α) :
    SearchState α ⊕ (List NodeId × α) :=
  match s.work.getLast? with
  | none => .inr (s.list, s.acc)
  | some n =>
    let (v, w) := pushSons s.visited s.work.dropLast (nb n)
    .inl ⟨s.list ++ [n], v, w, visit s.acc n⟩

/-- Body of the `_bfs` loop: `bfs_queue.pop(0)` takes the first element (graph.py:371-384). -/
def bfsStep {α : Type} (nb : NodeId → List NodeId) (visit : α → NodeId → α) (s : SearchState α) :
    SearchState α ⊕ (List NodeId × α) :=
  match s.work with
  | [] => .inr (s.list, s.acc)
  | n :: q =>
    let (v, w) := pushSons s.visited q (nb n)
    .inl ⟨s.list ++ [n], v, w, visit s.acc n⟩

/-- `_dfs(neighbors_fct, root, visit_fct)` terminates with the list and visitor effect `r`
(graph.py:281-309). -/
def DfsWith {α : Type} (nb : NodeId → List NodeId) (visit : α → NodeId → α) (root : NodeId) (a : α)
    (r : List NodeId × α) : Prop :=
  Py.Returns (dfsStep nb visit) ⟨[], [root], [root], a⟩ r

/-- `_bfs(neighbors_fct, root, visit_fct)` (graph.py:356-384). -/
def BfsWith {α : Type} (nb : NodeId → List NodeId) (visit : α → NodeId → α) (root : NodeId) (a : α)
    (r : List NodeId × α) : Prop :=
  Py.Returns (bfsStep nb visit) ⟨[], [root], [root], a⟩ r

/-- `Graph.dfs` (graph.py:311-320). -/
def Dfs {α : Type} (g : G D) (visit : α → NodeId → α) (root : NodeId) (a : α) (r : List NodeId × α) :=
  DfsWith (outNeighbors g) visit root a r
/-- `Graph.undirected_dfs` (graph.py:322-328). -/
def UndirectedDfs {α : Type} (g : G D) (visit : α → NodeId → α) (root : NodeId) (a : α)
    (r : List NodeId × α) :=
  DfsWith (neighbors g) visit root a r
/-- `Graph.bfs` (graph.py:386-394). -/
def Bfs {α : Type} (g : G D) (visit : α → NodeId → α) (root : NodeId) (a : α) (r : List NodeId × α) :=
  BfsWith (outNeighbors g) visit root a r
/-- `Graph.undirected_bfs` (graph.py:396-403). -/
def UndirectedBfs {α : Type} (g : G D) (visit : α → NodeId → α) (root : NodeId) (a : α)
    (r : List NodeId × α) :=
  BfsWith (neighbors g) visit root a r

/-- The `for node in nodes` loop of `connected_components` (graph.py:336-346). `visited` is the
dict filled by `visit_fct`. -/
inductive Components (g : G D) : List NodeId → List NodeId → List (List NodeId) → Prop
  | nil (visited) : Components g [] visited []
  | skip {n ns visited cs} : n ∈ visited → Components g ns visited cs →
      Components g (n :: ns) visited cs
  | comp {n ns visited l visited' cs} : n ∉ visited →
      UndirectedDfs g (fun v m => v ++ [m]) n visited (l, visited') →
      Components g ns visited' cs → Components g (n :: ns) visited (l :: cs)

/-- `Graph.connected_components()` returns `cs` (graph.py:332-346). -/
def ConnectedComponents (g : G D) (cs : List (List NodeId)) : Prop :=
  Components g g.nodes [] cs

/-- `Graph.is_weakly_connected()` (graph.py:348-350). -/
def IsWeaklyConnected (g : G D) (r : Except Err Bool) : Prop :=
  match g.nodes with
  | [] => r = .error .index
  | n :: _ => ∃ l, UndirectedDfs g (fun (_ : Unit) _ => ()) n () (l, ()) ∧
      r = .ok (l.length == g.nodes.length)

end Mdp.Graph
