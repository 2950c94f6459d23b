import Verif.Graph.Model
import Verif.Num.Cov
import Mathlib.Algebra.BigOperators.Fin
import Mathlib.Algebra.Order.Field.Basic

/-!
# Model of `mdp/nodes/neural_gas_nodes.py`

The graph is the model of `mdp/graph/graph.py` in `Verif/Graph/Model.lean`. The data attached to
nodes and edges (`_NGNodeData`, `_NGEdgeData`, lines 10-42) are kept in tables indexed by the
identity of the node or edge object: `pos`, `err` (for `cum_error`) and `age`. `hits` and `label`
are never used by the code and are left out.

Numbers are elements of an ordered field. `argsort` is a parameter of the model: numpy promises an
order of the indices in which the values do not decrease, and nothing about ties. A function that
raises returns `.error`; the state at that moment is dropped (the theorems say that nothing is
raised).
-/

namespace Mdp.NeuralGas

open Mdp.Graph (G Edge upd)
open Mdp.Cov (Row)

variable {F : Type} [Field F] [LinearOrder F] {d : Nat}

/-- The exceptions that can occur in these nodes. -/
inductive Err where
  /-- raised by the graph package -/
  | graph (e : Mdp.Graph.Err)
  | index
  | value
  | zeroDivision
deriving DecidableEq

/-- The state of a `GrowingNeuralGasNode` (neural_gas_nodes.py:126-127) with the data of its nodes
and edges (10-42). A `NeuralGasNode` uses the same state without `tlen`. -/
structure S (F : Type) (d : Nat) where
  g : G Unit
  pos : Nat → Row F d
  err : Nat → F
  age : Nat → Nat
  tlen : Nat

/-- The parameters of a `GrowingNeuralGasNode` (neural_gas_nodes.py:130-132). -/
structure P (F : Type) where
  epsB : F
  epsN : F
  maxAge : F
  lam : Nat
  alpha : F
  d : F
  maxNodes : Nat

/-- A new graph and `tlen = 0` (neural_gas_nodes.py:126-127). -/
def S.empty : S F d := ⟨G.empty, fun _ _ => 0, fun _ => 0, fun _ => 0, 0⟩

/-- `_add_node` (neural_gas_nodes.py:147-149). -/
def addNode (s : S F d) (p : Row F d) : S F d × Nat :=
  let r := Mdp.Graph.addNode s.g (some ())
  ({ s with g := r.1, pos := upd s.pos r.2 p, err := upd s.err r.2 0 }, r.2)

/-- `_add_edge` (neural_gas_nodes.py:151-152). -/
def addEdge (s : S F d) (a b : Nat) : S F d :=
  let r := Mdp.Graph.addEdge s.g a b
  { s with g := r.1, age := upd s.age r.2.id 0 }

/-- `GrowingNeuralGasNode.__init__` (neural_gas_nodes.py:126-141). -/
def new (start : Option (Row F d × Row F d)) : S F d :=
  match start with
  | none => S.empty
  | some (p, q) =>
    let (s, node1) := addNode S.empty p
    let (s, node2) := addNode s q
    addEdge s node1 node2

/-- The squared distance of the node at `a` from `x` (neural_gas_nodes.py:166-169, 533-535). -/
def dist2 (a x : Row F d) : F := ∑ i, (a i - x i) * (a i - x i)

/-- `_get_nearest_nodes` (neural_gas_nodes.py:154-176); of the two distances only the first one is
used by the callers and returned here. -/
def getNearest (argsort : List F → List Nat) (s : S F d) (x : Row F d) :
    Except Err ((Nat × Nat) × F) :=
  let distances := s.g.nodes.map fun n => dist2 (s.pos n) x
  match (argsort distances).take 2 with
  | i0 :: i1 :: _ =>
    match s.g.nodes[i0]?, s.g.nodes[i1]?, distances[i0]? with
    | some n0, some n1, some d0 => .ok ((n0, n1), d0)
    | _, _, _ => .error .index
  | _ => .error .index

/-- `_move_node` (neural_gas_nodes.py:178-191). -/
def move (s : S F d) (x : Row F d) (eps : F) (n : Nat) : S F d :=
  { s with pos := upd s.pos n fun i => s.pos n i + eps * (x i - s.pos n i) }

/-- `node.get_edges(neighbor=m)` (graph.py:68-88). -/
def edgesTo (g : G Unit) (n m : Nat) : List Edge :=
  (g.ein n).filter (fun e => e.head == m) ++ (g.eout n).filter (fun e => e.tail == m)

/-- A call into the graph package. -/
def lift (s : S F d) (r : G Unit × Except Mdp.Graph.Err Unit) : Except Err (S F d) :=
  match r with
  | (g, .ok ()) => .ok { s with g := g }
  | (_, .error e) => .error (.graph e)

/-- `if node.degree() == 0: g.remove_node(node)` (neural_gas_nodes.py:203-206; graph.py:98-100). -/
def dropIsolated (s : S F d) (n : Nat) : Except Err (S F d) :=
  if Mdp.Graph.inDegree s.g n + Mdp.Graph.outDegree s.g n = 0 then
    lift s (Mdp.Graph.removeNode s.g n)
  else .ok s

/-- `GrowingNeuralGasNode._remove_old_edges` (neural_gas_nodes.py:193-206); `edges` is a copy of
the edge lists of a node, so that the loop is over a fixed list. -/
def removeOld (maxAge : F) : List Edge → S F d → Except Err (S F d)
  | [], s => .ok s
  | e :: es, s =>
    if (s.age e.id : F) > maxAge then
      match lift s (Mdp.Graph.removeEdge s.g e) with
      | .error x => .error x
      | .ok s =>
        match dropIsolated s e.head with
        | .error x => .error x
        | .ok s =>
          match dropIsolated s e.tail with
          | .error x => .error x
          | .ok s => removeOld maxAge es s
    else removeOld maxAge es s

/-- `numx.argmax(l)`: the first position of the largest value, `none` (`ValueError`) for an empty
list. -/
def argmax : List F → Option Nat
  | [] => none
  | a :: l =>
    match argmax l with
    | none => some 0
    | some i => if a < l.getD i 0 then some (i + 1) else some 0

/-- The node of a list with the largest `cum_error` (neural_gas_nodes.py:213-214, 217-218). -/
def worst (s : S F d) (l : List Nat) : Except Err Nat :=
  match argmax (l.map s.err) with
  | none => .error .value
  | some i =>
    match l[i]? with
    | none => .error .index
    | some n => .ok n

/-- `_insert_new_node` (neural_gas_nodes.py:208-232). -/
def insert (P : P F) (s : S F d) : Except Err (S F d) :=
  match worst s s.g.nodes with
  | .error x => .error x
  | .ok q =>
    match worst s (Mdp.Graph.neighbors s.g q) with
    | .error x => .error x
    | .ok f =>
      let r := addNode s fun i => 1 / 2 * (s.pos q i + s.pos f i)
      let s := r.1
      match edgesTo s.g q f with
      | [] => .error .index
      | e :: _ =>
        match lift s (Mdp.Graph.removeEdge s.g e) with
        | .error x => .error x
        | .ok s =>
          let s := addEdge s q r.2
          let s := addEdge s f r.2
          let err := upd s.err q (s.err q * P.alpha)
          let err := upd err f (err f * P.alpha)
          .ok { s with err := upd err r.2 (1 / 2 * (err q + err f)) }

/-- Steps 3 to 5 of the loop (neural_gas_nodes.py:259-271): the edges of the nearest node age, its
error grows, it and its neighbours move. -/
def adapt (P : P F) (sqrt : F → F) (x : Row F d) (n0 : Nat) (d0 : F) (s : S F d) : S F d :=
  let es := Mdp.Graph.getEdges s.g n0
  let s := es.foldl (fun s e => { s with age := upd s.age e.id (s.age e.id + 1) }) s
  let s := { s with err := upd s.err n0 (s.err n0 + sqrt d0) }
  let s := move s x P.epsB n0
  (Mdp.Graph.neighbors s.g n0).foldl (fun s n => move s x P.epsN n) s

/-- Step 6 (neural_gas_nodes.py:273-279, and 502-511 of `NeuralGasNode`): renew the edge between
the two nearest nodes. -/
def renew (n0 n1 : Nat) (s : S F d) : Except Err (S F d) :=
  if n1 ∈ Mdp.Graph.neighbors s.g n0 then
    match edgesTo s.g n0 n1 with
    | [] => .error .index
    | e :: _ => .ok { s with age := upd s.age e.id 0 }
  else .ok (addEdge s n0 n1)

/-- Step 8 (neural_gas_nodes.py:284-286). -/
def grow (P : P F) (s : S F d) : Except Err (S F d) :=
  if P.lam = 0 then .error .zeroDivision
  else if s.tlen % P.lam = 0 ∧ s.g.nodes.length < P.maxNodes then insert P s
  else .ok s

/-- Step 9 (neural_gas_nodes.py:288-290). -/
def decay (P : P F) (s : S F d) : S F d :=
  s.g.nodes.foldl (fun s n => { s with err := upd s.err n (s.err n * P.d) }) s

/-- Steps 8 and 9 (neural_gas_nodes.py:284-290). -/
def finish (P : P F) (s : S F d) : Except Err (S F d) :=
  match grow P s with
  | .error e => .error e
  | .ok s => .ok (decay P s)

/-- The body of the loop over the data points (neural_gas_nodes.py:252-290). -/
def step (P : P F) (argsort : List F → List Nat) (sqrt : F → F) (s : S F d) (x : Row F d) :
    Except Err (S F d) :=
  let s := { s with tlen := s.tlen + 1 }
  match getNearest argsort s x with
  | .error e => .error e
  | .ok ((n0, n1), d0) =>
    match renew n0 n1 (adapt P sqrt x n0 d0 s) with
    | .error e => .error e
    | .ok s =>
      match removeOld P.maxAge (Mdp.Graph.getEdges s.g n0) s with
      | .error e => .error e
      | .ok s => finish P s

/-- The loop over the data points (neural_gas_nodes.py:252). -/
def steps (P : P F) (argsort : List F → List Nat) (sqrt : F → F) :
    List (Row F d) → S F d → Except Err (S F d)
  | [], s => .ok s
  | x :: xs, s =>
    match step P argsort sqrt s x with
    | .error e => .error e
    | .ok s => steps P argsort sqrt xs s

/-- `GrowingNeuralGasNode._train` (neural_gas_nodes.py:238-290); `r` are the two random positions
drawn when the graph is still empty. -/
def train (P : P F) (argsort : List F → List Nat) (sqrt : F → F) (r : Row F d × Row F d)
    (xs : List (Row F d)) (s : S F d) : Except Err (S F d) :=
  let s := if s.g.nodes.length = 0 then (addNode (addNode s r.1).1 r.2).1 else s
  steps P argsort sqrt xs s

/-- Several calls of `train`, each with its random positions and its chunk of data. -/
def trainAll (P : P F) (argsort : List F → List Nat) (sqrt : F → F) :
    List ((Row F d × Row F d) × List (Row F d)) → S F d → Except Err (S F d)
  | [], s => .ok s
  | (r, xs) :: cs, s =>
    match train P argsort sqrt r xs s with
    | .error e => .error e
    | .ok s => trainAll P argsort sqrt cs s

/-- `nearest_neighbor` (neural_gas_nodes.py:292-315) on a list of points: the nodes and the
distances. The call of `execute` in line 307 only closes the training phase and checks the
dimension of the input. -/
def nearestNeighbor (argsort : List F → List Nat) (sqrt : F → F) (s : S F d) :
    List (Row F d) → Except Err (List Nat × List F)
  | [] => .ok ([], [])
  | x :: xs =>
    match getNearest argsort s x with
    | .error e => .error e
    | .ok ((n0, _), d0) =>
      match nearestNeighbor argsort sqrt s xs with
      | .error e => .error e
      | .ok (ns, ds) => .ok (n0 :: ns, sqrt d0 :: ds)

/-- What the two arrays passed as `start_poss` contain after the node has reached state `s`
(neural_gas_nodes.py:139-140, 191). `_refcast` (signal_node.py, utils/routines.py `refcast`)
returns the very same array when its dtype is that of the node (`same`), and a copy otherwise;
line 191 moves a node by changing its array in place. The first two nodes have identities 0 and 1;
the two arrays are taken to be different objects. -/
def startArrays (same : Bool) (start : Row F d × Row F d) (s : S F d) : Row F d × Row F d :=
  if same then (s.pos 0, s.pos 1) else start

/-! ### NeuralGasNode -/

/-- The values that are constant during an epoch (neural_gas_nodes.py:482-484): `epsilon`,
`exp(-rank/lmbda)` as a function of `rank`, and `T`. -/
structure Epoch (F : Type) where
  eps : F
  w : Nat → F
  T : F

/-- Nodes with given positions, no edges (neural_gas_nodes.py:449-450 for `start_poss`, 463-464
for random positions). -/
def ngNew : List (Row F d) → S F d → S F d
  | [], s => s
  | p :: ps, s => ngNew ps (addNode s p).1

/-- `_rank_nodes_by_distance` (neural_gas_nodes.py:519-544); `none` is an `IndexError`. -/
def rankNodes (argsort : List F → List Nat) (s : S F d) (x : Row F d) : Option (List Nat) :=
  (argsort (s.g.nodes.map fun n => dist2 (s.pos n) x)).mapM fun i => s.g.nodes[i]?

/-- Step 2 (neural_gas_nodes.py:490-496): `k` is the rank of the first node of the list. -/
def moveRanked (E : Epoch F) (x : Row F d) : List Nat → Nat → S F d → S F d
  | [], _, s => s
  | n :: ns, k, s =>
    moveRanked E x ns (k + 1)
      { s with pos := upd s.pos n fun i => s.pos n i + E.eps * E.w k * (x i - s.pos n i) }

/-- Step 3 (neural_gas_nodes.py:498-500). -/
def ageAll (s : S F d) : S F d :=
  s.g.edges.foldl (fun s e => { s with age := upd s.age e.id (s.age e.id + 1) }) s

/-- `NeuralGasNode._remove_old_edges` (neural_gas_nodes.py:547-556). The loop runs over the very
list `remove_edge` removes from: Python keeps the position `i` in the list, and stops when `i` is
not below the current length. `k` bounds the number of rounds; the length at the start is enough,
as the list never grows. -/
def sweep (T : F) : Nat → Nat → S F d → Except Err (S F d)
  | 0, _, s => .ok s
  | k + 1, i, s =>
    match s.g.edges[i]? with
    | none => .ok s
    | some e =>
      if (s.age e.id : F) > T then
        match lift s (Mdp.Graph.removeEdge s.g e) with
        | .error x => .error x
        | .ok s => sweep T k (i + 1) s
      else sweep T k (i + 1) s

/-- The body of the loop over the data points (neural_gas_nodes.py:486-514). -/
def ngStep (argsort : List F → List Nat) (E : Epoch F) (s : S F d) (x : Row F d) :
    Except Err (S F d) :=
  match rankNodes argsort s x with
  | none => .error .index
  | some ranked =>
    let s := ageAll (moveRanked E x ranked 0 s)
    match ranked with
    | n0 :: n1 :: _ =>
      match renew n0 n1 s with
      | .error e => .error e
      | .ok s => sweep E.T s.g.edges.length 0 s
    | _ => .error .index

/-- One epoch over the (permuted) data (neural_gas_nodes.py:486). -/
def ngEpoch (argsort : List F → List Nat) (E : Epoch F) :
    List (Row F d) → S F d → Except Err (S F d)
  | [], s => .ok s
  | x :: xs, s =>
    match ngStep argsort E s x with
    | .error e => .error e
    | .ok s => ngEpoch argsort E xs s

/-- The loop over the epochs (neural_gas_nodes.py:475-515), one entry for each epoch: its
parameters and the data in the order in which they are presented. The same fold describes several
calls of `train`, as `self.epoch` is carried over (466, 516). -/
def ngTrain (argsort : List F → List Nat) :
    List (Epoch F × List (Row F d)) → S F d → Except Err (S F d)
  | [], s => .ok s
  | (E, xs) :: es, s =>
    match ngEpoch argsort E xs s with
    | .error e => .error e
    | .ok s => ngTrain argsort es s

end Mdp.NeuralGas
