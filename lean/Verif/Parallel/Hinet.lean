/-!
# Forking and joining of hierarchical nodes (`mdp/parallel/parallelhinet.py`)

`ParallelFlowNode`, `ParallelLayer` and `ParallelCloneLayer` as constructions on nodes. A node is given by its methods on a
state. Training phases are those modelled in `Verif.Hinet`; here a phase is a flag, and the node of a flow that is trained
is the first one in training. Dimensions, dtypes and `_train_phase_started` (`ParallelExtensionNode.join`,
parallelnodes.py:66-82) are not modelled. States are values: a fork runs in another process, so what it does to nodes it
shares with its parent is not seen by the parent. The order of method calls is that of the code; what a method that raises
has done before is not kept, as the exception ends the parallel run.
-/

namespace PHinet

inductive Err where
  | notTraining
  | notForkable
  | join
  | node
deriving DecidableEq

/-- A parallel node. -/
structure PN (S X : Type) where
  /-- `is_training` -/
  training : S → Bool
  train : S → X → Except Err S
  exec : S → X → Except Err (X × S)
  fork : S → Except Err S
  join : S → S → Except Err S
  /-- `use_execute_fork` -/
  execFork : S → Bool

variable {S U X : Type}

/-! ### Layer -/

/-- hinet/layer.py:147-155 `Layer._train`; `part i x` are the columns of node `i` (all of `x` in a `SameInputLayer`). -/
def layTrain (part : Nat → X → X) : Nat → List (PN U X) → List U → X → Except Err (List U)
  | i, N :: Ns, t :: ts, x =>
    match (if N.training t then N.train t (part i x) else .ok t) with
    | .error e => .error e
    | .ok t' =>
      match layTrain part (i + 1) Ns ts x with
      | .error e => .error e
      | .ok ts' => .ok (t' :: ts')
  | _, _, ts, _ => .ok ts

/-- layer.py:181-200 `Layer._execute`: the outputs of the nodes. -/
def layExec (part : Nat → X → X) : Nat → List (PN U X) → List U → X → Except Err (List X × List U)
  | i, N :: Ns, t :: ts, x =>
    match N.exec t (part i x) with
    | .error e => .error e
    | .ok (y, t') =>
      match layExec part (i + 1) Ns ts x with
      | .error e => .error e
      | .ok (ys, ts') => .ok (y :: ys, t' :: ts')
  | _, _, ts, _ => .ok ([], ts)

/-- parallelhinet.py:50-58 `ParallelLayer._fork`. -/
def layFork : List (PN U X) → List U → Except Err (List U)
  | N :: Ns, t :: ts =>
    match (if N.training t then N.fork t else .ok t) with
    | .error e => .error e
    | .ok f =>
      match layFork Ns ts with
      | .error e => .error e
      | .ok fs => .ok (f :: fs)
  | _, ts => .ok ts

/-- parallelhinet.py:60-64 `ParallelLayer._join`. -/
def layJoin : List (PN U X) → List U → List U → Except Err (List U)
  | N :: Ns, t :: ts, f :: fs =>
    match (if N.training t then N.join t f else .ok t) with
    | .error e => .error e
    | .ok t' =>
      match layJoin Ns ts fs with
      | .error e => .error e
      | .ok ts' => .ok (t' :: ts')
  | _, ts, _ => .ok ts

/-- Some node has the flag. -/
def anyFlag (flag : PN U X → U → Bool) (Ns : List (PN U X)) (ts : List U) : Bool :=
  (Ns.zip ts).any fun p => flag p.1 p.2

/-- A layer of nodes; `stack` puts the outputs side by side. -/
def layer (part : Nat → X → X) (stack : List X → X) (Ns : List (PN U X)) : PN (List U) X where
  training := anyFlag PN.training Ns
  train := fun ts x => if anyFlag PN.training Ns ts then layTrain part 0 Ns ts x else .error .notTraining
  exec := fun ts x =>
    match layExec part 0 Ns ts x with
    | .error e => .error e
    | .ok (ys, ts') => .ok (stack ys, ts')
  fork := layFork Ns
  join := layJoin Ns
  execFork := anyFlag PN.execFork Ns

/-! ### FlowNode -/

/-- hinet/flownode.py:133-141: the data go through the nodes before the one in training, which is trained. -/
def flowTrain : List (PN U X) → List U → X → Except Err (List U)
  | N :: Ns, t :: ts, x =>
    if N.training t then
      match N.train t x with
      | .error e => .error e
      | .ok t' => .ok (t' :: ts)
    else
      match N.exec t x with
      | .error e => .error e
      | .ok (y, t') =>
        match flowTrain Ns ts y with
        | .error e => .error e
        | .ok ts' => .ok (t' :: ts')
  | _, _, _ => .error .notTraining

/-- flownode.py:167-168 `_execute`. -/
def flowExec : List (PN U X) → List U → X → Except Err (X × List U)
  | N :: Ns, t :: ts, x =>
    match N.exec t x with
    | .error e => .error e
    | .ok (y, t') =>
      match flowExec Ns ts y with
      | .error e => .error e
      | .ok (z, ts') => .ok (z, t' :: ts')
  | _, ts, x => .ok (x, ts)

/-- parallelhinet.py:16-31 `ParallelFlowNode._fork`; the flag is `found_train_node`. -/
def flowFork : Bool → List (PN U X) → List U → Except Err (List U)
  | found, N :: Ns, t :: ts =>
    match (if !found && N.training t then N.fork t else if N.execFork t then N.fork t else .ok t) with
    | .error e => .error e
    | .ok f =>
      match flowFork (found || N.training t) Ns ts with
      | .error e => .error e
      | .ok fs => .ok (f :: fs)
  | _, _, ts => .ok ts

/-- parallelhinet.py:33-41 `ParallelFlowNode._join`: the flags are those of the forked nodes. -/
def flowJoin : Bool → List (PN U X) → List U → List U → Except Err (List U)
  | found, N :: Ns, t :: ts, f :: fs =>
    match (if !found && N.training f then N.join t f else if N.execFork f then N.join t f else .ok t) with
    | .error e => .error e
    | .ok t' =>
      match flowJoin (found || N.training f) Ns ts fs with
      | .error e => .error e
      | .ok ts' => .ok (t' :: ts')
  | _, _, ts, _ => .ok ts

/-- A flow as a node. -/
def flowNode (Ns : List (PN U X)) : PN (List U) X where
  training := anyFlag PN.training Ns
  train := flowTrain Ns
  exec := flowExec Ns
  fork := flowFork false Ns
  join := flowJoin false Ns
  execFork := anyFlag PN.execFork Ns

/-! ### CloneLayer -/

/-- layer.py:147-155 for `n` times the same node. -/
def cloneTrain (part : Nat → X → X) (N : PN S X) : Nat → Nat → S → X → Except Err S
  | _, 0, s, _ => .ok s
  | i, n + 1, s, x =>
    match (if N.training s then N.train s (part i x) else .ok s) with
    | .error e => .error e
    | .ok s' => cloneTrain part N (i + 1) n s' x

/-- layer.py:254-286 and parallelhinet.py:70-82. Execution is one call of the node on the rows of all parts (`gather`),
whose output is cut again (`scatter`). -/
def clone (part : Nat → X → X) (gather scatter : X → X) (N : PN S X) (n : Nat) : PN S X where
  training := N.training
  train := fun s x => if N.training s then cloneTrain part N 0 n s x else .error .notTraining
  exec := fun s x =>
    match N.exec s (gather x) with
    | .error e => .error e
    | .ok (y, s') => .ok (scatter y, s')
  fork := N.fork
  join := N.join
  execFork := N.execFork

/-! ### Nesting -/

/-- The state of a network of nodes. -/
inductive T (S : Type) where
  | leaf (s : S)
  | node (l : List (T S))

/-- A node as a node of a network; it has no methods on states of other shapes. -/
def ofLeaf (N : PN S X) : PN (T S) X where
  training := fun t => match t with
    | .leaf s => N.training s
    | .node _ => false
  train := fun t x => match t with
    | .leaf s => (N.train s x).map T.leaf
    | .node _ => .error .node
  exec := fun t x => match t with
    | .leaf s => (N.exec s x).map fun r => (r.1, .leaf r.2)
    | .node _ => .error .node
  fork := fun t => match t with
    | .leaf s => (N.fork s).map T.leaf
    | .node _ => .error .node
  join := fun t u => match t, u with
    | .leaf s, .leaf f => (N.join s f).map T.leaf
    | _, _ => .error .node
  execFork := fun t => match t with
    | .leaf s => N.execFork s
    | .node _ => false

/-- A layer or flow node as a node of a network. -/
def ofNodes (N : PN (List (T S)) X) : PN (T S) X where
  training := fun t => match t with
    | .leaf _ => false
    | .node l => N.training l
  train := fun t x => match t with
    | .leaf _ => .error .node
    | .node l => (N.train l x).map T.node
  exec := fun t x => match t with
    | .leaf _ => .error .node
    | .node l => (N.exec l x).map fun r => (r.1, .node r.2)
  fork := fun t => match t with
    | .leaf _ => .error .node
    | .node l => (N.fork l).map T.node
  join := fun t u => match t, u with
    | .node l, .node f => (N.join l f).map T.node
    | _, _ => .error .node
  execFork := fun t => match t with
    | .leaf _ => false
    | .node l => N.execFork l

end PHinet
