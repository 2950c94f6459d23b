import Verif.Flow.Model

/-!
# Model of `mdp.hinet.Layer`, `CloneLayer` and `SameInputLayer` (hinet/layer.py)

A layer is a node whose private data are its inner nodes, so it is modelled as a node class
(`layerKind ...` is a `Kind`): the base class methods are those of `Verif.Node.Model`, the methods that
`Layer` overrides are the hooks below.

Simplifications:
* the inner nodes of a `Layer`/`SameInputLayer` are distinct objects;
* nobody assigns `layer.output_dim` by hand, so that it is unset or the sum over the inner nodes;
* `Layer._set_dtype` (117-120) sets the dtype of the inner nodes when the dtype of the layer is set; here
  this happens in the constructor or at the start of the next training or execution hook, whose data always
  has the dtype of the layer;
* extra arguments of `execute` and `inverse` are not modelled.
-/

namespace Mdp.Layer

open Py Mdp.Node Mdp.Flow

variable {σ α β : Type}

/-- `x[:, a:a+w]` for a 2-d array. -/
def colBlock (x : Arr α) (a w : Nat) : Arr α :=
  { x with cols := min (a + w) x.cols - min a x.cols, data := x.data.map fun r => (r.drop a).take w }

/-- `_get_output_dim_from_nodes` (67-78). -/
def outDimSum : List (Nd σ α β) → Option Nat
  | [] => some 0
  | nd :: r => match nd.s.outputDim with
    | some n => (outDimSum r).map (n + ·)
    | none => none

/-- the loop over `node.input_dim` in `__init__` (48-51). -/
def inDimSum : List (Nd σ α β) → Option Nat
  | [] => some 0
  | nd :: r => match nd.s.inputDim with
    | some n => (inDimSum r).map (n + ·)
    | none => none

/-- `for node in self.nodes: node.dtype = t` (`_set_dtype`, 117-119). -/
def setDtypes (t : Nat) : List (Nd σ α β) → Except Err Unit × List (Nd σ α β)
  | [] => (.ok (), [])
  | nd :: r =>
    match setDtype nd.K (some t) nd.s with
    | (.error e, s) => (.error e, ⟨nd.K, s⟩ :: r)
    | (.ok (), s) => let (res, r') := setDtypes t r; (res, ⟨nd.K, s⟩ :: r')

/-- The loop of `_train` (147-155) from the node whose block starts at column `a`. -/
def trainAll (x : Arr α) (args : List β) : Nat → List (Nd σ α β) → Except Err Unit × List (Nd σ α β)
  | _, [] => (.ok (), [])
  | a, nd :: r =>
    match nd.s.inputDim with
    -- `stop_index += None`
    | none => (.error .type, nd :: r)
    | some w =>
      if nd.s.training then
        match train nd.K (colBlock x a w) args nd.s with
        | (.error e, s) => (.error e, ⟨nd.K, s⟩ :: r)
        | (.ok (), s) => let (res, r') := trainAll x args (a + w) r; (res, ⟨nd.K, s⟩ :: r')
      else let (res, r') := trainAll x args (a + w) r; (res, nd :: r')

/-- The loop of `_stop_training` (159-161). -/
def stopAll : List (Nd σ α β) → Except Err Unit × List (Nd σ α β)
  | [] => (.ok (), [])
  | nd :: r =>
    if nd.s.training then
      match stopTraining nd.K nd.s with
      | (.error e, s) => (.error e, ⟨nd.K, s⟩ :: r)
      | (.ok (), s) => let (res, r') := stopAll r; (res, ⟨nd.K, s⟩ :: r')
    else let (res, r') := stopAll r; (res, nd :: r')

/-- The loop of `_pre_execution_checks` (169-174). -/
def preAll (x : Arr α) : Nat → List (Nd σ α β) → Except Err Unit × List (Nd σ α β)
  | _, [] => (.ok (), [])
  | a, nd :: r =>
    match nd.s.inputDim with
    | none => (.error .type, nd :: r)
    | some w =>
      match preExecutionChecks nd.K (colBlock x a w) nd.s with
      | (.error e, s) => (.error e, ⟨nd.K, s⟩ :: r)
      | (.ok (), s) => let (res, r') := preAll x (a + w) r; (res, ⟨nd.K, s⟩ :: r')

/-- `y[:, b:b+w] = v` where `y` has `rows` rows: numpy broadcasts a single row or a single column, any other
mismatch is a ValueError. The result is the list of the rows of the block. Simplification: a right hand side
that is not 2-d is taken as a mismatch. -/
def assign (rows w : Nat) (v : Arr α) : Except Err (List (List α)) :=
  if v.ndim = 2 ∧ (v.nrows = rows ∨ v.nrows = 1) ∧ (v.cols = w ∨ v.cols = 1) then
    let wide := if v.cols = w then v.data else v.data.map fun r => (List.replicate w r).flatten
    if v.nrows = rows then .ok wide else .ok ((List.replicate rows wide).flatten)
  else .error .value

/-- Put a block to the right of the columns filled so far. -/
def addCols (y : Arr α) (w : Nat) (blk : List (List α)) : Arr α :=
  { y with cols := y.cols + w, data := List.zipWith (· ++ ·) y.data blk }

/-- The part of the loops of `_execute` (188-200) and `_inverse` (210-223) after the call of the inner node:
the first node determines the number of rows and the dtype of the result. `y` collects the columns filled so
far; the columns not filled yet are never looked at. -/
def store (y : Option (Arr α)) (w : Nat) (v : Arr α) : Except Err (Arr α) :=
  match y with
  | none =>
    match assign v.nrows w v with
    | .error e => .error e
    | .ok blk => .ok ⟨2, w, v.dtype, blk⟩
  | some y =>
    match assign y.nrows w v with
    | .error e => .error e
    | .ok blk => .ok (addCols y w blk)

/-- The loop of `Layer._execute` (188-201). `out_stop += node.output_dim` comes before the inner call. With no
inner node the result is `None`, taken as a TypeError here. -/
def execAll (x : Arr α) : Option (Arr α) → Nat → List (Nd σ α β) → Except Err (Arr α) × List (Nd σ α β)
  | y, _, [] => (match y with | none => .error .type | some y => .ok y, [])
  | y, a, nd :: r =>
    match nd.s.outputDim, nd.s.inputDim with
    | some o, some w =>
      match execute nd.K (colBlock x a w) nd.s with
      | (.error e, s) => (.error e, ⟨nd.K, s⟩ :: r)
      | (.ok v, s) =>
        match store y o v with
        | .error e => (.error e, ⟨nd.K, s⟩ :: r)
        | .ok y' => let (res, r') := execAll x (some y') (a + w) r; (res, ⟨nd.K, s⟩ :: r')
    | _, _ => (.error .type, nd :: r)

/-- The loop of `Layer._inverse` (210-224). -/
def invAll (x : Arr α) : Option (Arr α) → Nat → List (Nd σ α β) → Except Err (Arr α) × List (Nd σ α β)
  | y, _, [] => (match y with | none => .error .type | some y => .ok y, [])
  | y, a, nd :: r =>
    match nd.s.inputDim, nd.s.outputDim with
    | some o, some w =>
      match inverse nd.K (colBlock x a w) nd.s with
      | (.error e, s) => (.error e, ⟨nd.K, s⟩ :: r)
      | (.ok v, s) =>
        match store y o v with
        | .error e => (.error e, ⟨nd.K, s⟩ :: r)
        | .ok y' => let (res, r') := invAll x (some y') (a + w) r; (res, ⟨nd.K, s⟩ :: r')
    | _, _ => (.error .type, nd :: r)

/-- Run `f` on the inner nodes after their dtype has been set to that of the data (`_set_dtype`). -/
def withDtype {r : Type} (t : Nat) (f : List (Nd σ α β) → Except Err r × List (Nd σ α β))
    (nodes : List (Nd σ α β)) : Hooked (List (Nd σ α β)) r :=
  match setDtypes t nodes with
  | (.error e, nodes') => ⟨nodes', [], .error e⟩
  | (.ok (), nodes') => let (res, nodes'') := f nodes'; ⟨nodes'', [], res⟩

/-- `self.output_dim = self._get_output_dim_from_nodes()` (162-163, 268-269): assigning `None` does nothing,
and the value cannot differ from one set before. -/
def outReq (nodes : List (Nd σ α β)) : List SetReq :=
  match outDimSum nodes with
  | some n => [.out n]
  | none => []

/-- `_stop_training` (157-163). -/
def stopHook (nodes : List (Nd σ α β)) : Hooked (List (Nd σ α β)) Unit :=
  match stopAll nodes with
  | (.error e, nodes') => ⟨nodes', [], .error e⟩
  | (.ok (), nodes') => ⟨nodes', outReq nodes', .ok ()⟩

/-- `Layer` as a node class; `nodes` are the inner nodes at construction. `is_trainable` (55-61, 129),
`is_invertible` (132), `_get_supported_dtypes` (122-127), `_get_train_seq` (135-145): the number of phases is the
maximum over the inner nodes of the length of their training sequence. -/
def layerKind (nodes : List (Nd σ α β)) : Kind (List (Nd σ α β)) α β where
  trainable := nodes.any fun nd => nd.s.training
  invertible := nodes.all fun nd => nd.K.invertible
  preserveDim := false
  nPhases := (nodes.map fun nd => nd.K.nPhases).foldr max 0
  supported := fun t => nodes.all fun nd => nd.K.supported t
  reqArgs := 0
  checkTrainArgs := fun _ _ _ => .ok ()
  trainHook := fun _ ns x args => withDtype x.dtype (trainAll x args 0) ns
  stopHook := fun _ ns => stopHook ns
  execHook := fun ns x => withDtype x.dtype (execAll x none 0) ns
  invHook := fun ns y => let (res, ns') := invAll y none 0 ns; ⟨ns', [], res⟩

/-- `_check_props` (80-115): every inner node has an input dimension, the dtypes that are set agree. -/
def checkProps (nodes : List (Nd σ α β)) (dtype : Option Nat) : Except Err (Option Nat) :=
  if nodes.any (fun nd => nd.s.inputDim.isNone) then .error .node
  else
    match nodes.filterMap fun nd => nd.s.dtype with
    | [] => .ok dtype
    | t :: r =>
      if r.all (· = t) = false then .error .node
      else match dtype with
        | some d => if t = d then .ok (some d) else .error .node
        | none => .ok (some t)

/-- `Layer.__init__` (33-65). -/
def layerInit (nodes : List (Nd σ α β)) (dtype : Option Nat) :
    Except Err (Nd (List (Nd σ α β)) α β) :=
  match checkProps nodes dtype with
  | .error e => .error e
  | .ok t =>
    let nodes' := match t with | some t => setDtypes t nodes | none => (.ok (), nodes)
    match init (layerKind nodes) (inDimSum nodes) (outDimSum nodes) t nodes'.2 with
    | (.error e, _) => .error e
    | (.ok (), s) =>
      match nodes'.1 with
      | .error e => .error e
      | .ok () => .ok ⟨layerKind nodes, s⟩

/-- The additional part of `Layer._pre_execution_checks` (165-178) and of
`SameInputLayer._pre_execution_checks` (335-344); `loop` is the loop over the inner nodes. -/
def preWith (K : Kind (List (Nd σ α β)) α β)
    (loop : List (Nd σ α β) → Except Err Unit × List (Nd σ α β)) : NodeM (List (Nd σ α β)) α β Unit := fun s =>
  match s.outputDim with
  | some _ => (.ok (), s)
  | none =>
    match loop s.st with
    | (.error e, ns) => (.error e, { s with st := ns })
    | (.ok (), ns) =>
      match outDimSum ns with
      | none => (.error .node, { s with st := ns })
      | some n => setOutputDim K (some n) { s with st := ns }

/-- `layer.execute(x)`: `Layer._pre_execution_checks` (165-179) and then as in `Node` (signal_node.py:641-654).
Slicing columns out of anything but a 2-d array is taken as an IndexError. -/
def Layer.execute (K : Kind (List (Nd σ α β)) α β) (x : Arr α) : NodeM (List (Nd σ α β)) α β (Arr α) := do
  preWith K (fun ns => if x.ndim ≠ 2 then (.error .index, ns) else preAll x 0 ns)
  Node.execute K x

/-! ### SameInputLayer -/

/-- `SameInputLayer._train` (329-333). -/
def sameTrainAll (x : Arr α) (args : List β) : List (Nd σ α β) → Except Err Unit × List (Nd σ α β)
  | [] => (.ok (), [])
  | nd :: r =>
    if nd.s.training then
      match train nd.K x args nd.s with
      | (.error e, s) => (.error e, ⟨nd.K, s⟩ :: r)
      | (.ok (), s) => let (res, r') := sameTrainAll x args r; (res, ⟨nd.K, s⟩ :: r')
    else let (res, r') := sameTrainAll x args r; (res, nd :: r')

/-- The loop of `SameInputLayer._pre_execution_checks` (339-340). -/
def samePreAll (x : Arr α) : List (Nd σ α β) → Except Err Unit × List (Nd σ α β)
  | [] => (.ok (), [])
  | nd :: r =>
    match preExecutionChecks nd.K x nd.s with
    | (.error e, s) => (.error e, ⟨nd.K, s⟩ :: r)
    | (.ok (), s) => let (res, r') := samePreAll x r; (res, ⟨nd.K, s⟩ :: r')

/-- `SameInputLayer._execute` (348-363). -/
def sameExecAll (x : Arr α) : Option (Arr α) → List (Nd σ α β) → Except Err (Arr α) × List (Nd σ α β)
  | y, [] => (match y with | none => .error .type | some y => .ok y, [])
  | y, nd :: r =>
    match nd.s.outputDim with
    | some o =>
      match Node.execute nd.K x nd.s with
      | (.error e, s) => (.error e, ⟨nd.K, s⟩ :: r)
      | (.ok v, s) =>
        match store y o v with
        | .error e => (.error e, ⟨nd.K, s⟩ :: r)
        | .ok y' => let (res, r') := sameExecAll x (some y') r; (res, ⟨nd.K, s⟩ :: r')
    | none => (.error .type, nd :: r)

/-- `SameInputLayer` as a node class (325-363, the rest inherited from `Layer`). -/
def sameKind (nodes : List (Nd σ α β)) : Kind (List (Nd σ α β)) α β :=
  { layerKind nodes with
    invertible := false
    trainHook := fun _ ns x args => withDtype x.dtype (sameTrainAll x args) ns
    execHook := fun ns x => withDtype x.dtype (sameExecAll x none) ns }

/-- `SameInputLayer.__init__` (291-323). -/
def sameInit (nodes : List (Nd σ α β)) (dtype : Option Nat) :
    Except Err (Nd (List (Nd σ α β)) α β) :=
  match checkProps nodes dtype with
  | .error e => .error e
  | .ok t =>
    match nodes with
    | [] => .error .index
    | nd :: _ =>
      if nodes.all (fun m => m.s.inputDim = nd.s.inputDim) = false then .error .node
      else
        let nodes' := match t with | some t => setDtypes t nodes | none => (.ok (), nodes)
        match init (sameKind nodes) nd.s.inputDim (outDimSum nodes) t nodes'.2 with
        | (.error e, _) => .error e
        | (.ok (), s) =>
          match nodes'.1 with
          | .error e => .error e
          | .ok () => .ok ⟨sameKind nodes, s⟩

/-- `same_input_layer.execute(x)` (335-346 and signal_node.py:641-654). -/
def SameInputLayer.execute (K : Kind (List (Nd σ α β)) α β) (x : Arr α) :
    NodeM (List (Nd σ α β)) α β (Arr α) := do
  preWith K (samePreAll x)
  Node.execute K x

/-! ### CloneLayer

The `n` inner nodes are one object: the private data is that node. -/

/-- `x.reshape(m, d)` of a 2-d array with `m = x.size // d`. -/
def reshape (x : Arr α) (m d : Nat) : Except Err (Arr α) :=
  if x.nrows * x.cols = m * d then
    .ok ⟨2, d, x.dtype, (List.range m).map fun i => (x.data.flatten.drop (i * d)).take d⟩
  else .error .value

/-- `CloneLayer._train`: the loop of `Layer._train` (147-155) over `n` references to the same node. -/
def cloneTrainAll (x : Arr α) (args : List β) : Nat → Nat → Nd σ α β → Except Err Unit × Nd σ α β
  | 0, _, nd => (.ok (), nd)
  | k + 1, a, nd =>
    match nd.s.inputDim with
    | none => (.error .type, nd)
    | some w =>
      if nd.s.training then
        match train nd.K (colBlock x a w) args nd.s with
        | (.error e, s) => (.error e, ⟨nd.K, s⟩)
        | (.ok (), s) => cloneTrainAll x args k (a + w) ⟨nd.K, s⟩
      else cloneTrainAll x args k (a + w) nd

/-- `CloneLayer._stop_training` (264-269). -/
def cloneStop (n : Nat) (nd : Nd σ α β) : Hooked (Nd σ α β) Unit :=
  if nd.s.training then
    match stopTraining nd.K nd.s with
    | (.error e, s) => ⟨⟨nd.K, s⟩, [], .error e⟩
    | (.ok (), s) => ⟨⟨nd.K, s⟩, (match s.outputDim with | some o => [.out (n * o)] | none => []), .ok ()⟩
  else ⟨nd, (match nd.s.outputDim with | some o => [.out (n * o)] | none => []), .ok ()⟩

/-- `CloneLayer._execute` (271-275); `self.output_dim` is `n` times that of the node. -/
def cloneExec (n : Nat) (x : Arr α) (nd : Nd σ α β) : Except Err (Arr α) × Nd σ α β :=
  match nd.s.inputDim with
  | none => (.error .type, nd)
  -- ZeroDivisionError
  | some 0 => (.error .value, nd)
  | some d =>
    match reshape x (x.nrows * x.cols / d) d with
    | .error e => (.error e, nd)
    | .ok x' =>
      match Node.execute nd.K x' nd.s with
      | (.error e, s) => (.error e, ⟨nd.K, s⟩)
      | (.ok y, s) =>
        match s.outputDim with
        | none => (.error .type, ⟨nd.K, s⟩)
        | some o => (reshape y x.nrows (n * o), ⟨nd.K, s⟩)

/-- `CloneLayer._inverse` (277-281). -/
def cloneInv (n : Nat) (y : Arr α) (nd : Nd σ α β) : Except Err (Arr α) × Nd σ α β :=
  match nd.s.outputDim with
  | none => (.error .type, nd)
  | some 0 => (.error .value, nd)
  | some d =>
    match reshape y (y.nrows * y.cols / d) d with
    | .error e => (.error e, nd)
    | .ok y' =>
      match Node.inverse nd.K y' nd.s with
      | (.error e, s) => (.error e, ⟨nd.K, s⟩)
      | (.ok x, s) =>
        match s.inputDim with
        | none => (.error .type, ⟨nd.K, s⟩)
        | some i => (reshape x y.nrows (n * i), ⟨nd.K, s⟩)

/-- Set the dtype of the node (`_set_dtype`), then run `f`. -/
def cloneWithDtype {r : Type} (t : Nat) (f : Nd σ α β → Except Err r × Nd σ α β) (nd : Nd σ α β) :
    Hooked (Nd σ α β) r :=
  match setDtype nd.K (some t) nd.s with
  | (.error e, s) => ⟨⟨nd.K, s⟩, [], .error e⟩
  | (.ok (), s) => let (res, nd') := f ⟨nd.K, s⟩; ⟨nd', [], res⟩

/-- The loop of `_pre_execution_checks` (169-174) over `n` references to the same node. -/
def clonePreAll (x : Arr α) : Nat → Nat → Nd σ α β → Except Err Unit × Nd σ α β
  | 0, _, nd => (.ok (), nd)
  | k + 1, a, nd =>
    match nd.s.inputDim with
    | none => (.error .type, nd)
    | some w =>
      match preExecutionChecks nd.K (colBlock x a w) nd.s with
      | (.error e, s) => (.error e, ⟨nd.K, s⟩)
      | (.ok (), s) => clonePreAll x k (a + w) ⟨nd.K, s⟩

/-- `CloneLayer(node, n)` as a node class; `n` is positive. -/
def cloneKind (nd : Nd σ α β) (n : Nat) : Kind (Nd σ α β) α β where
  trainable := nd.s.training
  invertible := nd.K.invertible
  preserveDim := false
  nPhases := nd.K.nPhases
  supported := nd.K.supported
  reqArgs := 0
  checkTrainArgs := fun _ _ _ => .ok ()
  trainHook := fun _ m x args => cloneWithDtype x.dtype (cloneTrainAll x args n 0) m
  stopHook := fun _ m => cloneStop n m
  execHook := fun m x => cloneWithDtype x.dtype (cloneExec n x) m
  invHook := fun m y => let (res, m') := cloneInv n y m; ⟨m', [], res⟩

/-- `CloneLayer.__init__` (254-262) for `n > 0` references; the checks are those of `Layer.__init__`. -/
def cloneInit (nd : Nd σ α β) (n : Nat) (dtype : Option Nat) : Except Err (Nd (Nd σ α β) α β) :=
  match checkProps (List.replicate n nd) dtype with
  | .error e => .error e
  | .ok t =>
    let r := match t with | some t => setDtype nd.K (some t) nd.s | none => (.ok (), nd.s)
    match init (cloneKind nd n) (nd.s.inputDim.map (n * ·)) (nd.s.outputDim.map (n * ·)) t ⟨nd.K, r.2⟩ with
    | (.error e, _) => .error e
    | (.ok (), s) =>
      match r.1 with
      | .error e => .error e
      | .ok () => .ok ⟨cloneKind nd n, s⟩

/-- `clone_layer.execute(x)`: `Layer._pre_execution_checks` (165-179), then as in `Node`. -/
def CloneLayer.execute (K : Kind (Nd σ α β) α β) (n : Nat) (x : Arr α) : NodeM (Nd σ α β) α β (Arr α) := do
  (fun s =>
    match s.outputDim with
    | some _ => (.ok (), s)
    | none =>
      match (if x.ndim ≠ 2 then (.error .index, s.st) else clonePreAll x n 0 s.st) with
      | (.error e, m) => (.error e, { s with st := m })
      | (.ok (), m) =>
        match m.s.outputDim with
        | none => (.error .node, { s with st := m })
        | some o => setOutputDim K (some (n * o)) { s with st := m } : NodeM (Nd σ α β) α β Unit)
  Node.execute K x

end Mdp.Layer
