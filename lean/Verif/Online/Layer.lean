import Verif.Online.Flow
import Verif.Hinet.Layer

/-!
# Model of `OnlineLayer`, `CloneOnlineLayer` and `SameInputOnlineLayer` (mdp/hinet/layer_online.py)

An online layer is an online node whose private data are its inner nodes: the methods of `OnlineNode` are those of
`Verif.Online.Node`, the methods of `Layer` (mdp/hinet/layer.py) are the hooks below. The simplifications are those of
`Verif.Hinet.Layer`; the random number generators are not modelled.
-/

namespace Mdp.Online

open Py Mdp.Node Mdp.Flow Mdp.Layer

variable {σ α β : Type}

/-- `node.dtype = t` -/
def Mem.setDtype (t : DType) : Mem σ α β → Except Err Unit × Mem σ α β
  | .plain K s => ((Node.setDtype K (some t) s).1, .plain K (Node.setDtype K (some t) s).2)
  | .online K s => ((onNode (Node.setDtype K.toKind (some t)) s).1, .online K (onNode (Node.setDtype K.toKind (some t)) s).2)

/-- `node._pre_execution_checks(x)` (signal_node.py:513-535, signal_node_online.py:177-193) -/
def Mem.pre (x : Arr α) : Mem σ α β → Except Err Unit × Mem σ α β
  | .plain K s => ((preExecutionChecks K x s).1, .plain K (preExecutionChecks K x s).2)
  | .online K s => ((opreExec K x s).1, .online K (opreExec K x s).2)

/-- `node.is_invertible()` -/
def Mem.invertible : Mem σ α β → Bool
  | .plain K _ => K.invertible
  | .online K _ => K.invertible

/-- `t in node.get_supported_dtypes()` -/
def Mem.supported (t : DType) : Mem σ α β → Bool
  | .plain K _ => K.supported t
  | .online K _ => K.supported t

/-- `hasattr(node, 'training_type') and node.training_type == 'batch'` -/
def Mem.isBatch : Mem σ α β → Bool
  | .plain _ _ => false
  | .online _ s => s.ttype = some .batch

/-- `node.dtype` -/
def Mem.dtype : Mem σ α β → Option DType
  | .plain _ s => s.dtype
  | .online _ s => s.node.dtype

/-- `node.is_trainable()` -/
def Mem.trainable : Mem σ α β → Bool
  | .plain K _ => K.trainable
  | .online K _ => K.trainable

/-- `Layer._set_dtype` (layer.py:117-119): the loop over the inner nodes. -/
def msetDtypes (t : DType) : List (Mem σ α β) → Except Err Unit × List (Mem σ α β)
  | [] => (.ok (), [])
  | m :: r =>
    match m.setDtype t with
    | (.error e, m') => (.error e, m' :: r)
    | (.ok (), m') => let (res, r') := msetDtypes t r; (res, m' :: r')

/-- `if node.is_training(): node.train(x, *args)` (layer.py:154-155) -/
def Mem.step (x : Arr α) (args : List β) (m : Mem σ α β) : Except Err Unit × Mem σ α β :=
  if m.isTraining then m.train x args else (.ok (), m)

/-- The loop of `Layer._train` (layer.py:147-155) from the node whose block starts at column `a`, and of
`SameInputLayer._train` (329-333); `cut x a w` is what a node of input dimension `w` gets. (`SameInputLayer` does not look
at the input dimensions, which its constructor has checked.) -/
def mtrainAll (cut : Arr α → Nat → Nat → Arr α) (x : Arr α) (args : List β) :
    Nat → List (Mem σ α β) → Except Err Unit × List (Mem σ α β)
  | _, [] => (.ok (), [])
  | a, m :: r =>
    match Dims.inp m with
    | none => (.error .type, m :: r)
    | some w =>
      match m.step (cut x a w) args with
      | (.error e, m') => (.error e, m' :: r)
      | (.ok (), m') => let (res, r') := mtrainAll cut x args (a + w) r; (res, m' :: r')

/-- The loop of `_stop_training` (layer.py:159-161). -/
def mstopAll : List (Mem σ α β) → Except Err Unit × List (Mem σ α β)
  | [] => (.ok (), [])
  | m :: r =>
    match (if m.isTraining then m.stop else (.ok (), m)) with
    | (.error e, m') => (.error e, m' :: r)
    | (.ok (), m') => let (res, r') := mstopAll r; (res, m' :: r')

/-- The loops of `_pre_execution_checks` (layer.py:169-174, 339-340). -/
def mpreAll (cut : Arr α → Nat → Nat → Arr α) (x : Arr α) :
    Nat → List (Mem σ α β) → Except Err Unit × List (Mem σ α β)
  | _, [] => (.ok (), [])
  | a, m :: r =>
    match Dims.inp m with
    | none => (.error .type, m :: r)
    | some w =>
      match m.pre (cut x a w) with
      | (.error e, m') => (.error e, m' :: r)
      | (.ok (), m') => let (res, r') := mpreAll cut x (a + w) r; (res, m' :: r')

/-- The loops of `_execute` (layer.py:188-201, 348-363). -/
def mexecAll (cut : Arr α → Nat → Nat → Arr α) (x : Arr α) :
    Option (Arr α) → Nat → List (Mem σ α β) → Except Err (Arr α) × List (Mem σ α β)
  | y, _, [] => (match y with | none => .error .type | some y => .ok y, [])
  | y, a, m :: r =>
    match Dims.out m, Dims.inp m with
    | some o, some w =>
      match m.execute (cut x a w) with
      | (.error e, m') => (.error e, m' :: r)
      | (.ok v, m') =>
        match store y o v with
        | .error e => (.error e, m' :: r)
        | .ok y' => let (res, r') := mexecAll cut x (some y') (a + w) r; (res, m' :: r')
    | _, _ => (.error .type, m :: r)

/-- `_get_output_dim_from_nodes` (layer.py:67-78). -/
def moutSum : List (Mem σ α β) → Option Nat
  | [] => some 0
  | m :: r => match Dims.out m with
    | some n => (moutSum r).map (n + ·)
    | none => none

/-- The input dimension of a layer (layer.py:48-51). -/
def minSum : List (Mem σ α β) → Option Nat
  | [] => some 0
  | m :: r => match Dims.inp m with
    | some n => (minSum r).map (n + ·)
    | none => none

/-- Run `f` on the inner nodes after their dtype has been set to that of the data. -/
def mwithDtype {r : Type} (t : DType) (f : List (Mem σ α β) → Except Err r × List (Mem σ α β))
    (ns : List (Mem σ α β)) : Hooked (List (Mem σ α β)) r :=
  match msetDtypes t ns with
  | (.error e, ns') => ⟨ns', [], .error e⟩
  | (.ok (), ns') => let (res, ns'') := f ns'; ⟨ns'', [], res⟩

/-- `_stop_training` (layer.py:157-163). -/
def mstopHook (ns : List (Mem σ α β)) : Hooked (List (Mem σ α β)) Unit :=
  match mstopAll ns with
  | (.error e, ns') => ⟨ns', [], .error e⟩
  | (.ok (), ns') => ⟨ns', (match moutSum ns' with | some n => [.out n] | none => []), .ok ()⟩

/-- What a node of an `OnlineLayer` gets: `x[:, start:stop]`. -/
def layerCut (x : Arr α) (a w : Nat) : Arr α := colBlock x a w

/-- What a node of a `SameInputOnlineLayer` gets. -/
def sameCut (x : Arr α) (_ _ : Nat) : Arr α := x

/-- `OnlineLayer` (`cut = layerCut`) and `SameInputOnlineLayer` (`cut = sameCut`) as classes of online nodes; `nodes` are
the inner nodes at construction. `is_trainable` (layer.py:55-61, 129); the training sequence is that of `OnlineNode`
(layer_online.py:91-95, signal_node_online.py:164-165); the training types are those of `OnlineNode` (114-117). Inversion
is not modelled. -/
def olayerKind (cut : Arr α → Nat → Nat → Arr α) (nodes : List (Mem σ α β)) : OKind (List (Mem σ α β)) α β where
  trainable := nodes.any Mem.isTraining
  invertible := false
  preserveDim := false
  nPhases := 1
  supported := fun t => nodes.all (Mem.supported t)
  reqArgs := 0
  checkTrainArgs := fun _ _ _ => .ok ()
  trainHook := fun _ ns x args => mwithDtype x.dtype (mtrainAll cut x args 0) ns
  stopHook := fun _ ns => mstopHook ns
  execHook := fun ns x => mwithDtype x.dtype (mexecAll cut x none 0) ns
  invHook := fun ns _ => ⟨ns, [], .error .notInvertible⟩
  types := [.incremental, .batch]
  phaseExec := fun _ => some fun ns x _ => ⟨ns, [], .ok x⟩
  checkParams := fun ns _ => ⟨ns, [], .ok ()⟩

/-- `_check_compatibility` (layer_online.py:49-65): ordinary nodes must not be in training. -/
def mcompatible (ns : List (Mem σ α β)) : Bool := ns.all fun m => m.isOnline || !m.isTraining

/-- `_check_props` (layer.py:80-115). -/
def mcheckProps (ns : List (Mem σ α β)) (dtype : Option DType) : Except Err (Option DType) :=
  if ns.any (fun m => (Dims.inp m).isNone) then .error .node
  else
    match ns.filterMap Mem.dtype with
    | [] => .ok dtype
    | t :: r =>
      if r.all (· = t) = false then .error .node
      else match dtype with
        | some d => if t = d then .ok (some d) else .error .node
        | none => .ok (some t)

/-- `OnlineLayer.__init__` (layer_online.py:30-47) and `SameInputOnlineLayer.__init__` (128-144); the training type is
inferred from the nodes (67-73). `inp` is the input dimension: the sum over the nodes (layer.py:48-51), or that of all the
nodes (305-310). -/
def olayerInit (cut : Arr α → Nat → Nat → Arr α) (inp : List (Mem σ α β) → Except Err (Option Nat))
    (ns : List (Mem σ α β)) (dtype : Option DType) :
    Except Err (OSt (List (Mem σ α β)) α β) :=
  match mcheckProps ns dtype with
  | .error e => .error e
  | .ok t =>
    match inp ns with
    | .error e => .error e
    | .ok d =>
      let ns' := match t with | some t => msetDtypes t ns | none => (.ok (), ns)
      match oinit (olayerKind cut ns) d (moutSum ns) t ns'.2 with
      | (.error e, _) => .error e
      | (.ok (), s) =>
        match ns'.1 with
        | .error e => .error e
        | .ok () =>
          if mcompatible ns then
            .ok { s with ttype := if ns.any Mem.isBatch then some .batch else none }
          else .error .type

/-- The input dimension of an `OnlineLayer`. -/
def layerInp (ns : List (Mem σ α β)) : Except Err (Option Nat) := .ok (minSum ns)

/-- The input dimension of a `SameInputOnlineLayer` (layer.py:305-310). -/
def sameInp (ns : List (Mem σ α β)) : Except Err (Option Nat) :=
  match ns with
  | [] => .error .index
  | m :: _ => if ns.all (fun n => Dims.inp n = Dims.inp m) then .ok (Dims.inp m) else .error .node

/-- `set_training_type` of the layers (layer_online.py:75-83). -/
def layerSetType (K : OKind (List (Mem σ α β)) α β) (t : TType) : OM (List (Mem σ α β)) α β Unit := fun s =>
  match s.ttype with
  | none => setTrainingType K t s
  | some u => if u ≠ t then (.error .node, s) else (.ok (), s)

/-- `Layer._pre_execution_checks` (layer.py:165-179, 335-346), the part before the call of that of `OnlineNode`. -/
def olayerPre (cut : Arr α → Nat → Nat → Arr α) (K : OKind (List (Mem σ α β)) α β) (x : Arr α) :
    OM (List (Mem σ α β)) α β Unit := fun s =>
  match s.node.outputDim with
  | some _ => (.ok (), s)
  | none =>
    match (if x.ndim ≠ 2 then (.error .index, s.node.st) else mpreAll cut x 0 s.node.st) with
    | (.error e, ns) => (.error e, { s with node := { s.node with st := ns } })
    | (.ok (), ns) =>
      match moutSum ns with
      | none => (.error .node, { s with node := { s.node with st := ns } })
      | some n => onNode (setOutputDim K.toKind (some n)) { s with node := { s.node with st := ns } }

/-- `layer.execute(x)`. -/
def olayerExecute (cut : Arr α → Nat → Nat → Arr α) (K : OKind (List (Mem σ α β)) α β) (x : Arr α) :
    OM (List (Mem σ α β)) α β (Arr α) := do
  olayerPre cut K x
  oexecute K x

/-! ### CloneOnlineLayer

The `n` inner nodes are one object: the private data is that node. -/

/-- `Layer._train` (layer.py:147-155) over `k` references to the same node. -/
def mcloneTrain (x : Arr α) (args : List β) : Nat → Nat → Mem σ α β → Except Err Unit × Mem σ α β
  | 0, _, m => (.ok (), m)
  | k + 1, a, m =>
    match Dims.inp m with
    | none => (.error .type, m)
    | some w =>
      match m.step (colBlock x a w) args with
      | (.error e, m') => (.error e, m')
      | (.ok (), m') => mcloneTrain x args k (a + w) m'

/-- `_set_dtype`, then `f`. -/
def mcloneDtype {r : Type} (t : DType) (f : Mem σ α β → Except Err r × Mem σ α β) (m : Mem σ α β) :
    Hooked (Mem σ α β) r :=
  match m.setDtype t with
  | (.error e, m') => ⟨m', [], .error e⟩
  | (.ok (), m') => let (res, m'') := f m'; ⟨m'', [], res⟩

/-- `CloneLayer._stop_training` (layer.py:264-269). -/
def mcloneStop (n : Nat) (m : Mem σ α β) : Hooked (Mem σ α β) Unit :=
  match (if m.isTraining then m.stop else (.ok (), m)) with
  | (.error e, m') => ⟨m', [], .error e⟩
  | (.ok (), m') => ⟨m', (match Dims.out m' with | some o => [.out (n * o)] | none => []), .ok ()⟩

/-- `CloneLayer._execute` (layer.py:271-275). -/
def mcloneExec (n : Nat) (x : Arr α) (m : Mem σ α β) : Except Err (Arr α) × Mem σ α β :=
  match Dims.inp m with
  | none => (.error .type, m)
  | some 0 => (.error .value, m)
  | some d =>
    match reshape x (x.nrows * x.cols / d) d with
    | .error e => (.error e, m)
    | .ok x' =>
      match m.execute x' with
      | (.error e, m') => (.error e, m')
      | (.ok y, m') =>
        match Dims.out m' with
        | none => (.error .type, m')
        | some o => (reshape y x.nrows (n * o), m')

/-- `CloneOnlineLayer(node, n)` (layer_online.py:98-124) as a class of online nodes; `n` is positive. -/
def ocloneKind (m : Mem σ α β) (n : Nat) : OKind (Mem σ α β) α β where
  trainable := m.isTraining
  invertible := false
  preserveDim := false
  nPhases := 1
  supported := fun t => m.supported t
  reqArgs := 0
  checkTrainArgs := fun _ _ _ => .ok ()
  trainHook := fun _ m x args => mcloneDtype x.dtype (mcloneTrain x args n 0) m
  stopHook := fun _ m => mcloneStop n m
  execHook := fun m x => mcloneDtype x.dtype (mcloneExec n x) m
  invHook := fun m _ => ⟨m, [], .error .notInvertible⟩
  types := [.incremental, .batch]
  phaseExec := fun _ => some fun m x _ => ⟨m, [], .ok x⟩
  checkParams := fun m _ => ⟨m, [], .ok ()⟩

end Mdp.Online
