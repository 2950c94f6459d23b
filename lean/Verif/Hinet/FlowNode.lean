import Verif.Hinet.Layer

/-!
# Model of `mdp.hinet.FlowNode` (hinet/flownode.py)

A flow node is a node whose private data are the nodes of its internal flow, so it is modelled as a node
class (`flowKind nodes` is a `Kind`): the base class methods are those of `Verif.Node.Model`, the methods
that `FlowNode` overrides are the hooks below.

Simplifications:
* the nodes of the internal flow are distinct objects, and nobody else touches them;
* `FlowNode._set_input_dim` (74-80) and `_set_dtype` (118-124) forward the setting to the internal nodes when
  the dimension or dtype of the flow node is set; here this happens in the constructor or at the start of the
  next training or execution hook, whose data always has the width and dtype of the flow node;
* `FlowNode._set_output_dim` (82-103) is modelled only where the dimension comes from the last internal node
  (constructor, end of training), so what is said about executing a flow node is said for one whose
  `output_dim` is known;
* the constructor is called without `input_dim` and `output_dim`; `copy` is not modelled.
-/

namespace Mdp.FlowNode

open Py Mdp.Node Mdp.Flow Mdp.Layer

variable {σ α β : Type}

/-- The training sequence (`_get_train_seq`, 151-157), as the list of the positions of the nodes that are
trained, from the node at position `i` on: a trainable node appears `len(train_seq) - pretrained_phase`
times. -/
def phaseSeq : Nat → List (Nd σ α β) → List Nat
  | _, [] => []
  | i, nd :: r =>
    (if nd.K.trainable then List.replicate ((nd.K.nPhases : Int) - nd.s.phase).toNat i else []) ++ phaseSeq (i + 1) r

/-- `self.input_dim = x.shape[1]` (74-80) and `self.dtype = x.dtype` (118-124), as far as they concern the
internal nodes. -/
def prep (x : Arr α) : List (Nd σ α β) → Except Err Unit × List (Nd σ α β)
  | [] => (.error .index, [])
  | nd :: r =>
    match setInputDim nd.K (some x.cols) nd.s with
    | (.error e, s) => (.error e, ⟨nd.K, s⟩ :: r)
    | (.ok (), s) =>
      match checkNodes (⟨nd.K, s⟩ :: r) with
      | .error e => (.error e, ⟨nd.K, s⟩ :: r)
      | .ok () => setDtypes x.dtype (⟨nd.K, s⟩ :: r)

/-- The function returned by `get_train_function(i, node)` (142-149). -/
def trainAt (i : Nat) (x : Arr α) (args : List β) (fl : List (Nd σ α β)) : Except Err Unit × List (Nd σ α β) :=
  match fl.drop i with
  | [] => (.error .index, fl)
  | nd :: post =>
    match execSeq 0 i (fl.take i) x with
    | (.error e, pre) => (.error e, pre ++ nd :: post)
    | (.ok v, pre) =>
      let (res, s) := train nd.K v args nd.s
      (res, pre ++ ⟨nd.K, s⟩ :: post)

/-- `node.stop_training` for the node at position `i` (157). -/
def stopAt (i : Nat) (fl : List (Nd σ α β)) : Except Err Unit × List (Nd σ α β) :=
  match fl.drop i with
  | [] => (.error .index, fl)
  | nd :: post =>
    let (res, s) := stopTraining nd.K nd.s
    (res, fl.take i ++ ⟨nd.K, s⟩ :: post)

/-- The loop of `_fix_nodes_dimensions` (108-112); the argument is `prev_node.output_dim`. -/
def fixInputs : Option Nat → List (Nd σ α β) → Except Err Unit × List (Nd σ α β)
  | _, [] => (.ok (), [])
  | o, nd :: r =>
    match (if nd.s.inputDim = none then setInputDim nd.K o nd.s else (.ok (), nd.s)) with
    | (.error e, s) => (.error e, ⟨nd.K, s⟩ :: r)
    | (.ok (), s) => let (res, r') := fixInputs s.outputDim r; (res, ⟨nd.K, s⟩ :: r')

/-- `_fix_nodes_dimensions` (105-113). -/
def fixNodes : List (Nd σ α β) → Except Err Unit × List (Nd σ α β)
  | [] => (.error .index, [])
  | nd :: r =>
    match fixInputs nd.s.outputDim r with
    | (.error e, r') => (.error e, nd :: r')
    | (.ok (), r') => (checkNodes (nd :: r'), nd :: r')

/-- `if self._flow[-1].output_dim is not None: self.output_dim = self._flow[-1].output_dim` (114-116). -/
def outReq (fl : List (Nd σ α β)) : List SetReq :=
  match fl.getLast?.bind fun nd => nd.s.outputDim with
  | some n => [.out n]
  | none => []

/-- The train function of phase `p`. -/
def trainHook (seq : List Nat) (p : Nat) (fl : List (Nd σ α β)) (x : Arr α) (args : List β) :
    Hooked (List (Nd σ α β)) Unit :=
  match prep x fl with
  | (.error e, fl1) => ⟨fl1, [], .error e⟩
  | (.ok (), fl1) =>
    match seq[p]? with
    | none => ⟨fl1, [], .error .index⟩
    | some i => let (res, fl2) := trainAt i x args fl1; ⟨fl2, [], res⟩

/-- The stop function of phase `p`; that of the last phase is wrapped (161-170). -/
def stopHook (seq : List Nat) (p : Nat) (fl : List (Nd σ α β)) : Hooked (List (Nd σ α β)) Unit :=
  match seq[p]? with
  | none => ⟨fl, [], .error .index⟩
  | some i =>
    match stopAt i fl with
    | (.error e, fl1) => ⟨fl1, [], .error e⟩
    | (.ok (), fl1) =>
      if p + 1 = seq.length then
        match fixNodes fl1 with
        | (.error e, fl2) => ⟨fl2, [], .error e⟩
        | (.ok (), fl2) => ⟨fl2, outReq fl2, .ok ()⟩
      else ⟨fl1, [], .ok ()⟩

/-- `FlowNode` as a node class; `nodes` are the nodes of the internal flow at construction (`_pretrained_phase`,
47-48, is taken from them). `is_trainable` (50-60, 133), `is_invertible` (136), `_get_supported_dtypes`
(126-131), `_execute` (173), `_inverse` (176). -/
def flowKind (nodes : List (Nd σ α β)) : Kind (List (Nd σ α β)) α β where
  trainable := !(phaseSeq 0 nodes).isEmpty
  invertible := nodes.all fun nd => nd.K.invertible
  preserveDim := false
  nPhases := (phaseSeq 0 nodes).length
  supported := fun t => nodes.all fun nd => nd.K.supported t
  reqArgs := 0
  checkTrainArgs := fun _ _ _ => .ok ()
  trainHook := trainHook (phaseSeq 0 nodes)
  stopHook := stopHook (phaseSeq 0 nodes)
  execHook := fun fl x =>
    match prep x fl with
    | (.error e, fl1) => ⟨fl1, [], .error e⟩
    | (.ok (), fl1) => let (res, fl2) := execSeq 0 fl1.length fl1 x; ⟨fl2, [], res⟩
  invHook := fun fl y => let (res, fl') := invSeq 0 fl y; ⟨fl', [], res⟩

/-- `self.dtype = t` in the constructor, as far as it concerns the internal nodes; assigning `None` does
nothing. -/
def setDtypes? (t : Option Nat) (nodes : List (Nd σ α β)) : Except Err Unit × List (Nd σ α β) :=
  match t with
  | some t => setDtypes t nodes
  | none => (.ok (), nodes)

/-- `FlowNode.__init__` (24-63). -/
def flowInit (nodes : List (Nd σ α β)) (dtype : Option Nat) : Except Err (Nd (List (Nd σ α β)) α β) :=
  match nodes, nodes.getLast? with
  | nd :: _, some last =>
    -- `self.input_dim = flow[0].input_dim` runs the consistency check
    match (if nd.s.inputDim = none then .ok () else checkNodes nodes) with
    | .error e => .error e
    | .ok () =>
      match init (flowKind nodes) nd.s.inputDim last.s.outputDim (dtype.or last.s.dtype)
          (setDtypes? (dtype.or last.s.dtype) nodes).2 with
      | (.error e, _) => .error e
      | (.ok (), s) =>
        match (setDtypes? (dtype.or last.s.dtype) nodes).1 with
        | .error e => .error e
        | .ok () => .ok ⟨flowKind nodes, s⟩
  | _, _ => .error .index

end Mdp.FlowNode
