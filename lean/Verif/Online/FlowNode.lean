import Verif.Online.Layer
import Verif.Online.Circular

/-!
# Model of `OnlineFlowNode` and `CircularOnlineFlowNode` (mdp/hinet/flownode_online.py)

Both are online nodes whose private data are the nodes of the internal flow: the methods of `OnlineNode` are those of
`Verif.Online.Node`, the methods of `FlowNode` (mdp/hinet/flownode.py) and of the two classes are the hooks below.

Simplifications: the nodes of the internal flow are distinct objects and nobody else touches them; random number
generators are not modelled; `FlowNode._set_input_dim` and `_set_dtype` forward the setting to the internal nodes when the
dimension or dtype is set, here this happens once, at the start of the next training or execution; the constructors are
called without dimensions; inversion and `copy` are not modelled.
-/

namespace Mdp.Online

open Py Mdp.Node Mdp.Flow Mdp.Layer

variable {σ α β : Type}

/-- One element of the training sequence (flownode_online.py:87-154, 222-335): a training function, a stop function and
an execution function. -/
structure Item where
  /-- the node whose `train` is the training function; `none` is the function that does nothing (109-113) -/
  node : Option Nat
  /-- is the stop function `node.stop_training`, or the function that does nothing? The latter has a positional
  parameter, so calling it without arguments is a TypeError -/
  stops : Bool
  /-- the execution function runs the nodes from the first number up to but excluding the second (96-107); `none` is the
  function that does nothing -/
  exec : Option (Nat × Nat)
  /-- is the result stored (274-279)? -/
  save : Bool
  /-- is the data replaced by the stored input (259-272)? -/
  stored : Bool

/-- The positions of the trainable nodes (115-120), counted from `i`. -/
def trainableNrs : Nat → List (Mem σ α β) → List Nat
  | _, [] => []
  | i, m :: r => if m.trainable then i :: trainableNrs (i + 1) r else trainableNrs (i + 1) r

/-- The items for the trainable nodes (129-138, 297-307, 317-328): all but the last execute up to the next trainable
node, the last one has the execution function `final`. `stops` tells whether the stop functions are those of the nodes. -/
def itemsFrom (stops save : Bool) (final : Nat → Option (Nat × Nat)) : List Nat → List Item
  | [] => []
  | [i] => [⟨some i, stops, final i, save, false⟩]
  | i :: j :: r => ⟨some i, stops, some (i, j), false, false⟩ :: itemsFrom stops save final (j :: r)

/-- The item that brings the data to the first trainable node (123-127, 291-295, 313-315). -/
def leadItem : List Nat → List Item
  | (i + 1) :: _ => [⟨none, false, some (0, i + 1), false, false⟩]
  | _ => []

/-- The training sequence of an `OnlineFlowNode` (87-154). -/
def onlineItems (nodes : List (Mem σ α β)) : List Item :=
  leadItem (trainableNrs 0 nodes) ++ itemsFrom true false (fun _ => none) (trainableNrs 0 nodes)

/-- One round of the ring (281-307, 313-328). -/
def round (last : Bool) (nodes : List (Mem σ α β)) : List Item :=
  leadItem (trainableNrs 0 nodes) ++
    itemsFrom last last (fun i => some (i, nodes.length)) (trainableNrs 0 nodes)

/-- Mark the first item (330-333). -/
def ignoring : List Item → List Item
  | [] => []
  | it :: r => { it with stored := true } :: r

/-- The training sequence of a `CircularOnlineFlowNode` (222-335); a list times a number that is not positive is empty. -/
def ringItems (iterations : Int) (ignore : Bool) (nodes : List (Mem σ α β)) : List Item :=
  let seq := (List.replicate (iterations - 1).toNat (round false nodes)).flatten ++ round true nodes
  if ignore then ignoring seq else seq

/-- The private data: the nodes, the stored input (not used by `OnlineFlowNode`), and whether the input dimension and the
dtype have been forwarded to the nodes. -/
structure FN (σ α β : Type) where
  nodes : List (Mem σ α β)
  stored : Option (Arr α)
  inpSet : Bool
  dtSet : Bool

/-- `node.input_dim = n` -/
def Mem.setInp (n : Option Nat) : Mem σ α β → Except Err Unit × Mem σ α β
  | .plain K s => ((setInputDim K n s).1, .plain K (setInputDim K n s).2)
  | .online K s => ((setInputDim K.toKind n s.node).1, .online K { s with node := (setInputDim K.toKind n s.node).2 })

/-- `node.output_dim = n` -/
def Mem.setOut (n : Option Nat) : Mem σ α β → Except Err Unit × Mem σ α β
  | .plain K s => ((setOutputDim K n s).1, .plain K (setOutputDim K n s).2)
  | .online K s => ((setOutputDim K.toKind n s.node).1, .online K { s with node := (setOutputDim K.toKind n s.node).2 })

/-- `FlowNode._set_input_dim` (flownode.py:74-80). -/
def fsetInp (n : Nat) : List (Mem σ α β) → Except Err Unit × List (Mem σ α β)
  | [] => (.error .index, [])
  | m :: r =>
    match m.setInp (some n) with
    | (.error e, m') => (.error e, m' :: r)
    | (.ok (), m') => (checkNodes (m' :: r), m' :: r)

/-- Forward the input dimension (74-80) if this has not happened yet. -/
def FN.forwardInp (n : Nat) (f : FN σ α β) : Except Err Unit × FN σ α β :=
  if f.inpSet then (.ok (), f)
  else
    match fsetInp n f.nodes with
    | (.error e, ns) => (.error e, { f with nodes := ns })
    | (.ok (), ns) => (.ok (), { f with nodes := ns, inpSet := true })

/-- Forward the dtype (flownode.py:118-124) if this has not happened yet. -/
def FN.forwardDtype (t : DType) (f : FN σ α β) : Except Err Unit × FN σ α β :=
  if f.dtSet then (.ok (), f)
  else
    match msetDtypes t f.nodes with
    | (.error e, ns) => (.error e, { f with nodes := ns })
    | (.ok (), ns) => (.ok (), { f with nodes := ns, dtSet := true })

/-- What giving data to the flow node does to the internal nodes. -/
def FN.forward (x : Arr α) (f : FN σ α β) : Except Err Unit × FN σ α β :=
  match f.forwardInp x.cols with
  | (.error e, f') => (.error e, f')
  | (.ok (), f') => f'.forwardDtype x.dtype

/-- `self._flow[i].train(x, *args)` -/
def trainNr (i : Nat) (x : Arr α) (args : List β) (ms : List (Mem σ α β)) : Except Err Unit × List (Mem σ α β) :=
  match ms[i]? with
  | none => (.error .index, ms)
  | some m => ((m.train x args).1, ms.set i (m.train x args).2)

/-- `self._flow[i].stop_training()` -/
def stopNr (i : Nat) (ms : List (Mem σ α β)) : Except Err Unit × List (Mem σ α β) :=
  match ms[i]? with
  | none => (.error .index, ms)
  | some m => (m.stop.1, ms.set i m.stop.2)

/-- The execution function for the nodes from `i` to `j - 1` (96-107). -/
def execNrs (i j : Nat) (ms : List (Mem σ α β)) (x : Arr α) : Except Err (Arr α) × List (Mem σ α β) :=
  ((cexec i (j - i) (ms.drop i) x).1, ms.take i ++ (cexec i (j - i) (ms.drop i) x).2)

/-- The data an item works on (259-272). -/
def Item.data (it : Item) (x : Arr α) (f : FN σ α β) : Option (Arr α) := if it.stored then f.stored else some x

/-- The training function. Without stored input it raises a `TrainingException` (261-263). -/
def Item.train (it : Item) (x : Arr α) (args : List β) (f : FN σ α β) : Except Err Unit × FN σ α β :=
  match it.data x f with
  | none => (.error .training, f)
  | some z =>
    match it.node with
    | none => (.ok (), f)
    | some i => ((trainNr i z args f.nodes).1, { f with nodes := (trainNr i z args f.nodes).2 })

/-- The execution function. What the last item of a sequence returns is not used: the functions that return nothing
(109-113, 274-279) return their argument or their result here. -/
def Item.pass (it : Item) (x : Arr α) (f : FN σ α β) : Except Err (Arr α) × FN σ α β :=
  match it.exec with
  | none => (.ok x, f)
  | some (i, j) =>
    match it.data x f with
    | none => (.error (.flowCR i .attribute), f)
    | some z =>
      match execNrs i j f.nodes z with
      | (.error e, ns) => (.error e, { f with nodes := ns })
      | (.ok y, ns) => (.ok y, { f with nodes := ns, stored := if it.save then some y else f.stored })

/-- The loop of `FlowNode._fix_nodes_dimensions` (flownode.py:108-112); the argument is `prev_node.output_dim`. -/
def ffixInputs : Option Nat → List (Mem σ α β) → Except Err Unit × List (Mem σ α β)
  | _, [] => (.ok (), [])
  | o, m :: r =>
    match (if (Dims.inp m).isNone then m.setInp o else (.ok (), m)) with
    | (.error e, m') => (.error e, m' :: r)
    | (.ok (), m') => let (res, r') := ffixInputs (Dims.out m') r; (res, m' :: r')

/-- `_fix_nodes_dimensions` (105-113), the part on the nodes. -/
def ffixNodes : List (Mem σ α β) → Except Err Unit × List (Mem σ α β)
  | [] => (.error .index, [])
  | m :: r =>
    match ffixInputs (Dims.out m) r with
    | (.error e, r') => (.error e, m :: r')
    | (.ok (), r') => (checkNodes (m :: r'), m :: r')

/-- The output dimension of the last node. -/
def lastOut (ms : List (Mem σ α β)) : Option Nat := ms.getLast?.bind Dims.out

/-- `self.output_dim = self._flow[-1].output_dim` if this is known (flownode.py:114-116). -/
def foutReq (ms : List (Mem σ α β)) : List SetReq :=
  match lastOut ms with
  | some n => [.out n]
  | none => []

/-- The stop function of an item. -/
def Item.stop (it : Item) (f : FN σ α β) : Except Err Unit × FN σ α β :=
  match it.stops, it.node with
  | true, some i => ((stopNr i f.nodes).1, { f with nodes := (stopNr i f.nodes).2 })
  | _, _ => (.error .type, f)

/-- The stop function of item `p`. In an `OnlineFlowNode` (`fix`) that of the last one is wrapped (140-152). -/
def fnStop (its : List Item) (fix : Bool) (p : Nat) (f : FN σ α β) : Hooked (FN σ α β) Unit :=
  match its[p]? with
  | none => ⟨f, [], .error .index⟩
  | some it =>
    match it.stop f with
    | (.error e, f') => ⟨f', [], .error e⟩
    | (.ok (), f') =>
      if fix && p + 1 == its.length then
        match ffixNodes f'.nodes with
        | (.error e, ns) => ⟨{ f' with nodes := ns }, [], .error e⟩
        | (.ok (), ns) => ⟨{ f' with nodes := ns }, foutReq ns, .ok ()⟩
      else ⟨f', [], .ok ()⟩

/-- The training function of item `p`; the first one is preceded by what the checks of `train` do. -/
def fnTrain (its : List Item) (p : Nat) (f : FN σ α β) (x : Arr α) (args : List β) : Hooked (FN σ α β) Unit :=
  match (if p = 0 then f.forward x else (.ok (), f)) with
  | (.error e, f') => ⟨f', [], .error e⟩
  | (.ok (), f') =>
    match its[p]? with
    | none => ⟨f', [], .error .index⟩
    | some it => let r := it.train x args f'; ⟨r.2, [], r.1⟩

/-- The execution function of item `p`. -/
def fnPass (its : List Item) (p : Nat) (f : FN σ α β) (x : Arr α) : Hooked (FN σ α β) (Arr α) :=
  match its[p]? with
  | none => ⟨f, [], .error .index⟩
  | some it => let r := it.pass x f; ⟨r.2, [], r.1⟩

/-- The two classes of online nodes. `nodes` are the nodes at construction, `out` is the number of the node whose output
is that of the flow. `is_trainable` (flownode.py:50-60), the supported dtypes (126-131), `_execute` (173). -/
def fnKind (its : List Item) (fix : Bool) (out : Int) (nodes : List (Mem σ α β)) : OKind (FN σ α β) α β where
  trainable := (nodes.map Mem.remaining).sum ≠ 0
  invertible := false
  preserveDim := false
  nPhases := its.length
  supported := fun t => nodes.all (Mem.supported t)
  reqArgs := 0
  checkTrainArgs := fun _ _ _ => .ok ()
  trainHook := fnTrain its
  stopHook := fnStop its fix
  execHook := fun f x =>
    let r := cexec 0 (out + 1).toNat f.nodes x
    ⟨{ f with nodes := r.2 }, [], r.1⟩
  invHook := fun f _ => ⟨f, [], .error .notInvertible⟩
  types := [.incremental, .batch]
  phaseExec := fun p => some fun f x _ => fnPass its p f x
  checkParams := fun f _ => ⟨f, [], .ok ()⟩

/-- `OnlineFlowNode`: `OnlineFlow.execute` runs all nodes (linear_flows.py:352-380). -/
def oflowKind (nodes : List (Mem σ α β)) : OKind (FN σ α β) α β :=
  fnKind (onlineItems nodes) true ((nodes.length : Int) - 1) nodes

/-- `CircularOnlineFlowNode`; the number of iterations and the flag are those of the flow at construction (176-179),
which executes up to its output node (linear_flows_online.py:526-536). -/
def ringKind (c : CFlow σ α β) : OKind (FN σ α β) α β :=
  fnKind (ringItems c.iterations c.ignore c.nodes) false c.out c.nodes

/-- `FlowNode.__init__` (flownode.py:24-63) with the rest of the constructors (flownode_online.py:31-38, 168-179) and
`_set_training_type_from_flow` (60-66, 195-201). `ok` is the check of the flow. -/
def fnInit (K : OKind (FN σ α β) α β) (ok : Bool) (stored : Option (Arr α)) (nodes : List (Mem σ α β))
    (dtype : Option DType) : Except Err (OSt (FN σ α β) α β) :=
  match nodes, nodes.getLast? with
  | m :: _, some last =>
    -- `self.input_dim = flow[0].input_dim` runs the consistency check
    match (if (Dims.inp m).isNone then .ok () else checkNodes nodes) with
    | .error e => .error e
    | .ok () =>
      let t := dtype.or last.dtype
      let ns := match t with | some t => msetDtypes t nodes | none => (.ok (), nodes)
      match oinit K (Dims.inp m) (Dims.out last) t ⟨ns.2, stored, (Dims.inp m).isSome, t.isSome⟩ with
      | (.error e, _) => .error e
      | (.ok (), s) =>
        match ns.1 with
        | .error e => .error e
        | .ok () => if ok then .ok { s with ttype := if nodes.any Mem.isBatch then some .batch else none } else .error .type
  | _, _ => .error .index

/-- `OnlineFlowNode.__init__` (31-38) with `_check_compatibility` (40-58). -/
def oflowInit (nodes : List (Mem σ α β)) (dtype : Option DType) : Except Err (OSt (FN σ α β) α β) :=
  fnInit (oflowKind nodes) (match nodes.getLast? with | some m => m.anywhere | none => false) none nodes dtype

/-- `CircularOnlineFlowNode.__init__` (168-179). -/
def ringInit (c : CFlow σ α β) (dtype : Option DType) : Except Err (OSt (FN σ α β) α β) :=
  fnInit (ringKind c) true c.stored c.nodes dtype

/-- `set_training_type` (68-78, 203-213). -/
def fnSetType (K : OKind (FN σ α β) α β) (t : TType) : OM (FN σ α β) α β Unit := fun s =>
  match s.ttype with
  | none => setTrainingType K t s
  | some u => if u ≠ t then (.error .node, s) else (.ok (), s)

/-- `set_stored_input` (181-183). -/
def fnSetStored (x : Option (Arr α)) : OM (FN σ α β) α β Unit :=
  M.modify fun s => { s with node := { s.node with st := { s.node.st with stored := x } } }

/-- `node.output_dim = n` for a flow node whose output dimension is unknown: `FlowNode._set_output_dim`
(flownode.py:82-103). Fixing the dimensions of the nodes (105-116) also sets the output dimension of the flow node if that
of the last node becomes known. -/
def fnSetOut (n : Nat) : OM (FN σ α β) α β Unit := fun s =>
  let put (ns : List (Mem σ α β)) (s : OSt (FN σ α β) α β) : OSt (FN σ α β) α β :=
    { s with node := { s.node with st := { s.node.st with nodes := ns } } }
  let setOutput (d : Nat) (s : OSt (FN σ α β) α β) : OSt (FN σ α β) α β :=
    { s with node := { s.node with outputDim := some d } }
  match s.node.st.nodes with
  | [] => (.error .index, s)
  | [m] =>
    match m.setOut (some n) with
    | (.error e, m') => (.error e, put [m'] s)
    | (.ok (), m') => (.ok (), setOutput n (put [m'] s))
  | ns =>
    match lastOut ns with
    | some d => if n ≠ d then (.error .dim, s) else (.ok (), setOutput n s)
    | none =>
      match ffixNodes ns with
      | (.error e, ns') => (.error e, put ns' s)
      | (.ok (), ns') =>
        match lastOut ns' with
        | some d =>
          -- the output dimension has been set to `d` (114-116)
          if n ≠ d then (.error .dim, setOutput d (put ns' s)) else (.ok (), setOutput n (put ns' s))
        | none =>
          match ns'.getLast? with
          | none => (.error .index, put ns' s)
          | some last =>
            if (Dims.inp last).isNone then (.error .dim, put ns' s)
            else
              match last.setOut (some n) with
              | (.error e, m') => (.error e, put (ns'.dropLast ++ [m']) s)
              | (.ok (), m') => (.ok (), setOutput n (put (ns'.dropLast ++ [m']) s))

/-- Forwarding in `_check_input`. -/
def fnForward (x : Arr α) : OM (FN σ α β) α β Unit := fun s =>
  let r := s.node.st.forward (refcast s.node.dtype x)
  (r.1, { s with node := { s.node with st := r.2 } })

/-- `_pre_execution_checks` (signal_node_online.py:177-193) of a flow node. -/
def fnPre (K : OKind (FN σ α β) α β) (x : Arr α) : OM (FN σ α β) α β Unit := do
  let s ← M.get
  M.when (s.node.phase = 0 ∧ s.node.started = false) (otrain K x [])
  ocheckInput K x
  fnForward x
  let s ← M.get
  match s.node.outputDim, s.node.inputDim with
  | none, some n => fnSetOut n
  | _, _ => pure ()

/-- `execute` of a flow node (signal_node.py:641-654). -/
def fnExecute (K : OKind (FN σ α β) α β) (x : Arr α) : OM (FN σ α β) α β (Arr α) := do
  fnPre K x
  let s ← M.get
  let x' := refcast s.node.dtype x
  olog (fun _ => .exec x') (onNode (runHook K.toKind (K.execHook s.node.st x')))

end Mdp.Online
