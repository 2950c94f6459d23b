import Verif.Node.Props

/-!
# Model of `mdp.OnlineNode` (mdp/signal_node_online.py)

An online node has the attributes of a node plus the number of training iterations and the training
type. Simplifications: the random number generator is not modelled; `_train_seq` has a fixed length;
`_check_train_args` does not mutate.
-/

namespace Mdp.Online

open Py Mdp.Node

variable {σ α β : Type}

/-- The training types (117). -/
inductive TType where
  | incremental
  | batch
deriving DecidableEq

/-- A class derived from `OnlineNode`: the part written by the user. -/
structure OKind (σ α β : Type) extends Kind σ α β where
  /-- `_get_supported_training_types()` (114-117) -/
  types : List TType
  /-- the third element of `_train_seq[p]` (128-165), `none` for a pair (275-276) -/
  phaseExec : Nat → Option (σ → Arr α → List β → Hooked σ (Arr α))
  /-- `_check_params` (234-236) -/
  checkParams : σ → Arr α → Hooked σ Unit

/-- A call of a user hook (ghost). -/
inductive OEvent (α β : Type) where
  /-- `_train_seq[p][0](x, *args)` -/
  | train (p : Nat) (x : Arr α) (args : List β) (ok : Bool)
  /-- `_train_seq[p][2](x, *args)` and what it returned -/
  | pass (p : Nat) (x : Arr α) (res : Option (Arr α))
  /-- `_train_seq[p][1]()` -/
  | stop (p : Nat) (ok : Bool)
  | exec (x : Arr α)
  | inv (y : Arr α)

/-- Attributes of an online node (72-82) and the ghost trace of hook calls. The trace inside `node` is
not used. -/
structure OSt (σ α β : Type) where
  node : St σ α β
  /-- `_train_iteration` -/
  iter : Nat
  /-- `_training_type` -/
  ttype : Option TType
  trace : List (OEvent α β)

abbrev OM (σ α β r : Type) := M Err (OSt σ α β) r

/-- A computation on the inherited attributes. -/
def onNode {r : Type} (m : NodeM σ α β r) : OM σ α β r := fun s =>
  ((m s.node).1, { s with node := (m s.node).2 })

/-- Append a hook call to the ghost trace once its outcome is known. -/
def olog {r : Type} (ev : Except Err r → OEvent α β) (m : OM σ α β r) : OM σ α β r := fun s =>
  ((m s).1, { (m s).2 with trace := (m s).2.trace ++ [ev (m s).1] })

/-- `OnlineNode.__init__` (60-82). -/
def oinit (K : OKind σ α β) (inp out : Option Nat) (t : Option DType) (st : σ) :
    Except Err Unit × OSt σ α β :=
  ((init K.toKind inp out t st).1,
    { node := (init K.toKind inp out t st).2, iter := 0, ttype := none, trace := [] })

/-- `set_training_type` (119-126). -/
def setTrainingType (K : OKind σ α β) (t : TType) : OM σ α β Unit := fun s =>
  if t ∈ K.types then (.ok (), { s with ttype := some t }) else (.error .node, s)

/-- `_check_input` (217-227); an empty list of training types is an IndexError. -/
def ocheckInput (K : OKind σ α β) (x : Arr α) : OM σ α β Unit := do
  onNode (checkInput K.toKind x)
  let s ← M.get
  M.when (s.ttype = none)
    (match K.types with
      | [] => M.raise .index
      | t :: _ => M.modify (fun s => { s with ttype := some t }))

/-- The inner loop of `train` over the phases (273-277, 281-285). -/
def runPhases (K : OKind σ α β) (args : List β) : List Nat → Arr α → OM σ α β Unit
  | [], _ => pure ()
  | p :: r, x => do
    let s ← M.get
    olog (fun o => .train p x args (isOk o)) (onNode (runHook K.toKind (K.trainHook p s.node.st x args)))
    match K.phaseExec p with
    | none => runPhases K args r x
    | some f => do
      let s ← M.get
      let y ← olog (fun o => .pass p x o.toOption) (onNode (runHook K.toKind (f s.node.st x args)))
      runPhases K args r y

/-- The outer loop of `train` over the samples (271-278): every sample is an array with one row. -/
def runRows (K : OKind σ α β) (args : List β) (x : Arr α) : List (List α) → OM σ α β Unit
  | [] => pure ()
  | row :: r => do
    runPhases K args (List.range K.nPhases) { x with data := [row] }
    M.modify (fun s => { s with iter := s.iter + 1 })
    runRows K args x r

/-- `train` (240-286). -/
def otrain (K : OKind σ α β) (x : Arr α) (args : List β) : OM σ α β Unit := do
  if K.trainable = false then M.raise .notTrainable
  else
    let s ← M.get
    if s.node.training = false then M.raise .finished
    else
      ocheckInput K x
      let s ← M.get
      M.lift (K.checkTrainArgs s.node.st x args)
      onNode (runHook K.toKind (K.checkParams s.node.st x))
      M.modify (fun s => { s with node := { s.node with started := true } })
      let s ← M.get
      let x' := refcast s.node.dtype x
      if s.ttype = some .incremental then runRows K args x' x'.data
      else do
        runPhases K args (List.range K.nPhases) x'
        M.modify (fun s => { s with iter := s.iter + x'.nrows })

/-- The loop of `stop_training` (303-304). -/
def runStops (K : OKind σ α β) : List Nat → OM σ α β Unit
  | [] => pure ()
  | p :: r => do
    let s ← M.get
    olog (fun o => .stop p (isOk o)) (onNode (runHook K.toKind (K.stopHook p s.node.st)))
    runStops K r

/-- `stop_training` (288-309). -/
def ostop (K : OKind σ α β) : OM σ α β Unit := do
  let s ← M.get
  if s.node.training = true ∧ s.node.started = false then M.raise .training
  else if s.node.training = false then M.raise .finished
  else
    runStops K (List.range K.nPhases)
    M.modify (fun s => { s with node := { s.node with phase := K.nPhases, started := false } })
    M.modify (fun s =>
      if remaining K.toKind s.node = 0 then { s with node := { s.node with training := false } } else s)

/-- `_pre_execution_checks` (177-193). -/
def opreExec (K : OKind σ α β) (x : Arr α) : OM σ α β Unit := do
  let s ← M.get
  M.when (s.node.phase = 0 ∧ s.node.started = false) (otrain K x [])
  ocheckInput K x
  let s ← M.get
  onNode (runHook K.toKind (K.checkParams s.node.st x))
  let s ← M.get
  M.when (s.node.outputDim = none) (onNode (setOutputDim K.toKind s.node.inputDim))

/-- `_pre_inversion_checks` (197-215). -/
def opreInv (K : OKind σ α β) (y : Arr α) : OM σ α β Unit := do
  if K.invertible = false then M.raise .notInvertible
  else
    let s ← M.get
    M.when (s.node.outputDim = none)
      (if s.node.inputDim = none then M.raise .node else onNode (setOutputDim K.toKind s.node.inputDim))
    onNode (checkOutput y)

/-- `Node.execute` (signal_node.py:641-654) with the checks of `OnlineNode`. -/
def oexecute (K : OKind σ α β) (x : Arr α) : OM σ α β (Arr α) := do
  opreExec K x
  let s ← M.get
  let x' := refcast s.node.dtype x
  olog (fun _ => .exec x') (onNode (runHook K.toKind (K.execHook s.node.st x')))

/-- `Node.inverse` (signal_node.py:656-667) with the checks of `OnlineNode`. -/
def oinverse (K : OKind σ α β) (y : Arr α) : OM σ α β (Arr α) := do
  opreInv K y
  let s ← M.get
  let y' := refcast s.node.dtype y
  olog (fun _ => .inv y') (onNode (runHook K.toKind (K.invHook s.node.st y')))

/-- A public call on an online node. -/
inductive OCall (α β : Type) where
  | train (x : Arr α) (args : List β)
  | stop
  | execute (x : Arr α)
  | inverse (y : Arr α)
  | setType (t : TType)
  | setInputDim (n : Option Nat)
  | setOutputDim (n : Option Nat)
  | setDtype (t : Option DType)

/-- The state after a call (whether it returned or raised). -/
def OCall.run (K : OKind σ α β) : OCall α β → OSt σ α β → OSt σ α β
  | .train x args, s => (otrain K x args s).2
  | .stop, s => (ostop K s).2
  | .execute x, s => (oexecute K x s).2
  | .inverse y, s => (oinverse K y s).2
  | .setType t, s => (setTrainingType K t s).2
  | .setInputDim n, s => (onNode (Node.setInputDim K.toKind n) s).2
  | .setOutputDim n, s => (onNode (Node.setOutputDim K.toKind n) s).2
  | .setDtype t, s => (onNode (Node.setDtype K.toKind t) s).2

/-- The state after a history of calls. -/
def orunCalls (K : OKind σ α β) (s : OSt σ α β) (cs : List (OCall α β)) : OSt σ α β :=
  cs.foldl (fun s c => c.run K s) s

end Mdp.Online
