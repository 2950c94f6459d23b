import Verif.Py.State

/-!
# Model of `mdp.Node` (mdp/signal_node.py)

What the user overrides (`_train`, `_stop_training`, `_execute`, `_inverse`, `is_trainable`,
`_get_train_seq`, ...) is a parameter (`Kind`): the hooks are arbitrary functions that may change the
node's private data `σ`, set dimensions or the dtype through the public setters, and raise.
-/

namespace Mdp.Node

open Py

/-- numpy dtypes are opaque tags. -/
scoped notation "DType" => Nat

/-- A numpy array as far as nodes look at it. For `ndim = 2` the shape is
`(data.length, cols)`; `cols` is kept separately because an array may have zero rows. -/
structure Arr (α : Type) where
  ndim : Nat
  cols : Nat
  dtype : DType
  data : List (List α)

/-- `x.shape[0]` -/
def Arr.nrows {α : Type} (x : Arr α) : Nat := x.data.length

/-- Exceptions. -/
inductive Err where
  /-- `NodeException` -/
  | node
  /-- `InconsistentDimException` -/
  | dim
  /-- `TrainingException` -/
  | training
  /-- `TrainingFinishedException` -/
  | finished
  /-- `IsNotTrainableException` -/
  | notTrainable
  /-- `IsNotInvertibleException` -/
  | notInvertible
  /-- any exception raised by user code -/
  | user (code : Nat)
  /-- `FlowException` -/
  | flow
  /-- `FlowExceptionCR` with the index of the failing node and the parent exception -/
  | flowCR (nodenr : Nat) (parent : Err)
  | type
  | value
  | index
  | key
  | attribute
deriving DecidableEq, Repr

/-- A call of a public setter made by a hook (`self.output_dim = n` etc.). -/
inductive SetReq where
  | inp (n : Nat)
  | out (n : Nat)
  | dtype (t : DType)
deriving DecidableEq

/-- What a hook does: new private data, setter calls, and its outcome. -/
structure Hooked (σ r : Type) where
  st : σ
  sets : List SetReq
  res : Except Err r

/-- The part of a node class that is written by the user. `β` are extra training arguments.
Simplifications: `_get_train_seq` has a fixed length; `_check_train_args` does not mutate. -/
structure Kind (σ α β : Type) where
  /-- `is_trainable()` -/
  trainable : Bool
  /-- `is_invertible()` -/
  invertible : Bool
  /-- the class derives from `PreserveDimNode` -/
  preserveDim : Bool
  /-- `len(self._train_seq)` -/
  nPhases : Nat
  /-- `t in self.get_supported_dtypes()` -/
  supported : DType → Bool
  /-- number of required extra arguments of `_train` -/
  reqArgs : Nat
  checkTrainArgs : σ → Arr α → List β → Except Err Unit
  /-- `self._train_seq[p][0]` -/
  trainHook : Nat → σ → Arr α → List β → Hooked σ Unit
  /-- `self._train_seq[p][1]` -/
  stopHook : Nat → σ → Hooked σ Unit
  /-- `self._execute` -/
  execHook : σ → Arr α → Hooked σ (Arr α)
  /-- `self._inverse` -/
  invHook : σ → Arr α → Hooked σ (Arr α)

/-- A call of a user hook (ghost, for stating properties). -/
inductive Event (α β : Type) where
  /-- training hook of phase `p`; `ok` tells whether it returned -/
  | train (p : Nat) (x : Arr α) (args : List β) (ok : Bool)
  /-- stop hook of phase `p` -/
  | stop (p : Nat) (ok : Bool)
  | exec (x : Arr α)
  | inv (y : Arr α)

/-- Instance attributes of a node (signal_node.py:276-297) plus the ghost trace of hook calls. -/
structure St (σ α β : Type) where
  inputDim : Option Nat
  outputDim : Option Nat
  dtype : Option DType
  training : Bool
  phase : Int
  started : Bool
  st : σ
  trace : List (Event α β)

variable {σ α β : Type}

abbrev NodeM (σ α β r : Type) := M Err (St σ α β) r

/-- `_set_input_dim` of `Node` (322-323) and of `PreserveDimNode` (738-743). -/
def setInputDimRaw (K : Kind σ α β) (n : Nat) : NodeM σ α β Unit := fun s =>
  if K.preserveDim then
    if s.outputDim ≠ none ∧ s.outputDim ≠ some n then (.error .dim, s)
    else (.ok (), { s with inputDim := some n, outputDim := some n })
  else (.ok (), { s with inputDim := some n })

/-- `set_input_dim` (305-320). -/
def setInputDim (K : Kind σ α β) (n : Option Nat) : NodeM σ α β Unit := fun s =>
  match n with
  | none => (.ok (), s)
  | some n =>
    if s.inputDim ≠ none ∧ s.inputDim ≠ some n then (.error .dim, s)
    else setInputDimRaw K n s

/-- `_set_output_dim` of `Node` (350-351) and of `PreserveDimNode` (745-750). -/
def setOutputDimRaw (K : Kind σ α β) (n : Nat) : NodeM σ α β Unit := fun s =>
  if K.preserveDim then
    if s.inputDim ≠ none ∧ s.inputDim ≠ some n then (.error .dim, s)
    else (.ok (), { s with inputDim := some n, outputDim := some n })
  else (.ok (), { s with outputDim := some n })

/-- `set_output_dim` (333-348). -/
def setOutputDim (K : Kind σ α β) (n : Option Nat) : NodeM σ α β Unit := fun s =>
  match n with
  | none => (.ok (), s)
  | some n =>
    if s.outputDim ≠ none ∧ s.outputDim ≠ some n then (.error .dim, s)
    else setOutputDimRaw K n s

/-- `set_dtype` (361-390). -/
def setDtype (K : Kind σ α β) (t : Option DType) : NodeM σ α β Unit := fun s =>
  match t with
  | none => (.ok (), s)
  | some t =>
    if s.dtype ≠ none ∧ s.dtype ≠ some t then (.error .node, s)
    else if K.supported t = false then (.error .node, s)
    else (.ok (), { s with dtype := some t })

/-- `Node.__init__` (265-297). `st` is the private data set up by the subclass. -/
def init (K : Kind σ α β) (inp out : Option Nat) (t : Option DType) (st : σ) :
    Except Err Unit × St σ α β :=
  (do setInputDim K inp; setOutputDim K out; setDtype K t : NodeM σ α β Unit)
    { inputDim := none, outputDim := none, dtype := none,
      training := K.trainable, phase := if K.trainable then 0 else -1, started := false,
      st := st, trace := [] }

/-- `get_remaining_train_phase` (447-455). -/
def remaining (K : Kind σ α β) (s : St σ α β) : Int :=
  if K.trainable then (K.nPhases : Int) - s.phase else 0

/-- `_check_input` (469-491). -/
def checkInput (K : Kind σ α β) (x : Arr α) : NodeM σ α β Unit := do
  if x.ndim ≠ 2 then M.raise .node
  else
    let s ← M.get
    M.when (s.inputDim = none) (setInputDim K (some x.cols))
    let s ← M.get
    M.when (s.dtype = none) (setDtype K (some x.dtype))
    let s ← M.get
    if s.inputDim ≠ some x.cols then M.raise .node
    else if x.nrows = 0 then M.raise .node
    else pure ()

/-- `_check_output` (493-503). -/
def checkOutput (y : Arr α) : NodeM σ α β Unit := do
  if y.ndim ≠ 2 then M.raise .node
  else
    let s ← M.get
    if s.outputDim ≠ some y.cols then M.raise .node
    else pure ()

/-- `mdp.utils.refcast` (routines.py:83-90) with `self.dtype` (561-563); `numpy.dtype(None)` is
float64, represented by tag 0. Changing the values by rounding is not modelled. -/
def refcast (t : Option DType) (x : Arr α) : Arr α := { x with dtype := t.getD 0 }

/-- The setter calls a hook makes; the first that raises ends the hook. -/
def runSets (K : Kind σ α β) : List SetReq → NodeM σ α β Unit
  | [] => pure ()
  | .inp n :: r => do setInputDim K (some n); runSets K r
  | .out n :: r => do setOutputDim K (some n); runSets K r
  | .dtype t :: r => do setDtype K (some t); runSets K r

/-- Running a user hook: private data changes, setters are called, then it returns or raises. -/
def runHook {r : Type} (K : Kind σ α β) (h : Hooked σ r) : NodeM σ α β r := do
  M.modify (fun s => { s with st := h.st })
  runSets K h.sets
  M.lift h.res

/-- Was the outcome a normal return? -/
def isOk {ε r : Type} : Except ε r → Bool
  | .ok _ => true
  | .error _ => false

/-- Append a hook call to the ghost trace once its outcome is known. -/
def logged {r : Type} (ev : Bool → Event α β) (m : NodeM σ α β r) : NodeM σ α β r := fun s =>
  let (res, s') := m s
  (res, { s' with trace := s'.trace ++ [ev (isOk res)] })

/-- `train` (590-617). -/
def train (K : Kind σ α β) (x : Arr α) (args : List β) : NodeM σ α β Unit := do
  if K.trainable = false then M.raise .notTrainable
  else
    let s ← M.get
    if s.training = false then M.raise .finished
    else
      checkInput K x
      let s ← M.get
      M.lift (K.checkTrainArgs s.st x args)
      M.modify (fun s => { s with started := true })
      let s ← M.get
      if 0 ≤ s.phase ∧ s.phase < K.nPhases then
        let x' := refcast s.dtype x
        logged (.train s.phase.toNat x' args) (runHook K (K.trainHook s.phase.toNat s.st x' args))
      else M.raise .index

/-- `stop_training` (619-639). -/
def stopTraining (K : Kind σ α β) : NodeM σ α β Unit := do
  let s ← M.get
  if s.training = true ∧ s.started = false then M.raise .training
  else if s.training = false then M.raise .finished
  else if 0 ≤ s.phase ∧ s.phase < K.nPhases then
    logged (.stop s.phase.toNat) (runHook K (K.stopHook s.phase.toNat s.st))
    M.modify (fun s => { s with phase := s.phase + 1, started := false })
    M.modify (fun s => if remaining K s = 0 then { s with training := false } else s)
  else M.raise .index

/-- `_if_training_stop_training` (505-511). -/
def ifTrainingStopTraining (K : Kind σ α β) : NodeM σ α β Unit := do
  let s ← M.get
  if s.training = true then
    stopTraining K
    let s ← M.get
    if remaining K s > 0 then M.raise .training else pure ()
  else pure ()

/-! ### `phase` only moves in `stop_training` (needed for termination of the loop below) -/

theorem setInputDim_phase (K : Kind σ α β) (n : Option Nat) (s : St σ α β) :
    (setInputDim K n s).2.phase = s.phase := by
  unfold setInputDim setInputDimRaw
  repeat' split
  all_goals rfl

theorem setOutputDim_phase (K : Kind σ α β) (n : Option Nat) (s : St σ α β) :
    (setOutputDim K n s).2.phase = s.phase := by
  unfold setOutputDim setOutputDimRaw
  repeat' split
  all_goals rfl

theorem setDtype_phase (K : Kind σ α β) (n : Option DType) (s : St σ α β) :
    (setDtype K n s).2.phase = s.phase := by
  unfold setDtype
  repeat' split
  all_goals rfl

/-- Relation "the phase number is the same". -/
def SamePhase (s t : St σ α β) : Prop := t.phase = s.phase

theorem samePhase_pre : M.Pre (SamePhase : St σ α β → St σ α β → Prop) :=
  ⟨fun _ => rfl, fun h h' => Eq.trans h' h⟩

theorem runSets_phase (K : Kind σ α β) (l : List SetReq) : M.Moves SamePhase (runSets K l) := by
  induction l with
  | nil => exact M.Moves.pure samePhase_pre _
  | cons r l ih =>
    cases r with
    | inp n => exact M.Moves.bind samePhase_pre (fun s => setInputDim_phase K _ s) (fun _ => ih)
    | out n => exact M.Moves.bind samePhase_pre (fun s => setOutputDim_phase K _ s) (fun _ => ih)
    | dtype n => exact M.Moves.bind samePhase_pre (fun s => setDtype_phase K _ s) (fun _ => ih)

theorem runHook_phase {r : Type} (K : Kind σ α β) (h : Hooked σ r) :
    M.Moves SamePhase (runHook K h) :=
  M.Moves.bind samePhase_pre (M.Moves.modify (fun _ => rfl))
    (fun _ => M.Moves.bind samePhase_pre (runSets_phase K _) (fun _ => M.Moves.lift samePhase_pre _))

theorem logged_phase {r : Type} (ev : Bool → Event α β) (m : NodeM σ α β r)
    (h : M.Moves SamePhase m) : M.Moves SamePhase (logged ev m) := fun s => h s

theorem checkInput_phase (K : Kind σ α β) (x : Arr α) : M.Moves SamePhase (checkInput K x) := by
  have p := samePhase_pre (σ := σ) (α := α) (β := β)
  unfold checkInput
  refine .ite (.raise p _) (.bind p (.get p) fun s1 => ?_)
  refine .bind p (.when p (fun s => setInputDim_phase K _ s)) fun _ => ?_
  refine .bind p (.get p) fun s1 => ?_
  refine .bind p (.when p (fun s => setDtype_phase K _ s)) fun _ => ?_
  refine .bind p (.get p) fun s1 => ?_
  exact .ite (.raise p _) (.ite (.raise p _) (.pure p _))

theorem train_phase (K : Kind σ α β) (x : Arr α) (args : List β) :
    M.Moves SamePhase (train K x args) := by
  have p := samePhase_pre (σ := σ) (α := α) (β := β)
  unfold train
  refine .ite (.raise p _) (.bind p (.get p) fun s1 => ?_)
  refine .ite (.raise p _) (.bind p (checkInput_phase K x) fun _ => ?_)
  refine .bind p (.get p) fun s1 => ?_
  refine .bind p (.lift p _) fun _ => ?_
  refine .bind p (.modify fun _ => rfl) fun _ => ?_
  refine .bind p (.get p) fun s1 => ?_
  exact .ite (logged_phase _ _ (runHook_phase K _)) (.raise p _)

theorem stopTraining_ok_phase (K : Kind σ α β) (s s' : St σ α β)
    (h : stopTraining K s = (.ok (), s')) : s'.phase = s.phase + 1 := by
  simp only [stopTraining, M.bind_def, M.get_def] at h
  split at h
  · cases h
  · split at h
    · cases h
    · split at h
      · have hp := logged_phase (.stop s.phase.toNat) _
          (runHook_phase K (K.stopHook s.phase.toNat s.st)) s
        unfold SamePhase at hp
        generalize hx : logged (.stop s.phase.toNat) (runHook K (K.stopHook s.phase.toNat s.st)) s
          = x at h hp
        simp only [M.bind_def] at h
        rw [hx] at h
        obtain ⟨_ | _, s1⟩ := x
        · cases h
        · simp only [M.modify_def] at h
          cases h
          simp only at hp
          split <;> simp [hp]
      · cases h

/-- The loop of `_pre_execution_checks` that trains an untouched node on the data it is executed on
(521-526). Its termination is proved here: every round closes one phase. -/
def trainLoop (K : Kind σ α β) (x : Arr α) (s : St σ α β) : Except Err Unit × St σ α β :=
  match h1 : train K x [] s with
  | (.error e, s1) => (.error e, s1)
  | (.ok (), s1) =>
    if hr : remaining K s1 > 1 then
      match h2 : stopTraining K s1 with
      | (.error e, s2) => (.error e, s2)
      | (.ok (), s2) => trainLoop K x s2
    else (.ok (), s1)
termination_by ((K.nPhases : Int) - s.phase).toNat
decreasing_by
  have h3 := stopTraining_ok_phase K s1 s2 h2
  have h4 := train_phase K x [] s
  rw [h1] at h4
  unfold SamePhase at h4
  simp only at h4
  unfold remaining at hr
  split at hr <;> omega

/-- `_pre_execution_checks` (513-535). -/
def preExecutionChecks (K : Kind σ α β) (x : Arr α) : NodeM σ α β Unit := do
  let s ← M.get
  M.when (s.phase = 0 ∧ s.started = false) (trainLoop K x)
  ifTrainingStopTraining K
  checkInput K x
  let s ← M.get
  M.when (s.outputDim = none) (setOutputDim K s.inputDim)

/-- `_pre_inversion_checks` (537-557). -/
def preInversionChecks (K : Kind σ α β) (y : Arr α) : NodeM σ α β Unit := do
  if K.invertible = false then M.raise .notInvertible
  else
    ifTrainingStopTraining K
    let s ← M.get
    M.when (s.outputDim = none)
      (if s.inputDim = none then M.raise .node else setOutputDim K s.inputDim)
    checkOutput y

/-- `execute` (641-654). -/
def execute (K : Kind σ α β) (x : Arr α) : NodeM σ α β (Arr α) := do
  preExecutionChecks K x
  let s ← M.get
  let x' := refcast s.dtype x
  logged (fun _ => .exec x') (runHook K (K.execHook s.st x'))

/-- `inverse` (656-667). -/
def inverse (K : Kind σ α β) (y : Arr α) : NodeM σ α β (Arr α) := do
  preInversionChecks K y
  let s ← M.get
  let y' := refcast s.dtype y
  logged (fun _ => .inv y') (runHook K (K.invHook s.st y'))

/-- A public call on a node. -/
inductive Call (α β : Type) where
  | train (x : Arr α) (args : List β)
  | stop
  | execute (x : Arr α)
  | inverse (y : Arr α)
  | setInputDim (n : Option Nat)
  | setOutputDim (n : Option Nat)
  | setDtype (t : Option DType)

/-- The state after a call (whether it returned or raised). -/
def Call.run (K : Kind σ α β) : Call α β → St σ α β → St σ α β
  | .train x args, s => (Node.train K x args s).2
  | .stop, s => (stopTraining K s).2
  | .execute x, s => (Node.execute K x s).2
  | .inverse y, s => (Node.inverse K y s).2
  | .setInputDim n, s => (Node.setInputDim K n s).2
  | .setOutputDim n, s => (Node.setOutputDim K n s).2
  | .setDtype t, s => (Node.setDtype K t s).2

/-- The state after a history of calls. -/
def runCalls (K : Kind σ α β) (s : St σ α β) (cs : List (Call α β)) : St σ α β :=
  cs.foldl (fun s c => c.run K s) s

end Mdp.Node
