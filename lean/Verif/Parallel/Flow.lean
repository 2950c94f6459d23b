import Verif.Py.State
import Verif.Py.Loop

/-!
# `ParallelFlow` and `ParallelCheckpointFlow` (mdp/parallel/parallelflows.py)

The flow, its task protocol (`setup_parallel_training`, `get_task`, `use_results`), `train` and `execute` on a
scheduler, and the checkpoint version.

Simplifications:
* A node is a state of an arbitrary type with the operations of `Ops`; `execute` of a node does not change it
  (nodes with `use_execute_fork` appear in `Verif.Parallel.FlowExec` only).
* `FlowNode(mdp.Flow(self.flow))` shares the nodes of the flow. Its current training phase is the phase of the
  first node that is still training (hinet/flownode.py:139-170; C19 of this development), so that node's index is
  computed instead of being stored.
* A scheduler runs every task it was given on a fork of the callable and stores the results in order of
  completion (C39-C41 of this development); here that order is an arbitrary function. A task that raises makes
  `train` raise, as with the base class `Scheduler`.
* The data iterables are lists, so every phase sees the same chunks. `verbose` output, `overwrite_result_container
  = False`, custom callable classes and the dictionaries returned by checkpoints are left out.
-/

namespace PFlow

open Py

/-- What can be raised. -/
inductive PErr where
  /-- `ParallelFlowException("Parallel training is underway.")` -/
  | underway
  /-- `ParallelFlowException`: a callable class but no scheduler -/
  | noScheduler
  /-- `FlowException` -/
  | flow
  /-- `NotForkableParallelException` -/
  | notForkable
  | noTask
  | typeError
  | attribute
  | stopIteration
  /-- stop_training of a node that was not trained -/
  | notTrained
  /-- raised by a node or a checkpoint -/
  | node (n : Nat)
deriving DecidableEq, Repr

/-- A node as the flow sees it, in the "parallel" extension. `D` is the type of the data chunks (an array, or an
array with further arguments for `train`), `X` the type of the arrays. -/
structure Ops (σ X D : Type) where
  /-- the array of a chunk -/
  dat : D → X
  /-- `is_training` -/
  training : σ → Bool
  exec : σ → X → Except PErr X
  /-- `train(x, *args)`, where the further arguments are those of the chunk -/
  train : σ → X → D → Except PErr Unit × σ
  stop : σ → Except PErr Unit × σ
  fork : σ → Except PErr σ
  join : σ → σ → Except PErr Unit × σ

/-- A checkpoint function (parallelflows.py:760); it may change the node. -/
abbrev Check (σ : Type) := σ → Except PErr Unit × σ

/-- The fields of `ParallelFlow` (244-264) and `ParallelCheckpointFlow` (720-725). -/
structure St (σ X D : Type) where
  nodes : List σ
  /-- `_i_train_node` -/
  i : Option Nat := none
  /-- `_train_data_iterables` -/
  data : Option (List (Option (List D))) := none
  /-- `_train_data_iterator` -/
  iter : Option (List D) := none
  /-- `_exec_data_iterator` -/
  exec : Option (List X) := none
  /-- `_next_task` of a training: the chunk, and whether the callable comes with it -/
  next : Option (D × Bool) := none
  /-- `_flownode._train_phase_started` -/
  started : Bool := false
  /-- `_checkpoints`, empty for a `ParallelFlow` -/
  checks : List (Option (Check σ)) := []
  /-- ghost: the checkpoints called so far -/
  calls : List Nat := []

variable {σ X D : Type}

/-- The node that the current phase of the `FlowNode` belongs to (hinet/flownode.py:139-170). -/
def firstTraining (ops : Ops σ X D) (nodes : List σ) : Option Nat := nodes.findIdx? ops.training

/-- `Flow.execute` of the given nodes (linear_flows.py:372-392). -/
def execAll (ops : Ops σ X D) : List σ → X → Except PErr X
  | [], x => .ok x
  | n :: ns, x => match ops.exec n x with
    | .ok y => execAll ops ns y
    | .error e => .error e

/-- Set a node. -/
def setNode (i : Nat) (n : σ) : M PErr (St σ X D) Unit := .modify fun s => { s with nodes := s.nodes.set i n }

/-- Run an operation of node `i` in place. -/
def onNode (i : Nat) (f : σ → Except PErr Unit × σ) : M PErr (St σ X D) Unit := do
  let s ← .get
  match s.nodes[i]? with
  | none => .raise .attribute
  | some n =>
    setNode i (f n).2
    .lift (f n).1

/-- `FlowNode.train` (hinet/flownode.py:142-149) in its current phase; `_train_phase_started` is set before the
nodes run (signal_node.py:625-633). -/
def fnTrain (ops : Ops σ X D) (d : D) : M PErr (St σ X D) Unit := do
  let s ← .get
  match firstTraining ops s.nodes with
  | none => .raise .flow
  | some i =>
    .modify fun s => { s with started := true }
    match execAll ops (s.nodes.take i) (ops.dat d) with
    | .error e => .raise e
    | .ok x => onNode i fun n => ops.train n x d

/-- `FlowNode.stop_training` in its current phase (signal_node.py:647-668, hinet/flownode.py:155-170). -/
def fnStop (ops : Ops σ X D) : M PErr (St σ X D) Unit := do
  let s ← .get
  match firstTraining ops s.nodes with
  | none => .raise .flow
  | some i =>
    if s.started then
      onNode i ops.stop
      .modify fun s => { s with started := false }
    else .raise .notTrained

/-- `FlowNode.join` with a trained fork, of which only the trained node matters (parallelnodes.py:66-82,
parallelhinet.py:33-41). -/
def fnJoin (ops : Ops σ X D) (r : σ) : M PErr (St σ X D) Unit := do
  let s ← .get
  match firstTraining ops s.nodes with
  | none => .raise .flow
  | some i =>
    .modify fun s => { s with started := true }
    onNode i fun n => ops.join n r

/-- `FlowNode.fork`: the first training node is forked, the others are referenced (parallelhinet.py:16-31). -/
def fnFork (ops : Ops σ X D) (nodes : List σ) : Except PErr σ :=
  match firstTraining ops nodes with
  | none => .error .flow
  | some i => match nodes[i]? with
    | none => .error .flow
    | some n => ops.fork n

/-- A training task: a fork of the callable's flow is trained with the chunk; the result is the trained node,
everything else is purged (parallelflows.py:39-43, 86-105). -/
def runTask (ops : Ops σ X D) (nodes : List σ) (d : D) : Except PErr σ :=
  match firstTraining ops nodes with
  | none => .error .flow
  | some i => match fnFork ops nodes with
    | .error e => .error e
    | .ok f => match execAll ops (nodes.take i) (ops.dat d) with
      | .error e => .error e
      | .ok x => match ops.train f x d with
        | (.ok (), f') => .ok f'
        | (.error e, _) => .error e

/-- The results of all tasks, in the given order. -/
def runTasks (ops : Ops σ X D) (nodes : List σ) : List D → Except PErr (List σ)
  | [] => .ok []
  | d :: ds => match runTask ops nodes d with
    | .error e => .error e
    | .ok f => match runTasks ops nodes ds with
      | .error e => .error e
      | .ok fs => .ok (f :: fs)

/-- `TrainResultContainer.add_result` for all but the first result (parallelflows.py:120-124). -/
def joinInto (ops : Ops σ X D) : σ → List σ → Except PErr σ
  | f, [] => .ok f
  | f, g :: gs => match ops.join f g with
    | (.ok (), f') => joinInto ops f' gs
    | (.error e, _) => .error e

/-- `_post_stop_training_hook` of `ParallelFlow` (509-511) and of `ParallelCheckpointFlow` (754-764). -/
def postStop (ops : Ops σ X D) (i : Nat) : M PErr (St σ X D) Unit := do
  let s ← .get
  match s.nodes[i]? with
  | none => .raise .attribute
  | some n =>
    if ops.training n then pure ()
    else match s.checks[i]? with
      | some (some c) =>
        .modify fun s => { s with calls := s.calls ++ [i] }
        onNode i c
      | _ => pure ()

/-- Closing a phase (471-476, 695-699): `stop_training`, the hook, and on to the next node if this one is done. -/
def closePhase (ops : Ops σ X D) (i : Nat) : M PErr (St σ X D) Unit := do
  fnStop ops
  postStop ops i
  let s ← .get
  match s.nodes[i]? with
  | none => .raise .attribute
  | some n => if ops.training n then pure () else .modify fun s => { s with i := some (i + 1) }

/-- `for data in data_iterable: task_callable(data)` of `_local_train_phase` (489-496). -/
def localTrain (ops : Ops σ X D) : List D → M PErr (St σ X D) Unit
  | [] => pure ()
  | d :: ds => do
    fnTrain ops d
    localTrain ops ds

/-- The rest of a round of `_next_train_phase` when the fork failed (466-476, 480-507). -/
def localPhase (ops : Ops σ X D) (i : Nat) (ds : List D) : M PErr (St σ X D) Unit := do
  localTrain ops ds
  if ds = [] then .raise .flow
  else closePhase ops i

/-- A round of the loop of `_next_train_phase` (414-478). -/
def nextStep (ops : Ops σ X D) (s : St σ X D) : St σ X D ⊕ (Except PErr Unit × St σ X D) :=
  match s.i with
  | none => .inr (.error .typeError, s)
  | some i => match s.nodes[i]? with
    | none => .inr (.ok (), { s with i := none })
    | some n =>
      if ops.training n then
        match s.data with
        | none => .inr (.error .typeError, s)
        | some ds => match ds[i]? with
          | none => .inr (.error .attribute, s)
          | some d => match fnFork ops s.nodes with
            | .ok _ => match d with
              | none => .inr (.error .typeError, s)
              | some [] => .inr (.error .flow, { s with iter := some [] })
              | some (c :: cs) => .inr (.ok (), { s with iter := some cs, next := some (c, true) })
            | .error .notForkable => match d with
              | none => .inr (.error .typeError, s)
              | some cs => match localPhase ops i cs s with
                | (.ok (), s') => .inl s'
                | (.error e, s') => .inr (.error e, s')
            | .error e => .inr (.error e, s)
      else .inl { s with i := some (i + 1) }

/-- `setup_parallel_training` of `ParallelCheckpointFlow` (744-752, linear_flows.py:593-602); for a `ParallelFlow`
there are no checkpoints. -/
def setupChecks (ck : Option (List (Option (Check σ)))) : M PErr (St σ X D) Unit := do
  let s ← .get
  match ck with
  | none => pure ()
  | some l => if l.length ≠ s.nodes.length then .raise .flow else .modify fun s => { s with checks := l }

/-- `setup_parallel_training` up to the call of `_next_train_phase` (384-412), with a list of iterables of the
right shape or not (linear_flows.py:251-285). -/
def setupTraining (ck : Option (List (Option (Check σ)))) (data : List (Option (List D))) :
    M PErr (St σ X D) Unit := do
  setupChecks ck
  let s ← .get
  if s.i.isSome then .raise .underway
  else if data.length ≠ s.nodes.length then .raise .flow
  else .modify fun s => { s with data := some data, i := some 0, started := false }

/-- `get_task` while training (638-656). -/
def getTask : M PErr (St σ X D) (D × Bool) := do
  let s ← .get
  match s.next with
  | none => .raise .noTask
  | some t =>
    if s.i.isSome then match s.iter with
      | none => .raise .typeError
      | some [] => do
        .modify fun s => { s with next := none }
        pure t
      | some (c :: cs) => do
        .modify fun s => { s with iter := some cs, next := some (c, false) }
        pure t
    else .raise .noTask

/-- `while self.task_available: task = self.get_task()` (351-353): the tasks. The buffered task and the rest of
the iterator bound the number of rounds. -/
def getTasks : Nat → M PErr (St σ X D) (List (D × Bool))
  | 0 => pure []
  | k + 1 => do
    let s ← .get
    if s.next.isSome then do
      let t ← getTask
      let ts ← getTasks k
      pure (t :: ts)
    else pure []

/-- `for result in results: self._flownode.join(result)` (689-691). -/
def joinAll (ops : Ops σ X D) : List σ → M PErr (St σ X D) Unit
  | [] => pure ()
  | r :: rs => do
    fnJoin ops r
    joinAll ops rs

/-- `use_results` while training, up to the call of `_next_train_phase` (688-700). -/
def useResults (ops : Ops σ X D) (rs : List σ) : M PErr (St σ X D) Unit := do
  joinAll ops rs
  let s ← .get
  match s.i with
  | none => .raise .typeError
  | some i => closePhase ops i

/-! ### `train` -/

/-- The `scheduler` argument: a scheduler, or an iterable of schedulers of which some may be `None`. -/
inductive SchedArg where
  | one
  | many (l : List Bool)

/-- The variable `scheduler` of `train`: still the iterable, `None`, or the scheduler with this index. -/
inductive Cur where
  | iterable
  | none
  | sched (k : Nat)
deriving DecidableEq

/-- Where `train` is: in `_next_train_phase` as called from `setup_parallel_training` or from `use_results`, or
at the head of `while self.is_parallel_training`. -/
inductive Pc where
  | first
  | again
  | head
deriving DecidableEq

/-- The object and the local variables of `train`. -/
structure TSt (σ X D : Type) where
  pf : St σ X D
  pc : Pc := .first
  cur : Cur := .iterable
  /-- schedulers taken from the iterable so far -/
  drawn : Nat := 0
  /-- whether `schedulers` has been set -/
  many : Bool := false
  last : Option Nat := none
  /-- ghost: phases done on a scheduler so far -/
  phase : Nat := 0
  /-- ghost: the shutdowns -/
  shut : List Nat := []
  /-- ghost: for every phase done on a scheduler, the node and the scheduler -/
  used : List (Nat × Nat) := []
  /-- ghost: the tasks given to schedulers, with the node they train -/
  given : List (Nat × D × Bool) := []

/-- `if scheduler is not None: scheduler.shutdown()`; the iterable has no such method. -/
def shutCur : M PErr (TSt σ X D) Unit := do
  let s ← .get
  match s.cur with
  | .iterable => .raise .attribute
  | .none => pure ()
  | .sched k => .modify fun s => { s with shut := s.shut ++ [k] }

/-- `scheduler = next(schedulers)` -/
def draw (l : List Bool) : M PErr (TSt σ X D) Unit := do
  let s ← .get
  match l[s.drawn]? with
  | none => .raise .stopIteration
  | some b => .modify fun s =>
      { s with cur := if b then .sched s.drawn else .none, drawn := s.drawn + 1 }

/-- `for _ in range(n): if scheduler is not None: scheduler.shutdown(); scheduler = next(schedulers)` -/
def dispose (l : List Bool) : Nat → M PErr (TSt σ X D) Unit
  | 0 => pure ()
  | n + 1 => do
    shutCur
    draw l
    dispose l n

/-- Preparing the schedulers after `setup_parallel_training` (321-341). `None > 0` is a TypeError. -/
def prepare (arg : SchedArg) : M PErr (TSt σ X D) Unit :=
  match arg with
  | .one => .modify fun s => { s with cur := .sched 0 }
  | .many l => do
    .modify fun s => { s with many := true }
    draw l
    let s ← .get
    match s.pf.i with
    | none => .raise .typeError
    | some i =>
      dispose l i
      .modify fun s => { s with last := some i }

/-- Switching to the scheduler of the next node (361-377). -/
def switch (arg : SchedArg) : M PErr (TSt σ X D) Unit := do
  let s ← .get
  match arg, s.pf.i, s.last with
  | .many l, some i, some last =>
    if last < i then do
      dispose l (i - last)
      .modify fun s => { s with last := some i }
    else pure ()
  | _, _, _ => pure ()

/-- Run an operation of the flow. -/
def onFlow {α : Type} (m : M PErr (St σ X D) α) : M PErr (TSt σ X D) α := fun s =>
  ((m s.pf).1, { s with pf := (m s.pf).2 })

/-- The body of `while self.is_parallel_training`, up to `_next_train_phase` (350-360): the tasks go to the
scheduler, which finishes them in the order `arr`, and the joined result (108-129) goes to `use_results`. -/
def runPhase (ops : Ops σ X D) (arr : Nat → List D → List D) : M PErr (TSt σ X D) Unit := do
  let s0 ← .get
  let ts ← onFlow (getTasks (1 + (s0.pf.iter.map List.length).getD 0))
  match s0.cur, s0.pf.i with
  | .sched k, some i => do
    .modify fun s => { s with phase := s.phase + 1, used := s.used ++ [(i, k)],
                              given := s.given ++ ts.map fun t => (i, t.1, t.2) }
    match runTasks ops s0.pf.nodes (arr s0.phase (ts.map (·.1))) with
    | .error e => .raise e
    | .ok [] => .raise .attribute
    | .ok (f :: fs) => match joinInto ops f fs with
      | .error e => .raise e
      | .ok r => onFlow (useResults ops [r])
  | _, _ => .raise .attribute

/-- A step of `train` after `setup_parallel_training` has begun. -/
def trainStep (ops : Ops σ X D) (arg : SchedArg) (arr : Nat → List D → List D) (s : TSt σ X D) :
    TSt σ X D ⊕ (Except PErr Unit × TSt σ X D) :=
  match s.pc with
  | .head =>
    if s.pf.i.isSome then match runPhase ops arr s with
      | (.ok (), s') => .inl { s' with pc := .again }
      | (.error e, s') => .inr (.error e, s')
    else .inr (.ok (), s)
  | .first => match nextStep ops s.pf with
    | .inl t => .inl { s with pf := t }
    | .inr (.error e, t) => .inr (.error e, { s with pf := t })
    | .inr (.ok (), t) => match prepare arg { s with pf := t } with
      | (.ok (), s') => .inl { s' with pc := .head }
      | (.error e, s') => .inr (.error e, s')
  | .again => match nextStep ops s.pf with
    | .inl t => .inl { s with pf := t }
    | .inr (.error e, t) => .inr (.error e, { s with pf := t })
    | .inr (.ok (), t) => match switch arg { s with pf := t } with
      | (.ok (), s') => .inl { s' with pc := .head }
      | (.error e, s') => .inr (.error e, s')

/-- The `finally` block (378-383). An exception of the block itself replaces the outcome. -/
def finish (r : Except PErr Unit × TSt σ X D) : Except PErr Unit × TSt σ X D :=
  let s := { r.2 with pf := { r.2.pf with data := none, iter := none } }
  if s.many then match shutCur s with
    | (.ok (), s') => (r.1, s')
    | (.error e, s') => (.error e, s')
  else (r.1, s)

/-- `train` with a scheduler (301-383), for a flow in state `s0`: it ends with the outcome and state `r`. -/
def Trains (ops : Ops σ X D) (arg : SchedArg) (arr : Nat → List D → List D)
    (ck : Option (List (Option (Check σ)))) (data : List (Option (List D))) (s0 : St σ X D) (r : Except PErr Unit × TSt σ X D) : Prop :=
  if s0.i.isSome then r = (.error .underway, { pf := s0 })
  else match setupTraining ck data s0 with
    | (.error e, s1) => r = finish (.error e, { pf := s1 })
    | (.ok (), s1) => ∃ r', Returns (trainStep ops arg arr) { pf := s1 } r' ∧ r = finish r'

/-- The two classes. -/
inductive Kind where
  | flow
  | checkpoint

/-- The `train_callable_class` that arrives in `ParallelFlow.train` if the user gives `c`: the default is `None` for
`ParallelFlow` (267-268), `FlowTrainCallable` for `ParallelCheckpointFlow` (727-742). -/
def callableArg {C : Type} (dflt : C) : Kind → Option (Option C) → Option C
  | .flow, none => none
  | .checkpoint, none => some dflt
  | _, some c => c

/-- `train` without a scheduler (301-308); `seq`: `Flow.train` or `CheckpointFlow.train`. -/
def trainLocal {C : Type} (callable : Option C) (seq : M PErr (St σ X D) Unit) : M PErr (St σ X D) Unit := do
  let s ← .get
  if s.i.isSome then .raise .underway
  else match callable with
    | some _ => .raise .noScheduler
    | none => seq

end PFlow
