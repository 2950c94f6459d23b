import Verif.Bi.FlowNode
import Verif.Parallel.Scheduler

/-!
# `ParallelBiFlow` (`bimdp/parallel/parallelbiflow.py`)

As in `Verif.Bi.Flow`, `σ` is the state of all nodes together and `none` as an outcome stands for no result at all. The
scheduler finishes its tasks in an arbitrary order and hands the results to its container (`Verif.Parallel.Scheduler`,
C39-C41). The first exception ends the call; what it leaves behind (C102) is not modelled, nor are lists of schedulers
(the same code as in `ParallelFlow`, C100), custom callables, `verbose`, and replacing the nodes of a task's result that
are not joined by dummies (`_purge_flownode`).
-/

namespace Bi.Par

open Py Bi.FlowNode

variable {σ A V : Type}

/-- A flow as `ParallelBiFlow` uses it: wrapped in a `BiFlowNode`, in the "parallel" extension. -/
structure PFlow (σ A V : Type) extends FNode σ A V where
  /-- `use_execute_fork`: whether some node gathers something in execution -/
  useFork : σ → Bool
  /-- `fork` (parallelhinet.py:16-31): the first training node and the nodes with `use_execute_fork` are forked, the
  others are referenced; `none` is the `NotForkableParallelException` -/
  fork : σ → Option σ
  /-- `join` (parallelhinet.py:33-41) -/
  join : σ → σ → Except Err σ
  /-- the nodes of the flow `s` after a task has left its fork as `t`: in the same process, nodes that were only
  referenced are those of the task -/
  shared : σ → σ → σ
  /-- the checks of `BiNode.train` before the training of the flow node (`_check_input`, `_check_train_args`) -/
  preTrain : σ → A → Except Err Unit × σ
  /-- `y[2] in [1, -1, "exit"]` for an array `y`, or what it raises -/
  third : A → Except Err Bool

variable [DecidableEq V]

/-! ### Execution -/

/-- A task (parallelbiflow.py:74-89): the callable is forked, `BiFlow.execute` runs on the single chunk, and the fork comes
back if it is needed. `_sanitize_iterables` (biflow.py:455-457) refuses a chunk without data and message. -/
def task (P : PFlow σ A V) (O : ValOps V) (n : Nat) (s : σ) (k : Chunk A V) :
    Option (Except Err ((YRes A × Msg V) × Option σ) × σ) :=
  match P.fork s with
  | none => some (.error .hook, s)
  | some f =>
    if k.x.isNone ∧ k.msg.isNone then some (.error .biflow, P.shared s (P.reset f))
    else
      match execute' P.toBFlow O n [k] f with
      | none => none
      | some (.error e, t) => some (.error e, P.shared s t)
      | some (.ok r, t) =>
        some (.ok ((r.y, r.msg), if P.useFork (P.reset t) then some (P.reset t) else none), P.shared s (P.reset t))

/-- `ExecuteResultContainer` (parallelflows.py:175-210). -/
structure Cont (σ A V : Type) where
  results : List ((YRes A × Msg V) × Nat) := []
  fn : Option σ := none

/-- `add_result` (parallelflows.py:187-197). -/
def addResult (P : PFlow σ A V) (c : Cont σ A V) (r : (YRes A × Msg V) × Option σ) (k : Nat) :
    Except Err (Cont σ A V) :=
  match r.2, c.fn with
  | none, _ => .ok { c with results := c.results ++ [(r.1, k)] }
  | some f, none => .ok { results := c.results ++ [(r.1, k)], fn := some f }
  | some f, some g =>
    match P.join g f with
    | .error e => .error e
    | .ok g' => .ok { results := c.results ++ [(r.1, k)], fn := some g' }

/-- All tasks, in the order in which they finish. -/
def runAll (P : PFlow σ A V) (O : ValOps V) (n : Nat) :
    Cont σ A V → σ → List (Chunk A V × Nat) → Option (Except Err (Cont σ A V) × σ)
  | c, s, [] => some (.ok c, s)
  | c, s, (k, i) :: ts =>
    match task P O n s k with
    | none => none
    | some (.error e, s') => some (.error e, s')
    | some (.ok r, s') =>
      match addResult P c r i with
      | .error e => some (.error e, s')
      | .ok c' => runAll P O n c' s' ts

/-- parallelbiflow.py:577-585: storing the data of a result; `none` is the value `None` of `y_results`. -/
def addPar : Option (List (YRes A)) → YRes A → Except Err (Option (List (YRes A)))
  | _, .none => .ok none
  | none, _ => .error .biflow
  | some l, y => .ok (some (l ++ [y]))

/-- The variables of the loop of `use_results` (parallelbiflow.py:566-569). -/
structure Acc (σ A V : Type) where
  y : Option (List (YRes A)) := some []
  c : Container V := {}
  s : σ

/-- parallelbiflow.py:570-588: the loop of `use_results`. A task's result is always a pair. -/
def useAll (P : PFlow σ A V) (O : ValOps V) : Acc σ A V → List ((YRes A × Msg V) × Option σ) → Except Err (Acc σ A V)
  | acc, [] => .ok acc
  | acc, (r, f) :: rs =>
    match addMessage O acc.c r.2 with
    | .error e => .error e
    | .ok c =>
      match addPar acc.y r.1 with
      | .error e => .error e
      | .ok y =>
        match f with
        | none => useAll P O { y := y, c := c, s := acc.s } rs
        | some f =>
          match P.join acc.s f with
          | .error e => .error e
          | .ok s => useAll P O { y := y, c := c, s := s } rs

/-- `n.concatenate(y_results)` (590-591): `False`, which `BiFlow.execute` returns for a chunk without data, is no array. -/
def concatAll (l : List (YRes A)) : Except Err (YRes A) :=
  if l.any (fun y => match y with | .list _ => false | _ => true) then .error .valueError
  else .ok (.list (l.flatMap fun y => match y with | .list ys => ys | _ => []))

/-- parallelbiflow.py:561-592 `use_results` of an execution; `rs` are the results from the container
(parallelflows.py:199-210). -/
def useResults (P : PFlow σ A V) (O : ValOps V) (s : σ) (rs : List ((YRes A × Msg V) × Option σ)) :
    Except Err (ExRes A V) × σ :=
  match useAll P O { s := s } rs with
  | .error e => (.error e, s)
  | .ok acc =>
    match (match acc.y with | none => (.ok .none : Except Err (YRes A)) | some l => concatAll l) with
    | .error e => (.error e, acc.s)
    | .ok y =>
      match getMessage O acc.c with
      | .error e => (.error e, acc.s)
      | .ok m => (.ok { y := y, msg := m }, acc.s)

/-- parallelbiflow.py:406-525 `execute` with a scheduler, while no training is underway. `arr`: the order in which the tasks
finish; `c`: the container of the scheduler, in which the joined fork is not reset (parallelflows.py:199-210). -/
def execute (P : PFlow σ A V) (O : ValOps V) (n : Nat) (arr : List (Chunk A V × Nat) → List (Chunk A V × Nat))
    (c : Cont σ A V) (ks : List (Chunk A V)) (s : σ) : Option (Except Err (ExRes A V × Cont σ A V) × σ) :=
  if ks.isEmpty then some (.error .biflow, P.reset s)
  else
    match runAll P O n c (P.reset s) (arr ks.zipIdx) with
    | none => none
    | some (.error e, s') => some (.error e, s')
    | some (.ok c1, s') =>
      match Mdp.Sched.takeResults true c1.results with
      | none => some (.error .indexError, s')
      | some [] => some (.error .indexError, s')
      | some (r :: rs) =>
        match useResults P O s' ((r, c1.fn) :: rs.map fun r => (r, none)) with
        | (.error e, s'') => some (.error e, s'')
        | (.ok x, s'') => some (.ok (x, { c1 with results := [] }), s'')

/-! ### Training -/

/-- binode.py:213-224: the checks of `train`, and the cast. -/
def trainChecks (P : PFlow σ A V) (name : BVal V) (x : Option A) (st : FSt σ V) : Except Err (Option A) × FSt σ V :=
  match x with
  | none => (.ok none, st)
  | some a =>
    if name.truthy = false ∨ name = .str sTrain then
      match P.preTrain st.inner a with
      | (.error e, s') => (.error e, { st with inner := s' })
      | (.ok (), s') => (.ok (some (P.refcast s' a)), { st with inner := s' })
    else (.ok (some a), st)

/-- binode.py:165-230 `BiNode.train` for the flow node in the phase of node `nr`. The arguments of its training function are
`x` and `msg`. -/
def flowTrain (P : PFlow σ A V) (n nr : Nat) (x : Option A) (m : Option (Msg V)) (st : FSt σ V) :
    Option (Except Err (BRes A V) × FSt σ V) :=
  match m with
  | none =>
    match x with
    | none => some (.error .binode, st)
    | some a =>
      match trainChecks P .none (some a) st with
      | (.error e, st) => some (.error e, st)
      | (.ok x, st) => FlowNode.train P.toFNode n nr x none st
  | some m =>
    match getMsgIdKeys P.nodeId m with
    | .error e => some (.error e, st)
    | .ok ids =>
      let t := extractKey kTarget m ids
      let nm := extractKey kMethod t.2.1 t.2.2
      let g := FlowNode.getMethod P.toFNode nm.1 t.1 st
      let e := extractArgs [kX, kMsg] nm.2.1 nm.2.2
      match trainChecks P nm.1 x g.2 with
      | (.error e, st) => some (.error e, st)
      | (.ok x, st) =>
        if (Dict.get e.2 kX).isSome then some (.error .typeError, st)
        else
          match FlowNode.train P.toFNode n nr x (some e.1) st with
          | none => none
          | some (.error e, st) => some (.error e, st)
          | some (.ok (.single none), st) => some (.ok (.single none), st)
          | some (.ok r, st) => some (.ok (dropEmpty (combine r none g.1)), st)

/-- `t in [1, -1, EXIT_TARGET]` -/
def tolerated (t : BVal V) : Bool := t = .int 1 ∨ t = .int (-1) ∨ t = .str sExit

/-- parallelbiflow.py:38-48: what the callable does with the result of the training. A pair has no third entry. -/
def checkTrain : BRes A V → Except Err Unit
  | .single none => .ok ()
  | .single (some _) => .error .biflow
  | .pair _ _ => .error .indexError
  | .triple _ _ t => if tolerated t then .ok () else .error .biflow

/-- parallelbiflow.py:32-52: the training callable, called on the flow node itself. -/
def callTrain (P : PFlow σ A V) (n nr : Nat) (k : Option A × Option (Msg V)) (s : σ) : Option (Except Err Unit × σ) :=
  match flowTrain P n nr k.1 k.2 { inner := s } with
  | none => none
  | some (.error e, st) => some (.error e, st.inner)
  | some (.ok r, st) =>
    match checkTrain r with
    | .error e => some (.error e, st.inner)
    | .ok () => some (.ok (), (biReset P.toFNode st).inner)

/-- A training task: the same on a fork (54-56). -/
def trainTask (P : PFlow σ A V) (n nr : Nat) (k : Option A × Option (Msg V)) (s : σ) : Option (Except Err σ × σ) :=
  match P.fork s with
  | none => some (.error .hook, s)
  | some f =>
    match callTrain P n nr k f with
    | none => none
    | some (.error e, t) => some (.error e, P.shared s t)
    | some (.ok (), t) => some (.ok t, P.shared s t)

/-- All tasks of a phase in the order in which they finish, and joining their results (`TrainResultContainer`,
parallelflows.py:108-129). -/
def trainTasks (P : PFlow σ A V) (n nr : Nat) : Option σ → List (Option A × Option (Msg V)) → σ →
    Option (Except Err (Option σ) × σ)
  | r, [], s => some (.ok r, s)
  | r, k :: ks, s =>
    match trainTask P n nr k s with
    | none => none
    | some (.error e, s') => some (.error e, s')
    | some (.ok f, s') =>
      match r with
      | none => trainTasks P n nr (some f) ks s'
      | some g =>
        match P.join g f with
        | .error e => some (.error e, s')
        | .ok g' => trainTasks P n nr (some g') ks s'

/-- binode.py:232-286 `BiNode.stop_training` of the flow node; the argument of its function is `msg`. -/
def flowStop (P : PFlow σ A V) (n nr : Nat) (m : Option (Msg V)) (s : σ) : Option (Except Err (BRes A V) × σ) :=
  match m with
  | none => FlowNode.stopTraining P.toFNode n nr none s
  | some [] => FlowNode.stopTraining P.toFNode n nr none s
  | some m =>
    match getMsgIdKeys P.nodeId m with
    | .error e => some (.error e, s)
    | .ok ids =>
      let t := extractKey kTarget m ids
      let nm := extractKey kMethod t.2.1 t.2.2
      let g := FlowNode.getMethod P.toFNode nm.1 t.1 { inner := s }
      let e := extractArgs [kMsg] nm.2.1 nm.2.2
      match FlowNode.stopTraining P.toFNode n nr (some e.1) s with
      | none => none
      | some (.error e, s') => some (.error e, s')
      | some (.ok r, s') => some (.ok (combine r none g.1), s')

/-- parallelbiflow.py:547-554: what `use_results` does with the result of `stop_training`: `result[2]`. -/
def checkStop (P : PFlow σ A V) : BRes A V → Except Err Unit
  | .single none => .ok ()
  | .single (some y) =>
    match P.third y with
    | .error e => .error e
    | .ok b => if b then .ok () else .error .biflow
  | .pair _ _ => .error .indexError
  | .triple _ _ t => if tolerated t then .ok () else .error .biflow

/-- parallelbiflow.py:381-389: the same in `_local_train_phase`, where an array is refused. -/
def checkStopLocal : BRes A V → Except Err Unit
  | .single none => .ok ()
  | .single (some _) => .error .biflow
  | .pair _ _ => .error .indexError
  | .triple _ _ t => if tolerated t then .ok () else .error .biflow

/-- Closing a phase: `stop_training`, the check `chk`, and a reset. -/
def closeWith (P : PFlow σ A V) (chk : BRes A V → Except Err Unit) (n nr : Nat) (m : Option (Msg V)) (s : σ) :
    Option (Except Err Unit × σ) :=
  match flowStop P n nr m s with
  | none => none
  | some (.error e, s') => some (.error e, s')
  | some (.ok r, s') =>
    match chk r with
    | .error e => some (.error e, s')
    | .ok () => some (.ok (), P.reset s')

/-- A phase on the scheduler (309-343, 211-222, 539-555). The container holds the joined result, or `None` without tasks,
which cannot happen here. -/
def parPhase (P : PFlow σ A V) (n nr : Nat) (arr : List (Option A × Option (Msg V)) → List (Option A × Option (Msg V)))
    (ks : List (Option A × Option (Msg V))) (m : Option (Msg V)) (s : σ) : Option (Except Err Unit × σ) :=
  if ks.isEmpty then some (.error .biflow, s)
  else
    match trainTasks P n nr none (arr ks) s with
    | none => none
    | some (.error e, s') => some (.error e, s')
    | some (.ok none, s') => some (.error .attributeError, s')
    | some (.ok (some f), s') =>
      match P.join s' f with
      | .error e => some (.error e, s')
      | .ok s'' => closeWith P (checkStop P) n nr m s''

/-- The chunks of a local phase (366-375). -/
def localChunks (P : PFlow σ A V) (n nr : Nat) : List (Option A × Option (Msg V)) → σ → Option (Except Err Unit × σ)
  | [], s => some (.ok (), s)
  | k :: ks, s =>
    match callTrain P n nr k s with
    | none => none
    | some (.error e, s') => some (.error e, s')
    | some (.ok (), s') => localChunks P n nr ks s'

/-- parallelbiflow.py:361-390 `_local_train_phase`. Without data the flow node has not been trained. -/
def localPhase (P : PFlow σ A V) (n nr : Nat) (ks : List (Option A × Option (Msg V))) (m : Option (Msg V)) (s : σ) :
    Option (Except Err Unit × σ) :=
  match localChunks P n nr ks s with
  | none => none
  | some (.error e, s') => some (.error e, s')
  | some (.ok (), s') =>
    if ks.isEmpty then some (.error .notTrained, s') else closeWith P checkStopLocal n nr m s'

/-- The phases of a node (300-359, 559-561). A trainable node `is_training` as long as phases remain. -/
def phases (P : PFlow σ A V) (n nr : Nat)
    (arr : σ → List (Option A × Option (Msg V)) → List (Option A × Option (Msg V)))
    (ks : List (Option A × Option (Msg V))) (m : Option (Msg V)) : Nat → σ → Option (Except Err Unit × σ)
  | 0, _ => none
  | k + 1, s =>
    if P.remaining nr s = 0 then some (.ok (), s)
    else
      match (if (P.fork s).isSome then parPhase P n nr (arr s) ks m s else localPhase P n nr ks m s) with
      | none => none
      | some (.error e, s') => some (.error e, s')
      | some (.ok (), s') => phases P n nr arr ks m k s'

/-- The nodes `i`, …, `i + k - 1` (300-359). -/
def nodes (P : PFlow σ A V) (n : Nat) (arr : σ → List (Option A × Option (Msg V)) → List (Option A × Option (Msg V)))
    (data : Nat → List (Option A × Option (Msg V))) (stops : Nat → Option (Msg V)) :
    Nat → Nat → σ → Option (Except Err Unit × σ)
  | _, 0, s => some (.ok (), s)
  | i, k + 1, s =>
    match (if P.trainable i then phases P n i arr (data i) (stops i) n s else some (.ok (), s)) with
    | none => none
    | some (.error e, s') => some (.error e, s')
    | some (.ok (), s') => nodes P n arr data stops (i + 1) k s'

/-- parallelbiflow.py:121-243, 245-288 `train` with a scheduler. `arr`: the order in which the tasks of a phase finish. -/
def train (P : PFlow σ A V) (n : Nat) (arr : σ → List (Option A × Option (Msg V)) → List (Option A × Option (Msg V)))
    (data : Nat → List (Option A × Option (Msg V))) (stops : Nat → Option (Msg V)) (s : σ) :
    Option (Except Err Unit × σ) :=
  nodes P n arr data stops 0 P.len (P.reset s)

end Bi.Par
