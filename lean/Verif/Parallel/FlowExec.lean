import Verif.Parallel.Scheduler
import Verif.Parallel.Flow

/-!
# `ParallelFlow.execute` on a scheduler (mdp/parallel/parallelflows.py)

Unlike in `Verif.Parallel.Flow`, executing a node may change it; such nodes have `use_execute_fork`. A scheduler
finishes its tasks in an arbitrary order and hands the results to its `ExecuteResultContainer`, which lives as long as
the scheduler. Rows are of an arbitrary type; a chunk is a list of rows. A failing task or join makes `execute` raise;
what it leaves behind in the scheduler (C43) and half-joined nodes are not modelled.
-/

namespace PFlow.Exec

open PFlow

/-- A node for execution. -/
structure EOps (σ α : Type) where
  exec : σ → List α → Except PErr (List α × σ)
  /-- `use_execute_fork` -/
  useFork : σ → Bool
  fork : σ → Except PErr σ
  join : σ → σ → Except PErr σ

variable {σ α : Type}

/-- `Flow._execute_seq` (linear_flows.py:352-362) through the given nodes. -/
def execSeq (ops : EOps σ α) : List σ → List α → Except PErr (List α × List σ)
  | [], x => .ok (x, [])
  | n :: ns, x => match ops.exec n x with
    | .error e => .error e
    | .ok (y, n') => match execSeq ops ns y with
      | .error e => .error e
      | .ok (z, ns') => .ok (z, n' :: ns')

/-- `ParallelFlowNode._fork` of a flow that is not training (parallelhinet.py:16-31). -/
def forkAll (ops : EOps σ α) : List σ → Except PErr (List σ)
  | [] => .ok []
  | n :: ns => match (if ops.useFork n then ops.fork n else .ok n) with
    | .error e => .error e
    | .ok f => match forkAll ops ns with
      | .error e => .error e
      | .ok fs => .ok (f :: fs)

/-- `ParallelFlowNode._join` of a flow that is not training (parallelhinet.py:33-41); purged nodes (parallelflows.py:
39-43) are not joined. -/
def joinNodes (ops : EOps σ α) : List σ → List σ → Except PErr (List σ)
  | n :: ns, f :: fs => match (if ops.useFork f then ops.join n f else .ok n) with
    | .error e => .error e
    | .ok n' => match joinNodes ops ns fs with
      | .error e => .error e
      | .ok ns' => .ok (n' :: ns')
  | ns, _ => .ok ns

/-- A task: the callable is forked and called (parallelflows.py:153-172; `nodenr` of the callable). -/
def task (ops : EOps σ α) (nodes : List σ) (nodenr : Option Nat) (x : List α) :
    Except PErr (List α × Option (List σ)) :=
  match forkAll ops nodes with
  | .error e => .error e
  | .ok fs =>
    let k := match nodenr with
      | none => fs.length
      | some k => k + 1
    match execSeq ops (fs.take k) x with
    | .error e => .error e
    | .ok (y, fs') => .ok (y, if fs.any ops.useFork then some (fs' ++ fs.drop k) else none)

/-- `ExecuteResultContainer` (175-210): the results with their task indices, and the joined forks. -/
structure Cont (σ α : Type) where
  results : List (List α × Nat) := []
  fn : Option (List σ) := none

/-- `add_result` (187-197). -/
def addResult (ops : EOps σ α) (c : Cont σ α) (r : List α × Option (List σ)) (k : Nat) : Except PErr (Cont σ α) :=
  match r.2, c.fn with
  | none, _ => .ok { c with results := c.results ++ [(r.1, k)] }
  | some f, none => .ok { results := c.results ++ [(r.1, k)], fn := some f }
  | some f, some g => match joinNodes ops g f with
    | .error e => .error e
    | .ok g' => .ok { results := c.results ++ [(r.1, k)], fn := some g' }

/-- All tasks, in the order in which they finish. -/
def runAll (ops : EOps σ α) (nodes : List σ) (nodenr : Option Nat) :
    Cont σ α → List (List α × Nat) → Except PErr (Cont σ α)
  | c, [] => .ok c
  | c, (x, k) :: ts => match task ops nodes nodenr x with
    | .error e => .error e
    | .ok r => match addResult ops c r k with
      | .error e => .error e
      | .ok c' => runAll ops nodes nodenr c' ts

/-- `get_results` (199-210) with the sorting of `OrderedResultContainer` (scheduling.py:71-76): the outputs in task
order, the joined fork, and the container afterwards, in which `_flownode` is not reset. -/
def getResults (c : Cont σ α) : Option (List (List α) × Option (List σ) × Cont σ α) :=
  (Mdp.Sched.takeResults true c.results).map fun ys => (ys, c.fn, { c with results := [] })

/-- `execute` with a scheduler (549-586, 602-625, 701-709). `underway`: whether a training is underway; `arr`: the order
in which the tasks finish; `c`: the result container of the scheduler. The callable is created without a `nodenr`
(623-625). The result: the output, the nodes and the container afterwards. -/
def execute (ops : EOps σ α) (underway : Bool) (arr : List (List α × Nat) → List (List α × Nat)) (c : Cont σ α)
    (nodes : List σ) (chunks : List (List α)) (_nodenr : Option Nat) :
    Except PErr (List α × List σ × Cont σ α) :=
  if underway then .error .underway
  else if chunks = [] then .error .flow
  else match runAll ops nodes none c (arr chunks.zipIdx) with
    | .error e => .error e
    | .ok c1 => match getResults c1 with
      | none => .error .attribute
      | some (ys, fn, c2) =>
        if nodes.any ops.useFork then match fn with
          | none => .ok (ys.flatten, nodes, c2)
          | some f => match joinNodes ops nodes f with
            | .error e => .error e
            | .ok nodes' => .ok (ys.flatten, nodes', c2)
        else .ok (ys.flatten, nodes, c2)

end PFlow.Exec
