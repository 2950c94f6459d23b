import Verif.Flow.Container
import Verif.Node.Props

/-!
# Model of `Flow` execution and training (linear_flows.py:125-420) and `CheckpointFlow` (588-635)

A flow is a list of nodes (class and instance state). Simplifications: the nodes of a flow are distinct
objects; crash recovery dumps, verbose output and the text of exceptions are not modelled.
-/

namespace Mdp.Flow

open Py Mdp.Node

variable {σ α β : Type}

/-- A node object: its class and its state. All nodes of a flow share the type `σ` of private data (use a
sum type for different classes). -/
structure Nd (σ α β : Type) where
  K : Kind σ α β
  s : St σ α β

instance : Dims (Nd σ α β) := ⟨fun n => n.s.inputDim, fun n => n.s.outputDim⟩

/-- `_execute_seq` (352-362) for nodes `i, i+1, ...`, `k` of them. Running off the end of the list is an
IndexError (raised again while the error message is formatted, 133). -/
def execSeq (i : Nat) : Nat → List (Nd σ α β) → Arr α → Except Err (Arr α) × List (Nd σ α β)
  | 0, l, x => (.ok x, l)
  | _ + 1, [], _ => (.error .index, [])
  | k + 1, nd :: r, x =>
    match execute nd.K x nd.s with
    | (.error e, s) => (.error (.flowCR i e), ⟨nd.K, s⟩ :: r)
    | (.ok y, s) =>
      let (res, r') := execSeq (i + 1) k r y
      (res, ⟨nd.K, s⟩ :: r')

/-- Number of nodes run by `_execute_seq(x, nodenr)`: `range(nodenr+1)`, default `len(flow)-1`. -/
def execCount (len : Nat) (nodenr : Option Int) : Nat :=
  (nodenr.getD ((len : Int) - 1) + 1).toNat

/-- `_inverse_seq` (386-394): from the last node to the first. -/
def invSeq (i : Nat) : List (Nd σ α β) → Arr α → Except Err (Arr α) × List (Nd σ α β)
  | [], y => (.ok y, [])
  | nd :: r, y =>
    match invSeq (i + 1) r y with
    | (.error e, r') => (.error e, nd :: r')
    | (.ok z, r') =>
      match inverse nd.K z nd.s with
      | (.error e, s) => (.error (.flowCR i e), ⟨nd.K, s⟩ :: r')
      | (.ok x, s) => (.ok x, ⟨nd.K, s⟩ :: r')

/-- `numx.concatenate` along the first axis; `promote` is numpy's dtype promotion. -/
def concat (promote : DType → DType → DType) : List (Arr α) → Except Err (Arr α)
  | [] => .error .value
  | a :: r => r.foldlM (fun acc b =>
      if acc.ndim = b.ndim ∧ acc.cols = b.cols then
        .ok { acc with dtype := promote acc.dtype b.dtype, data := acc.data ++ b.data }
      else .error .value) a

/-- The argument of `execute` and `inverse`: one array or an iterable of arrays. -/
inductive Input (α : Type) where
  | arr (x : Arr α)
  | chunks (xs : List (Arr α))

/-- The loop over an iterable (377-380, 413-416): results so far are lost if one chunk raises. -/
def mapChunks (f : Arr α → List (Nd σ α β) → Except Err (Arr α) × List (Nd σ α β)) :
    List (Arr α) → List (Nd σ α β) → Except Err (List (Arr α)) × List (Nd σ α β)
  | [], fl => (.ok [], fl)
  | x :: xs, fl =>
    match f x fl with
    | (.error e, fl') => (.error e, fl')
    | (.ok y, fl') =>
      match mapChunks f xs fl' with
      | (.error e, fl'') => (.error e, fl'')
      | (.ok ys, fl'') => (.ok (y :: ys), fl'')

/-- Apply a per-array function to an array or an iterable (372-384, 408-420). -/
def overInput (promote : DType → DType → DType)
    (f : Arr α → List (Nd σ α β) → Except Err (Arr α) × List (Nd σ α β)) (fl : List (Nd σ α β)) :
    Input α → Except Err (Arr α) × List (Nd σ α β)
  | .arr x => f x fl
  | .chunks xs =>
    match mapChunks f xs fl with
    | (.error e, fl') => (.error e, fl')
    | (.ok ys, fl') => if xs.isEmpty then (.error .flow, fl') else (concat promote ys, fl')

/-- `Flow.execute` (364-384). -/
def Flow.execute (promote : DType → DType → DType) (fl : List (Nd σ α β)) (x : Input α)
    (nodenr : Option Int) : Except Err (Arr α) × List (Nd σ α β) :=
  overInput promote (fun x fl => execSeq 0 (execCount fl.length nodenr) fl x) fl x

/-- `Flow.inverse` (396-420). -/
def Flow.inverse (promote : DType → DType → DType) (fl : List (Nd σ α β)) (y : Input α) :
    Except Err (Arr α) × List (Nd σ α β) :=
  overInput promote (fun y fl => invSeq 0 fl y) fl y

/-! ### Training -/

/-- What iterating over a data iterable yields: `it k` is what its `k`-th iteration gives (array and
extra arguments). A restartable iterable is constant in `k`; an iterator gives nothing from `k = 1` on.
Simplification: the iterables of different nodes are independent objects. -/
abbrev Chunks (α β : Type) := Nat → List (Arr α × List β)

/-- An element of `data_iterables`. -/
inductive Elem (α β : Type) where
  | none
  /-- has no `__iter__` -/
  | notIterable
  | it (c : Chunks α β)

/-- The argument of `Flow.train`. -/
inductive TrainArg (α β : Type) where
  | array (x : Arr α)
  | list (l : List (Elem α β))
  | other

/-- One iteration over the data in `_train_node` (171-196): each chunk is checked for the number of extra
arguments, passed through the preceding nodes and used to train the node. -/
def trainChunks : List (Nd σ α β) → Nd σ α β → List (Arr α × List β) →
    Except Err Unit × List (Nd σ α β) × Nd σ α β
  | pre, nd, [] => (.ok (), pre, nd)
  | pre, nd, (x, args) :: r =>
    if nd.K.reqArgs ≠ 0 ∧ nd.K.reqArgs ≠ args.length then (.error .flow, pre, nd)
    else
      match execSeq 0 pre.length pre x with
      | (.error e, pre') => (.error e, pre', nd)
      | (.ok v, pre') =>
        match train nd.K v args nd.s with
        | (.error e, s) => (.error e, pre', ⟨nd.K, s⟩)
        | (.ok (), s) => trainChunks pre' ⟨nd.K, s⟩ r

theorem trainChunks_K (cs : List (Arr α × List β)) (pre : List (Nd σ α β)) (nd : Nd σ α β) :
    (trainChunks pre nd cs).2.2.K = nd.K := by
  induction cs generalizing pre nd with
  | nil => rfl
  | cons c r ih =>
    obtain ⟨x, args⟩ := c
    rw [trainChunks]
    split
    · rfl
    · split
      · rfl
      · split
        · rfl
        · rw [ih]

theorem trainChunks_phase (cs : List (Arr α × List β)) (pre : List (Nd σ α β)) (nd : Nd σ α β) :
    (trainChunks pre nd cs).2.2.s.phase = nd.s.phase := by
  induction cs generalizing pre nd with
  | nil => rfl
  | cons c r ih =>
    obtain ⟨x, args⟩ := c
    rw [trainChunks]
    split
    · rfl
    · split
      · rfl
      · next v pre' _ =>
        have := train_phase nd.K v args nd.s
        unfold SamePhase at this
        split
        · next hx => rw [hx] at this; exact this
        · next hx => rw [ih]; rw [hx] at this; exact this

/-- The `while True` loop of `_train_node` (168-215) from the `k`-th iteration on: all phases but the last
are closed. Terminates because every round closes a phase. -/
def trainRounds (pre : List (Nd σ α β)) (nd : Nd σ α β) (it : Chunks α β) (k : Nat) :
    Except Err Unit × List (Nd σ α β) × Nd σ α β :=
  match h1 : trainChunks pre nd (it k) with
  | (.error e, pre', nd') => (.error e, pre', nd')
  | (.ok (), pre', nd') =>
    if (it k).isEmpty then (.error .flow, pre', nd')
    else if hr : remaining nd'.K nd'.s > 1 then
      match h2 : stopTraining nd'.K nd'.s with
      | (.error e, s) => (.error e, pre', ⟨nd'.K, s⟩)
      | (.ok (), s) => trainRounds pre' ⟨nd'.K, s⟩ it (k + 1)
    else (.ok (), pre', nd')
termination_by ((nd.K.nPhases : Int) - nd.s.phase).toNat
decreasing_by
  have h3 := stopTraining_ok_phase nd'.K nd'.s s h2
  have h4 := trainChunks_phase (it k) pre nd
  have h5 := trainChunks_K (it k) pre nd
  rw [h1] at h4 h5
  simp only at h4 h5 ⊢
  unfold remaining at hr
  rw [h5] at hr ⊢
  split at hr <;> omega

/-- The exception handlers of `_train_node` (216-232). -/
def handle (i : Nat) : Except Err Unit → Except Err Unit
  | .ok () => .ok ()
  -- a node that is already trained is only warned about
  | .error .finished => .ok ()
  -- a failure while executing the preceding nodes
  | .error (.flowCR _ _) => .error .flow
  | .error e => .error (.flowCR i e)

/-- `_train_node` (138-232) for the node after `pre`. -/
def trainNode (pre : List (Nd σ α β)) (nd : Nd σ α β) (d : Elem α β) :
    Except Err Unit × List (Nd σ α β) × Nd σ α β :=
  match d with
  | .it c =>
    if nd.K.trainable = false then (.ok (), pre, nd)
    else
      let (r, pre', nd') := trainRounds pre nd c 0
      (handle pre.length r, pre', nd')
  | .none =>
    if nd.s.training = true then (.error .flow, pre, nd)
    else if nd.K.trainable = false then (.ok (), pre, nd)
    -- `for x in None` inside the try block
    else (.error (.flowCR pre.length .type), pre, nd)
  -- excluded by `_train_check_iterables`
  | .notIterable => (.error (.flowCR pre.length .type), pre, nd)

/-- The loop of `train` over the nodes (341-348): `pre` are the nodes already dealt with. -/
def trainFrom : List (Nd σ α β) → List (Nd σ α β) → List (Elem α β) →
    Except Err Unit × List (Nd σ α β)
  | pre, [], _ => (.ok (), pre)
  | pre, nd :: rest, [] => (.error .index, pre ++ nd :: rest)
  | pre, nd :: rest, d :: ds =>
    match trainNode pre nd d with
    | (.error e, pre', nd') => (.error e, pre' ++ nd' :: rest)
    | (.ok (), pre', nd') => trainFrom (pre' ++ [nd']) rest ds

/-- `_close_last_node` (287-295). -/
def closeLast (fl : List (Nd σ α β)) : Except Err Unit × List (Nd σ α β) :=
  match fl.getLast? with
  | none => (.error .index, fl)
  | some nd =>
    match stopTraining nd.K nd.s with
    | (.ok (), s) => (.ok (), fl.dropLast ++ [⟨nd.K, s⟩])
    | (.error .finished, s) => (.ok (), fl.dropLast ++ [⟨nd.K, s⟩])
    | (.error e, s) => (.error (.flowCR (fl.length - 1) e), fl.dropLast ++ [⟨nd.K, s⟩])

/-- Is the element accepted by the first check (270-274)? -/
def Elem.iterable : Elem α β → Bool
  | .notIterable => false
  | _ => true

/-- `_train_check_iterables` (251-285). -/
def checkIterables (len : Nat) : TrainArg α β → Except Err (List (Elem α β))
  | .array x => .ok (List.replicate len (.it fun _ => [(x, [])]))
  | .other => .error .flow
  | .list l =>
    if l.all Elem.iterable = false then .error .flow
    else if l.length ≠ len then .error .flow
    else .ok l

/-- `Flow.train` (315-350). -/
def Flow.train (fl : List (Nd σ α β)) (d : TrainArg α β) : Except Err Unit × List (Nd σ α β) :=
  match checkIterables fl.length d with
  | .error e => (.error e, fl)
  | .ok l =>
    match trainFrom [] fl l with
    | (.error e, fl') => (.error e, fl')
    | (.ok (), fl') => closeLast fl'

/-! ### CheckpointFlow -/

/-- A checkpoint function: it may change the node and raise. Simplification: it does not touch other nodes;
the dictionary it returns (added to the flow's instance dictionary) is not modelled. -/
abbrev Checkpoint (σ α β : Type) := Nd σ α β → Except Err Unit × Nd σ α β

/-- The checkpoints given to `CheckpointFlow.train`. -/
inductive CpArg (σ α β : Type) where
  | one (c : Option (Checkpoint σ α β))
  | list (l : List (Option (Checkpoint σ α β)))

/-- `_train_check_checkpoints` (593-602). -/
def checkCheckpoints (len : Nat) : CpArg σ α β → Except Err (List (Option (Checkpoint σ α β)))
  | .one c => .ok (List.replicate len c)
  | .list l => if l.length ≠ len then .error .flow else .ok l

/-- A checkpoint call (ghost): the index of the node and the flow at that moment. -/
structure CpCall (σ α β : Type) where
  index : Nat
  flow : List (Nd σ α β)

/-- The loop of `CheckpointFlow.train` (621-633), with the ghost log of checkpoint calls. The exception of
a checkpoint is not wrapped. -/
def cpTrainFrom : List (Nd σ α β) → List (Nd σ α β) → List (Elem α β) →
    List (Option (Checkpoint σ α β)) → Except Err Unit × List (Nd σ α β) × List (CpCall σ α β)
  | pre, [], _, _ => (.ok (), pre, [])
  | pre, nd :: rest, d :: ds, c :: cs =>
    match trainNode pre nd d with
    | (.error e, pre', nd') => (.error e, pre' ++ nd' :: rest, [])
    | (.ok (), pre', nd') =>
      match c with
      | none => cpTrainFrom (pre' ++ [nd']) rest ds cs
      | some f =>
        let call : CpCall σ α β := ⟨pre.length, pre' ++ nd' :: rest⟩
        match f nd' with
        | (.error e, nd'') => (.error e, pre' ++ nd'' :: rest, [call])
        | (.ok (), nd'') =>
          let (r, fl, log) := cpTrainFrom (pre' ++ [nd'']) rest ds cs
          (r, fl, call :: log)
  | pre, nd :: rest, _, _ => (.error .index, pre ++ nd :: rest, [])

/-- `CheckpointFlow.train` (604-635). -/
def CheckpointFlow.train (fl : List (Nd σ α β)) (d : TrainArg α β) (c : CpArg σ α β) :
    Except Err Unit × List (Nd σ α β) × List (CpCall σ α β) :=
  match checkIterables fl.length d with
  | .error e => (.error e, fl, [])
  | .ok l =>
    match checkCheckpoints fl.length c with
    | .error e => (.error e, fl, [])
    | .ok cs =>
      match cpTrainFrom [] fl l cs with
      | (.error e, fl', log) => (.error e, fl', log)
      | (.ok (), fl', log) =>
        let (r, fl'') := closeLast fl'
        (r, fl'', log)

end Mdp.Flow
