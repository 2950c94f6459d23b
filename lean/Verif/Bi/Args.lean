import Mathlib.Tactic.Tauto
import Mathlib.Tactic.Linarith

/-!
# What a `BiFlow` makes of its arguments

`BiFlow._sanitize_iterables`, `BiFlow._sanitize_training_iterables` and `NoneIterable` (`bimdp/biflow.py`), `Flow._train_check_iterables`
(`mdp/linear_flows.py`), and the tasks that `ParallelBiFlow` hands out for them (`bimdp/parallel/parallelbiflow.py`). Only the data that
reach the flow are modelled here, not what the nodes do with them. Iterables can be iterated again and have finitely many elements.
-/

namespace Mdp.BiArgs

/-- Python values as far as the functions distinguish them: `None`, arrays, dictionaries (messages), strings, numbers, lists and other
iterables, for instance generators. -/
inductive Val (X M : Type) where
  | none
  | array (x : X)
  | dict (m : M)
  | word (s : List Char)
  | num (n : Int)
  | list (l : List (Val X M))
  | gen (l : List (Val X M))

inductive Err where
  | biflow
  | flow
  | type
  | index
  | key
  deriving DecidableEq

/-- The rows of an array, the keys of a dictionary, an entry of a dictionary with a number as its key. -/
structure Env (X M : Type) where
  rows : X → List (Val X M)
  keys : M → List (Val X M)
  item : M → Nat → Option (Val X M)

variable {X M : Type}

/-- What is left of an iterator: finitely many values, or `NoneIterable` (biflow.py:27-32). -/
inductive It (X M : Type) where
  | fin (l : List (Val X M))
  | nones

/-- `next(iterator)`; `none` is a StopIteration. -/
def It.next : It X M → Option (Val X M × It X M)
  | .fin [] => Option.none
  | .fin (v :: l) => some (v, .fin l)
  | .nones => some (.none, .nones)

/-- The values that `_sanitize_iterables` returns: a Python value or a `NoneIterable`. -/
inductive Src (X M : Type) where
  | val (v : Val X M)
  | nones

/-- `hasattr(v, '__iter__')`. -/
def hasIter : Val X M → Bool
  | .none => false
  | .num _ => false
  | _ => true

/-- `iter(v)`. -/
def Src.iter (E : Env X M) : Src X M → Except Err (It X M)
  | .nones => .ok .nones
  | .val .none => .error .type
  | .val (.num _) => .error .type
  | .val (.array x) => .ok (.fin (E.rows x))
  | .val (.dict m) => .ok (.fin (E.keys m))
  | .val (.word s) => .ok (.fin (s.map fun c => .word [c]))
  | .val (.list l) => .ok (.fin l)
  | .val (.gen l) => .ok (.fin l)

/-- An argument that was left out is replaced by a `NoneIterable` (biflow.py:464-467). -/
def Src.opt : Val X M → Src X M
  | .none => .nones
  | v => .val v

/-- `_sanitize_iterables` (biflow.py:447-468). -/
def sanitize (d m t : Val X M) : Except Err (Src X M × Src X M × Src X M) :=
  match d with
  | .array x => .ok (.val (.list [.array x]), .val (.list [m]), .val (.list [t]))
  | .none =>
    match m with
    | .none => .error .biflow
    | .dict m => .ok (.nones, .val (.list [.dict m]), .val (.list [t]))
    | m => .ok (.nones, .val m, .val t)
  | d =>
    .ok (.val d, .opt m, .opt t)

/-- The three iterators. -/
abbrev Its (X M : Type) := It X M × It X M × It X M
abbrev Chunk (X M : Type) := Val X M × Val X M × Val X M

/-- `iter` of the three arguments of `zip` (311), in order. -/
def iters (E : Env X M) (s : Src X M × Src X M × Src X M) : Except Err (Its X M) := do
  let a ← s.1.iter E
  let b ← s.2.1.iter E
  let c ← s.2.2.iter E
  pure (a, b, c)

/-- `next(zip(a, b, c))`: one value of each in order; values that were taken before another iterator ended are lost. -/
def zipNext (i : Its X M) : Option (Chunk X M) × Its X M :=
  match i.1.next with
  | Option.none => (Option.none, i)
  | some (x, a) =>
    match i.2.1.next with
    | Option.none => (Option.none, (a, i.2.1, i.2.2))
    | some (m, b) =>
      match i.2.2.next with
      | Option.none => (Option.none, (a, b, i.2.2))
      | some (t, c) => (some (x, m, t), (a, b, c))

/-- The loop of `execute` (biflow.py:311-353) over at most `fuel` chunks: the chunks in the order in which the flow sees them, and the
iterators afterwards. -/
def loop : Nat → Its X M → Option (List (Chunk X M) × Its X M)
  | 0, _ => Option.none
  | fuel + 1, i =>
    match zipNext i with
    | (Option.none, i) => some ([], i)
    | (some c, i) => (loop fuel i).map fun r => (c :: r.1, r.2)

/-- The chunks of `BiFlow.execute(d, m, t)` (biflow.py:305-356). `none`: more than `fuel` rounds. -/
def execute (E : Env X M) (fuel : Nat) (d m t : Val X M) : Option (Except Err (List (Chunk X M) × Its X M)) :=
  match sanitize d m t with
  | .error e => some (.error e)
  | .ok s =>
    match iters E s with
    | .error e => some (.error e)
    | .ok i =>
      match loop fuel i with
      | Option.none => Option.none
      | some (l, i) => some (if l.isEmpty then .error .biflow else .ok (l, i))

/-- `_create_execute_task` (parallelbiflow.py:514-526). -/
def createTask (i : Its X M) : Option (Chunk X M) × Its X M :=
  match i with
  | (a, b, c) =>
    match a.next with
    | Option.none => (Option.none, (a, b, c))
    | some (x, a) =>
      match b.next with
      | Option.none => (Option.none, (a, b, c))
      | some (m, b) =>
        match c.next with
        | Option.none => (Option.none, (a, b, c))
        | some (t, c) => (some (x, m, t), (a, b, c))

/-- `while self.task_available: task = self.get_task()` (parallelbiflow.py:455-457, parallelflows.py:637-655): the next task is made
before a task is given out. -/
def taskLoop : Nat → Option (Chunk X M) → Its X M → Option (List (Chunk X M) × Its X M)
  | _, Option.none, i => some ([], i)
  | 0, some _, _ => Option.none
  | fuel + 1, some task, i =>
    match createTask i with
    | (next, i) => (taskLoop fuel next i).map fun r => (task :: r.1, r.2)

/-- The tasks of `ParallelBiFlow.execute(d, m, t, scheduler)` (parallelbiflow.py:445-457, 469-512). -/
def tasks (E : Env X M) (fuel : Nat) (d m t : Val X M) : Option (Except Err (List (Chunk X M) × Its X M)) :=
  match sanitize d m t with
  | .error e => some (.error e)
  | .ok s =>
    match iters E s with
    | .error e => some (.error e)
    | .ok i =>
      match createTask i with
      | (Option.none, _) => some (.error .flow)
      | (some first, i) => (taskLoop fuel (some first) i).map .ok

/-! ## Training -/

/-- An element of the list that is refused (linear_flows.py:274). -/
def refused : Val X M → Bool
  | .none => false
  | e => !hasIter e

/-- `_train_check_iterables` (linear_flows.py:251-285) for a flow of `n` nodes. -/
def checkIterables (n : Nat) (v : Val X M) : Except Err (List (Val X M)) :=
  match v with
  | .array x => .ok (List.replicate n (.list [.array x]))
  | .list l =>
    if l.any refused then .error .flow
    else if l.length ≠ n then .error .flow
    else .ok l
  | _ => .error .flow

/-- `_sanitize_training_iterables` (biflow.py:426-445). -/
def sanitizeTraining (n : Nat) (d m : Val X M) : Except Err (Val X M × Val X M) :=
  match d with
  | .none =>
    match m with
    | .none => .error .biflow
    | m => .ok (.list (List.replicate n .none), m)
  | .array x =>
    .ok (.list (List.replicate n (.list [.array x])), .list (List.replicate n (.list [m])))
  | d => do
    let d ← checkIterables n d
    match m with
    | .none => pure (.list d, .list (List.replicate n .none))
    | m => do
      let m ← checkIterables n m
      pure (.list d, .list m)

/-- `v[i]` for a number `i` that is not negative. -/
def getItem (E : Env X M) (v : Val X M) (i : Nat) : Except Err (Val X M) :=
  match v with
  | .list l => match l[i]? with | some x => .ok x | Option.none => .error .index
  | .array x => match (E.rows x)[i]? with | some x => .ok x | Option.none => .error .index
  | .word s => match s[i]? with | some c => .ok (.word [c]) | Option.none => .error .index
  | .dict m => match E.item m i with | some x => .ok x | Option.none => .error .key
  | .none | .num _ | .gen _ => .error .type

/-- The loop of `_train_node_single_phase` (biflow.py:177): data and messages. -/
def trainLoop : Nat → It X M → It X M → Option (List (Val X M × Val X M))
  | 0, _, _ => Option.none
  | fuel + 1, a, b =>
    match a.next with
    | Option.none => some []
    | some (x, a) =>
      match b.next with
      | Option.none => some []
      | some (m, b) => (trainLoop fuel a b).map ((x, m) :: ·)

/-- `_train_node` (biflow.py:145-168) for a node with one phase: the chunks and messages it is trained with. -/
def trainNode (E : Env X M) (fuel : Nat) (trainable : Bool) (d m : Val X M) : Option (Except Err (List (Val X M × Val X M))) :=
  if !trainable then some (.ok [])
  else
    match sanitize d m .none with
    | .error e => some (.error e)
    | .ok (d, m, _) =>
      match d.iter E, m.iter E with
      | .error e, _ => some (.error e)
      | _, .error e => some (.error e)
      | .ok a, .ok b =>
        match trainLoop fuel a b with
        | Option.none => Option.none
        | some l => some (if l.isEmpty then .error .biflow else .ok l)

/-- The loop over the nodes (biflow.py:136-141), from node `i`: what the nodes are trained with, and the exception that ends it. -/
def trainNodes (E : Env X M) (fuel : Nat) (d m : Val X M) : Nat → List Bool → Option (List (List (Val X M × Val X M)) × Option Err)
  | _, [] => some ([], Option.none)
  | i, tr :: rest =>
    match getItem E d i, getItem E m i with
    | .error e, _ => some ([], some e)
    | _, .error e => some ([], some e)
    | .ok x, .ok y =>
      match trainNode E fuel tr x y with
      | Option.none => Option.none
      | some (.error e) => some ([], some e)
      | some (.ok l) => (trainNodes E fuel d m (i + 1) rest).map fun r => (l :: r.1, r.2)

/-- `BiFlow.train(d, m)` (biflow.py:107-143); for each node whether it is trainable. -/
def train (E : Env X M) (fuel : Nat) (nodes : List Bool) (d m : Val X M) :
    Option (List (List (Val X M × Val X M)) × Option Err) :=
  match sanitizeTraining nodes.length d m with
  | .error e => some ([], some e)
  | .ok (d, m) => trainNodes E fuel d m 0 nodes

end Mdp.BiArgs
