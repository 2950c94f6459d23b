/-!
# The phases of a training of a `BiFlow`

`BiFlow.train`, `_train_node` and `_train_node_single_phase` (`bimdp/biflow.py`), and the tasks of `ParallelBiFlow.train`
(`bimdp/parallel/parallelbiflow.py`): which chunks, messages and stop messages reach which node in which phase. The arguments are those
that `_sanitize_training_iterables` and `_sanitize_iterables` return (`Verif.Bi.Args`). What the nodes do with the chunks, and the
executions that a node can start with the return value of `train` or `stop_training`, are left out, except that `stop_training` raises an
exception if the node was not trained in this phase (mdp/signal_node.py:626-627).
-/

namespace Mdp.BiPhases

/-- What is iterated over: an iterable with the given elements, which can be repeated; an iterator with the given elements left; a
`NoneIterable` (biflow.py:27-32), which gives the same value again and again. -/
inductive Src (A : Type) where
  | again (l : List A)
  | once (l : List A)
  | ever (v : A)

variable {A B S : Type}

/-- `next` of an iterator over the values. -/
def Src.next : Src A → Option (A × Src A)
  | .again [] => none
  | .again (a :: l) => some (a, .again l)
  | .once [] => none
  | .once (a :: l) => some (a, .once l)
  | .ever v => some (v, .ever v)

/-- The object after an iterator over it, `it`, was used: only an iterator is used up. -/
def Src.after (s it : Src A) : Src A :=
  match s with
  | .once _ => it
  | s => s

inductive Err where
  /-- no data: `BiFlowException`, `FlowException` -/
  | empty
  /-- `TrainingException`: the node has not been trained -/
  | untrained
  | index
  deriving DecidableEq

/-- What happens to a node. -/
inductive Ev (A B S : Type) where
  | train (node phase : Nat) (x : A) (m : B)
  | stop (node phase : Nat) (s : S)
  deriving DecidableEq

/-- `next(zip(a, b))`. -/
def zipNext (a : Src A) (b : Src B) : Option (A × B) × Src A × Src B :=
  match a.next with
  | none => (none, a, b)
  | some (x, a) =>
    match b.next with
    | none => (none, a, b)
    | some (m, b) => (some (x, m), a, b)

/-- `for (x, msg) in zip(iterable, msg_iterable)` (biflow.py:177, parallelbiflow.py:370): the pairs, and the iterators afterwards. `none`:
more than `fuel` rounds. -/
def zipLoop : Nat → Src A → Src B → Option (List (A × B) × Src A × Src B)
  | 0, _, _ => none
  | fuel + 1, a, b =>
    match zipNext a b with
    | (none, a, b) => some ([], a, b)
    | (some c, a, b) => (zipLoop fuel a b).map fun r => (c :: r.1, r.2)

/-- The chunks of a phase. -/
def chunkEvs (i p : Nat) (l : List (A × B)) : List (Ev A B S) := l.map fun c => .train i p c.1 c.2

/-- More events before those of the rest. -/
def before (l : List (Ev A B S)) (r : Option (List (Ev A B S) × Option Err)) : Option (List (Ev A B S) × Option Err) :=
  r.map fun r => (l ++ r.1, r.2)

/-- `_train_node` (biflow.py:163-168) with `k` phases left, the current one being `p`, and `_train_node_single_phase` (177, 236-256). -/
def seqPhases (fuel i : Nat) (st : S) : Nat → Nat → Src A → Src B → Option (List (Ev A B S) × Option Err)
  | 0, _, _, _ => some ([], none)
  | k + 1, p, a, b =>
    match zipLoop fuel a b with
    | none => none
    | some (l, a', b') =>
      if l.isEmpty then some ([], some .empty)
      else before (chunkEvs i p l ++ [.stop i p st]) (seqPhases fuel i st k (p + 1) (a.after a') (b.after b'))

/-- What follows the phases of a node: nothing after an exception. -/
def andThen (r : Option (List (Ev A B S) × Option Err)) (rest : Option (List (Ev A B S) × Option Err)) :
    Option (List (Ev A B S) × Option Err) :=
  match r with
  | none => none
  | some (l, some e) => some (l, some e)
  | some (l, none) => before l rest

/-- The loop of `BiFlow.train` (biflow.py:134-143) from node `i`; for each node the number of phases it has left, zero if it is not
trainable. -/
def seqNodes (fuel : Nat) (data : List (Src A)) (msgs : List (Src B)) (stops : List S) : Nat → List Nat →
    Option (List (Ev A B S) × Option Err)
  | _, [] => some ([], none)
  | i, k :: rest =>
    match data[i]?, msgs[i]?, stops[i]? with
    | some a, some b, some s => andThen (seqPhases fuel i s k 0 a b) (seqNodes fuel data msgs stops (i + 1) rest)
    | _, _, _ => some ([], some .index)

/-- `BiFlow.train` (biflow.py:126-143). -/
def train (fuel : Nat) (nodes : List Nat) (data : List (Src A)) (msgs : List (Src B)) (stops : List S) :
    Option (List (Ev A B S) × Option Err) := seqNodes fuel data msgs stops 0 nodes

/-! ## In parallel -/

/-- `_create_train_task` (parallelbiflow.py:392-403). -/
def createTask (a : Src A) (b : Src B) : Option (A × B) × Src A × Src B :=
  match a.next with
  | none => (none, a, b)
  | some (x, a') =>
    match b.next with
    | none => (none, a', b)
    | some (m, b') => (some (x, m), a', b')

/-- `while self.task_available: task = self.get_task()` (parallelbiflow.py:212-214, parallelflows.py:637-655): the next task is made
before a task is given out. -/
def taskLoop : Nat → Option (A × B) → Src A → Src B → Option (List (A × B) × Src A × Src B)
  | _, none, a, b => some ([], a, b)
  | 0, some _, _, _ => none
  | fuel + 1, some task, a, b =>
    match createTask a b with
    | (next, a, b) => (taskLoop fuel next a b).map fun r => (task :: r.1, r.2)

/-- A phase is closed: `self._flownode.stop_training(self._stop_messages[i])` (parallelbiflow.py:380-381, 543-544), after the events `l`. -/
def close (i p : Nat) (l : List (Ev A B S)) (trained : Bool) (st : Option S) (rest : Option (List (Ev A B S) × Option Err)) :
    Option (List (Ev A B S) × Option Err) :=
  match st with
  | none => some (l, some .index)
  | some s => if trained then before (l ++ [.stop i p s]) rest else some (l, some .untrained)

/-- The rounds of `_next_train_phase` and `use_results` (parallelbiflow.py:290-359, 528-560) for node `i`: `k` phases left, the current one
being `p`; `fork p` tells whether the flow can be forked in it. The tasks of a phase are in the order in which they are given out. -/
def parPhases (fuel : Nat) (fork : Nat → Bool) (i : Nat) (st : Option S) : Nat → Nat → Src A → Src B →
    Option (List (Ev A B S) × Option Err)
  | 0, _, _, _ => some ([], none)
  | k + 1, p, a, b =>
    if fork p then
      match createTask a b with
      | (none, _, _) => some ([], some .empty)
      | (some first, a', b') =>
        match taskLoop fuel (some first) a' b' with
        | none => none
        | some (l, a', b') => close i p (chunkEvs i p l) true st (parPhases fuel fork i st k (p + 1) (a.after a') (b.after b'))
    else
      match zipLoop (fuel + 1) a b with
      | none => none
      | some (l, a', b') =>
        close i p (chunkEvs i p l) (!l.isEmpty) st (parPhases fuel fork i st k (p + 1) (a.after a') (b.after b'))

/-- `_next_train_phase` (parallelbiflow.py:301-308, 355-359) from node `i`: a node that is not in training is left out before its arguments are
looked up. -/
def parNodes (fuel : Nat) (fork : Nat → Nat → Bool) (data : List (Src A)) (msgs : List (Src B)) (stops : List S) : Nat → List Nat →
    Option (List (Ev A B S) × Option Err)
  | _, [] => some ([], none)
  | i, k :: rest =>
    if k = 0 then parNodes fuel fork data msgs stops (i + 1) rest
    else
      match data[i]?, msgs[i]? with
      | some a, some b => andThen (parPhases fuel (fork i) i stops[i]? k 0 a b) (parNodes fuel fork data msgs stops (i + 1) rest)
      | _, _ => some ([], some .index)

/-- `ParallelBiFlow.train` with a scheduler (parallelbiflow.py:174-243). -/
def parTrain (fuel : Nat) (fork : Nat → Nat → Bool) (nodes : List Nat) (data : List (Src A)) (msgs : List (Src B)) (stops : List S) :
    Option (List (Ev A B S) × Option Err) := parNodes fuel fork data msgs stops 0 nodes

end Mdp.BiPhases
