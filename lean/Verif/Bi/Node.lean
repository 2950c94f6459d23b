import Verif.Bi.Msg
import Verif.Py.State

/-!
# `BiNode` (`bimdp/binode.py`)

`A` is the type of data arrays, `V` the type of other message values, `σ` the part of the node's state that its own
methods change. The dictionary object passed by the caller is the field `cell` of the state, because the code removes
entries from it and updates it in place.
-/

namespace Bi

open Py

variable {σ A V : Type}

/-- A result of one of the node's methods: `y`, `(y, msg)` or `(y, msg, target)`; `none` stands for `None`.
Longer tuples are not modelled. -/
inductive BRes (A V : Type) where
  | single (y : Option A)
  | pair (y : Option A) (msg : Option (Msg V))
  | triple (y : Option A) (msg : Option (Msg V)) (target : BVal V)

/-- A method of a node that a message can call: the names of its arguments, `getargs(method)[0]` (with `self` and,
if it takes data, `x`), and what it does with data, keyword arguments and the argument named `msg`. A method is assumed
not to change the dictionary it gets as `msg`. -/
structure BMethod (σ A V : Type) where
  argKeys : List Str
  run : σ → Option A → Msg V → Option (Msg V) → Except Err (BRes A V) × σ

/-- The class of a node. The checks are those of `mdp.Node` (see `Verif.Node`), here parameters. -/
structure BKind (σ A V : Type) where
  nodeId : Option Str
  /-- `len(_train_seq)` for a trainable node, 0 otherwise -/
  nPhases : Nat
  exec : BMethod σ A V
  inv : BMethod σ A V
  train : Nat → BMethod σ A V
  stop : Nat → BMethod σ A V
  /-- `getattr(self, "_" + name)` -/
  method : Str → Option (BMethod σ A V)
  preExec : σ → A → Except Err Unit × σ
  preInv : σ → A → Except Err Unit × σ
  checkInput : σ → A → Except Err Unit × σ
  checkTrainArgs : σ → A → Msg V → Except Err Unit
  refcast : σ → A → A
  /-- `stop_result`: per phase message and target -/
  stopResult : Option (Nat → Msg V × BVal V)

/-- The state of a node, and the dictionary object of the caller. -/
structure St (σ V : Type) where
  inner : σ
  phase : Nat := 0
  started : Bool := false
  training : Bool := true
  cell : Msg V := []

/-- Run something on the part of the state that belongs to the methods. -/
def onInner {α : Type} (f : σ → Except Err α × σ) : M Err (St σ V) α := fun s =>
  ((f s.inner).1, { s with inner := (f s.inner).2 })

/-- binode.py:387-410 `_get_method`: `getattr` with a string built from the name; a name that is not a string is a
`TypeError` in `"_" + method_name`. -/
def getMethod (K : BKind σ A V) (name : BVal V) (dflt : BMethod σ A V) (target : BVal V) :
    Except Err (BMethod σ A V × BVal V) :=
  if name.truthy then
    match name with
    | .str s =>
      if s = sInverse then .ok (K.inv, if target.isSome then target else .int (-1))
      else
        match K.method s with
        | some m => .ok (m, target)
        | none => .error .binode
    | _ => .error .typeError
  else .ok (dflt, target)

/-- What has been read from a message before a method is called. `kept` says whether the local variable `msg` is still
the dictionary, or `None`. -/
structure Parsed (σ A V : Type) where
  meth : BMethod σ A V
  name : BVal V
  target : BVal V
  args : Msg V
  msgArg : Option (Msg V)
  kept : Bool

/-- binode.py:149-153, 203-208, 255-261: the common part of `execute`, `train` and `stop_training`. -/
def parse (K : BKind σ A V) (dflt : BMethod σ A V) : M Err (St σ V) (Parsed σ A V) := do
  let s ← M.get
  let ids ← M.lift (getMsgIdKeys K.nodeId s.cell)
  let t := extractKey kTarget s.cell ids
  M.modify fun s => { s with cell := t.2.1 }
  let n := extractKey kMethod t.2.1 t.2.2
  M.modify fun s => { s with cell := n.2.1 }
  let (meth, target) ← M.lift (getMethod K n.1 dflt t.1)
  let e := extractArgs meth.argKeys n.2.1 n.2.2
  M.modify fun s => { s with cell := e.1 }
  if kMsg ∈ meth.argKeys then
    pure { meth := meth, name := n.1, target := target, args := Dict.erase e.2 kMsg, msgArg := some e.1, kept := false }
  else
    pure { meth := meth, name := n.1, target := target, args := e.2, msgArg := none, kept := true }

/-- `method(x, **arg_dict)`: the names `self` and `x` are taken already. -/
def call (p : Parsed σ A V) (x : Option A) : M Err (St σ V) (BRes A V) := do
  if (Dict.get p.args kSelf).isSome || (Dict.get p.args kX).isSome then M.raise .typeError
  else onInner fun i => p.meth.run i x p.args p.msgArg

/-- `method(**arg_dict)` of `stop_training`, which passes no data: only `self` is taken. -/
def callStop (p : Parsed σ A V) : M Err (St σ V) (BRes A V) := do
  if (Dict.get p.args kSelf).isSome then M.raise .typeError
  else onInner fun i => p.meth.run i none p.args p.msgArg

/-- `bool(msg)` -/
def truthyMsg : Option (Msg V) → Bool
  | none => false
  | some m => !m.isEmpty

/-- binode.py:423-427: the message of a tuple result -/
def combineMsg (own m : Option (Msg V)) : Option (Msg V) :=
  if truthyMsg m then
    match m, own with
    | some m, some o => some (Dict.update m o)
    | m, _ => m
  else own

/-- binode.py:412-438 `_combine_result`. -/
def combine (r : BRes A V) (m : Option (Msg V)) (target : BVal V) : BRes A V :=
  match r with
  | .triple y own t => .triple y (combineMsg own m) t
  | .pair y own => if target.isSome then .triple y (combineMsg own m) target else .pair y (combineMsg own m)
  | .single y =>
    if (!truthyMsg m) && !target.isSome then .single y
    else if target.isSome then .triple y m target
    else .pair y m

/-- binode.py:426: `msg.update(result[1])` changes the dictionary `msg` itself. -/
def combineCell (r : BRes A V) (m : Msg V) : Msg V :=
  match r with
  | .triple _ own _ => (combineMsg own (some m)).getD m
  | .pair _ own => (combineMsg own (some m)).getD m
  | .single _ => m

/-- `_combine_result` with the caller's dictionary, if it was kept. -/
def combineWith (r : BRes A V) (p : Parsed σ A V) : M Err (St σ V) (BRes A V) := do
  let s ← M.get
  if p.kept then
    if s.cell.isEmpty then pure (combine r (some s.cell) p.target)
    else do
      M.modify fun s => { s with cell := combineCell r s.cell }
      pure (combine r (some s.cell) p.target)
  else pure (combine r none p.target)

/-- binode.py:155-161: the checks of `execute`, and the cast. -/
def execChecks (K : BKind σ A V) (name : BVal V) (x : A) : M Err (St σ V) A := do
  if name.truthy = false ∨ isStr name sExecute then do
    onInner fun i => K.preExec i x
    let s ← M.get
    pure (K.refcast s.inner x)
  else if isStr name sInverse then do
    onInner fun i => K.preInv i x
    pure x
  else pure x
where
  /-- `name == "..."` -/
  isStr (name : BVal V) (s : Str) : Bool :=
    match name with
    | .str t => t == s
    | _ => false

/-- binode.py:129-163 `BiNode.execute`. With a message `None` it is `Node.execute`. -/
def execute (K : BKind σ A V) (x : Option A) (hasMsg : Bool) : M Err (St σ V) (BRes A V) := do
  if hasMsg then do
    let p ← parse K K.exec
    let x ← (match x with
      | some a => do let b ← execChecks K p.name a; pure (some b)
      | none => pure none)
    let r ← call p x
    combineWith r p
  else
    match x with
    | none => M.raise .binode
    | some a => do
      onInner fun i => K.preExec i a
      let s ← M.get
      onInner fun i => K.exec.run i (some (K.refcast s.inner a)) [] none

/-- binode.py:211-224: the checks of `train`, and the cast. A `TypeError` of the argument check becomes a
`BiNodeException`; `_check_train_args` is assumed to raise nothing else than what the parameter gives. -/
def trainChecks (K : BKind σ A V) (name : BVal V) (x : A) (args : Msg V) : M Err (St σ V) A := do
  if name.truthy = false ∨ execChecks.isStr name sTrain then do
    onInner fun i => K.checkInput i x
    let s ← M.get
    match K.checkTrainArgs s.inner x args with
    | .error .typeError => M.raise .binode
    | .error e => M.raise e
    | .ok () => do
      M.modify fun s => { s with started := true }
      pure (K.refcast s.inner x)
  else if execChecks.isStr name sInverse then do
    onInner fun i => K.preInv i x
    pure x
  else pure x

/-- binode.py:225-230: what `train` does with the combined result. -/
def dropEmpty : BRes A V → BRes A V
  | .pair none _ => .single none
  | r => r

/-- binode.py:165-230 `BiNode.train`; `single none` is the result `None`. -/
def train (K : BKind σ A V) (x : Option A) (hasMsg : Bool) : M Err (St σ V) (BRes A V) := do
  if K.nPhases = 0 then M.raise .notTrainable
  else do
    let s ← M.get
    if s.training = false then M.raise .trainingFinished
    else if hasMsg then do
      let p ← parse K (K.train s.phase)
      let x ← (match x with
        | some a => do let b ← trainChecks K p.name a p.args; pure (some b)
        | none => pure none)
      let r ← call p x
      match r with
      | .single none => pure (.single none)
      | r => do
        let r ← combineWith r p
        pure (dropEmpty r)
    else
      match x with
      | none => M.raise .binode
      | some a => do
        let a ← trainChecks K .none a []
        onInner fun i => (K.train s.phase).run i (some a) [] none

/-- binode.py:266-284: closing the phase. -/
def closePhase (K : BKind σ A V) : M Err (St σ V) Unit :=
  M.modify fun s =>
    { s with phase := s.phase + 1, started := false,
             training := if K.nPhases = 0 ∨ K.nPhases = s.phase + 1 then false else s.training }

/-- binode.py:232-286 `BiNode.stop_training`. -/
def stopTraining (K : BKind σ A V) (hasMsg : Bool) : M Err (St σ V) (BRes A V) := do
  let s ← M.get
  if s.training = true ∧ s.started = false then M.raise .notTrained
  else if s.training = false then M.raise .trainingFinished
  else if hasMsg = false ∨ s.cell = [] then do
    let r ← onInner fun i => (K.stop s.phase).run i none [] none
    closePhase K
    match K.stopResult with
    | some f => pure (combine r (some (f s.phase).1) (f s.phase).2)
    | none => pure (combine r (if hasMsg then some [] else none) .none)
  else do
    let p ← parse K (K.stop s.phase)
    let r ← callStop p
    closePhase K
    match K.stopResult with
    | some f => do
      let s' ← M.get
      let stored := if p.kept then Dict.update (f s.phase).1 s'.cell else (f s.phase).1
      pure (combine r (some stored) (if p.target.isSome then p.target else (f s.phase).2))
    | none => combineWith r p

end Bi
