import Verif.Online.NodeProps
import Verif.Flow.Model

/-!
# Model of `OnlineFlow` (mdp/linear_flows_online.py:14-346)

The nodes of a flow are distinct objects. Crash recovery dumps, verbose output and the text of exceptions
are not modelled.
-/

namespace Mdp.Online

open Py Mdp.Node Mdp.Flow

variable {σ α β : Type}

/-- A node in an online flow: an ordinary `Node` or an `OnlineNode`. -/
inductive Mem (σ α β : Type) where
  | plain (K : Kind σ α β) (s : St σ α β)
  | online (K : OKind σ α β) (s : OSt σ α β)

/-- `is_training()` -/
def Mem.isTraining : Mem σ α β → Bool
  | .plain _ s => s.training
  | .online _ s => s.node.training

/-- `isinstance(node, OnlineNode)` -/
def Mem.isOnline : Mem σ α β → Bool
  | .plain .. => false
  | .online .. => true

/-- number of required extra arguments of `_train` (`Flow._get_required_train_args`) -/
def Mem.reqArgs : Mem σ α β → Nat
  | .plain K _ => K.reqArgs
  | .online K _ => K.reqArgs

/-- `train(x, *args)` -/
def Mem.train (x : Arr α) (args : List β) : Mem σ α β → Except Err Unit × Mem σ α β
  | .plain K s => ((Node.train K x args s).1, .plain K (Node.train K x args s).2)
  | .online K s => ((otrain K x args s).1, .online K (otrain K x args s).2)

/-- `execute(x)` -/
def Mem.execute (x : Arr α) : Mem σ α β → Except Err (Arr α) × Mem σ α β
  | .plain K s => ((Node.execute K x s).1, .plain K (Node.execute K x s).2)
  | .online K s => ((oexecute K x s).1, .online K (oexecute K x s).2)

/-- `stop_training()` -/
def Mem.stop : Mem σ α β → Except Err Unit × Mem σ α β
  | .plain K s => ((stopTraining K s).1, .plain K (stopTraining K s).2)
  | .online K s => ((ostop K s).1, .online K (ostop K s).2)

/-- `get_remaining_train_phase()` -/
def Mem.remaining : Mem σ α β → Int
  | .plain K s => Node.remaining K s
  | .online K s => Node.remaining K.toKind s.node

instance : Dims (Mem σ α β) :=
  ⟨fun | .plain _ s => s.inputDim | .online _ s => s.node.inputDim,
   fun | .plain _ s => s.outputDim | .online _ s => s.node.outputDim⟩

/-- What an iteration over the training data yields: an array, or a list/tuple of an array and one
argument tuple (or `None`) for every node (70-72, 106-114). -/
structure Chunk (α β : Type) where
  x : Arr α
  args : Option (List (Option (List β)))

/-- The extra arguments for node number `i` (120-133): nothing if the node needs none, otherwise the `i`-th
tuple, which must have the right length. `req` is the stored number of arguments. -/
def argsFor (args : Option (List (Option (List β)))) (i : Nat) : Option Nat → Except Err (List β)
  -- the stored list is too short
  | none => .error .index
  | some 0 => .ok []
  | some k =>
    match args with
    | none => .error .index
    | some l =>
      match l[i]? with
      | none => .error .index
      | some none => .error .type
      | some (some a) => if k ≠ a.length then .error .flow else .ok a

/-- The exception handlers (142-154). -/
def wrap (i : Nat) : Err → Err
  | .flowCR _ _ => .flow
  | e => .flowCR i e

/-- The part of the loop body that trains the node (118-138). -/
def Mem.learn (x : Arr α) (args : Except Err (List β)) (m : Mem σ α β) : Except Err Unit × Mem σ α β :=
  match args with
  | .error e => (.error e, m)
  | .ok a => if m.isTraining then m.train x a else (.ok (), m)

/-- The loop over the nodes for one chunk (116-154), from node `i` on. -/
def feed (args : Option (List (Option (List β)))) (req : List Nat) :
    Nat → List (Mem σ α β) → Arr α → Except Err (Arr α) × List (Mem σ α β)
  | _, [], x => (.ok x, [])
  | i, m :: r, x =>
    match m.learn x (argsFor args i req[i]?) with
    | (.error e, m') => (.error (wrap i e), m' :: r)
    | (.ok (), m') =>
      match m'.execute x with
      | (.error e, m'') => (.error (wrap i e), m'' :: r)
      | (.ok y, m'') =>
        match feed args req (i + 1) r y with
        | (res, r') => (res, m'' :: r')

/-- The loop over the data (105-154). -/
def feedAll (req : List Nat) : List (Chunk α β) → List (Mem σ α β) → Except Err Unit × List (Mem σ α β)
  | [], ms => (.ok (), ms)
  | c :: cs, ms =>
    match c.args with
    | some l =>
      if l.length ≠ ms.length then (.error .flow, ms)
      else
        match feed c.args req 0 ms c.x with
        | (.error e, ms') => (.error e, ms')
        | (.ok _, ms') => feedAll req cs ms'
    | none =>
      match feed c.args req 0 ms c.x with
      | (.error e, ms') => (.error e, ms')
      | (.ok _, ms') => feedAll req cs ms'

/-- Change the last node. -/
def onLast (f : Mem σ α β → Except Err Unit × Mem σ α β) (ms : List (Mem σ α β)) :
    Except Err Unit × List (Mem σ α β) :=
  match ms.getLast? with
  | none => (.error .index, ms)
  | some m => ((f m).1, ms.dropLast ++ [(f m).2])

/-- Closing the last node if it has more than one phase left (168-170). -/
def Mem.closeEarly (m : Mem σ α β) : Except Err Unit × Mem σ α β :=
  if m.remaining > 1 then m.stop else (.ok (), m)

/-- `_train_nodes` (103-170). -/
def trainNodes (req : List Nat) (cs : List (Chunk α β)) (ms : List (Mem σ α β)) :
    Except Err Unit × List (Mem σ α β) :=
  match feedAll req cs ms with
  | (.error e, ms') => (.error e, ms')
  | (.ok (), ms') =>
    if cs.isEmpty then (.error (if ms'.isEmpty then .index else .flow), ms')
    else onLast Mem.closeEarly ms'

/-- Closing a terminal node that is not an online node (228-230, linear_flows.py:287-295). -/
def Mem.closePlain (i : Nat) (m : Mem σ α β) : Except Err Unit × Mem σ α β :=
  if m.isOnline then (.ok (), m)
  else
    match m.stop with
    | (.ok (), m') => (.ok (), m')
    | (.error .finished, m') => (.ok (), m')
    | (.error e, m') => (.error (.flowCR i e), m')

/-- The argument of `OnlineFlow.train`. -/
inductive OTrainArg (α β : Type) where
  /-- a 2D array -/
  | array (x : Arr α)
  /-- a 3D array: its blocks -/
  | array3 (xs : List (Arr α))
  | iter (cs : List (Chunk α β))
  | none
  /-- not iterable -/
  | other

/-- `_train_check_iterables` (172-192). -/
def OTrainArg.chunks : OTrainArg α β → Except Err (List (Chunk α β))
  | .array x => .ok (x.data.map fun row => ⟨{ x with data := [row] }, Option.none⟩)
  | .array3 xs => .ok (xs.map fun x => ⟨x, Option.none⟩)
  | .iter cs => .ok cs
  -- `for x in None`
  | .none => .error .type
  | .other => .error .flow

/-- `OnlineFlow.train` (194-230). `req` are the stored numbers of extra arguments (92). -/
def OnlineFlow.train (req : List Nat) (d : OTrainArg α β) (ms : List (Mem σ α β)) :
    Except Err Unit × List (Mem σ α β) :=
  match d.chunks with
  | .error e => (.error e, ms)
  | .ok cs =>
    match trainNodes req cs ms with
    | (.error e, ms') => (.error e, ms')
    | (.ok (), ms') => onLast (Mem.closePlain (ms'.length - 1)) ms'

/-! ### The container -/

/-- A node that may stand anywhere in the flow: online, trained, or not trainable (234-249). -/
def Mem.anywhere (m : Mem σ α β) : Bool := m.isOnline || !m.isTraining

/-- `_check_compatibility` (251-254). -/
def compat (l : List (Mem σ α β)) : Except Err Unit :=
  if l.dropLast.all Mem.anywhere = false then .error .type
  else if l.isEmpty then .error .index
  else .ok ()

/-- The attributes of an online flow: nodes and numbers of required arguments (92). -/
structure OFlow (σ α β : Type) where
  nodes : List (Mem σ α β)
  req : List Nat

/-- `_get_required_train_args_from_flow` (98-101). -/
def reqOf (l : List (Mem σ α β)) : List Nat := l.map Mem.reqArgs

/-- `OnlineFlow.__init__` (83-92). -/
def omk (l : List (Mem σ α β)) : Except Err (OFlow σ α β) := do
  checkNodes l
  compat l
  .ok ⟨l, reqOf l⟩

/-- Accept a modified copy (262-269, 272-279). -/
def oaccept (f : OFlow σ α β) (l : List (Mem σ α β)) : Except Err Unit × OFlow σ α β :=
  match checkNodes l with
  | .error e => (.error e, f)
  | .ok () =>
    match compat l with
    | .error e => (.error e, f)
    | .ok () => (.ok (), ⟨l, reqOf l⟩)

/-- The objects assigned to a slice after their type check (257-260). -/
def orhs : Rhs (Mem σ α β) → Except Err (List (Mem σ α β))
  | .one _ => .error .type
  | .many vs =>
    match allNodes vs with
    | none => .error .type
    | some l => if l.all Mem.anywhere then .ok l else .error .type
  | .iterator vs =>
    match allNodes vs with
    | none => .error .type
    | some l => if l.all Mem.anywhere then .ok [] else .error .type

/-- `__setitem__` (256-269). -/
def osetItem (f : OFlow σ α β) (key : Key) (v : Rhs (Mem σ α β)) : Except Err Unit × OFlow σ α β :=
  match key with
  | .slice a b c =>
    match orhs v with
    | .error e => (.error e, f)
    | .ok l =>
      match setSlice f.nodes a b c l with
      | none => (.error .value, f)
      | some l' => oaccept f l'
  | .idx i =>
    match v with
    | .one (.node n) =>
      if n.anywhere then
        match normIdx f.nodes.length i with
        | none => (.error .index, f)
        | some k => oaccept f (f.nodes.set k n)
      else (.error .type, f)
    | _ => (.error .type, f)

/-- `__delitem__` (271-279). -/
def odelItem (f : OFlow σ α β) (key : Key) : Except Err Unit × OFlow σ α β :=
  match key with
  | .slice a b c =>
    match delSlice f.nodes a b c with
    | none => (.error .value, f)
    | some l => oaccept f l
  | .idx i =>
    match normIdx f.nodes.length i with
    | none => (.error .index, f)
    | some k => oaccept f (f.nodes.eraseIdx k)

/-- `__add__` (281-303): a new flow. -/
def oadd (f : OFlow σ α β) : Operand (Mem σ α β) → Except Err (OFlow σ α β)
  | .flow l => do compat (f.nodes ++ l); checkNodes (f.nodes ++ l); omk (f.nodes ++ l)
  | .node n => do compat (f.nodes ++ [n]); checkNodes (f.nodes ++ [n]); omk (f.nodes ++ [n])
  | .other => .error .type

/-- The checks after the list was changed, and the update of the stored numbers (315-317). -/
def orecheck (f : OFlow σ α β) : Except Err Unit × OFlow σ α β :=
  match compat f.nodes with
  | .error e => (.error e, f)
  | .ok () =>
    match checkNodes f.nodes with
    | .error e => (.error e, f)
    | .ok () => (.ok (), ⟨f.nodes, reqOf f.nodes⟩)

/-- `__iadd__` (305-318): the list is changed first and checked afterwards. -/
def oiadd (f : OFlow σ α β) : Operand (Mem σ α β) → Except Err Unit × OFlow σ α β
  | .flow l => orecheck ⟨f.nodes ++ l, f.req⟩
  | .node n => orecheck ⟨f.nodes ++ [n], f.req⟩
  | .other => (.error .type, f)

/-- The checks repeated by `append`, `extend` and `insert` (325-327, 337-339, 344-346). -/
def thenRecheck (r : Except Err Unit × OFlow σ α β) : Except Err Unit × OFlow σ α β :=
  match r with
  | (.error e, f) => (.error e, f)
  | (.ok (), f) =>
    match checkNodes f.nodes with
    | .error e => (.error e, f)
    | .ok () => orecheck f

/-- `append` (322-327). -/
def oappend (f : OFlow σ α β) (v : Val (Mem σ α β)) : Except Err Unit × OFlow σ α β :=
  thenRecheck (osetItem f (.slice (some f.nodes.length) (some f.nodes.length) none) (.many [v]))

/-- `extend` (329-339). -/
def oextend (f : OFlow σ α β) : Operand (Mem σ α β) → Except Err Unit × OFlow σ α β
  | .flow l => thenRecheck
      (osetItem f (.slice (some f.nodes.length) (some f.nodes.length) none) (.many (l.map .node)))
  | _ => (.error .type, f)

/-- `insert` (341-346). -/
def oinsert (f : OFlow σ α β) (i : Int) (v : Val (Mem σ α β)) : Except Err Unit × OFlow σ α β :=
  thenRecheck (osetItem f (.slice (some i) (some i) none) (.many [v]))

/-- `pop` (linear_flows.py:580-585). -/
def opop (f : OFlow σ α β) (i : Int) : Except Err Unit × OFlow σ α β :=
  match getItem f.nodes i with
  | .error e => (.error e, f)
  | .ok _ => odelItem f (.idx i)

/-- `__getitem__` with a slice (linear_flows.py:491-497): a new flow. -/
def oslice (f : OFlow σ α β) (a b c : Option Int) : Except Err (OFlow σ α β) :=
  match getSlice f.nodes a b c with
  | none => .error .value
  | some l => do checkNodes l; omk l

/-- A public call on an online flow; for `+` and slicing the new flow replaces the old one. -/
inductive OOp (σ α β : Type) where
  | set (k : Key) (v : Rhs (Mem σ α β))
  | del (k : Key)
  | append (v : Val (Mem σ α β))
  | extend (v : Operand (Mem σ α β))
  | insert (i : Int) (v : Val (Mem σ α β))
  | pop (i : Int)
  | add (v : Operand (Mem σ α β))
  | slice (a b c : Option Int)
  | iadd (v : Operand (Mem σ α β))
  | train (d : OTrainArg α β)

/-- Did the call return, and the flow afterwards. -/
def OOp.run (f : OFlow σ α β) : OOp σ α β → Bool × OFlow σ α β
  | .set k v => let r := osetItem f k v; (isOk r.1, r.2)
  | .del k => let r := odelItem f k; (isOk r.1, r.2)
  | .append v => let r := oappend f v; (isOk r.1, r.2)
  | .extend v => let r := oextend f v; (isOk r.1, r.2)
  | .insert i v => let r := oinsert f i v; (isOk r.1, r.2)
  | .pop i => let r := opop f i; (isOk r.1, r.2)
  | .add v => match oadd f v with | .ok g => (true, g) | .error _ => (false, f)
  | .slice a b c => match oslice f a b c with | .ok g => (true, g) | .error _ => (false, f)
  | .iadd v => let r := oiadd f v; (isOk r.1, r.2)
  | .train d => let r := OnlineFlow.train f.req d f.nodes; (isOk r.1, ⟨r.2, f.req⟩)

/-- The flow after a history of calls. -/
def orunOps (f : OFlow σ α β) (ops : List (OOp σ α β)) : OFlow σ α β := ops.foldl (fun g o => (o.run g).2) f

end Mdp.Online
