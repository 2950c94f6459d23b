import Verif.Online.ContainerProps

/-!
# Model of `CircularOnlineFlow` (mdp/linear_flows_online.py:354-660)

The deque is a list. The training data are arrays (a chunk with arguments is not supported by the class).
`CircularOnlineFlowException` is represented by `Err.flow`.
-/

namespace Mdp.Online

open Py Mdp.Node Mdp.Flow

variable {σ α β : Type}

/-- The attributes of a circular flow (398-415). The numbers of train arguments are not used by this
class. -/
structure CFlow (σ α β : Type) where
  nodes : List (Mem σ α β)
  /-- `output_node_idx` -/
  out : Int
  /-- `_flow_iterations` -/
  iterations : Int
  /-- `_stored_input` -/
  stored : Option (Arr α)
  /-- `_ignore_input` -/
  ignore : Bool

/-- `_check_compatibility` (563-564). -/
def ccompat (l : List (Mem σ α β)) : Except Err Unit := if l.all Mem.anywhere then .ok () else .error .type

/-- `__init__` (398-415). -/
def cmk (l : List (Mem σ α β)) : Except Err (CFlow σ α β) := do
  checkNodes l
  ccompat l
  .ok ⟨l, (l.length : Int) - 1, 1, none, false⟩

/-- `deque.rotate(-k)` for `0 ≤ k`: the first `k % len` elements go to the end. -/
def rotateLeft (k : Nat) (l : List (Mem σ α β)) : List (Mem σ α β) :=
  if l.isEmpty then l else l.drop (k % l.length) ++ l.take (k % l.length)

/-- `set_input_node` (548-554). With an empty flow the modulo raises `ZeroDivisionError` (here `value`). -/
def setInputNode (i : Int) (f : CFlow σ α β) : Except Err Unit × CFlow σ α β :=
  if i > f.nodes.length ∨ i < 0 then (.error .flow, f)
  else
    let f1 := { f with nodes := rotateLeft i.toNat f.nodes }
    if f1.nodes.length = 0 then (.error .value, f1)
    else (.ok (), { f1 with out := (f1.out - i) % f1.nodes.length })

/-- `set_output_node` (556-561). -/
def setOutputNode (i : Int) (f : CFlow σ α β) : Except Err Unit × CFlow σ α β :=
  if i > f.nodes.length ∨ i < 0 then (.error .flow, f) else (.ok (), { f with out := i })

/-- `reset_output_node` (566-568). -/
def resetOutputNode (f : CFlow σ α β) : CFlow σ α β := { f with out := (f.nodes.length : Int) - 1 }

/-- `set_stored_input` (417-425): the assignment is inside the outer `if`. `flow[0]` of an empty flow is an
IndexError. -/
def setStoredInput (x : Arr α) (f : CFlow σ α β) : Except Err Unit × CFlow σ α β :=
  match f.nodes with
  | [] => (.error .index, f)
  | m :: _ =>
    match Dims.inp m with
    | some d => if x.cols ≠ d then (.error .flow, f) else (.ok (), { f with stored := some x })
    | none => (.ok (), f)

/-- One pass over the ring (459-475): as in `OnlineFlow`, without arguments. -/
def pass (ms : List (Mem σ α β)) (x : Arr α) : Except Err (Arr α) × List (Mem σ α β) :=
  feed none (List.replicate ms.length 0) 0 ms x

/-- The loop of `_flow_iterations` passes (454-475). The current input is `none` if it is `None`; a node
raises an `AttributeError` on it. -/
def cloop : Nat → Option (Arr α) → CFlow σ α β → Except Err Unit × CFlow σ α β
  | 0, _, f => (.ok (), f)
  | n + 1, none, f =>
    if f.nodes.isEmpty then cloop n none { f with stored := none }
    else (.error (.flowCR 0 .attribute), f)
  | n + 1, some x, f =>
    match pass f.nodes x with
    | (.error e, ms) => (.error e, { f with nodes := ms })
    | (.ok y, ms) => cloop n (some y) { f with nodes := ms, stored := some y }

/-- The loop over the data (446-475). -/
def ctrainNodes : List (Arr α) → CFlow σ α β → Except Err Unit × CFlow σ α β
  | [], f => (.ok (), f)
  | x :: xs, f =>
    match cloop f.iterations.toNat (if f.ignore then f.stored else some x) f with
    | (.error e, f') => (.error e, f')
    | (.ok (), f') => ctrainNodes xs f'

/-- `train` (477-524), for a 2D array, a 3D array or an iterable of arrays. -/
def ctrain (d : OTrainArg α β) (f : CFlow σ α β) : Except Err Unit × CFlow σ α β :=
  match d.chunks with
  | .error e => (.error e, f)
  | .ok cs => ctrainNodes (cs.map Chunk.x) f

/-- `Flow._execute_seq` (linear_flows.py:352-362) on these nodes: the first `k` nodes. -/
def cexec (i : Nat) : Nat → List (Mem σ α β) → Arr α → Except Err (Arr α) × List (Mem σ α β)
  | 0, l, x => (.ok x, l)
  | _ + 1, [], _ => (.error .index, [])
  | k + 1, m :: r, x =>
    match m.execute x with
    | (.error e, m') => (.error (.flowCR i e), m' :: r)
    | (.ok y, m') =>
      let (res, r') := cexec (i + 1) k r y
      (res, m' :: r')

/-- `execute` of one array (526-536). -/
def cexecute (x : Arr α) (nodenr : Option Int) (f : CFlow σ α β) : Except Err (Arr α) × CFlow σ α β :=
  let r := cexec 0 (nodenr.getD f.out + 1).toNat f.nodes x
  (r.1, { f with nodes := r.2 })

/-- `inverse` of one array (538-546): a deque cannot be sliced. -/
def cinverse (_ : Arr α) (f : CFlow σ α β) : Except Err (Arr α) × CFlow σ α β := (.error .type, f)

/-! ### The container -/

/-- The inherited part of `__setitem__` and `__delitem__` (262-269, 272-279). -/
def caccept (f : CFlow σ α β) (l : List (Mem σ α β)) : Except Err Unit × CFlow σ α β :=
  match checkNodes l with
  | .error e => (.error e, f)
  | .ok () =>
    match ccompat l with
    | .error e => (.error e, f)
    | .ok () => (.ok (), { f with nodes := l })

/-- The inherited `__setitem__` (256-269). -/
def csetItem0 (f : CFlow σ α β) (key : Key) (v : Rhs (Mem σ α β)) : Except Err Unit × CFlow σ α β :=
  match key with
  | .slice a b c =>
    match orhs v with
    | .error e => (.error e, f)
    | .ok l =>
      match setSlice f.nodes a b c l with
      | none => (.error .value, f)
      | some l' => caccept f l'
  | .idx i =>
    match v with
    | .one (.node n) =>
      if n.anywhere then
        match normIdx f.nodes.length i with
        | none => (.error .index, f)
        | some k => caccept f (f.nodes.set k n)
      else (.error .type, f)
    | _ => (.error .type, f)

/-- The check after an assignment (575): an integer has no `start`; `None < int` is a TypeError; `key.stop()`
is a TypeError because the attribute is not a function, but it is only called if the first test holds. -/
def keyTest (out : Int) : Key → Except Err Unit
  | .idx _ => .error .attribute
  | .slice none _ _ => .error .type
  | .slice (some a) _ _ => if a < out then .error .type else .ok ()

/-- `__setitem__` (572-577). -/
def csetItem (f : CFlow σ α β) (key : Key) (v : Rhs (Mem σ α β)) : Except Err Unit × CFlow σ α β :=
  match csetItem0 f key v with
  | (.error e, f') => (.error e, f')
  | (.ok (), f') => (keyTest f'.out key, f')

/-- The inherited `__delitem__` (271-279). -/
def cdelItem0 (f : CFlow σ α β) (key : Key) : Except Err Unit × CFlow σ α β :=
  match key with
  | .slice a b c =>
    match delSlice f.nodes a b c with
    | none => (.error .value, f)
    | some l => caccept f l
  | .idx i =>
    match normIdx f.nodes.length i with
    | none => (.error .index, f)
    | some k => caccept f (f.nodes.eraseIdx k)

/-- `__delitem__` (588-595): after the deletion either the first test raises or the second one (593) calls
`key.stop()`. -/
def cdelItem (f : CFlow σ α β) (key : Key) : Except Err Unit × CFlow σ α β :=
  match cdelItem0 f key with
  | (.error e, f') => (.error e, f')
  | (.ok (), f') =>
    match keyTest f'.out key with
    | .error e => (.error e, f')
    | .ok () => (.error .type, f')

/-- The checks repeated after a slice assignment (639-640, 650-651, 656-657). -/
def cthenRecheck (r : Except Err Unit × CFlow σ α β) : Except Err Unit × CFlow σ α β :=
  match r with
  | (.error e, f) => (.error e, f)
  | (.ok (), f) =>
    match checkNodes f.nodes with
    | .error e => (.error e, f)
    | .ok () => (ccompat f.nodes, f)

/-- `append` (636-640). -/
def cappend (f : CFlow σ α β) (v : Val (Mem σ α β)) : Except Err Unit × CFlow σ α β :=
  cthenRecheck (csetItem f (.slice (some f.nodes.length) (some f.nodes.length) none) (.many [v]))

/-- `extend` (642-651). -/
def cextend (f : CFlow σ α β) : Operand (Mem σ α β) → Except Err Unit × CFlow σ α β
  | .flow l => cthenRecheck
      (csetItem f (.slice (some f.nodes.length) (some f.nodes.length) none) (.many (l.map .node)))
  | _ => (.error .type, f)

/-- `insert` (653-660). -/
def cinsert (f : CFlow σ α β) (i : Int) (v : Val (Mem σ α β)) : Except Err Unit × CFlow σ α β :=
  match cthenRecheck (csetItem f (.slice (some i) (some i) none) (.many [v])) with
  | (.error e, f') => (.error e, f')
  | (.ok (), f') => if f'.out ≥ i then setOutputNode (f'.out + 1) f' else (.ok (), f')

/-- `pop` (linear_flows.py:580-585). -/
def cpop (f : CFlow σ α β) (i : Int) : Except Err Unit × CFlow σ α β :=
  match getItem f.nodes i with
  | .error e => (.error e, f)
  | .ok _ => cdelItem f (.idx i)

/-- `__iadd__` (620-632): only online nodes and online flows. -/
def ciadd (f : CFlow σ α β) : Operand (Mem σ α β) → Except Err Unit × CFlow σ α β
  | .flow l =>
    let f' := { f with nodes := f.nodes ++ l }
    match ccompat f'.nodes with
    | .error e => (.error e, f')
    | .ok () => (checkNodes f'.nodes, f')
  | .node n =>
    if n.isOnline then
      let f' := { f with nodes := f.nodes ++ [n] }
      match ccompat f'.nodes with
      | .error e => (.error e, f')
      | .ok () => (checkNodes f'.nodes, f')
    else (.error .type, f)
  | .other => (.error .type, f)

/-- A call that changes a circular flow. -/
inductive COp (σ α β : Type) where
  | input (i : Int)
  | output (i : Int)
  | reset
  | store (x : Arr α)
  | ignore (b : Bool)
  | iterations (n : Int)
  | train (d : OTrainArg α β)
  | execute (x : Arr α) (nodenr : Option Int)
  | set (k : Key) (v : Rhs (Mem σ α β))
  | del (k : Key)
  | append (v : Val (Mem σ α β))
  | extend (v : Operand (Mem σ α β))
  | insert (i : Int) (v : Val (Mem σ α β))
  | pop (i : Int)
  | iadd (v : Operand (Mem σ α β))

/-- Did the call return, and the flow afterwards. -/
def COp.run (f : CFlow σ α β) : COp σ α β → Bool × CFlow σ α β
  | .input i => let r := setInputNode i f; (isOk r.1, r.2)
  | .output i => let r := setOutputNode i f; (isOk r.1, r.2)
  | .reset => (true, resetOutputNode f)
  | .store x => let r := setStoredInput x f; (isOk r.1, r.2)
  | .ignore b => (true, { f with ignore := b })
  | .iterations n => (true, { f with iterations := n })
  | .train d => let r := ctrain d f; (isOk r.1, r.2)
  | .execute x n => let r := cexecute x n f; (isOk r.1, r.2)
  | .set k v => let r := csetItem f k v; (isOk r.1, r.2)
  | .del k => let r := cdelItem f k; (isOk r.1, r.2)
  | .append v => let r := cappend f v; (isOk r.1, r.2)
  | .extend v => let r := cextend f v; (isOk r.1, r.2)
  | .insert i v => let r := cinsert f i v; (isOk r.1, r.2)
  | .pop i => let r := cpop f i; (isOk r.1, r.2)
  | .iadd v => let r := ciadd f v; (isOk r.1, r.2)

/-- The flow after a history of calls. -/
def crunOps (f : CFlow σ α β) (ops : List (COp σ α β)) : CFlow σ α β := ops.foldl (fun g o => (o.run g).2) f

end Mdp.Online
