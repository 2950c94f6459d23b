import Verif.Py.Slice
import Verif.Node.Model

/-!
# Model of the container side of `mdp.Flow` (linear_flows.py:111-123, 466-585)

Nodes are opaque; only `input_dim` / `output_dim` are looked at.
-/

namespace Mdp.Flow

open Py

/-- Exceptions are shared with the node model. -/
scoped notation "Err" => Mdp.Node.Err

/-- The two dimensions of a node. -/
class Dims (N : Type) where
  inp : N → Option Nat
  out : N → Option Nat

variable {N : Type} [Dims N]

open Dims

/-- An object that may be put into a flow: a `Node` instance or something else. -/
inductive Val (N : Type) where
  | node (n : N)
  | other

/-- Right-hand side of a subscript assignment. -/
inductive Rhs (N : Type) where
  /-- a single object (not iterable) -/
  | one (v : Val N)
  /-- a list, tuple or Flow -/
  | many (vs : List (Val N))
  /-- an iterator or generator: it can be consumed only once -/
  | iterator (vs : List (Val N))

/-- `_check_dimension_consistency` (471-475). `(out and inp) is not None` uses truthiness, so
`out = 0`, `inp = None` is compared and fails while formatting `"%d" % None`. -/
def checkDim (out inp : Option Nat) : Except Err Unit :=
  -- `out and inp`
  let both := if out = none ∨ out = some 0 then out else inp
  if both ≠ none ∧ out ≠ inp then
    if out = none ∨ inp = none then .error .type else .error .value
  else .ok ()

/-- `_check_nodes_consistency` (477-485). -/
def checkNodes : List N → Except Err Unit
  | a :: b :: r => do checkDim (out a) (inp b); checkNodes (b :: r)
  | _ => .ok ()

/-- `Flow.__init__` (111-123): the node list of the new flow. -/
def mk (l : List N) : Except Err (List N) := do checkNodes l; .ok l

/-- The nodes in a list of objects, if all are nodes (`_check_value_type_isnode`, 487-489). -/
def allNodes : List (Val N) → Option (List N)
  | [] => some []
  | .node n :: r => (allNodes r).map (n :: ·)
  | .other :: _ => none

/-- Accept a modified copy of the list if it is consistent (508-511, 517-520). -/
def accept (fl l : List N) : Except Err Unit × List N :=
  match checkNodes l with
  | .error e => (.error e, fl)
  | .ok () => (.ok (), l)

/-- What the list assignment `flow_copy[key] = value` stores, after the type check, which iterates
over the value once (500-503). -/
def rhsNodes : Rhs N → Except Err (List N)
  | .one _ => .error .type
  | .many vs => match allNodes vs with | none => .error .type | some l => .ok l
  -- the type check exhausts an iterator, the assignment then sees no elements
  | .iterator vs => match allNodes vs with | none => .error .type | some _ => .ok []

/-- `__setitem__` (499-511). -/
def setItem (fl : List N) (key : Key) (v : Rhs N) : Except Err Unit × List N :=
  match key with
  | .slice a b c =>
    match rhsNodes v with
    | .error e => (.error e, fl)
    | .ok l =>
      match setSlice fl a b c l with
      | none => (.error .value, fl)
      | some l' => accept fl l'
  | .idx i =>
    match v with
    | .one (.node n) =>
      match normIdx fl.length i with
      | none => (.error .index, fl)
      | some k => accept fl (fl.set k n)
    | _ => (.error .type, fl)

/-- `__delitem__` (513-520). -/
def delItem (fl : List N) (key : Key) : Except Err Unit × List N :=
  match key with
  | .slice a b c =>
    match delSlice fl a b c with
    | none => (.error .value, fl)
    | some l => accept fl l
  | .idx i =>
    match normIdx fl.length i with
    | none => (.error .index, fl)
    | some k => accept fl (fl.eraseIdx k)

/-- `__getitem__` with an integer (491-497). -/
def getItem (fl : List N) (i : Int) : Except Err N :=
  match normIdx fl.length i with
  | none => .error .index
  | some k => match fl[k]? with | some n => .ok n | none => .error .index

/-- `__getitem__` with a slice (491-497): a new flow. -/
def getItemSlice (fl : List N) (a b c : Option Int) : Except Err (List N) :=
  match getSlice fl a b c with
  | none => .error .value
  | some l => do checkNodes l; mk l

/-- Operand of `+` and `+=`. -/
inductive Operand (N : Type) where
  | flow (l : List N)
  | node (n : N)
  | other

/-- `__add__` (528-546): a new flow; `self` is not touched. -/
def add (fl : List N) : Operand N → Except Err (List N)
  | .flow l => do checkNodes (fl ++ l); mk (fl ++ l)
  | .node n => do checkNodes (fl ++ [n]); mk (fl ++ [n])
  | .other => .error .type

/-- `__iadd__` (548-559): the list is changed first and checked afterwards. -/
def iadd (fl : List N) : Operand N → Except Err Unit × List N
  | .flow l => (checkNodes (fl ++ l), fl ++ l)
  | .node n => (checkNodes (fl ++ [n]), fl ++ [n])
  | .other => (.error .type, fl)

/-- `append` (563-565). -/
def append (fl : List N) (v : Val N) : Except Err Unit × List N :=
  setItem fl (.slice (some fl.length) (some fl.length) none) (.many [v])

/-- `extend` (567-574); the argument must be a flow. -/
def extend (fl : List N) : Operand N → Except Err Unit × List N
  | .flow l => setItem fl (.slice (some fl.length) (some fl.length) none) (.many (l.map .node))
  | _ => (.error .type, fl)

/-- `insert` (576-578). -/
def insert (fl : List N) (i : Int) (v : Val N) : Except Err Unit × List N :=
  setItem fl (.slice (some i) (some i) none) (.many [v])

/-- `pop` (580-585). -/
def pop (fl : List N) (i : Int) : Except Err N × List N :=
  match getItem fl i with
  | .error e => (.error e, fl)
  | .ok n =>
    match delItem fl (.idx i) with
    | (.error e, fl') => (.error e, fl')
    | (.ok (), fl') => (.ok n, fl')

/-- A container operation on a flow. -/
inductive Op (N : Type) where
  | set (k : Key) (v : Rhs N)
  | del (k : Key)
  | append (v : Val N)
  | extend (v : Operand N)
  | insert (i : Int) (v : Val N)
  | pop (i : Int)
  /-- `flow = flow + x` -/
  | add (v : Operand N)
  /-- `flow = flow[a:b:c]` -/
  | slice (a b c : Option Int)
  /-- `flow += x` -/
  | iadd (v : Operand N)

/-- Did the operation raise, and the node list afterwards. For `+` and slicing the new flow replaces the
old one if the operation returns. -/
def Op.run (fl : List N) : Op N → Bool × List N
  | .set k v => let r := setItem fl k v; (Node.isOk r.1, r.2)
  | .del k => let r := delItem fl k; (Node.isOk r.1, r.2)
  | .append v => let r := Flow.append fl v; (Node.isOk r.1, r.2)
  | .extend v => let r := Flow.extend fl v; (Node.isOk r.1, r.2)
  | .insert i v => let r := Flow.insert fl i v; (Node.isOk r.1, r.2)
  | .pop i => let r := Flow.pop fl i; (Node.isOk r.1, r.2)
  | .add v => match Flow.add fl v with | .ok l => (true, l) | .error _ => (false, fl)
  | .slice a b c => match getItemSlice fl a b c with | .ok l => (true, l) | .error _ => (false, fl)
  | .iadd v => let r := Flow.iadd fl v; (Node.isOk r.1, r.2)

/-- The node list after a history of operations. -/
def runOps (fl : List N) (ops : List (Op N)) : List N := ops.foldl (fun l o => (o.run l).2) fl

end Mdp.Flow
