import Mathlib.Data.List.Basic

/-!
# Model of objects and references: copies and concatenation of nodes and flows

mdp/linear_flows.py, mdp/signal_node.py, mdp/hinet/flownode.py, bimdp/binode.py.

The memory is a list of objects; a reference is a position in it. What a node holds besides references to other nodes and
flows is its state. Dimensions, dtypes and the checks of them are not part of this model (see Verif/Flow/Container.lean);
no object is ever freed.
-/

namespace Mdp.Copy

/-- A reference. -/
macro "Ref" : term => `(Nat)

/-- An object. -/
inductive Cell (σ : Type) where
  /-- a node that refers to no other node -/
  | node (s : σ)
  /-- a `FlowNode` with its `_flow` (mdp/hinet/flownode.py 39) -/
  | wrap (flow : Ref) (s : σ)
  /-- a `Flow` with its attribute `flow` (mdp/linear_flows.py 121), or `None` there -/
  | flow (attr : Option Ref)
  /-- a list of nodes -/
  | list (items : List Ref)
deriving DecidableEq, Repr

abbrev Heap (σ : Type) := List (Cell σ)

inductive Err where
  | typeError
  /-- RecursionError -/
  | recursion
  /-- an exception raised by `copy.deepcopy` -/
  | copy
deriving DecidableEq, Repr

variable {σ : Type}

/-- The references an object holds. -/
def Cell.kids : Cell σ → List Ref
  | .node _ => []
  | .wrap f _ => [f]
  | .flow none => []
  | .flow (some a) => [a]
  | .list l => l

/-- The object with all references moved by `n`. -/
def Cell.shift (n : Nat) : Cell σ → Cell σ
  | .node s => .node s
  | .wrap f s => .wrap (f + n) s
  | .flow a => .flow (a.map (· + n))
  | .list l => .list (l.map (· + n))

/-- `r'` can be reached from `r`. -/
inductive Reach (H : Heap σ) : Ref → Ref → Prop
  | refl (r : Ref) : Reach H r r
  | step {r k r' : Ref} {c : Cell σ} : H[r]? = some c → k ∈ c.kids → Reach H k r' → Reach H r r'

/-- Nodes with certain states cannot be copied, for instance with open files. -/
def Cell.copyable (ok : σ → Bool) : Cell σ → Bool
  | .node s => ok s
  | .wrap _ s => ok s
  | .flow _ => true
  | .list _ => true

open Classical in
/-- `copy.deepcopy`: new objects for all that can be reached, with the same references between them. In the model all objects
are copied; those that cannot be reached make no difference. -/
noncomputable def deepcopy (ok : σ → Bool) (H : Heap σ) (r : Ref) : Except Err Ref × Heap σ :=
  if ∃ r' c, Reach H r r' ∧ H[r']? = some c ∧ c.copyable ok = false then (.error .copy, H)
  else (.ok (r + H.length), H ++ H.map (Cell.shift H.length))

/-- `Flow.copy` (mdp/linear_flows.py 422-430). -/
noncomputable def flowCopy (ok : σ → Bool) (H : Heap σ) (f : Ref) : Except Err Ref × Heap σ := deepcopy ok H f

/-- `Flow.__getitem__` (mdp/linear_flows.py 491-497) with the slice `[:]`; a `Flow` in the attribute `flow` is sliced in turn. `lim`
is the number of nested calls that are left. -/
def slice : (lim : Nat) → Heap σ → Ref → Except Err (Ref × Heap σ)
  | 0, _, _ => .error .recursion
  | lim + 1, H, f => match H[f]? with
    | some (.flow (some a)) => match H[a]? with
      | some (.list l) => .ok (H.length + 1, H ++ [.list l, .flow (some H.length)])
      | some (.flow _) => match slice lim H a with
        | .error e => .error e
        | .ok (r, H) => .ok (H.length, H ++ [.flow (some r)])
      | _ => .error .typeError
    | _ => .error .typeError

/-- `Flow.__iter__` (mdp/linear_flows.py 525-526): the nodes of a flow. -/
def nodes : (lim : Nat) → Heap σ → Ref → Except Err (List Ref)
  | 0, _, _ => .error .recursion
  | lim + 1, H, f => match H[f]? with
    | some (.flow (some a)) => match H[a]? with
      | some (.list l) => .ok l
      | some (.flow _) => nodes lim H a
      | _ => .error .typeError
    | _ => .error .typeError

/-- `[node.copy() for node in old_nodes]` (flownode.py 200). -/
def copyAll (copy : Heap σ → Ref → Except Err Ref × Heap σ) : Heap σ → List Ref → Except Err (List Ref) × Heap σ
  | H, [] => (.ok [], H)
  | H, n :: l => match copy H n with
    | (.error e, H) => (.error e, H)
    | (.ok n', H) => match copyAll copy H l with
      | (.error e, H) => (.error e, H)
      | (.ok l', H) => (.ok (n' :: l'), H)

/-- `Node.copy` (mdp/signal_node.py 706-713) and `FlowNode.copy` (mdp/hinet/flownode.py 179-206). `lim` stands for the recursion
limit of Python; each level of nesting counts as one call. -/
noncomputable def nodeCopy (ok : σ → Bool) : (lim : Nat) → Heap σ → Ref → Except Err Ref × Heap σ
  | 0, H, _ => (.error .recursion, H)
  | lim + 1, H, n => match H[n]? with
    | some (.wrap f _) => match slice lim H f with
      | .error e => (.error e, H)
      | .ok (old, H) => match nodes lim H old with
        | .error e => (.error e, H)
        | .ok l => match copyAll (nodeCopy ok lim) H l with
          | (.error e, H) => (.error e, H)
          | (.ok l', H) => match deepcopy ok (H.set f (.flow none)) n with
            | (.error e, H) => (.error e, H)
            | (.ok n', H') =>
              (.ok n', ((H' ++ [Cell.list l']).set (f + H.length) (.flow (some H'.length))).set f (.flow (some old)))
    | _ => deepcopy ok H n

/-- `Flow(nodes)` with a new list (mdp/linear_flows.py 110-123). -/
def newFlow (H : Heap σ) (l : List Ref) : Ref × Heap σ := (H.length + 1, H ++ [.list l, .flow (some H.length)])

/-- `Flow(nodes)` with a given list. -/
def flowOf (H : Heap σ) (a : Ref) : Ref × Heap σ := (H.length, H ++ [.flow (some a)])

/-- `append`, `insert`, `extend`, `pop`, assignment and deletion of items and slices (mdp/linear_flows.py 499-520, 563-585): the
operation is done on a copy of the list of nodes, which the flow then uses. -/
def edit (lim : Nat) (H : Heap σ) (f : Ref) (op : List Ref → Except Err (List Ref)) : Except Err Unit × Heap σ :=
  match nodes lim H f with
  | .error e => (.error e, H)
  | .ok l => match op l with
    | .error e => (.error e, H)
    | .ok l => (.ok (), (H ++ [Cell.list l]).set f (.flow (some H.length)))

/-- `Flow.__add__` with a flow (mdp/linear_flows.py 528-535): `list.__add__` wants a list. -/
def flowAdd (lim : Nat) (H : Heap σ) (f g : Ref) : Except Err Ref × Heap σ :=
  match nodes lim H f with
  | .error e => (.error e, H)
  | .ok l => match H[g]? with
    | some (.flow (some b)) => match H[b]? with
      | some (.list l') => (.ok (newFlow H (l ++ l')).1, (newFlow H (l ++ l')).2)
      | _ => (.error .typeError, H)
    | _ => (.error .typeError, H)

/-- `Flow.__add__` with a node (mdp/linear_flows.py 536-542). -/
def flowAddNode (lim : Nat) (H : Heap σ) (f n : Ref) : Except Err Ref × Heap σ :=
  match nodes lim H f with
  | .error e => (.error e, H)
  | .ok l => (.ok (newFlow H (l ++ [n])).1, (newFlow H (l ++ [n])).2)

/-- `Flow.__iadd__` with a flow (mdp/linear_flows.py 548-561): `self.flow += other.flow`. A list is extended in place with the
items of a list or a flow; a flow in place of the list is given to `Flow.__iadd__` in turn, which wants a flow. -/
def flowIadd : (lim : Nat) → Heap σ → (f g : Ref) → Except Err Unit × Heap σ
  | 0, H, _, _ => (.error .recursion, H)
  | lim + 1, H, f, g => match H[f]?, H[g]? with
    | some (.flow (some a)), some (.flow (some b)) => match H[a]?, H[b]? with
      | some (.list l), some (.list l') => (.ok (), H.set a (.list (l ++ l')))
      | some (.list l), some (.flow _) => match nodes lim H b with
        | .error e => (.error e, H)
        | .ok l' => (.ok (), H.set a (.list (l ++ l')))
      | some (.flow _), some (.flow _) => flowIadd lim H a b
      | _, _ => (.error .typeError, H)
    | _, _ => (.error .typeError, H)

/-- `Flow.__iadd__` with a node: `self.flow.append(other)`. -/
def flowIaddNode (lim : Nat) (H : Heap σ) (f n : Ref) : Except Err Unit × Heap σ :=
  match H[f]? with
  | some (.flow (some a)) => match H[a]? with
    | some (.list l) => (.ok (), H.set a (.list (l ++ [n])))
    | some (.flow _) => edit lim H a fun l => .ok (l ++ [n])
    | _ => (.error .typeError, H)
  | _ => (.error .typeError, H)

/-- `Node.__add__` with a node (mdp/signal_node.py 676-679). -/
def nodeAddNode (H : Heap σ) (n m : Ref) : Ref × Heap σ := newFlow H [n, m]

/-- `Node.__add__` with a flow (mdp/signal_node.py 680-683). -/
noncomputable def nodeAddFlow (ok : σ → Bool) (lim : Nat) (H : Heap σ) (n g : Ref) : Except Err Ref × Heap σ :=
  match flowCopy ok H g with
  | (.error e, H) => (.error e, H)
  | (.ok g', H) => match edit lim H g' fun l => .ok (n :: l) with
    | (.error e, H) => (.error e, H)
    | (.ok (), H) => flowCopy ok H g'

/-- `BiNode.__add__` with a flow (bimdp/binode.py 472-476). -/
noncomputable def binodeAddFlow (ok : σ → Bool) (lim : Nat) (H : Heap σ) (n g : Ref) : Except Err Ref × Heap σ :=
  match flowCopy ok H g with
  | (.error e, H) => (.error e, H)
  | (.ok g', H) => match nodeCopy ok lim H n with
    | (.error e, H) => (.error e, H)
    | (.ok n', H) => match H[g']? with
      | some (.flow (some b)) => match H[b]? with
        | some (.list l) => (.ok (newFlow H (n' :: l)).1, (newFlow H (n' :: l)).2)
        | _ => (.error .typeError, H)
      | _ => (.error .typeError, H)

end Mdp.Copy
