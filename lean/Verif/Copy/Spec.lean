import Verif.Copy.Model

/-!
# Specification for C230-C233
-/

namespace Mdp.Copy

variable {σ : Type}

/-- What can be seen of an object itself: its class and its state. -/
inductive Label (σ : Type) where
  | node (s : σ)
  | flowNode (s : σ)
  | flow
  | list
deriving DecidableEq

def Cell.label : Cell σ → Label σ
  | .node s => .node s
  | .wrap _ s => .flowNode s
  | .flow _ => .flow
  | .list _ => .list

/-- The object one gets to from `r` by following the references with the given numbers. -/
def follow (H : Heap σ) : Ref → List Nat → Option Ref
  | r, [] => if r < H.length then some r else none
  | r, i :: p => match H[r]? with
    | none => none
    | some c => match c.kids[i]? with
      | none => none
      | some k => follow H k p

/-- What one sees at the end of a path. -/
def look (H : Heap σ) (r : Ref) (p : List Nat) : Option (Label σ) := (follow H r p).bind fun q => (H[q]?).map Cell.label

/-- Everything that can be seen from `r` in `H` and from `r'` in `H'` is the same: what is found at the end of any path, and
whether two paths lead to the same object. -/
structure Same (H : Heap σ) (r : Ref) (H' : Heap σ) (r' : Ref) : Prop where
  looks : ∀ p, look H r p = look H' r' p
  shared : ∀ p q, follow H r p = follow H r q ↔ follow H' r' p = follow H' r' q

/-- No object can be reached both from `r` and from `r'`. -/
def Apart (H : Heap σ) (r r' : Ref) : Prop := ∀ p q o, follow H r p = some o → follow H r' q ≠ some o

/-- `H'` comes from `H` by changing, in any way, objects that can be reached from `r`, and by creating objects. -/
def ChangedFrom (H : Heap σ) (r : Ref) (H' : Heap σ) : Prop :=
  ∀ o c, H[o]? = some c → (∀ p, follow H r p ≠ some o) → H'[o]? = some c

/-- There are no references to objects that do not exist. -/
def Sound (H : Heap σ) : Prop := ∀ (o : Ref) (c : Cell σ), H[o]? = some c → ∀ k ∈ c.kids, k < H.length

/-- `l` are the nodes of the flow `f`; the attribute `flow` of `f` is a list or a flow. `d` is the number of flows one inside the
other. -/
inductive Nodes (H : Heap σ) : (d : Nat) → Ref → List Ref → Prop
  | plain {f a : Ref} {l : List Ref} : H[f]? = some (.flow (some a)) → H[a]? = some (.list l) → Nodes H 1 f l
  | nested {f a : Ref} {d : Nat} {l : List Ref} : H[f]? = some (.flow (some a)) → Nodes H d a l → Nodes H (d + 1) f l

/-- A node as a user sees it. -/
inductive Tree (σ : Type) where
  | node (s : σ)
  | flowNode (s : σ) (nodes : List (Tree σ))

/-- The node at `r` looks like `t`, which has at most `k` levels: a `FlowNode` is seen as the sequence of its nodes. -/
def LooksAt (H : Heap σ) : (k : Nat) → Ref → Tree σ → Prop
  | 0, _, _ => False
  | _ + 1, r, .node s => H[r]? = some (.node s)
  | k + 1, r, .flowNode s ts => ∃ f d l, H[r]? = some (.wrap f s) ∧ Nodes H d f l ∧ List.Forall₂ (LooksAt H k) l ts

/-- The node at `r` looks like `t`. -/
def Looks (H : Heap σ) (r : Ref) (t : Tree σ) : Prop := ∃ k, LooksAt H k r t

end Mdp.Copy
