/-!
# Nodes of a BiFlow by their id

Models the container methods of `BiFlow` for a text as key (`bimdp/biflow.py`, lines 376-422) and
`_request_node_id` of `BiNode` (`bimdp/binode.py`, 320-333), `BiFlowNode` (`bimdp/hinet/biflownode.py`, 243-252)
and `CloneBiLayer` (`bimdp/hinet/bilayer.py`, 270-287).  Containers that are empty (and therefore false in Python)
are not modelled, nor is `_last_id_request` (see `Verif.Bi.FlowNode`).
-/

namespace Bi.Items

variable {I : Type} [DecidableEq I]

mutual
/-- A node: a plain `Node` (ids inside are not visible), or a `BiNode` with its id and, for a `BiFlowNode`, the nodes of
its flow; for a `CloneBiLayer` the copies or the one node.  `obj` is the identity of the object. -/
inductive Tree (I : Type) where
  | plain (obj : Nat)
  | bi (obj : Nat) (id : Option I) (inner : Forest I)
inductive Forest (I : Type) where
  | nil
  | cons (t : Tree I) (f : Forest I)
end

mutual
/-- `_request_node_id` of a node; a plain node is not asked. -/
def Tree.request (key : I) : Tree I → Option Nat
  | .plain _ => none
  | .bi obj id inner => if id = some key then some obj else inner.request key
/-- The loops over the nodes of a flow or the copies of a layer: the first hit. -/
def Forest.request (key : I) : Forest I → Option Nat
  | .nil => none
  | .cons t f =>
    match t.request key with
    | some o => some o
    | none => f.request key
end

inductive Err where
  /-- KeyError -/
  | key
  /-- BiFlowException -/
  | biflow
deriving DecidableEq

/-- `flow[key]` (lines 390-399). -/
def getItem (f : Forest I) (key : I) : Except Err Nat :=
  match f.request key with
  | none => .error .key
  | some o => .ok o

/-- `key in flow` (lines 415-422). -/
def contains (f : Forest I) (key : I) : Bool :=
  match f.request key with
  | none => false
  | some _ => true

/-- `flow[key] = node` (lines 401-406): the result and the flow. -/
def setItem (f : Forest I) (_key : I) (_value : Tree I) : Except Err Unit × Forest I := (.error .biflow, f)

/-- `del flow[key]` (lines 408-413). -/
def delItem (f : Forest I) (_key : I) : Except Err Unit × Forest I := (.error .biflow, f)

/-! ### Specification -/

mutual
/-- All nodes with ids that can be reached through bi-nodes, an outer node before those inside it, in the order of the
flow. -/
def Tree.ids : Tree I → List (Option I × Nat)
  | .plain _ => []
  | .bi obj id inner => (id, obj) :: inner.ids
def Forest.ids : Forest I → List (Option I × Nat)
  | .nil => []
  | .cons t f => t.ids ++ f.ids
end

/-! ### Theorems -/

mutual
theorem Tree.request_eq (key : I) : ∀ t : Tree I,
    t.request key = (t.ids.find? fun p => decide (p.1 = some key)).map (·.2)
  | .plain _ => rfl
  | .bi obj id inner => by
    unfold Tree.request Tree.ids
    by_cases h : id = some key
    · rw [if_pos h, List.find?_cons_of_pos (by simpa using h)]; rfl
    · rw [if_neg h, List.find?_cons_of_neg (by simpa using h)]
      exact Forest.request_eq key inner
theorem Forest.request_eq (key : I) : ∀ f : Forest I,
    f.request key = (f.ids.find? fun p => decide (p.1 = some key)).map (·.2)
  | .nil => rfl
  | .cons t f => by
    unfold Forest.request Forest.ids
    rw [List.find?_append, Tree.request_eq key t, Forest.request_eq key f]
    cases (t.ids.find? fun p => decide (p.1 = some key)) <;> rfl
end

/-- **The first node with the id.**  `flow[key]` is the first node with this id, where nodes are taken in the order of
the flow and a node before those inside it; if there is none a KeyError is raised. -/
theorem getItem_first (f : Forest I) (key : I) (o : Nat) :
    getItem f key = .ok o ↔ ∃ a b, f.ids = a ++ (some key, o) :: b ∧ ∀ p ∈ a, p.1 ≠ some key := by
  unfold getItem
  rw [Forest.request_eq]
  constructor
  · intro h
    cases hf : f.ids.find? (fun p => decide (p.1 = some key)) with
    | none => rw [hf] at h; simp at h
    | some p =>
      rw [hf] at h
      obtain ⟨h1, a, b, h2, h3⟩ := List.find?_eq_some_iff_append.1 hf
      obtain ⟨i, o'⟩ := p
      simp only [Option.map_some] at h
      simp only [decide_eq_true_eq] at h1
      cases h
      subst h1
      exact ⟨a, b, h2, fun p hp => by simpa using h3 p hp⟩
  · rintro ⟨a, b, h1, h2⟩
    have : f.ids.find? (fun p => decide (p.1 = some key)) = some (some key, o) :=
      List.find?_eq_some_iff_append.2 ⟨by simp, a, b, h1, fun p hp => by simpa using h2 p hp⟩
    rw [this]
    rfl

/-- **Membership** is that of the ids, and agrees with access. -/
theorem contains_iff (f : Forest I) (key : I) :
    (contains f key = true ↔ ∃ o, (some key, o) ∈ f.ids) ∧
    (contains f key = true ↔ ∃ o, getItem f key = .ok o) ∧
    (getItem f key = .error .key ↔ ∀ o, (some key, o) ∉ f.ids) := by
  have h1 : contains f key = true ↔ ∃ o, getItem f key = .ok o := by
    unfold contains getItem
    cases f.request key <;> simp
  have h2 : contains f key = true ↔ ∃ o, (some key, o) ∈ f.ids := by
    unfold contains
    rw [Forest.request_eq]
    cases hf : f.ids.find? (fun p => decide (p.1 = some key)) with
    | none =>
      simp only [Option.map_none, Bool.false_eq_true, false_iff]
      rintro ⟨o, ho⟩
      have := List.find?_eq_none.1 hf _ ho
      simp at this
    | some p =>
      simp only [Option.map_some, true_iff]
      have h1 := List.find?_some hf
      have h2 := List.mem_of_find?_eq_some hf
      obtain ⟨i, o⟩ := p
      simp only [decide_eq_true_eq] at h1
      exact ⟨o, h1 ▸ h2⟩
  refine ⟨h2, h1, ?_⟩
  constructor
  · intro h o ho
    obtain ⟨o', h'⟩ := h1.1 (h2.2 ⟨o, ho⟩)
    rw [h] at h'
    cases h'
  · intro h
    cases hg : getItem f key with
    | ok o => exact absurd (h2.1 (h1.2 ⟨o, hg⟩)) (by rintro ⟨o, ho⟩; exact h o ho)
    | error e =>
      unfold getItem at hg
      cases hr : f.request key with
      | none => rw [hr] at hg; cases hg; rfl
      | some o => rw [hr] at hg; cases hg

/-- **Nodes cannot be changed by their id**: the attempt is refused and the flow stays. -/
theorem set_del_refused (f : Forest I) (key : I) (t : Tree I) :
    setItem f key t = (.error .biflow, f) ∧ delItem f key = (.error .biflow, f) := ⟨rfl, rfl⟩

/-- Non-vacuity: an id inside a flow node, another one twice, and one hidden in a plain node. -/
example :
    let f : Forest Nat := .cons (.plain 0) (.cons (.bi 1 none (.cons (.bi 2 (some 7) .nil) .nil))
      (.cons (.bi 3 (some 7) .nil) (.cons (.bi 4 (some 8) .nil) .nil)))
    getItem f 7 = .ok 2 ∧ getItem f 8 = .ok 4 ∧ getItem f 9 = .error .key ∧ contains f 8 = true := ⟨rfl, rfl, rfl, rfl⟩

end Bi.Items
