import Mathlib.Data.List.Basic
import Mathlib.Data.List.Nodup
import Mathlib.Tactic.Common

/-!
# Tracing a flow

Models `bimdp/inspection/tracer.py`: the monkey patching of a node for tracing and its removal
(`_standard_tracer_decorate`, `_standard_tracer_undecorate`, lines 293-356), the visitor that walks
through flow nodes, layers and clone layers (`TraceDecorationVisitor`, 359-478) and the frame of
`trace_execution` (174-231).

A node is a Python object: a state and a dictionary of instance attributes that can hide methods of
its class.  Only the attributes the tracer touches are represented.  Nodes live in a store, so that
one node can occur at several places of a flow.  Simplification: the nodes inside a clone layer are
plain nodes.
-/

namespace Bi.Tracer

/-- `NODE_TRACE_METHOD_NAMES` (line 46). -/
inductive Meth where
  | execute | train | stopTraining
deriving DecidableEq, Repr

/-- What an instance attribute can hold: the bound method of the class, a tracing wrapper for the
method, anything else set by the user (`custom`), or a marker (`True`, the wrapped `__getstate__`). -/
inductive Val where
  | orig (m : Meth)
  | wrapper (m : Meth)
  | custom (k : Nat)
  | mark
deriving DecidableEq, Repr

/-- The attributes concerned: the method names, the names with the prefix `_insp_original_`, the flag
`_insp_is_wrapped_for_tracing_` and `__getstate__`. -/
inductive Attr where
  | pub (m : Meth)
  | saved (m : Meth)
  | flag
  | getstate
deriving DecidableEq, Repr

/-- A node object. -/
structure Obj (S : Type) where
  state : S
  dict : Attr → Option Val

variable {S : Type}

/-- `setattr`. -/
def set (d : Attr → Option Val) (a : Attr) (v : Val) : Attr → Option Val :=
  fun b => if b = a then some v else d b

/-- `delattr`. -/
def del (d : Attr → Option Val) (a : Attr) : Attr → Option Val :=
  fun b => if b = a then none else d b

/-- `getattr(node, method_name)`: the instance attribute, or else the method of the class. -/
def getMeth (d : Attr → Option Val) (m : Meth) : Val := (d (.pub m)).getD (.orig m)

/-- The body of the loop of lines 300-316. -/
def decorateMeth (d : Attr → Option Val) (m : Meth) : Attr → Option Val :=
  set (set d (.saved m) (getMeth d m)) (.pub m) (.wrapper m)

/-- The loop over the method names. -/
def methods : List Meth := [.execute, .train, .stopTraining]

/-- `_standard_tracer_decorate` (lines 293-334). -/
def decorate (o : Obj S) : Obj S :=
  { o with dict := set (methods.foldl decorateMeth (set o.dict .flag .mark)) .getstate .mark }

/-- The body of the loop of lines 347-352. -/
def undecorateMeth (d : Attr → Option Val) (m : Meth) : Attr → Option Val :=
  del (del d (.pub m)) (.saved m)

/-- `_standard_tracer_undecorate` (lines 336-356).  When the flag is there all the attributes are
there (they are set together), so that no `delattr` fails. -/
def undecorate (o : Obj S) : Obj S :=
  if o.dict .flag = none then o
  else { o with dict := del (methods.foldl undecorateMeth (del o.dict .flag)) .getstate }

/-- How a call of a method ends: the class's method has run (with the slides made, oldest first), or
something else set by the user has, or an attribute is missing. -/
inductive Result where
  | ran (slides : List Meth)
  | custom (k : Nat) (slides : List Meth)
  | attributeError
deriving DecidableEq, Repr

/-- Python runs the callable `v`, with at most `n` nested calls (`none`: `RecursionError`).  The
wrapper (lines 306-312) calls the saved method and afterwards writes one slide. -/
def call (d : Attr → Option Val) : Nat → Val → Option Result
  | 0, _ => none
  | _ + 1, .orig _ => some (.ran [])
  | _ + 1, .custom k => some (.custom k [])
  | _ + 1, .mark => some .attributeError
  | n + 1, .wrapper m =>
    match d (.saved m) with
    | none => some .attributeError
    | some v => match call d n v with
      | none => none
      | some (.ran l) => some (.ran (l ++ [m]))
      | some (.custom k l) => some (.custom k (l ++ [m]))
      | some .attributeError => some .attributeError

/-- `node.m(...)`. -/
def callMeth (o : Obj S) (n : Nat) (m : Meth) : Option Result := call o.dict n (getMeth o.dict m)

/-- A node without any trace of tracing and whose traced methods are those of its class. -/
def Clean (o : Obj S) : Prop := ∀ a, o.dict a = none

theorem decorate_pub (o : Obj S) (m : Meth) : (decorate o).dict (.pub m) = some (.wrapper m) := by
  cases m <;> rfl

theorem decorate_saved (o : Obj S) (m : Meth) :
    (decorate o).dict (.saved m) = some (getMeth o.dict m) := by
  cases m <;> rfl

/-- **Transparent.**  Each traced method of a decorated clean node runs the method of the class
exactly once and writes exactly one slide, for that method. -/
theorem traced_call (o : Obj S) (h : Clean o) (n : Nat) (m : Meth) :
    callMeth (decorate o) (n + 2) m = some (.ran [m]) := by
  unfold callMeth
  have h1 : getMeth (decorate o).dict m = .wrapper m := by unfold getMeth; rw [decorate_pub]; rfl
  have h2 : getMeth o.dict m = .orig m := by unfold getMeth; rw [h]; rfl
  rw [h1]
  simp only [call]
  rw [decorate_saved, h2]
  simp [call]

/-- **Removed without trace.**  Whatever happened to the state in between, removing the decoration
gives the node with its original attributes. -/
theorem undecorate_decorate (o : Obj S) (h : Clean o) (s : S) :
    undecorate { decorate o with state := s } = { o with state := s } := by
  have hf : ({ decorate o with state := s } : Obj S).dict .flag = some .mark := rfl
  unfold undecorate
  rw [if_neg (by rw [hf]; simp)]
  have : del (methods.foldl undecorateMeth (del (decorate o).dict .flag)) .getstate = o.dict := by
    funext a
    rw [h a]
    cases a with
    | pub m => cases m <;> rfl
    | saved m => cases m <;> rfl
    | flag => rfl
    | getstate => rfl
  simp only [this]

/-- Removing the decoration of a node that has none changes nothing. -/
theorem undecorate_clean (o : Obj S) (h : Clean o) : undecorate o = o := by
  unfold undecorate
  rw [if_pos (h _)]

/-- **Decorated twice.**  A node that is decorated again while it is decorated can no longer be used:
the wrapper finds itself as the saved method, and no recursion limit is large enough. -/
theorem twice_decorated_recursion (o : Obj S) (m : Meth) (n : Nat) :
    callMeth (decorate (decorate o)) n m = none := by
  have hs : (decorate (decorate o)).dict (.saved m) = some (.wrapper m) := by
    rw [decorate_saved]
    unfold getMeth
    rw [decorate_pub]
    rfl
  have key : ∀ n, call (decorate (decorate o)).dict n (.wrapper m) = none := by
    intro n
    induction n with
    | zero => rfl
    | succ n ih =>
      simp only [call]
      rw [hs]
      simp only
      rw [ih]
  unfold callMeth getMeth
  rw [decorate_pub]
  exact key n

/-- **Overridden methods are lost.**  A method set by the user on the instance is traced correctly,
but is gone after the trace. -/
theorem override_lost_violation (o : Obj S) (m : Meth) (k : Nat)
    (hm : o.dict (.pub m) = some (.custom k)) (s : S) :
    (∀ n, callMeth (decorate o) (n + 2) m = some (.custom k [m])) ∧
    (undecorate { decorate o with state := s }).dict (.pub m) = none ∧
    ∀ n, callMeth (undecorate { decorate o with state := s }) (n + 1) m = some (.ran []) := by
  have hu : (undecorate { decorate o with state := s }).dict (.pub m) = none := by
    have hf : ({ decorate o with state := s } : Obj S).dict .flag = some .mark := rfl
    unfold undecorate
    rw [if_neg (by rw [hf]; simp)]
    cases m <;> rfl
  refine ⟨?_, hu, ?_⟩
  · intro n
    unfold callMeth
    have h1 : getMeth (decorate o).dict m = .wrapper m := by unfold getMeth; rw [decorate_pub]; rfl
    have h2 : getMeth o.dict m = .custom k := by unfold getMeth; rw [hm]; rfl
    rw [h1]
    simp only [call]
    rw [decorate_saved, h2]
    simp [call]
  · intro n
    unfold callMeth
    have h1 : getMeth (undecorate { decorate o with state := s }).dict m = .orig m := by
      unfold getMeth; rw [hu]; rfl
    rw [h1]
    rfl

/-! ### The visitor -/

/-- A place in a flow: a plain node, a flow node or layer with its parts, or a clone layer. -/
inductive Place where
  | plain (id : Nat)
  | group (parts : List Place)
  | clone (cid : Nat)

/-- A clone layer: its tuple `nodes`, its attribute `node`, whether it is a `CloneBiLayer`, its
`use_copies` and whether its `_set_use_copies` is wrapped. -/
structure Clone where
  nodes : List Nat
  node : Nat
  bi : Bool
  useCopies : Bool
  wrapped : Bool
deriving DecidableEq, Repr

/-- The store. -/
structure Store (S : Type) where
  objs : Nat → Obj S
  clones : Nat → Clone
  fresh : Nat

/-- Changing one object. -/
def Store.setObj (st : Store S) (i : Nat) (o : Obj S) : Store S :=
  { st with objs := fun j => if j = i then o else st.objs j }

def Store.setClone (st : Store S) (i : Nat) (c : Clone) : Store S :=
  { st with clones := fun j => if j = i then c else st.clones j }

/-- `_visit_standard_node` (lines 398-403). -/
def visitPlain (un : Bool) (st : Store S) (i : Nat) : Store S :=
  if un then st.setObj i (undecorate (st.objs i)) else st.setObj i (decorate (st.objs i))

/-- `clonelayer.nodes[0]` (a layer has at least one node). -/
def Clone.first (c : Clone) : Nat := c.nodes.headD 0

/-- `_visit_clonelayer`, undecorate mode (lines 418-433). -/
def unvisitClone (st : Store S) (cid : Nat) : Store S :=
  let c := st.clones cid
  if c.bi then
    if c.wrapped then
      let st := visitPlain true (st.setClone cid { c with wrapped := false }) c.first
      if c.useCopies then st
      else st.setClone cid { c with wrapped := false, nodes := List.replicate c.nodes.length c.node }
    else st
  else
    (visitPlain true st c.first).setClone cid
      { c with nodes := List.replicate c.nodes.length c.node }

/-- `_visit_clonelayer`, decorate mode (lines 434-478): unless copies are used, the first place gets a
deep copy of its node; then the first node is decorated. -/
def decorateClone (st : Store S) (cid : Nat) : Store S :=
  let c := st.clones cid
  let (st, c) :=
    if !c.bi || !c.useCopies then
      ({ (st.setObj st.fresh (st.objs c.first)) with fresh := st.fresh + 1 },
        { c with node := st.fresh, nodes := st.fresh :: c.nodes.tail })
    else (st, c)
  let c := { c with wrapped := c.bi || c.wrapped }
  visitPlain false (st.setClone cid c) c.first

/-- `_visit_clonelayer`. -/
def visitClone (un : Bool) (st : Store S) (cid : Nat) : Store S :=
  if un then unvisitClone st cid else decorateClone st cid

mutual
/-- `_visit_node`, `_visit_flownode`, `_visit_layer` (lines 388-413). -/
def visit (un : Bool) : Store S → Place → Store S
  | st, .plain i => visitPlain un st i
  | st, .clone c => visitClone un st c
  | st, .group l => visitAll un st l
/-- The loops over the nodes of a flow node, a layer or the flow. -/
def visitAll (un : Bool) : Store S → List Place → Store S
  | st, [] => st
  | st, p :: r => visitAll un (visit un st p) r
end

/-- `decorate_flow(flow, undecorate_mode)` (lines 382-386). -/
def decorateFlow (un : Bool) (st : Store S) (flow : List Place) : Store S := visitAll un st flow

/-! ### Specification: the nodes of a flow -/

/-- What can be found in a flow: a plain node or a clone layer. -/
inductive Leaf where
  | plain (id : Nat)
  | clone (cid : Nat)
deriving DecidableEq, Repr

mutual
/-- The plain nodes and clone layers of a place, from left to right. -/
def leaves : Place → List Leaf
  | .plain i => [.plain i]
  | .clone c => [.clone c]
  | .group l => leavesAll l
def leavesAll : List Place → List Leaf
  | [] => []
  | p :: r => leaves p ++ leavesAll r
end

def visitLeaf (un : Bool) (st : Store S) : Leaf → Store S
  | .plain i => visitPlain un st i
  | .clone c => visitClone un st c

mutual
theorem visit_leaves (un : Bool) : ∀ (p : Place) (st : Store S),
    visit un st p = (leaves p).foldl (visitLeaf un) st
  | .plain i, st => rfl
  | .clone c, st => rfl
  | .group l, st => by rw [visit, leaves]; exact visitAll_leaves un l st
theorem visitAll_leaves (un : Bool) : ∀ (l : List Place) (st : Store S),
    visitAll un st l = (leavesAll l).foldl (visitLeaf un) st
  | [], st => rfl
  | p :: r, st => by
    rw [visitAll, leavesAll, List.foldl_append, visit_leaves un p st,
      visitAll_leaves un r]
end

/-- A clone layer as users make it: not empty, its nodes clean and in the store, and (unless a
bidirectional layer uses copies) one node at all places. -/
structure CloneOk (st : Store S) (cid : Nat) : Prop where
  nonempty : (st.clones cid).nodes ≠ []
  clean : ∀ i ∈ (st.clones cid).nodes, i < st.fresh ∧ Clean (st.objs i)
  unwrapped : (st.clones cid).wrapped = false
  shared : ((st.clones cid).bi = false ∨ (st.clones cid).useCopies = false) →
    ∀ i ∈ (st.clones cid).nodes, i = (st.clones cid).node

/-! #### Flows of plain nodes -/

theorem foldl_decorate_plain (ids : List Nat) : ∀ (st : Store S), ids.Nodup →
    let st' := (ids.map Leaf.plain).foldl (visitLeaf false) st
    (∀ i ∈ ids, st'.objs i = decorate (st.objs i)) ∧ (∀ i, i ∉ ids → st'.objs i = st.objs i) ∧
      st'.clones = st.clones ∧ st'.fresh = st.fresh := by
  induction ids with
  | nil => intro st _; exact ⟨by simp, fun _ _ => rfl, rfl, rfl⟩
  | cons a r ih =>
    intro st hn
    rw [List.nodup_cons] at hn
    have e : visitLeaf false st (Leaf.plain a) = st.setObj a (decorate (st.objs a)) := rfl
    obtain ⟨h1, h2, h3, h4⟩ := ih (st.setObj a (decorate (st.objs a))) hn.2
    simp only [List.map_cons, List.foldl_cons, e]
    refine ⟨?_, ?_, h3, h4⟩
    · intro i hi
      rcases List.mem_cons.1 hi with rfl | hi
      · rw [h2 i hn.1]
        simp [Store.setObj]
      · rw [h1 i hi]
        have : i ≠ a := fun q => hn.1 (q ▸ hi)
        simp [Store.setObj, this]
    · intro i hi
      rw [List.mem_cons, not_or] at hi
      rw [h2 i hi.2]
      simp [Store.setObj, hi.1]

theorem foldl_undecorate_plain (ids : List Nat) : ∀ (st : Store S), ids.Nodup →
    let st' := (ids.map Leaf.plain).foldl (visitLeaf true) st
    (∀ i ∈ ids, st'.objs i = undecorate (st.objs i)) ∧ (∀ i, i ∉ ids → st'.objs i = st.objs i) := by
  induction ids with
  | nil => intro st _; exact ⟨by simp, fun _ _ => rfl⟩
  | cons a r ih =>
    intro st hn
    rw [List.nodup_cons] at hn
    have e : visitLeaf true st (Leaf.plain a) = st.setObj a (undecorate (st.objs a)) := rfl
    obtain ⟨h1, h2⟩ := ih (st.setObj a (undecorate (st.objs a))) hn.2
    simp only [List.map_cons, List.foldl_cons, e]
    refine ⟨?_, ?_⟩
    · intro i hi
      rcases List.mem_cons.1 hi with rfl | hi
      · rw [h2 i hn.1]
        simp [Store.setObj]
      · rw [h1 i hi]
        have : i ≠ a := fun q => hn.1 (q ▸ hi)
        simp [Store.setObj, this]
    · intro i hi
      rw [List.mem_cons, not_or] at hi
      rw [h2 i hi.2]
      simp [Store.setObj, hi.1]

/-! ### Tracing an execution -/

/-- How `trace_execution` ends. -/
inductive End where
  | returned
  | raised
deriving DecidableEq, Repr

/-- What running the flow does to the states of the nodes, and whether it raises. -/
structure Body (S : Type) where
  effect : Nat → S → S
  ok : Bool

/-- Running the (decorated) flow: the attributes of the nodes stay. -/
def runBody (b : Body S) (st : Store S) : Store S :=
  { st with objs := fun i => { st.objs i with state := b.effect i (st.objs i).state } }

/-- `trace_execution` (lines 174-231) with `debug=False`: decorate; a message for a plain `Flow` is an
exception; execute; remove the decoration – but only if nothing was raised. -/
def traceExecution (st : Store S) (flow : List Place) (msgForFlow : Bool) (b : Body S) :
    Store S × End :=
  let st1 := decorateFlow false st flow
  if msgForFlow then (st1, .raised)
  else
    let st2 := runBody b st1
    if b.ok then (decorateFlow true st2 flow, .returned) else (st2, .raised)

/-- **Tracing leaves no trace.**  If every node occurs once in the flow (plain nodes, flow nodes and
layers, nested in any way) and is clean, a trace that returns leaves every node of the flow, and every
other node, with its own attributes and with the state the execution gave it. -/
theorem trace_restores (st : Store S) (flow : List Place) (ids : List Nat)
    (hl : leavesAll flow = ids.map Leaf.plain) (hn : ids.Nodup) (hc : ∀ i ∈ ids, Clean (st.objs i))
    (b : Body S) (hok : b.ok = true) :
    ∃ st', traceExecution st flow false b = (st', .returned) ∧
      ∀ i, st'.objs i = { st.objs i with state := b.effect i (st.objs i).state } := by
  obtain ⟨d1, d2, _, _⟩ := foldl_decorate_plain ids st hn
  refine ⟨decorateFlow true (runBody b (decorateFlow false st flow)) flow, ?_, ?_⟩
  · unfold traceExecution
    simp [hok]
  · intro i
    have e1 : decorateFlow false st flow = (ids.map Leaf.plain).foldl (visitLeaf false) st := by
      unfold decorateFlow
      rw [visitAll_leaves, hl]
    unfold decorateFlow at e1 ⊢
    rw [visitAll_leaves, hl, e1]
    obtain ⟨u1, u2⟩ := foldl_undecorate_plain ids
      (runBody b ((ids.map Leaf.plain).foldl (visitLeaf false) st)) hn
    by_cases hi : i ∈ ids
    · rw [u1 i hi]
      have : (runBody b ((ids.map Leaf.plain).foldl (visitLeaf false) st)).objs i =
          { decorate (st.objs i) with state := b.effect i (st.objs i).state } := by
        unfold runBody
        simp only [d1 i hi]
        rfl
      rw [this, undecorate_decorate _ (hc i hi)]
    · rw [u2 i hi]
      unfold runBody
      simp only [d2 i hi]

/-- **During the trace** every call of a traced method of a node of the flow does what it does
without tracing, and writes one slide. -/
theorem during_trace (st : Store S) (flow : List Place) (ids : List Nat)
    (hl : leavesAll flow = ids.map Leaf.plain) (hn : ids.Nodup) (hc : ∀ i ∈ ids, Clean (st.objs i))
    (i : Nat) (hi : i ∈ ids) (n : Nat) (m : Meth) :
    callMeth ((decorateFlow false st flow).objs i) (n + 2) m = some (.ran [m]) := by
  unfold decorateFlow
  rw [visitAll_leaves, hl, (foldl_decorate_plain ids st hn).1 i hi]
  exact traced_call _ (hc i hi) n m

/-- **After an exception the flow stays decorated.**  If the execution raises (or a message is given
for a plain flow), every node of the flow keeps its wrappers: later executions outside any trace
still write slides, and tracing the flow a second time ends in endless recursion. -/
theorem trace_exception_violation (st : Store S) (flow : List Place) (ids : List Nat)
    (hl : leavesAll flow = ids.map Leaf.plain) (hn : ids.Nodup) (hc : ∀ i ∈ ids, Clean (st.objs i))
    (msgForFlow : Bool) (b : Body S) (hbad : msgForFlow = true ∨ b.ok = false) :
    ∃ st', traceExecution st flow msgForFlow b = (st', .raised) ∧
      (∀ i ∈ ids, ∀ n m, callMeth (st'.objs i) (n + 2) m = some (.ran [m])) ∧
      ∀ i ∈ ids, ∀ n m, callMeth ((decorateFlow false st' flow).objs i) n m = none := by
  obtain ⟨d1, _, _, _⟩ := foldl_decorate_plain ids st hn
  have e1 : decorateFlow false st flow = (ids.map Leaf.plain).foldl (visitLeaf false) st := by
    unfold decorateFlow
    rw [visitAll_leaves, hl]
  have hdict : ∀ st' : Store S,
      (∀ i ∈ ids, (st'.objs i).dict = (decorate (st.objs i)).dict) →
      (∀ i ∈ ids, ∀ n m, callMeth (st'.objs i) (n + 2) m = some (.ran [m])) ∧
      ∀ i ∈ ids, ∀ n m, callMeth ((decorateFlow false st' flow).objs i) n m = none := by
    intro st' h
    refine ⟨?_, ?_⟩
    · intro i hi n m
      have : callMeth (st'.objs i) (n + 2) m = callMeth (decorate (st.objs i)) (n + 2) m := by
        unfold callMeth
        rw [h i hi]
      rw [this]
      exact traced_call _ (hc i hi) n m
    · intro i hi n m
      have e2 : (decorateFlow false st' flow).objs i = decorate (st'.objs i) := by
        unfold decorateFlow
        rw [visitAll_leaves, hl]
        exact (foldl_decorate_plain ids st' hn).1 i hi
      rw [e2]
      have : callMeth (decorate (st'.objs i)) n m = callMeth (decorate (decorate (st.objs i))) n m := by
        unfold callMeth decorate
        simp only [h i hi]
        rfl
      rw [this]
      exact twice_decorated_recursion _ m n
  by_cases hm : msgForFlow = true
  · refine ⟨decorateFlow false st flow, by unfold traceExecution; simp [hm], ?_⟩
    apply hdict
    intro i hi
    rw [e1, d1 i hi]
  · have hb : b.ok = false := by
      rcases hbad with h | h
      · exact absurd h hm
      · exact h
    refine ⟨runBody b (decorateFlow false st flow), by unfold traceExecution; simp [hm, hb], ?_⟩
    apply hdict
    intro i hi
    unfold runBody
    simp only [e1, d1 i hi]

/-- **A node at two places.**  If the same node occurs twice in a flow, its traced methods can no
longer be called while the flow is decorated. -/
theorem shared_node_violation (st : Store S) (i : Nat) (mid : List Nat)
    (hm : i ∉ mid) (hnd : mid.Nodup) (flow : List Place)
    (hl : leavesAll flow = ((i :: mid) ++ [i]).map Leaf.plain) (n : Nat) (m : Meth) :
    callMeth ((decorateFlow false st flow).objs i) n m = none := by
  unfold decorateFlow
  rw [visitAll_leaves, hl, List.map_append, List.foldl_append]
  have hn : (i :: mid).Nodup := List.nodup_cons.2 ⟨hm, hnd⟩
  obtain ⟨d1, _, _, _⟩ := foldl_decorate_plain (i :: mid) st hn
  simp only [List.map_cons, List.map_nil, List.foldl_cons, List.foldl_nil] at d1 ⊢
  have : ∀ s : Store S, (visitLeaf false s (Leaf.plain i)).objs i = decorate (s.objs i) := by
    intro s
    simp [visitLeaf, visitPlain, Store.setObj]
  rw [this, d1 i (by simp)]
  exact twice_decorated_recursion _ m n

/-! ### Clone layers -/

theorem undecorate_dec (o : Obj S) (h : Clean o) : undecorate (decorate o) = o :=
  undecorate_decorate o h o.state

/-- **Clone layers.**  Decorating a clone layer and removing the decoration gives a layer of the same
length that holds at each place a node with the same attributes and the same state as before; no other
node and no other layer is touched; in a plain clone layer (and a bidirectional one without copies) one
node is shared by all places again. -/
theorem clone_round_trip (st : Store S) (cid : Nat) (hs : CloneOk st cid) :
    let st' := visitClone true (visitClone false st cid) cid
    (st'.clones cid).nodes.length = (st.clones cid).nodes.length ∧
    (∀ k i j : Nat, (st'.clones cid).nodes[k]? = some i → (st.clones cid).nodes[k]? = some j →
      st'.objs i = st.objs j) ∧
    (∀ i, i < st.fresh → st'.objs i = st.objs i) ∧
    (∀ c, c ≠ cid → st'.clones c = st.clones c) ∧
    (st'.clones cid).wrapped = false ∧
    (((st.clones cid).bi = false ∨ (st.clones cid).useCopies = false) →
      ∀ i ∈ (st'.clones cid).nodes, i = (st'.clones cid).node) := by
  obtain ⟨hne, hin, hw, hshare⟩ := hs
  obtain ⟨objs, clones, fresh⟩ := st
  simp only at hne hin hw hshare ⊢
  rcases hc : clones cid with ⟨nodes, node, bi, useCopies, wrapped⟩
  rw [hc] at hne hin hw hshare
  simp only at hne hin hw hshare
  subst hw
  obtain ⟨a, r, rfl⟩ := List.exists_cons_of_ne_nil hne
  have ha := hin a (by simp)
  by_cases hcp : (!bi || !useCopies) = true
  · have hshare' : ∀ i ∈ a :: r, i = node := by
      apply hshare
      cases bi <;> cases useCopies <;> simp at hcp ⊢
    have hu : undecorate (decorate (objs a)) = objs a := undecorate_dec _ ha.2
    have hdec : visitClone false (⟨objs, clones, fresh⟩ : Store S) cid =
        ⟨fun j => if j = fresh then decorate (objs a) else objs j,
         fun j => if j = cid then ⟨fresh :: r, fresh, bi, useCopies, bi⟩ else clones j,
         fresh + 1⟩ := by
      unfold visitClone decorateClone visitPlain
      simp only [Bool.false_eq_true, if_false, hc, hcp, if_true, Clone.first, List.headD_cons,
        List.tail_cons, Bool.or_false, Store.setObj, Store.setClone]
      congr 1
      funext j
      by_cases hj : j = fresh <;> simp [hj]
    have hun : visitClone true (visitClone false (⟨objs, clones, fresh⟩ : Store S) cid) cid =
        ⟨fun j => if j = fresh then objs a else objs j,
         fun j => if j = cid then
           ⟨List.replicate (r.length + 1) fresh, fresh, bi, useCopies, false⟩ else clones j,
         fresh + 1⟩ := by
      rw [hdec]
      unfold visitClone unvisitClone visitPlain
      cases bi with
      | false =>
        simp only [if_true, Bool.false_eq_true, if_false, Clone.first, List.headD_cons,
          Store.setObj, Store.setClone, hu, List.length_cons]
        congr 1
        · funext j
          by_cases hj : j = fresh <;> simp [hj]
        · funext j
          by_cases hj : j = cid <;> simp [hj]
      | true =>
        have hcu : useCopies = false := by cases useCopies <;> simp at hcp ⊢
        subst hcu
        simp only [if_true, Bool.false_eq_true, if_false, Clone.first, List.headD_cons,
          Store.setObj, Store.setClone, hu, List.length_cons]
        congr 1
        · funext j
          by_cases hj : j = fresh <;> simp [hj]
        · funext j
          by_cases hj : j = cid <;> simp [hj]
    rw [hun]
    simp only [if_true]
    refine ⟨by simp, ?_, ?_, ?_, trivial, ?_⟩
    · intro k i j h1 h2
      have hi : i = fresh := List.eq_of_mem_replicate (List.mem_of_getElem? h1)
      have hj : j = node := hshare' j (List.mem_of_getElem? h2)
      have hjn : j ≠ fresh := by
        have := (hin j (List.mem_of_getElem? h2)).1
        omega
      rw [if_pos hi, hj, ← hshare' a (by simp)]
    · intro i hi
      rw [if_neg (by omega)]
    · intro c hcc
      rw [if_neg hcc]
    · intro _ i hi
      exact List.eq_of_mem_replicate hi
  · have hbi : bi = true := by cases bi <;> simp at hcp ⊢
    have hcu : useCopies = true := by cases useCopies <;> simp [hbi] at hcp ⊢
    subst hbi hcu
    have hu : undecorate (decorate (objs a)) = objs a := undecorate_dec _ ha.2
    have hdec : visitClone false (⟨objs, clones, fresh⟩ : Store S) cid =
        ⟨fun j => if j = a then decorate (objs a) else objs j,
         fun j => if j = cid then ⟨a :: r, node, true, true, true⟩ else clones j, fresh⟩ := by
      unfold visitClone decorateClone visitPlain
      simp [hc, Clone.first, Store.setObj, Store.setClone]
    have hun : visitClone true (visitClone false (⟨objs, clones, fresh⟩ : Store S) cid) cid =
        ⟨objs, fun j => if j = cid then ⟨a :: r, node, true, true, false⟩ else clones j, fresh⟩ := by
      rw [hdec]
      unfold visitClone unvisitClone visitPlain
      simp only [if_true, Clone.first, List.headD_cons, Store.setObj, Store.setClone, hu]
      congr 1
      · funext j
        by_cases hj : j = a <;> simp [hj]
      · funext j
        by_cases hj : j = cid <;> simp [hj]
    rw [hun]
    simp only [if_true]
    refine ⟨by simp, ?_, fun _ _ => trivial, ?_, trivial, ?_⟩
    · intro k i j h1 h2
      rw [h1] at h2
      simp at h2
      rw [h2]
    · intro c hcc
      rw [if_neg hcc]
    · intro h
      simp at h

/-! ### Concrete cases -/

def exObj (s : Nat) : Obj Nat := { state := s, dict := fun _ => none }

example : callMeth (decorate (exObj 3)) 5 .train = some (.ran [.train]) := by decide

example : callMeth (decorate (decorate (exObj 3))) 5 .train = none := by decide

def exStore : Store Nat :=
  { objs := fun i => exObj i, clones := fun _ => ⟨[1, 1, 1], 1, false, false, false⟩, fresh := 5 }

example : leavesAll [.plain 0, .group [.plain 2, .group [.plain 3]]] =
    [0, 2, 3].map Leaf.plain := by decide

example : CloneOk exStore 0 where
  nonempty := by simp [exStore]
  clean := by
    intro i hi
    simp [exStore] at hi
    subst hi
    exact ⟨by simp [exStore], fun _ => rfl⟩
  unwrapped := rfl
  shared := by
    intro _ i hi
    simpa [exStore] using hi

example : ((visitClone true (visitClone false exStore 0) 0).clones 0).nodes = [5, 5, 5] := by decide

end Bi.Tracer
