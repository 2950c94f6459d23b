import Mathlib.Data.List.Basic
import Mathlib.Data.List.Sort
import Mathlib.Data.String.Basic

/-!
# Slides of a trace: `TraceHTMLVisitor`, `TraceHTMLConverter` (bimdp/inspection/tracer.py:491-720), C361, C362

The left side of a slide is the picture of the flow (see `Verif.Hinet.Html`) with other opening tags for the tables of the nodes; only these
tags are modelled here. The right side are the arguments and the result of the call. Texts are put into the file as they are, so that a
text which contains marks is outside of the model; line feeds are left out.
-/

namespace Mdp.TraceHtml

/-! ## The picture of the flow -/

/-- What is read of a node: its identity, whether it has `TRACING_WRAP_FLAG`, and `_train_phase_started`. -/
structure N where
  obj : Nat
  traced : Bool
  started : Bool
deriving DecidableEq

/-- Plain nodes, flow nodes, layers (`Layer`, `SameInputLayer`), clone layers with their node. -/
inductive Net where
  | leaf (n : N)
  | flow (n : N) (l : List Net)
  | layer (n : N) (l : List Net)
  | clone (n : N) (x : Net)

/-- The argument `type_id`. -/
inductive Typ where
  | node | layer | flownode | flow
deriving DecidableEq

inductive Cls where
  | current | training
deriving DecidableEq

/-- The opening tag of a table: the additional class and the number in the id, if it is clickable. -/
structure Opening where
  node : N
  typ : Typ
  cls : Option Cls
  id : Option Nat
deriving DecidableEq

/-- The attributes `_node_id_index`, `_current_node_id` of the visitor, and the tags written. -/
structure VS where
  idx : Nat
  cur : Option Nat
  out : List Opening

/-- `_open_node_env` (tracer.py:511-539); `c` is `_current_node`. -/
def openEnv (c : Option Nat) (n : N) (t : Typ) (s : VS) : VS :=
  let cls := if c = some n.obj then some .current else if t = .node ∧ n.started = true then some .training else none
  if n.traced then
    ⟨s.idx + 1, if c = some n.obj then some s.idx else s.cur, s.out ++ [⟨n, t, cls, some s.idx⟩]⟩
  else ⟨s.idx, s.cur, s.out ++ [⟨n, t, cls, none⟩]⟩

mutual
/-- `_visit_node` (mdp/hinet/htmlvisitor.py:83-152). -/
def visit (c : Option Nat) : Net → VS → VS
  | .leaf n, s => openEnv c n .node s
  | .flow n l, s => visitAll c l (openEnv c n .flownode s)
  | .layer n l, s => visitAll c l (openEnv c n .layer s)
  | .clone n x, s => visit c x (openEnv c n .layer s)

def visitAll (c : Option Nat) : List Net → VS → VS
  | [], s => s
  | x :: l, s => visitAll c l (visit c x s)
end

/-- `convert_flow` (tracer.py:505-509): the tags and the id that `write_html` returns (638). `f` is the flow. -/
def convertFlow (f : N) (l : List Net) (c : Option Nat) : VS := visitAll c l (openEnv c f .flow ⟨0, none, []⟩)

/-! ### Specification -/

mutual
/-- The nodes from top to bottom and from left to right, containers before their nodes. -/
def Net.order : Net → List (N × Typ)
  | .leaf n => [(n, .node)]
  | .flow n l => (n, .flownode) :: orders l
  | .layer n l => (n, .layer) :: orders l
  | .clone n x => (n, .layer) :: x.order

def orders : List Net → List (N × Typ)
  | [] => []
  | x :: l => x.order ++ orders l
end

/-- The class that a table should have. -/
def ClassOk (c : Option Nat) (o : Opening) : Prop :=
  (o.cls = some .current ↔ c = some o.node.obj) ∧
  (o.cls = some .training ↔ c ≠ some o.node.obj ∧ o.typ = .node ∧ o.node.started = true)

/-! ### Lemmas -/

/-- What has been written by a step from `s` to `s'` for the nodes `l`. -/
structure Step (c : Option Nat) (l : List (N × Typ)) (s s' : VS) : Prop where
  out : ∃ w, s'.out = s.out ++ w ∧ w.map (fun o => (o.node, o.typ)) = l ∧ (∀ o ∈ w, ClassOk c o ∧ (o.id.isSome = o.node.traced)) ∧
    w.filterMap (·.id) = List.range' s.idx (s'.idx - s.idx) ∧
    s'.cur = ((w.filter fun o => c = some o.node.obj).filterMap (·.id)).getLast?.or s.cur
  idx : s'.idx = s.idx + (l.filter fun p => p.1.traced).length

theorem step_nil (c : Option Nat) (s : VS) : Step c [] s s :=
  ⟨⟨[], by simp⟩, by simp⟩

theorem Step.trans {c : Option Nat} {l m : List (N × Typ)} {a b d : VS} (h : Step c l a b) (k : Step c m b d) : Step c (l ++ m) a d := by
  obtain ⟨⟨w, h1, h2, h3, h4, h5⟩, h6⟩ := h
  obtain ⟨⟨v, k1, k2, k3, k4, k5⟩, k6⟩ := k
  refine ⟨⟨w ++ v, by rw [k1, h1, List.append_assoc], by rw [List.map_append, h2, k2], ?_, ?_, ?_⟩, ?_⟩
  · intro o ho
    rcases List.mem_append.1 ho with ho | ho
    · exact h3 o ho
    · exact k3 o ho
  · rw [List.filterMap_append, h4, k4]
    have e1 : b.idx = a.idx + (b.idx - a.idx) := by omega
    have e2 : d.idx - a.idx = (b.idx - a.idx) + (d.idx - b.idx) := by omega
    rw [e2]
    conv_lhs => rw [e1]
    rw [Nat.add_sub_cancel_left]
    rw [← List.range'_append]
    simp only [Nat.one_mul]
    rw [← e1]
  · rw [k5, h5, List.filter_append, List.filterMap_append, List.getLast?_append, Option.or_assoc]
  · rw [k6, h6, List.filter_append, List.length_append, Nat.add_assoc]

theorem step_open (c : Option Nat) (n : N) (t : Typ) (s : VS) : Step c [(n, t)] s (openEnv c n t s) := by
  have hc : ∀ id, ClassOk c ⟨n, t, if c = some n.obj then some .current else if t = .node ∧ n.started = true then some .training else none, id⟩ := by
    intro id
    unfold ClassOk
    simp only []
    by_cases h : c = some n.obj
    · simp [h]
    · by_cases h2 : t = .node ∧ n.started = true
      · simp [h, h2]
      · simp [h, h2]
  unfold openEnv
  simp only []
  by_cases ht : n.traced = true
  · rw [if_pos ht]
    refine ⟨⟨[_], rfl, rfl, ?_, ?_, ?_⟩, ?_⟩
    · intro o ho
      rw [List.mem_singleton] at ho
      subst ho
      exact ⟨hc _, by simp [ht]⟩
    · simp
    · by_cases h : c = some n.obj <;> simp [h]
    · simp [ht]
  · rw [if_neg ht]
    refine ⟨⟨[_], rfl, rfl, ?_, ?_, ?_⟩, ?_⟩
    · intro o ho
      rw [List.mem_singleton] at ho
      subst ho
      exact ⟨hc _, by simp [ht]⟩
    · simp
    · by_cases h : c = some n.obj <;> simp [h]
    · simp [ht]

mutual
theorem step_visit (c : Option Nat) : ∀ (x : Net) (s : VS), Step c x.order s (visit c x s)
  | .leaf n, s => by simp only [Net.order, visit]; exact step_open c n _ s
  | .flow n l, s => by simp only [Net.order, visit]; exact (step_open c n _ s).trans (step_all c l _)
  | .layer n l, s => by simp only [Net.order, visit]; exact (step_open c n _ s).trans (step_all c l _)
  | .clone n x, s => by simp only [Net.order, visit]; exact (step_open c n _ s).trans (step_visit c x _)

theorem step_all (c : Option Nat) : ∀ (l : List Net) (s : VS), Step c (orders l) s (visitAll c l s)
  | [], s => by simp only [orders, visitAll]; exact step_nil c s
  | x :: l, s => by simp only [orders, visitAll]; exact (step_visit c x s).trans (step_all c l _)
end

theorem convert_step (f : N) (l : List Net) (c : Option Nat) :
    Step c ((f, .flow) :: orders l) ⟨0, none, []⟩ (convertFlow f l c) := (step_open c f .flow _).trans (step_all c l _)

/-! ### Properties -/

/-- **C361** (trace_tables): on each slide there is one table for the flow and for each node, in order; exactly the tables of the node that was
called are marked as current, and of the other ones exactly the tables of plain nodes in training are marked so. -/
theorem trace_tables (f : N) (l : List Net) (c : Option Nat) :
    (convertFlow f l c).out.map (fun o => (o.node, o.typ)) = (f, .flow) :: orders l ∧
    ∀ o ∈ (convertFlow f l c).out,
      (o.cls = some .current ↔ c = some o.node.obj) ∧
      (o.cls = some .training ↔ c ≠ some o.node.obj ∧ o.typ = .node ∧ o.node.started = true) := by
  obtain ⟨⟨w, h1, h2, h3, _⟩, _⟩ := convert_step f l c
  rw [List.nil_append] at h1
  rw [h1]
  exact ⟨h2, fun o ho => (h3 o ho).1⟩

/-- **C361** (trace_ids): exactly the tables of traced nodes are clickable, and their ids are numbered from zero in the order of the page, so that no
id occurs twice. -/
theorem trace_ids (f : N) (l : List Net) (c : Option Nat) :
    (∀ o ∈ (convertFlow f l c).out, o.id.isSome = o.node.traced) ∧
    (convertFlow f l c).out.filterMap (·.id) = List.range (((f, Typ.flow) :: orders l).filter fun p => p.1.traced).length := by
  obtain ⟨⟨w, h1, _, h3, h4, _⟩, h6⟩ := convert_step f l c
  rw [List.nil_append] at h1
  rw [h1]
  refine ⟨fun o ho => (h3 o ho).2, ?_⟩
  rw [h4, h6, List.range_eq_range']
  simp

/-- **C361** (trace_current): the id that is returned for the slide is the id of the last table of the node that was called; there is one exactly if the
node is a traced node of the flow. -/
theorem trace_current (f : N) (l : List Net) (c : Option Nat) :
    (convertFlow f l c).cur = (((convertFlow f l c).out.filter fun o => c = some o.node.obj).filterMap (·.id)).getLast? ∧
    ((convertFlow f l c).cur.isSome = true ↔ ∃ p ∈ (f, Typ.flow) :: orders l, p.1.traced = true ∧ c = some p.1.obj) := by
  obtain ⟨⟨w, h1, h2, h3, _, h5⟩, _⟩ := convert_step f l c
  rw [List.nil_append] at h1
  rw [Option.or_none] at h5
  rw [h1, h5]
  refine ⟨rfl, ?_⟩
  rw [← h2, Option.isSome_iff_ne_none, ne_eq, List.getLast?_eq_none_iff]
  constructor
  · intro h
    obtain ⟨k, hk⟩ := List.exists_mem_of_ne_nil _ h
    obtain ⟨o, ho, hid⟩ := List.mem_filterMap.1 hk
    obtain ⟨ho, hc⟩ := List.mem_filter.1 ho
    refine ⟨_, List.mem_map.2 ⟨o, ho, rfl⟩, ?_, of_decide_eq_true hc⟩
    rw [← (h3 o ho).2]
    simp only [hid, Option.isSome_some]
  · rintro ⟨p, hp, ht, hc⟩ h
    obtain ⟨o, ho, rfl⟩ := List.mem_map.1 hp
    simp only at ht hc
    have hs := (h3 o ho).2
    rw [ht] at hs
    obtain ⟨k, hk⟩ := Option.isSome_iff_exists.1 hs
    have : k ∈ List.filterMap (fun x => x.id) (List.filter (fun o => decide (c = some o.node.obj)) w) :=
      List.mem_filterMap.2 ⟨o, List.mem_filter.2 ⟨ho, decide_eq_true hc⟩, hk⟩
    rw [h] at this
    exact absurd this List.not_mem_nil

/-- The nodes of two slides: the same nodes and traces, whatever the state of the training. -/
def sameNodes (a b : List (N × Typ)) : Prop := a.map (fun p => (p.1.obj, p.1.traced)) = b.map (fun p => (p.1.obj, p.1.traced))

theorem ids_eq : ∀ (v w : List Opening), v.map (fun o => (o.node.obj, o.node.traced)) = w.map (fun o => (o.node.obj, o.node.traced)) →
    (∀ o ∈ v, o.id.isSome = o.node.traced) → (∀ o ∈ w, o.id.isSome = o.node.traced) → v.filterMap (·.id) = w.filterMap (·.id) →
    v.map (fun o => (o.node.obj, o.id)) = w.map (fun o => (o.node.obj, o.id)) := by
  intro v
  induction v with
  | nil => intro w h _ _ _; rw [List.map_nil] at h ⊢; rw [List.map_eq_nil_iff.1 h.symm]; rfl
  | cons a v ih =>
    intro w h h1 h2 h3
    cases w with
    | nil => simp at h
    | cons b w =>
      simp only [List.map_cons, List.cons.injEq, Prod.mk.injEq] at h
      have ha := h1 a (by simp)
      have hb := h2 b (by simp)
      rw [h.1.2, ← hb] at ha
      have h1' := fun o ho => h1 o (List.mem_cons_of_mem _ ho)
      have h2' := fun o ho => h2 o (List.mem_cons_of_mem _ ho)
      cases ea : a.id with
      | none =>
        rw [ea] at ha
        cases eb : b.id with
        | some k => rw [eb] at ha; simp at ha
        | none =>
          rw [List.filterMap_cons_none (f := fun x : Opening => x.id) ea, List.filterMap_cons_none (f := fun x : Opening => x.id) eb] at h3
          simp only [List.map_cons, ea, eb, h.1.1, ih w h.2 h1' h2' h3]
      | some k =>
        rw [ea] at ha
        cases eb : b.id with
        | none => rw [eb] at ha; simp at ha
        | some j =>
          rw [List.filterMap_cons_some (f := fun x : Opening => x.id) ea, List.filterMap_cons_some (f := fun x : Opening => x.id) eb, List.cons.injEq] at h3
          simp only [List.map_cons, ea, eb, h.1.1, h3.1, ih w h.2 h1' h2' h3.2]

/-- **C361** (trace_same_ids): on all slides of a flow a node has the same ids, whichever node was called and however far the training is, so that a
click on a node leads to the slides of this node. -/
theorem trace_same_ids (f f' : N) (l l' : List Net) (c c' : Option Nat)
    (h : sameNodes ((f, .flow) :: orders l) ((f', .flow) :: orders l')) :
    (convertFlow f l c).out.map (fun o => (o.node.obj, o.id)) = (convertFlow f' l' c').out.map (fun o => (o.node.obj, o.id)) := by
  obtain ⟨i1, i2⟩ := trace_ids f l c
  obtain ⟨j1, j2⟩ := trace_ids f' l' c'
  have k1 := (trace_tables f l c).1
  have k2 := (trace_tables f' l' c').1
  have hlen : ∀ m : List (N × Typ), (m.filter fun p => p.1.traced).length = ((m.map fun p => (p.1.obj, p.1.traced)).filter fun p => p.2).length := by
    intro m
    rw [List.filter_map, List.length_map]; rfl
  refine ids_eq _ _ ?_ i1 j1 ?_
  · have := h
    unfold sameNodes at this
    rw [← k1, ← k2, List.map_map, List.map_map] at this
    exact this
  · rw [i2, j2, hlen, hlen, h]

/-- A flow with a traced layer of two nodes, the second of which is in training, and a traced flow node around the first node again. -/
def exNet : List Net :=
  [.layer ⟨1, true, false⟩ [.leaf ⟨2, true, false⟩, .leaf ⟨3, true, true⟩], .flow ⟨4, false, false⟩ [.leaf ⟨2, true, false⟩]]

example : (convertFlow ⟨0, false, false⟩ exNet (some 2)).cur = some 3 ∧
    (convertFlow ⟨0, false, false⟩ exNet (some 2)).out.map (fun o => (o.node.obj, o.cls, o.id)) =
      [(0, none, none), (1, none, some 0), (2, some .current, some 1), (3, some .training, some 2), (4, none, none), (2, some .current, some 3)] := by
  decide +kernel

/-- The hypothesis of `trace_same_ids` for two states of the training. -/
example : sameNodes ((⟨0, false, false⟩, .flow) :: orders exNet)
    ((⟨0, false, false⟩, .flow) :: orders [.layer ⟨1, true, false⟩ [.leaf ⟨2, true, false⟩, .leaf ⟨3, true, false⟩],
      .flow ⟨4, false, true⟩ [.leaf ⟨2, true, true⟩]]) := by
  unfold sameNodes; decide +kernel

end Mdp.TraceHtml
