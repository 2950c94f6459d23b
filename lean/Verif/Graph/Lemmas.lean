import Verif.Graph.Spec
import Mathlib.Data.List.Basic

namespace Mdp.Graph

variable {D : Type}

/-! ### list.remove -/

theorem listRemove_eq {α : Type} [DecidableEq α] (x : α) (l : List α) :
    listRemove x l = if x ∈ l then some (l.erase x) else none := by
  induction l with
  | nil => simp [listRemove]
  | cons y ys ih =>
    simp only [listRemove, ih, List.mem_cons, List.erase_cons]
    by_cases h : y = x
    · simp [h]
    · have h' : ¬ x = y := fun e => h e.symm
      by_cases hx : x ∈ ys <;> simp [h, h', hx]

/-! ### Consistency is preserved -/

theorem consistent_empty : Consistent (G.empty : G D) :=
  ⟨List.nodup_nil, List.nodup_nil, fun _ => rfl, fun _ => rfl, by simp [G.empty], by simp [G.empty],
    by simp [G.empty]⟩

theorem consistent_addNode {g : G D} (h : Consistent g) (d : Option D) :
    Consistent (addNode g d).1 := by
  have hfresh : g.nextNode ∉ g.nodes := fun hm => Nat.lt_irrefl _ (h.node_lt _ hm)
  refine ⟨?_, h.edges_nodup, ?_, ?_, ?_, ?_, h.edge_lt⟩
  · simp only [addNode, List.nodup_append, List.nodup_cons]
    refine ⟨h.nodes_nodup, by simp, ?_⟩
    intro a ha b hb hab
    simp at hb
    exact hfresh (hb ▸ hab ▸ ha)
  · intro n
    simp only [addNode, upd]
    split
    · next hn =>
      subst hn
      symm
      rw [List.filter_eq_nil_iff]
      intro e he ht
      simp at ht
      exact hfresh (ht ▸ (h.ends e he).2)
    · exact h.ein_eq n
  · intro n
    simp only [addNode, upd]
    split
    · next hn =>
      subst hn
      symm
      rw [List.filter_eq_nil_iff]
      intro e he ht
      simp at ht
      exact hfresh (ht ▸ (h.ends e he).1)
    · exact h.eout_eq n
  · intro e he
    have := h.ends e he
    simp [addNode, this.1, this.2]
  · intro n hn
    simp [addNode] at hn ⊢
    rcases hn with hn | hn
    · have := h.node_lt n hn; omega
    · omega

theorem consistent_addEdge {g : G D} (h : Consistent g) {a b : NodeId} (ha : a ∈ g.nodes)
    (hb : b ∈ g.nodes) : Consistent (addEdge g a b).1 := by
  refine ⟨h.nodes_nodup, ?_, ?_, ?_, ?_, h.node_lt, ?_⟩
  · simp only [addEdge, List.nodup_append, List.nodup_cons]
    refine ⟨h.edges_nodup, by simp, ?_⟩
    intro x hx y hy hxy
    simp at hy
    have := h.edge_lt x hx
    rw [hxy, hy] at this
    simp at this
  · intro n
    simp only [addEdge, upd, List.filter_append, h.ein_eq]
    by_cases hn : n = b
    · subst hn; simp
    · have : ¬ b = n := fun e => hn e.symm
      simp [hn, this]
  · intro n
    simp only [addEdge, upd, List.filter_append, h.eout_eq]
    by_cases hn : n = a
    · subst hn; simp
    · have : ¬ a = n := fun e => hn e.symm
      simp [hn, this]
  · intro e he
    simp only [addEdge, List.mem_append, List.mem_singleton] at he
    rcases he with he | he
    · exact h.ends e he
    · subst he; exact ⟨ha, hb⟩
  · intro e he
    simp only [addEdge, List.mem_append, List.mem_singleton] at he ⊢
    rcases he with he | he
    · have := h.edge_lt e he; omega
    · subst he; simp

theorem filter_erase_of_nodup {l : List Edge} (hl : l.Nodup) (e : Edge) (p : Edge → Bool) :
    (l.erase e).filter p = (l.filter p).erase e := by
  rw [hl.erase_eq_filter, List.Nodup.erase_eq_filter (hl.filter p), List.filter_filter, List.filter_filter]
  congr 1
  funext x
  exact Bool.and_comm _ _

/-- What `remove_edge` does on a consistent graph. -/
theorem removeEdge_eq {g : G D} (h : Consistent g) (e : Edge) :
    removeEdge g e =
      if e ∈ g.edges then
        ({ g with edges := g.edges.erase e,
                  eout := upd g.eout e.head ((g.eout e.head).erase e),
                  ein := upd g.ein e.tail ((g.ein e.tail).erase e) }, .ok ())
      else (g, .error .value) := by
  by_cases he : e ∈ g.edges
  · have h1 : e ∈ g.eout e.head := by rw [h.eout_eq]; simp [he]
    have h2 : e ∈ g.ein e.tail := by rw [h.ein_eq]; simp [he]
    simp [removeEdge, listRemove_eq, he, h1, h2]
  · have h1 : e ∉ g.eout e.head := by rw [h.eout_eq]; simp [he]
    simp [removeEdge, listRemove_eq, he, h1]

theorem consistent_removeEdge {g : G D} (h : Consistent g) (e : Edge) :
    Consistent (removeEdge g e).1 := by
  rw [removeEdge_eq h]
  split
  · next he =>
    refine ⟨h.nodes_nodup, h.edges_nodup.erase e, ?_, ?_, ?_, h.node_lt, ?_⟩
    · intro n
      simp only [upd, filter_erase_of_nodup h.edges_nodup]
      split
      · next hn => subst hn; rw [h.ein_eq]
      · next hn =>
        rw [h.ein_eq, List.erase_of_not_mem]
        simp only [List.mem_filter, not_and]
        intro _ ht
        simp at ht
        exact hn ht.symm
    · intro n
      simp only [upd, filter_erase_of_nodup h.edges_nodup]
      split
      · next hn => subst hn; rw [h.eout_eq]
      · next hn =>
        rw [h.eout_eq, List.erase_of_not_mem]
        simp only [List.mem_filter, not_and]
        intro _ ht
        simp at ht
        exact hn ht.symm
    · intro x hx
      exact h.ends x (List.mem_of_mem_erase hx)
    · intro x hx
      exact h.edge_lt x (List.mem_of_mem_erase hx)
  · exact h

theorem removeEdge_nodes (g : G D) (e : Edge) : (removeEdge g e).1.nodes = g.nodes := by
  unfold removeEdge
  split
  · rfl
  · simp only; split
    · rfl
    · split <;> rfl

theorem removeEdge_data (g : G D) (e : Edge) : (removeEdge g e).1.data = g.data := by
  unfold removeEdge
  split
  · rfl
  · simp only; split
    · rfl
    · split <;> rfl

theorem consistent_removeEdges {g : G D} (h : Consistent g) (es : List Edge) :
    Consistent (removeEdges g es).1 := by
  induction es generalizing g with
  | nil => exact h
  | cons e es ih =>
    simp only [removeEdges]
    have hc := consistent_removeEdge h e
    split
    · next g' heq => rw [heq] at hc; exact ih hc
    · next g' x heq => rw [heq] at hc; exact hc

theorem removeEdges_nodes (g : G D) (es : List Edge) :
    (removeEdges g es).1.nodes = g.nodes ∧ (removeEdges g es).1.data = g.data := by
  induction es generalizing g with
  | nil => exact ⟨rfl, rfl⟩
  | cons e es ih =>
    simp only [removeEdges]
    have hc := removeEdge_nodes g e
    have hd := removeEdge_data g e
    split
    · next g' heq =>
      rw [heq] at hc hd
      have := ih g'
      exact ⟨this.1.trans hc, this.2.trans hd⟩
    · next g' x heq => rw [heq] at hc hd; exact ⟨hc, hd⟩

/-- Removing a list of distinct edges of the graph succeeds and removes exactly those. -/
theorem removeEdges_ok {g : G D} (h : Consistent g) (es : List Edge) (hnd : es.Nodup)
    (hsub : ∀ e ∈ es, e ∈ g.edges) :
    (removeEdges g es).2 = .ok () ∧
      (removeEdges g es).1.edges = g.edges.filter (fun e => decide (e ∉ es)) := by
  induction es generalizing g with
  | nil =>
    refine ⟨rfl, ?_⟩
    simp [removeEdges]
  | cons e es ih =>
    have he : e ∈ g.edges := hsub e (by simp)
    have hc := consistent_removeEdge h e
    have heq := removeEdge_eq h e
    rw [if_pos he] at heq
    have hnd' := List.nodup_cons.mp hnd
    simp only [removeEdges, heq]
    rw [heq] at hc
    have := ih hc hnd'.2 (by
      intro x hx
      have hxe : x ≠ e := fun hh => hnd'.1 (hh ▸ hx)
      exact (List.mem_erase_of_ne hxe).2 (hsub x (by simp [hx])))
    refine ⟨this.1, ?_⟩
    rw [this.2]
    simp only
    rw [h.edges_nodup.erase_eq_filter, List.filter_filter]
    congr 1
    funext x
    by_cases h1 : x = e <;> by_cases h2 : x ∈ es <;> simp [h1, h2]

/-- If the same edge occurs twice in the list, the removal raises `ValueError`. -/
theorem removeEdges_dup {g : G D} (h : Consistent g) (es : List Edge) (hnd : ¬ es.Nodup) :
    (removeEdges g es).2 = .error .value := by
  suffices H : ∀ (es : List Edge) (g : G D), Consistent g →
      ((¬ es.Nodup) ∨ ∃ e ∈ es, e ∉ g.edges) → (removeEdges g es).2 = .error .value from
    H es g h (Or.inl hnd)
  intro es
  induction es with
  | nil => intro g _ hh; simp at hh
  | cons e es ih =>
    intro g h hh
    simp only [removeEdges]
    have heq := removeEdge_eq h e
    by_cases he : e ∈ g.edges
    · rw [if_pos he] at heq
      have hc := consistent_removeEdge h e
      rw [heq] at hc
      simp only [heq]
      apply ih _ hc
      rcases hh with hh | ⟨x, hx, hxn⟩
      · by_cases hm : e ∈ es
        · right
          refine ⟨e, hm, ?_⟩
          simp [h.edges_nodup.mem_erase_iff]
        · left
          intro hn
          exact hh (List.nodup_cons.mpr ⟨hm, hn⟩)
      · right
        simp at hx
        rcases hx with hx | hx
        · exact absurd (hx ▸ he) hxn
        · exact ⟨x, hx, fun hm => hxn (List.mem_of_mem_erase hm)⟩
    · rw [if_neg he] at heq
      simp only [heq]

theorem getEdges_nodup_iff {g : G D} (h : Consistent g) (n : NodeId) :
    (getEdges g n).Nodup ↔ ∀ e ∈ g.edges, ¬ (e.head = n ∧ e.tail = n) := by
  unfold getEdges
  rw [h.ein_eq, h.eout_eq, List.nodup_append]
  constructor
  · intro ⟨_, _, hd⟩ e he hh
    exact hd e (by simp [he, hh.2]) e (by simp [he, hh.1]) rfl
  · intro hh
    refine ⟨h.edges_nodup.filter _, h.edges_nodup.filter _, ?_⟩
    intro a ha b hb hab
    subst hab
    simp at ha hb
    exact hh a ha.1 ⟨hb.2, ha.2⟩

theorem mem_getEdges {g : G D} (h : Consistent g) (n : NodeId) (e : Edge) :
    e ∈ getEdges g n ↔ e ∈ g.edges ∧ (e.tail = n ∨ e.head = n) := by
  unfold getEdges
  rw [h.ein_eq, h.eout_eq]
  simp
  tauto

theorem consistent_removeNode {g : G D} (h : Consistent g) (n : NodeId) :
    Consistent (removeNode g n).1 := by
  unfold removeNode
  split
  · exact h
  · next hn =>
    have hn : n ∈ g.nodes := not_not.mp hn
    have hc := consistent_removeEdges h (getEdges g n)
    have hnodes := (removeEdges_nodes g (getEdges g n)).1
    have hnd : ∀ u, removeEdges g (getEdges g n) = (u, .ok ()) →
        u.edges = g.edges.filter (fun e => decide (e ∉ getEdges g n)) := by
      intro u hu
      by_cases hd : (getEdges g n).Nodup
      · have := removeEdges_ok h (getEdges g n) hd
          (fun e he => ((mem_getEdges h n e).1 he).1)
        rw [hu] at this
        exact this.2
      · have := removeEdges_dup h _ hd
        rw [hu] at this
        simp at this
    split
    · next g' x heq => rw [heq] at hc; exact hc
    · next g' heq =>
      rw [heq] at hc hnodes
      have hed := hnd g' heq
      simp only at hnodes
      rw [listRemove_eq, hnodes, if_pos hn]
      refine ⟨?_, hc.edges_nodup, hc.ein_eq, hc.eout_eq, ?_, ?_, hc.edge_lt⟩
      · exact h.nodes_nodup.erase n
      · intro e he
        have hends := hc.ends e he
        simp only [hnodes] at hends
        simp only [hed, List.mem_filter, decide_eq_true_eq, mem_getEdges h] at he
        simp only [h.nodes_nodup.mem_erase_iff]
        refine ⟨⟨?_, hends.1⟩, ⟨?_, hends.2⟩⟩
        · intro hh; exact he.2 ⟨he.1, Or.inr hh⟩
        · intro hh; exact he.2 ⟨he.1, Or.inl hh⟩
      · intro m hm
        exact hc.node_lt m (by rw [hnodes]; exact List.mem_of_mem_erase hm)

theorem consistent_addNodes {g : G D} (h : Consistent g) (ds : List (Option D)) :
    Consistent (addNodes g ds).1 := by
  induction ds generalizing g with
  | nil => exact h
  | cons d ds ih => exact ih (consistent_addNode h d)

theorem consistent_addEdgesTo {g : G D} (h : Consistent g) {a : NodeId} (ha : a ∈ g.nodes)
    (ts : List NodeId) (hts : ∀ t ∈ ts, t ∈ g.nodes) :
    Consistent (addEdgesTo g a ts).1 ∧ (addEdgesTo g a ts).1.nodes = g.nodes := by
  induction ts generalizing g with
  | nil => exact ⟨h, rfl⟩
  | cons t ts ih =>
    have hc := consistent_addEdge h ha (hts t (by simp))
    exact ih hc ha (fun x hx => hts x (by simp [hx]))

theorem consistent_addFull {g : G D} (h : Consistent g) (fs ts : List NodeId)
    (hfs : ∀ n ∈ fs, n ∈ g.nodes) (hts : ∀ t ∈ ts, t ∈ g.nodes) :
    Consistent (addFullConnectivity g fs ts).1 := by
  induction fs generalizing g with
  | nil => exact h
  | cons f fs ih =>
    have hc := consistent_addEdgesTo h (hfs f (by simp)) ts hts
    refine ih hc.1 ?_ ?_
    · intro n hn; rw [hc.2]; exact hfs n (by simp [hn])
    · intro n hn; rw [hc.2]; exact hts n hn

/-! ### Trees -/

mutual
/-- What `recursive_map(add_node, ·)` does. -/
theorem addNested_spec {g : G D} (h : Consistent g) (t : Nested (Option D)) :
    Consistent (addNested g t).1 ∧
    (addNested g t).1.edges = g.edges ∧
    (addNested g t).1.nodes = g.nodes ++ Nested.values (addNested g t).2 ∧
    (Nested.values (addNested g t).2) = (List.range' g.nextNode (Nested.values t).length) ∧
    (addNested g t).1.nextNode = g.nextNode + (Nested.values t).length ∧
    (∀ n, n < g.nextNode → (addNested g t).1.data n = g.data n) ∧
    Nested.Rel (fun d n => (addNested g t).1.data n = d) t (addNested g t).2 := by
  match t with
  | .leaf d =>
    have := consistent_addNode h d
    refine ⟨this, rfl, rfl, ?_, rfl, ?_, ?_⟩
    · simp [addNested, Nested.values, addNode]
    · intro n hn
      simp only [addNested, addNode, upd]
      rw [if_neg (by omega)]
    · simp [addNested, Nested.Rel, addNode, upd]
  | .seq l =>
    have := addNestedList_spec h l
    simpa [addNested, Nested.values, Nested.Rel] using this
theorem addNestedList_spec {g : G D} (h : Consistent g) (l : List (Nested (Option D))) :
    Consistent (addNestedList g l).1 ∧
    (addNestedList g l).1.edges = g.edges ∧
    (addNestedList g l).1.nodes = g.nodes ++ Nested.valuesL (addNestedList g l).2 ∧
    (Nested.valuesL (addNestedList g l).2) = (List.range' g.nextNode (Nested.valuesL l).length) ∧
    (addNestedList g l).1.nextNode = g.nextNode + (Nested.valuesL l).length ∧
    (∀ n, n < g.nextNode → (addNestedList g l).1.data n = g.data n) ∧
    Nested.RelL (fun d n => (addNestedList g l).1.data n = d) l (addNestedList g l).2 := by
  match l with
  | [] =>
    refine ⟨h, rfl, ?_, ?_, ?_, fun _ _ => rfl, ?_⟩ <;>
      simp [addNestedList, Nested.valuesL, Nested.RelL]
  | t :: ts =>
    have ⟨c1, e1, n1, v1, k1, d1, r1⟩ := addNested_spec h t
    have ⟨c2, e2, n2, v2, k2, d2, r2⟩ := addNestedList_spec c1 ts
    refine ⟨c2, e2.trans e1, ?_, ?_, ?_, ?_, ?_⟩
    · simp only [addNestedList, Nested.valuesL]
      rw [n2, n1, List.append_assoc]
    · simp only [addNestedList, Nested.valuesL, List.length_append]
      rw [v2, v1, k1, List.range'_append_1]
    · simp only [addNestedList, Nested.valuesL, List.length_append]
      rw [k2, k1]; omega
    · intro n hn
      simp only [addNestedList]
      rw [d2 n (by omega), d1 n hn]
    · simp only [addNestedList, Nested.RelL]
      refine ⟨?_, r2⟩
      refine Nested_Rel_mono t _ ?_ r1
      intro d n hn hd
      rw [d2 n ?_, hd]
      rw [v1] at hn
      have := List.mem_range'_1.1 hn
      omega
theorem Nested_Rel_mono {α β : Type} {R S : α → β → Prop} (t : Nested α) (u : Nested β)
    (h : ∀ a b, b ∈ Nested.values u → R a b → S a b) (hr : Nested.Rel R t u) :
    Nested.Rel S t u := by
  match t, u with
  | .leaf a, .leaf b => exact h a b (by simp [Nested.values]) hr
  | .seq l, .seq m =>
    simp only [Nested.Rel, Nested.values] at *
    exact Nested_RelL_mono l m h hr
  | .leaf _, .seq _ => simp [Nested.Rel] at hr
  | .seq _, .leaf _ => simp [Nested.Rel] at hr
theorem Nested_RelL_mono {α β : Type} {R S : α → β → Prop} (l : List (Nested α)) (m : List (Nested β))
    (h : ∀ a b, b ∈ Nested.valuesL m → R a b → S a b) (hr : Nested.RelL R l m) :
    Nested.RelL S l m := by
  match l, m with
  | [], [] => simp [Nested.RelL]
  | a :: l, b :: m =>
    simp only [Nested.RelL] at *
    refine ⟨Nested_Rel_mono a b (fun x y hy => h x y ?_) hr.1,
      Nested_RelL_mono l m (fun x y hy => h x y ?_) hr.2⟩
    · simp [Nested.valuesL, hy]
    · simp [Nested.valuesL, hy]
  | [], _ :: _ => simp [Nested.RelL] at hr
  | _ :: _, [] => simp [Nested.RelL] at hr
end

/-- The result of a graph operation that only adds edges: the new edges have the given ends. -/
structure AddsEdges (g g' : G D) (ends : List (NodeId × NodeId)) : Prop where
  nodes : g'.nodes = g.nodes
  data : g'.data = g.data
  next : g'.nextNode = g.nextNode
  edges : ∃ es : List Edge, g'.edges = g.edges ++ es ∧
    (es.map fun e => (e.head, e.tail)).Perm ends

theorem AddsEdges.refl (g : G D) : AddsEdges g g [] := ⟨rfl, rfl, rfl, [], by simp, by simp⟩

theorem AddsEdges.trans {g g' g'' : G D} {a b : List (NodeId × NodeId)} (h : AddsEdges g g' a)
    (h' : AddsEdges g' g'' b) : AddsEdges g g'' (a ++ b) := by
  obtain ⟨es, he, hp⟩ := h.edges
  obtain ⟨es', he', hp'⟩ := h'.edges
  refine ⟨h'.nodes.trans h.nodes, h'.data.trans h.data, h'.next.trans h.next, es ++ es', ?_, ?_⟩
  · rw [he', he, List.append_assoc]
  · rw [List.map_append]; exact hp.append hp'

theorem AddsEdges.perm {g g' : G D} {a b : List (NodeId × NodeId)} (h : AddsEdges g g' a)
    (hp : a.Perm b) : AddsEdges g g' b := by
  obtain ⟨es, he, hq⟩ := h.edges
  exact ⟨h.nodes, h.data, h.next, es, he, hq.trans hp⟩

theorem addEdge_adds (g : G D) (h t : NodeId) : AddsEdges g (addEdge g h t).1 [(h, t)] :=
  ⟨rfl, rfl, rfl, _, rfl, by simp⟩

mutual
theorem reduceSeq_spec {g : G D} (h : Consistent g) (l : List (Nested NodeId))
    (ht : Nested.isTree (.seq l) = true) (hm : ∀ n ∈ Nested.valuesL l, n ∈ g.nodes) :
    ∃ r, Nested.root? (.seq l) = some r ∧ (reduceSeq g l).2 = .ok (.leaf r) ∧
      Consistent (reduceSeq g l).1 ∧ AddsEdges g (reduceSeq g l).1 (Nested.links (.seq l)) := by
  match l with
  | [] => simp [Nested.isTree] at ht
  | .seq _ :: _ => simp [Nested.isTree] at ht
  | .leaf r :: cs =>
    have hr : r ∈ g.nodes := hm r (by simp [Nested.valuesL, Nested.values])
    have := reduceFrom_spec h r hr cs (by simpa [Nested.isTree] using ht)
      (fun n hn => hm n (by simp [Nested.valuesL, hn]))
    refine ⟨r, rfl, ?_⟩
    simpa [reduceSeq, Nested.links] using this
theorem reduceFrom_spec {g : G D} (h : Consistent g) (r : NodeId) (hr : r ∈ g.nodes)
    (cs : List (Nested NodeId)) (ht : Nested.areTrees cs = true)
    (hm : ∀ n ∈ Nested.valuesL cs, n ∈ g.nodes) :
    (reduceFrom g (.leaf r) cs).2 = .ok (.leaf r) ∧
      Consistent (reduceFrom g (.leaf r) cs).1 ∧
      AddsEdges g (reduceFrom g (.leaf r) cs).1 (Nested.linksL r cs) := by
  match cs with
  | [] =>
    refine ⟨?_, ?_, ?_⟩ <;> simp only [reduceFrom, Nested.linksL]
    · exact h
    · exact AddsEdges.refl g
  | .leaf n :: cs =>
    have hn : n ∈ g.nodes := hm n (by simp [Nested.valuesL, Nested.values])
    have hc := consistent_addEdge h hr hn
    have := reduceFrom_spec hc r hr cs (by simpa [Nested.areTrees, Nested.isTree] using ht)
      (fun m hmm => hm m (by simp [Nested.valuesL, hmm]))
    simp only [reduceFrom, addTreeEdge]
    refine ⟨this.1, this.2.1, ?_⟩
    have ha := (addEdge_adds g r n).trans this.2.2
    simpa [Nested.linksL, Nested.root?, Nested.links] using ha
  | .seq l :: cs =>
    simp only [Nested.areTrees, Bool.and_eq_true] at ht
    obtain ⟨s, hs, hok, hc1, ha1⟩ := reduceSeq_spec h l ht.1
      (fun m hmm => hm m (by simp [Nested.valuesL, Nested.values, hmm]))
    have hsm : s ∈ g.nodes := by
      apply hm
      match l, hs with
      | .leaf s' :: _, hs =>
        simp only [Nested.root?, Option.some.injEq] at hs
        simp [Nested.valuesL, Nested.values, hs]
    have hr1 : r ∈ (reduceSeq g l).1.nodes := by rw [ha1.nodes]; exact hr
    have hs1 : s ∈ (reduceSeq g l).1.nodes := by rw [ha1.nodes]; exact hsm
    have hc2 := consistent_addEdge hc1 hr1 hs1
    have := reduceFrom_spec hc2 r hr1 cs ht.2
      (fun m hmm => by
        have : m ∈ g.nodes := hm m (by simp [Nested.valuesL, hmm])
        exact ha1.nodes.symm ▸ this)
    have ha := (ha1.trans (addEdge_adds _ r s)).trans this.2.2
    have heq : reduceFrom g (.leaf r) (.seq l :: cs) =
        reduceFrom (addEdge (reduceSeq g l).1 r s).1 (.leaf r) cs := by
      rw [reduceFrom]
      generalize hx : reduceSeq g l = x at *
      obtain ⟨g', y⟩ := x
      simp only at hok
      subst hok
      simp [addTreeEdge]
    rw [heq]
    refine ⟨this.1, this.2.1, ha.perm ?_⟩
    simp only [Nested.linksL, hs, Option.toList_some, List.map_cons, List.map_nil]
    exact (List.perm_append_comm).append_right _
end

mutual
theorem addTree_consistent_aux {g : G D} (h : Consistent g) (l : List (Nested NodeId))
    (hm : ∀ n ∈ Nested.valuesL l, n ∈ g.nodes) :
    Consistent (reduceSeq g l).1 ∧ (reduceSeq g l).1.nodes = g.nodes ∧
      ∀ y, (reduceSeq g l).2 = .ok y → ∀ n ∈ Nested.values y, n ∈ g.nodes := by
  match l with
  | [] => simp [reduceSeq, h]
  | x :: ys =>
    rw [reduceSeq]
    exact reduceFrom_consistent_aux h x (fun n hn => hm n (by simp [Nested.valuesL, hn])) ys
      (fun n hn => hm n (by simp [Nested.valuesL, hn]))
theorem reduceFrom_consistent_aux {g : G D} (h : Consistent g) (x : Nested NodeId)
    (hx : ∀ n ∈ Nested.values x, n ∈ g.nodes) (l : List (Nested NodeId))
    (hm : ∀ n ∈ Nested.valuesL l, n ∈ g.nodes) :
    Consistent (reduceFrom g x l).1 ∧ (reduceFrom g x l).1.nodes = g.nodes ∧
      ∀ y, (reduceFrom g x l).2 = .ok y → ∀ n ∈ Nested.values y, n ∈ g.nodes := by
  match l with
  | [] =>
    simp only [reduceFrom]
    exact ⟨h, trivial, fun y hy => by cases hy; exact hx⟩
  | .leaf n :: ys =>
    have hn : n ∈ g.nodes := hm n (by simp [Nested.valuesL, Nested.values])
    have hys : ∀ m ∈ Nested.valuesL ys, m ∈ g.nodes := fun m hmm => hm m (by simp [Nested.valuesL, hmm])
    cases x with
    | seq l => simp [reduceFrom, addTreeEdge, h]
    | leaf r =>
      have hr : r ∈ g.nodes := hx r (by simp [Nested.values])
      simp only [reduceFrom, addTreeEdge]
      exact reduceFrom_consistent_aux (consistent_addEdge h hr hn) (.leaf r) hx ys hys
  | .seq l :: ys =>
    have hl : ∀ m ∈ Nested.valuesL l, m ∈ g.nodes :=
      fun m hmm => hm m (by simp [Nested.valuesL, Nested.values, hmm])
    have hys : ∀ m ∈ Nested.valuesL ys, m ∈ g.nodes := fun m hmm => hm m (by simp [Nested.valuesL, hmm])
    have ⟨c1, n1, v1⟩ := addTree_consistent_aux h l hl
    rw [reduceFrom]
    generalize hq : reduceSeq g l = q at *
    obtain ⟨g', y⟩ := q
    simp only at c1 n1 v1
    cases y with
    | error e => simp [c1, n1]
    | ok y =>
      simp only
      cases x with
      | seq _ => simp [addTreeEdge, c1, n1]
      | leaf r =>
        cases y with
        | seq _ => simp [addTreeEdge, c1, n1]
        | leaf s =>
          have hr : r ∈ g'.nodes := n1.symm ▸ hx r (by simp [Nested.values])
          have hs : s ∈ g'.nodes := n1.symm ▸ v1 _ rfl s (by simp [Nested.values])
          simp only [addTreeEdge]
          have := reduceFrom_consistent_aux (consistent_addEdge c1 hr hs) (.leaf r)
            (fun n hn => by
              have := hx n hn
              exact n1.symm ▸ this) ys (fun n hn => n1.symm ▸ hys n hn)
          rw [← n1]
          exact this
end

theorem consistent_addTree {g : G D} (h : Consistent g) (t : List (Nested (Option D))) :
    Consistent (addTree g t).1 := by
  have ⟨c1, _, n1, _⟩ := addNestedList_spec h t
  have := addTree_consistent_aux c1 (addNestedList g t).2 (by
    intro n hn; rw [n1]; simp [hn])
  unfold addTree
  simp only
  split
  · next g2 e heq => rw [heq] at this; exact this.1
  · next g2 e heq => rw [heq] at this; exact this.1

theorem Reachable.consistent {g : G D} (h : Reachable g) : Consistent g := by
  induction h with
  | empty => exact consistent_empty
  | addNode d _ ih => exact consistent_addNode ih d
  | addEdge a b _ ha hb ih => exact consistent_addEdge ih ha hb
  | removeEdge e _ ih => exact consistent_removeEdge ih e
  | removeNode n _ ih => exact consistent_removeNode ih n
  | addNodes ds _ ih => exact consistent_addNodes ih ds
  | addFull fs ts _ hfs hts ih => exact consistent_addFull ih fs ts hfs hts
  | addTree t _ ih => exact consistent_addTree ih t

end Mdp.Graph
