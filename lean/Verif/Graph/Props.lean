import Verif.Graph.Search

/-! # Property theorems for `mdp.graph` (C29 - C34) -/

namespace Mdp.Graph

variable {D : Type}

/-- A graph used in the non-vacuity examples: `0 → 1 → 2`, `0 → 2`, and the isolated node `3`. -/
def demo : G Unit :=
  let g := (addNodes G.empty [none, none, none, none]).1
  let g := (addEdge g 0 1).1
  let g := (addEdge g 1 2).1
  (addEdge g 0 2).1

/-- `0 → 1 → 0`, `1 → 2`. -/
def demoCyclic : G Unit :=
  let g := (addNodes G.empty [none, none, none]).1
  let g := (addEdge g 0 1).1
  let g := (addEdge g 1 0).1
  (addEdge g 1 2).1

theorem demo_reachable : Reachable demo := by
  unfold demo
  refine .addEdge _ _ (.addEdge _ _ (.addEdge _ _ (.addNodes _ .empty) ?_ ?_) ?_ ?_) ?_ ?_ <;> decide

theorem demoCyclic_reachable : Reachable demoCyclic := by
  unfold demoCyclic
  refine .addEdge _ _ (.addEdge _ _ (.addEdge _ _ (.addNodes _ .empty) ?_ ?_) ?_ ?_) ?_ ?_ <;> decide

/-! ## C29, C30: topological sort -/

/-- `topological_sort` always terminates. -/
theorem topological_sort_terminates (g : G D) (hg : Reachable g) : ∃ r, TopologicalSort g r := by
  obtain ⟨r, hr, _⟩ := topo_returns g hg.consistent
  exact ⟨r, hr⟩

/-- C29: a returned list is a topological order. -/
theorem topological_sort_sound (g : G D) (hg : Reachable g) (l : List NodeId)
    (h : TopologicalSort g (.ok l)) : IsTopologicalOrder g l := by
  obtain ⟨r, hr, L, hnd, hsub, hcl, _, hres⟩ := topo_returns g hg.consistent
  have := Py.Returns.det h hr
  subst this
  split at hres
  · next hlen =>
    cases hres
    have hperm : l.Perm g.nodes := by
      apply List.Subperm.perm_of_length_le
      · exact hnd.subperm (fun x hx => hsub x hx)
      · omega
    refine ⟨hperm, fun u v huv => hcl.idxOf_lt (hperm.mem_iff.2 (Adj.mem hg.consistent huv).2) huv⟩
  · cases hres

/-- C30: the sort raises `GraphTopologicalException` exactly if the graph has a directed cycle. -/
theorem topological_sort_raises_iff_cyclic (g : G D) (hg : Reachable g)
    (r : Except Err (List NodeId)) (h : TopologicalSort g r) :
    (∃ l, r = .error (.topological l)) ↔ Cyclic g := by
  obtain ⟨r', hr, L, hnd, hsub, hcl, hcomp, hres⟩ := topo_returns g hg.consistent
  have := Py.Returns.det h hr
  subst this
  constructor
  · rintro ⟨l, rfl⟩
    split at hres
    · cases hres
    · next hlen =>
      have : ∃ v ∈ g.nodes, v ∉ L := by
        by_contra hno
        push Not at hno
        have h1 := nodup_length_le hnd hsub
        have h2 := nodup_length_le hg.consistent.nodes_nodup hno
        omega
      obtain ⟨v, hv, hvL⟩ := this
      obtain ⟨c, hc, _⟩ := exists_cycle hg.consistent hcomp hv hvL
      exact ⟨c, hc⟩
  · rintro ⟨c, hc⟩
    have hcm : c ∈ g.nodes := by
      unfold OnCycle at hc
      obtain ⟨b, _, hb⟩ := Relation.TransGen.tail'_iff.1 hc
      exact (Adj.mem hg.consistent hb).2
    have hcL : c ∉ L := by
      intro hL
      have := (hcl.idxOf_lt_trans hL hc).2
      omega
    refine ⟨L, ?_⟩
    rw [hres, if_neg]
    intro hlen
    have hperm : L.Perm g.nodes := by
      apply List.Subperm.perm_of_length_le
      · exact hnd.subperm (fun x hx => hsub x hx)
      · omega
    exact hcL (hperm.mem_iff.2 hcm)

/-- C30: the sort never fails in another way. -/
theorem topological_sort_outcomes (g : G D) (hg : Reachable g) (r : Except Err (List NodeId))
    (h : TopologicalSort g r) : (∃ l, r = .ok l) ∨ ∃ l, r = .error (.topological l) := by
  obtain ⟨r', hr, L, _, _, _, _, hres⟩ := topo_returns g hg.consistent
  have := Py.Returns.det h hr
  subst this
  split at hres
  · exact Or.inl ⟨L, hres⟩
  · exact Or.inr ⟨L, hres⟩

/-- C30: the list carried by the exception consists of exactly the nodes that are not downstream of
a cycle, each once, ancestors first. -/
theorem topological_sort_exception_list (g : G D) (hg : Reachable g) (l : List NodeId)
    (h : TopologicalSort g (.error (.topological l))) :
    l.Nodup ∧ (∀ v, v ∈ l ↔ v ∈ g.nodes ∧ ¬ ∃ c, OnCycle g c ∧ Reach g c v) ∧
      ∀ u v, Adj g u v → v ∈ l → l.idxOf u < l.idxOf v := by
  obtain ⟨r', hr, L, hnd, hsub, hcl, hcomp, hres⟩ := topo_returns g hg.consistent
  have := Py.Returns.det h hr
  subst this
  split at hres
  · cases hres
  · cases hres
    refine ⟨hnd, ?_, fun u v huv hv => hcl.idxOf_lt hv huv⟩
    intro v
    constructor
    · intro hv
      refine ⟨hsub v hv, ?_⟩
      rintro ⟨c, hc, hcv⟩
      have := (hcl.idxOf_lt_trans (hcl.mem_reach hv hcv) hc).2
      omega
    · rintro ⟨hv, hno⟩
      by_contra hvL
      exact hno (exists_cycle hg.consistent hcomp hv hvL)

example : Reachable demo ∧ TopologicalSort demo (.ok [0, 3, 1, 2]) :=
  ⟨demo_reachable, 10, by rfl⟩

example : Reachable demoCyclic ∧ TopologicalSort demoCyclic (.error (.topological [])) :=
  ⟨demoCyclic_reachable, 10, by rfl⟩

/-! ## C31: searches -/

/-- C31: `dfs` terminates; its result is duplicate free, starts with the root, and consists of
exactly the nodes reachable from the root; `visit_fct` has been called once per listed node, in
that order. -/
theorem dfs_spec {α : Type} (g : G D) (hg : Reachable g) (root : NodeId) (hr : root ∈ g.nodes)
    (visit : α → NodeId → α) (a : α) :
    ∃ l, Dfs g visit root a (l, l.foldl visit a) ∧ l.Nodup ∧ l.head? = some root ∧
      ∀ v, v ∈ l ↔ Reach g root v := by
  have hc := hg.consistent
  obtain ⟨⟨l, b⟩, h1, h2, h3, h4⟩ := dfs_returns (outNeighbors g) visit g.nodes
    (outNeighbors_closed hc) root hr a
  rw [rel_outNeighbors hc] at h3
  simp only at h4
  subst h4
  exact ⟨l, h1, h2, dfs_head h1, h3⟩

theorem undirected_dfs_spec {α : Type} (g : G D) (hg : Reachable g) (root : NodeId)
    (hr : root ∈ g.nodes) (visit : α → NodeId → α) (a : α) :
    ∃ l, UndirectedDfs g visit root a (l, l.foldl visit a) ∧ l.Nodup ∧ l.head? = some root ∧
      ∀ v, v ∈ l ↔ UReach g root v := by
  have hc := hg.consistent
  obtain ⟨⟨l, b⟩, h1, h2, h3, h4⟩ := dfs_returns (neighbors g) visit g.nodes
    (neighbors_closed hc) root hr a
  rw [rel_neighbors hc] at h3
  simp only at h4
  subst h4
  exact ⟨l, h1, h2, dfs_head h1, h3⟩

/-- C31: the same for `bfs`, which moreover lists nodes by non-decreasing distance. -/
theorem bfs_spec {α : Type} (g : G D) (hg : Reachable g) (root : NodeId) (hr : root ∈ g.nodes)
    (visit : α → NodeId → α) (a : α) :
    ∃ l, Bfs g visit root a (l, l.foldl visit a) ∧ l.Nodup ∧ l.head? = some root ∧
      (∀ v, v ∈ l ↔ Reach g root v) ∧ l.Pairwise (NoFarther (Adj g) root) := by
  have hc := hg.consistent
  obtain ⟨⟨l, b⟩, h1, h2, h3, h4, h5⟩ := bfs_returns (outNeighbors g) visit g.nodes
    (outNeighbors_closed hc) root hr a
  rw [rel_outNeighbors hc] at h3 h5
  simp only at h4
  subst h4
  exact ⟨l, h1, h2, bfs_head h1, h3, h5⟩

theorem undirected_bfs_spec {α : Type} (g : G D) (hg : Reachable g) (root : NodeId)
    (hr : root ∈ g.nodes) (visit : α → NodeId → α) (a : α) :
    ∃ l, UndirectedBfs g visit root a (l, l.foldl visit a) ∧ l.Nodup ∧ l.head? = some root ∧
      (∀ v, v ∈ l ↔ UReach g root v) ∧ l.Pairwise (NoFarther (UAdj g) root) := by
  have hc := hg.consistent
  obtain ⟨⟨l, b⟩, h1, h2, h3, h4, h5⟩ := bfs_returns (neighbors g) visit g.nodes
    (neighbors_closed hc) root hr a
  rw [rel_neighbors hc] at h3 h5
  simp only at h4
  subst h4
  exact ⟨l, h1, h2, bfs_head h1, h3, h5⟩

example : Reachable demo ∧ (0 : NodeId) ∈ demo.nodes ∧
    Dfs demo (fun (n : Nat) _ => n + 1) 0 0 ([0, 2, 1], 3) ∧
    Bfs demo (fun (n : Nat) _ => n + 1) 0 0 ([0, 1, 2], 3) :=
  ⟨demo_reachable, by decide, ⟨10, by rfl⟩, ⟨10, by rfl⟩⟩

/-! ## C32: connected components -/

/-- C32: the components partition the nodes, and two nodes share a component iff an undirected
path joins them. -/
theorem connected_components_partition (g : G D) (hg : Reachable g) :
    ∃ cs, ConnectedComponents g cs ∧ (∀ cs', ConnectedComponents g cs' → cs' = cs) ∧
      cs.flatten.Perm g.nodes ∧ (∀ c ∈ cs, c ≠ []) ∧
      ∀ u ∈ g.nodes, ∀ v ∈ g.nodes, (∃ c ∈ cs, u ∈ c ∧ v ∈ c) ↔ UReach g u v := by
  have hc := hg.consistent
  obtain ⟨cs, h1, h2, _, h4, h5, h6⟩ := components_exists hc g.nodes [] (fun _ h => h) (by simp)
  have h4 : ∀ n ∈ g.nodes, n ∈ cs.flatten := fun n hn => by simpa using h4 n hn
  refine ⟨cs, h1, fun cs' h' => (h1.det h').symm, ?_, fun c hcm => (h6 c hcm).1, ?_⟩
  · apply List.Subperm.perm_of_length_le
    · exact h2.subperm (fun x hx => h5 x hx)
    · exact nodup_length_le hc.nodes_nodup h4
  · intro u hu v _
    constructor
    · rintro ⟨c, hcm, huc, hvc⟩
      exact ((h6 c hcm).2 u huc v).1 hvc
    · intro huv
      obtain ⟨c, hcm, huc⟩ := List.mem_flatten.1 (h4 u hu)
      exact ⟨c, hcm, huc, ((h6 c hcm).2 u huc v).2 huv⟩

/-- C32: on a non-empty graph `is_weakly_connected` is `True` iff every two nodes are joined by an
undirected path. -/
theorem is_weakly_connected_iff (g : G D) (hg : Reachable g) (hne : g.nodes ≠ []) :
    ∃ b, IsWeaklyConnected g (.ok b) ∧ (∀ r, IsWeaklyConnected g r → r = .ok b) ∧
      (b = true ↔ ∀ u ∈ g.nodes, ∀ v ∈ g.nodes, UReach g u v) := by
  have hc := hg.consistent
  obtain ⟨n, ns, hns⟩ : ∃ n ns, g.nodes = n :: ns := by
    cases h : g.nodes with
    | nil => exact absurd h hne
    | cons n ns => exact ⟨n, ns, rfl⟩
  have hn : n ∈ g.nodes := by simp [hns]
  obtain ⟨l, h1, h2, _, h4⟩ := undirected_dfs_spec g hg n hn (fun (_ : Unit) _ => ()) ()
  have hl : ∀ x ∈ l, x ∈ g.nodes := fun x hx => UReach.mem hc ((h4 x).1 hx) hn
  refine ⟨l.length == g.nodes.length, ?_, ?_, ?_⟩
  · unfold IsWeaklyConnected
    rw [hns]
    exact ⟨l, h1, by simp⟩
  · intro r hr
    unfold IsWeaklyConnected at hr
    rw [hns] at hr
    obtain ⟨l', hl', hr⟩ := hr
    have := Py.Returns.det h1 hl'
    cases this
    rw [hr, hns]
  · rw [beq_iff_eq]
    constructor
    · intro hlen u hu v hv
      have hperm : l.Perm g.nodes := by
        apply List.Subperm.perm_of_length_le
        · exact h2.subperm (fun x hx => hl x hx)
        · omega
      have hu := (h4 u).1 (hperm.mem_iff.2 hu)
      have hv := (h4 v).1 (hperm.mem_iff.2 hv)
      exact Relation.ReflTransGen.trans (ureach_symm hu) hv
    · intro hall
      have h1 := nodup_length_le h2 hl
      have h2 := nodup_length_le hc.nodes_nodup (fun v hv => (h4 v).2 (hall n hn v hv))
      omega

/-- C32, error branch: on an empty graph `is_weakly_connected` raises `IndexError`. -/
theorem is_weakly_connected_empty (g : G D) (h : g.nodes = []) (r : Except Err Bool) :
    IsWeaklyConnected g r ↔ r = .error .index := by
  unfold IsWeaklyConnected
  rw [h]

example : Reachable demo ∧ demo.nodes ≠ [] ∧ ConnectedComponents demo [[0, 2, 1], [3]] ∧
    IsWeaklyConnected demo (.ok false) := by
  refine ⟨demo_reachable, by decide, ?_, ?_⟩
  · refine .comp (by decide) ⟨10, rfl⟩ (.skip (by decide) (.skip (by decide)
      (.comp (by decide) ⟨10, rfl⟩ (.nil _))))
  · exact ⟨[0, 2, 1], ⟨10, rfl⟩, rfl⟩

/-! ## C33: book-keeping -/

/-- C33: after any sequence of calls the book-keeping is consistent. -/
theorem graph_consistent (g : G D) (hg : Reachable g) : Consistent g := hg.consistent

/-- C33: `add_edge` adds exactly one new edge. -/
theorem add_edge_spec (g : G D) (hg : Reachable g) (h t : NodeId) :
    (addEdge g h t).1.edges = g.edges ++ [(addEdge g h t).2] ∧ (addEdge g h t).2 ∉ g.edges ∧
      (addEdge g h t).2.head = h ∧ (addEdge g h t).2.tail = t ∧ (addEdge g h t).1.nodes = g.nodes := by
  refine ⟨rfl, ?_, rfl, rfl, rfl⟩
  intro hm
  have := hg.consistent.edge_lt _ hm
  simp [addEdge] at this

/-- C33: `add_node` adds exactly one new, unconnected node. -/
theorem add_node_spec (g : G D) (hg : Reachable g) (d : Option D) :
    (addNode g d).1.nodes = g.nodes ++ [(addNode g d).2] ∧ (addNode g d).2 ∉ g.nodes ∧
      (addNode g d).1.edges = g.edges ∧ (addNode g d).1.data (addNode g d).2 = d := by
  refine ⟨rfl, ?_, rfl, by simp [addNode, upd]⟩
  intro hm
  have := hg.consistent.node_lt _ hm
  simp [addNode] at this

theorem addNodes_data (g : G D) (ds : List (Option D)) (n : NodeId) (hn : n < g.nextNode) :
    (addNodes g ds).1.data n = g.data n := by
  induction ds generalizing g with
  | nil => rfl
  | cons d ds ih =>
    have hn' : n < (addNode g d).1.nextNode := by simp only [addNode]; omega
    have h1 : (addNode g d).1.data n = g.data n := by
      simp only [addNode, upd]
      rw [if_neg (by omega)]
    exact (ih _ hn').trans h1

/-- C33: `add_nodes` adds one new node for each data value, in their order, and returns these nodes. -/
theorem add_nodes_spec (g : G D) (hg : Reachable g) (ds : List (Option D)) :
    let r := addNodes g ds
    r.1.nodes = g.nodes ++ r.2 ∧ r.2.Nodup ∧ (∀ n ∈ r.2, n ∉ g.nodes) ∧ r.2.map r.1.data = ds ∧
      (∀ n ∈ g.nodes, r.1.data n = g.data n) ∧ r.1.edges = g.edges := by
  simp only
  have key : ∀ (ds : List (Option D)) (g : G D), Consistent g →
      (addNodes g ds).1.nodes = g.nodes ++ (addNodes g ds).2 ∧
      (addNodes g ds).2.map (addNodes g ds).1.data = ds ∧ (addNodes g ds).1.edges = g.edges := by
    intro ds
    induction ds with
    | nil => intro g _; exact ⟨(List.append_nil _).symm, rfl, rfl⟩
    | cons d ds ih =>
      intro g hc
      obtain ⟨h1, h2, h3⟩ := ih _ (consistent_addNode hc d)
      refine ⟨?_, ?_, h3⟩
      · simp only [addNodes]
        rw [h1]
        simp [addNode]
      · simp only [addNodes, List.map_cons]
        rw [h2, addNodes_data _ _ _ (by simp [addNode])]
        simp [addNode, upd]
  obtain ⟨h1, h2, h3⟩ := key ds g hg.consistent
  have hc := (consistent_addNodes hg.consistent ds).nodes_nodup
  rw [h1, List.nodup_append] at hc
  refine ⟨h1, hc.2.1, fun n hn hm => hc.2.2 n hm n hn rfl, h2, ?_, h3⟩
  intro n hn
  exact addNodes_data g ds n (hg.consistent.node_lt n hn)

example : (addNodes (G.empty : G Nat) [some 5, none, some 7]).2 = [0, 1, 2] := by decide

/-- C33: `remove_edge` of an edge of the graph removes exactly that edge; of any other edge it
raises `ValueError` and changes nothing. -/
theorem remove_edge_spec (g : G D) (hg : Reachable g) (e : Edge) :
    (e ∈ g.edges → (removeEdge g e).2 = .ok () ∧
      (removeEdge g e).1.edges = g.edges.filter (fun x => decide (x ≠ e)) ∧
      (removeEdge g e).1.nodes = g.nodes) ∧
    (e ∉ g.edges → removeEdge g e = (g, .error .value)) := by
  have h := removeEdge_eq hg.consistent e
  constructor
  · intro he
    rw [if_pos he] at h
    rw [h]
    refine ⟨rfl, ?_, rfl⟩
    simp only
    rw [hg.consistent.edges_nodup.erase_eq_filter]
    congr 1
    funext x
    by_cases hxe : x = e <;> simp [hxe]
  · intro he
    rw [if_neg he] at h
    exact h

/-- C33: `remove_node` of a node without a self-loop removes exactly the node and its incident
edges. (For a node with a self-loop this is false, see `remove_node_self_loop`.) -/
theorem remove_node_spec_partial (g : G D) (hg : Reachable g) (n : NodeId) (hn : n ∈ g.nodes)
    (hloop : ¬ Adj g n n) :
    (removeNode g n).2 = .ok () ∧
      (removeNode g n).1.nodes = g.nodes.filter (fun m => decide (m ≠ n)) ∧
      (removeNode g n).1.edges =
        g.edges.filter (fun e => decide (e.head ≠ n ∧ e.tail ≠ n)) := by
  have hc := hg.consistent
  have hnd : (getEdges g n).Nodup := by
    rw [getEdges_nodup_iff hc]
    intro e he hh
    exact hloop ⟨e, he, hh.1, hh.2⟩
  have hok := removeEdges_ok hc _ hnd (fun e he => ((mem_getEdges hc n e).1 he).1)
  have hnodes := removeEdges_nodes g (getEdges g n)
  unfold removeNode
  rw [if_neg (not_not.mpr hn)]
  generalize hx : removeEdges g (getEdges g n) = x at *
  obtain ⟨g', r⟩ := x
  simp only at hok hnodes
  obtain ⟨rfl, hed⟩ := hok
  simp only [listRemove_eq, hnodes.1, if_pos hn]
  refine ⟨trivial, ?_, ?_⟩
  · rw [hc.nodes_nodup.erase_eq_filter]
    congr 1
    funext x
    by_cases hxe : x = n <;> simp [hxe]
  · rw [hed]
    apply List.filter_congr
    intro e he
    simp only [mem_getEdges hc, he, true_and, decide_eq_decide]
    tauto

/-- C33 is violated by the code: whenever the node carries a self-loop, `remove_node` raises
`ValueError` and the node stays in the graph (the self-loop is listed among both the entering and
the leaving edges, so it is removed twice). -/
theorem remove_node_self_loop (g : G D) (hg : Reachable g) (n : NodeId) (hloop : Adj g n n) :
    (removeNode g n).2 = .error .value ∧ n ∈ (removeNode g n).1.nodes := by
  have hc := hg.consistent
  have hn : n ∈ g.nodes := (Adj.mem hc hloop).1
  have hnd : ¬ (getEdges g n).Nodup := by
    rw [getEdges_nodup_iff hc]
    intro hh
    obtain ⟨e, he, h1, h2⟩ := hloop
    exact hh e he ⟨h1, h2⟩
  have hdup := removeEdges_dup hc _ hnd
  have hnodes := removeEdges_nodes g (getEdges g n)
  unfold removeNode
  rw [if_neg (not_not.mpr hn)]
  generalize hx : removeEdges g (getEdges g n) = x at *
  obtain ⟨g', r⟩ := x
  simp only at hdup hnodes
  subst hdup
  simp only
  exact ⟨trivial, hnodes.1 ▸ hn⟩

/-- C33, error branch: a foreign node is rejected and nothing changes. -/
theorem remove_node_foreign (g : G D) (n : NodeId) (hn : n ∉ g.nodes) :
    removeNode g n = (g, .error .graph) := by
  unfold removeNode
  rw [if_pos hn]

/-- C33: `add_full_connectivity` adds one edge per pair. -/
theorem add_full_connectivity_spec (g : G D) (fs ts : List NodeId) :
    ∃ es : List Edge, (addFullConnectivity g fs ts).1.edges = g.edges ++ es ∧
      (es.map fun e => (e.head, e.tail)) = fs.flatMap (fun f => ts.map fun t => (f, t)) ∧
      (addFullConnectivity g fs ts).2.flatten = es := by
  have hto : ∀ (ts : List NodeId) (g : G D) (f : NodeId),
      (addEdgesTo g f ts).1.edges = g.edges ++ (addEdgesTo g f ts).2 ∧
      ((addEdgesTo g f ts).2.map fun e => (e.head, e.tail)) = ts.map fun t => (f, t) := by
    intro ts
    induction ts with
    | nil => intro g f; simp [addEdgesTo]
    | cons t ts ih =>
      intro g f
      have := ih (addEdge g f t).1 f
      refine ⟨?_, ?_⟩
      · simp only [addEdgesTo]
        rw [this.1]
        simp [addEdge]
      · simp only [addEdgesTo, List.map_cons]
        rw [this.2]
        simp [addEdge]
  induction fs generalizing g with
  | nil => exact ⟨[], by simp [addFullConnectivity], by simp, by simp [addFullConnectivity]⟩
  | cons f fs ih =>
    obtain ⟨es, h1, h2, h3⟩ := ih (addEdgesTo g f ts).1
    have := hto ts g f
    refine ⟨(addEdgesTo g f ts).2 ++ es, ?_, ?_, ?_⟩
    · simp only [addFullConnectivity]
      rw [h1, this.1, List.append_assoc]
    · rw [List.map_append, this.2, h2, List.flatMap_cons]
    · simp only [addFullConnectivity, List.flatten_cons]
      rw [h3]

example : Reachable demo ∧ (1 : NodeId) ∈ demo.nodes ∧ ¬ Adj demo 1 1 ∧ demo.edges ≠ [] := by
  refine ⟨demo_reachable, by decide, ?_, by decide⟩
  rintro ⟨e, he, h1, h2⟩
  revert e
  decide

/-- The violation of C33 occurs: a reachable graph with a self-loop. -/
example : ∃ g : G Unit, Reachable g ∧ Adj g 0 0 :=
  ⟨(addEdge (addNode G.empty none).1 0 0).1,
    .addEdge _ _ (.addNode _ .empty) (by decide) (by decide), ⟨⟨0, 0, 0⟩, by decide, rfl, rfl⟩⟩

/-! ## C34: add_tree -/

/-- C34: `add_tree` of a tree description succeeds. It returns a nested list of the same shape
holding the new nodes, whose data are the given values; the new nodes are fresh and distinct; the
new edges are exactly the parent-child links, one each; consequently every new node except the root
is the tail of exactly one new edge, and the root of none. -/
theorem add_tree_spec (g : G D) (hg : Reachable g) (t : List (Nested (Option D)))
    (ht : Nested.isTree (.seq t) = true) :
    ∃ (ns : List (Nested NodeId)) (es : List Edge) (root : NodeId),
      (addTree g t).2 = .ok ns ∧
      Nested.RelL (fun d n => (addTree g t).1.data n = d) t ns ∧
      (addTree g t).1.nodes = g.nodes ++ Nested.valuesL ns ∧
      (Nested.valuesL ns).Nodup ∧ (∀ n ∈ Nested.valuesL ns, n ∉ g.nodes) ∧
      (Nested.valuesL ns).length = (Nested.valuesL t).length ∧
      (addTree g t).1.edges = g.edges ++ es ∧
      (es.map fun e => (e.head, e.tail)).Perm (Nested.links (.seq ns)) ∧
      es.length + 1 = (Nested.valuesL t).length ∧
      Nested.root? (.seq ns) = some root ∧
      (Nested.valuesL ns).Perm (root :: es.map Edge.tail) ∧
      (∀ n ∈ g.nodes, (addTree g t).1.data n = g.data n) := by
  have hc := hg.consistent
  obtain ⟨c1, e1, n1, v1, k1, d1, r1⟩ := addNestedList_spec hc t
  have htree : Nested.isTree (.seq (addNestedList g t).2) = true := by
    rw [← Nested_Rel_isTree (R := fun d n => (addNestedList g t).1.data n = d) (.seq t) (.seq (addNestedList g t).2)
      (by simpa [Nested.Rel] using r1)]
    exact ht
  obtain ⟨r, hr, hok, c2, ha⟩ := reduceSeq_spec c1 (addNestedList g t).2 htree
    (by intro n hn; rw [n1]; simp [hn])
  obtain ⟨es, hes, hp⟩ := ha.edges
  obtain ⟨r', hr', hperm⟩ := values_perm_links (.seq (addNestedList g t).2) htree
  rw [hr] at hr'
  cases hr'
  have hperm' : (Nested.valuesL (addNestedList g t).2).Perm (r :: es.map Edge.tail) := by
    refine hperm.trans ?_
    have := (hp.map Prod.snd).symm
    simp only [List.map_map] at this
    exact (this.cons r)
  have hadd : addTree g t = ((reduceSeq (addNestedList g t).1 (addNestedList g t).2).1,
      .ok (addNestedList g t).2) := by
    unfold addTree
    simp only
    generalize hx : reduceSeq (addNestedList g t).1 (addNestedList g t).2 = x at *
    obtain ⟨g', y⟩ := x
    simp only at hok
    subst hok
    rfl
  have hlen : (Nested.valuesL (addNestedList g t).2).length = (Nested.valuesL t).length := by
    rw [v1]; simp
  refine ⟨(addNestedList g t).2, es, r, ?_, ?_, ?_, ?_, ?_, hlen, ?_, hp, ?_, hr, hperm', ?_⟩
  · rw [hadd]
  · rw [hadd]
    simp only
    rw [ha.data]
    exact r1
  · rw [hadd]; simp only; rw [ha.nodes, n1]
  · rw [v1]; exact List.nodup_range'
  · intro n hn hm
    rw [v1] at hn
    have h1 := List.mem_range'_1.1 hn
    have h2 := hc.node_lt n hm
    omega
  · rw [hadd]; simp only; rw [hes, e1]
  · have := hperm'.length_eq
    simp at this
    omega
  · intro n hn
    rw [hadd]
    simp only
    rw [ha.data]
    exact d1 n (hc.node_lt n hn)

/-- C34, error branch: an empty sequence is rejected with `TypeError` (`reduce` of an empty
sequence). -/
theorem add_tree_empty (g : G D) : addTree g [] = (g, .error .type) := rfl

example : Reachable demo ∧ Nested.isTree (.seq [.leaf (some ()), .leaf none,
    .seq [.leaf none, .leaf none, .leaf none]] : Nested (Option Unit)) = true :=
  ⟨demo_reachable, rfl⟩

end Mdp.Graph
