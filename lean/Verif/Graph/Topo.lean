import Verif.Graph.Lemmas
import Mathlib.Data.Fintype.Card
import Mathlib.Data.Set.Finite.List
import Mathlib.Tactic.Push
import Mathlib.Tactic.ByContra

namespace Mdp.Graph

variable {D : Type}

/-- Number of edges into `v` whose head is not in `L`. -/
def remaining (g : G D) (L : List NodeId) (v : NodeId) : Nat :=
  g.edges.countP (fun e => e.tail == v && decide (e.head ∉ L))

theorem remaining_snoc (g : G D) (L : List NodeId) (n v : NodeId) (hn : n ∉ L) (hc : Consistent g) :
    remaining g L v = remaining g (L ++ [n]) v + (outNeighbors g n).count v := by
  unfold remaining outNeighbors
  rw [hc.eout_eq]
  induction g.edges with
  | nil => simp
  | cons e es ih =>
    rw [List.countP_cons, List.countP_cons, List.filter_cons, ih]
    by_cases h1 : e.head = n
    · by_cases h2 : e.tail = v
      · simp [h1, h2, hn]; omega
      · simp [h1, h2]
    · by_cases h2 : e.tail = v <;> by_cases h3 : e.head ∈ L <;> simp [h1, h2, h3]
      omega

theorem remaining_eq_zero (g : G D) (L : List NodeId) (v : NodeId) :
    remaining g L v = 0 ↔ ∀ u, Adj g u v → u ∈ L := by
  unfold remaining Adj
  rw [List.countP_eq_zero]
  constructor
  · rintro h u ⟨e, he, rfl, rfl⟩
    have := h e he
    simpa using this
  · intro h e he hh
    simp at hh
    exact hh.2 (h _ ⟨e, he, rfl, hh.1⟩)

theorem remaining_nil (g : G D) (hc : Consistent g) (v : NodeId) :
    remaining g [] v = inDegree g v := by
  unfold remaining inDegree
  rw [hc.ein_eq, List.countP_eq_length_filter]
  simp

/-- The loop invariant of the inner loop of `topological_sort`. -/
structure SonInv (g : G D) (c : NodeId → Nat) (sons : List NodeId) (s : TopoState) : Prop where
  rem : ∀ v ∈ g.nodes, inDegree g v ≠ 0 → s.rem v = some ((c v + sons.count v : Nat) : Int)
  mem : ∀ v ∈ g.nodes, (v ∈ s.list ++ s.queue ↔ c v + sons.count v = 0)
  nodup : (s.list ++ s.queue).Nodup
  sub : ∀ v ∈ s.list ++ s.queue, v ∈ g.nodes

theorem topoSons_spec (g : G D) (c : NodeId → Nat) (sons : List NodeId) (s : TopoState)
    (hs : ∀ v ∈ sons, v ∈ g.nodes ∧ inDegree g v ≠ 0) (h : SonInv g c sons s) :
    ∃ s', topoSons sons s = .ok s' ∧ s'.list = s.list ∧ SonInv g c [] s' := by
  induction sons generalizing s with
  | nil => exact ⟨s, rfl, rfl, h⟩
  | cons son sons ih =>
    have ⟨hm, hd⟩ := hs son (by simp)
    have hrem := h.rem son hm hd
    have hnot : son ∉ s.list ++ s.queue := by
      intro hh
      have := (h.mem son hm).1 hh
      simp at this
    have hcount : ∀ v, (son :: sons).count v = sons.count v + if v = son then 1 else 0 := by
      intro v
      rw [List.count_cons]
      by_cases hv : v = son
      · simp [hv]
      · have : ¬ son = v := fun e => hv e.symm
        simp [hv, this]
    have hk : ((c son + (son :: sons).count son : Nat) : Int) - 1 = ((c son + sons.count son : Nat) : Int) := by
      rw [hcount]; simp; omega
    simp only [topoSons, hrem, hk]
    split
    · next h0 =>
      have h0 : c son + sons.count son = 0 := by omega
      refine ih _ (fun v hv => hs v (by simp [hv])) ⟨?_, ?_, ?_, ?_⟩
      · intro v hv hdv
        simp only [upd]
        split
        · next e => subst e; rfl
        · next e => rw [h.rem v hv hdv, hcount]; simp [e]
      · intro v hv
        have := h.mem v hv
        rw [hcount] at this
        by_cases e : v = son
        · subst e; simp [h0]
        · simp [e] at this ⊢
          exact this
      · simp only [← List.append_assoc]
        rw [List.nodup_append]
        refine ⟨h.nodup, by simp, ?_⟩
        intro a ha b hb hab
        simp at hb
        exact hnot (hb ▸ hab ▸ ha)
      · intro v hv
        simp only [← List.append_assoc] at hv
        rcases List.mem_append.1 hv with hv | hv
        · exact h.sub v hv
        · simp at hv; exact hv ▸ hm
    · next h0 =>
      have h0 : c son + sons.count son ≠ 0 := by omega
      refine ih _ (fun v hv => hs v (by simp [hv])) ⟨?_, ?_, h.nodup, h.sub⟩
      · intro v hv hdv
        simp only [upd]
        split
        · next e => subst e; rfl
        · next e => rw [h.rem v hv hdv, hcount]; simp [e]
      · intro v hv
        have := h.mem v hv
        rw [hcount] at this
        by_cases e : v = son
        · subst e
          simp only
          constructor
          · intro hh; exact absurd hh hnot
          · intro hh; exact absurd hh h0
        · simpa [e] using this

/-- Every prefix of the list contains the predecessors of what comes next. -/
def PredClosed (g : G D) (L : List NodeId) : Prop :=
  ∀ L1 v L2, L = L1 ++ v :: L2 → ∀ u, Adj g u v → u ∈ L1

structure TopoInv (g : G D) (s : TopoState) : Prop where
  son : SonInv g (remaining g s.list) [] s
  closed : PredClosed g s.list

theorem topoInit_spec (g : G D) (ns : List NodeId) (s : TopoState) :
    (topoInit g ns s).list = s.list ∧
    (topoInit g ns s).queue = s.queue ++ ns.filter (fun n => inDegree g n == 0) ∧
    ∀ v, (topoInit g ns s).rem v =
      if v ∈ ns ∧ inDegree g v ≠ 0 then some (inDegree g v : Int) else s.rem v := by
  induction ns generalizing s with
  | nil => simp [topoInit]
  | cons n ns ih =>
    simp only [topoInit]
    split
    · next h0 =>
      have := ih { s with queue := s.queue ++ [n] }
      refine ⟨this.1, ?_, ?_⟩
      · rw [this.2.1]; simp [h0]
      · intro v
        rw [this.2.2]
        by_cases hv : v = n
        · subst hv; simp [h0]
        · simp [hv]
    · next h0 =>
      have := ih { s with rem := upd s.rem n (some (inDegree g n)) }
      refine ⟨this.1, ?_, ?_⟩
      · rw [this.2.1]; simp [h0]
      · intro v
        rw [this.2.2]
        by_cases hv : v = n
        · subst hv; simp [h0, upd]
        · simp [hv, upd]

theorem topoInv_init (g : G D) (hc : Consistent g) :
    TopoInv g (topoInit g g.nodes ⟨[], [], fun _ => none⟩) := by
  obtain ⟨h1, h2, h3⟩ := topoInit_spec g g.nodes ⟨[], [], fun _ => none⟩
  simp only [List.nil_append] at h1 h2
  refine ⟨⟨?_, ?_, ?_, ?_⟩, ?_⟩
  · intro v hv hd
    rw [h3, if_pos ⟨hv, hd⟩, h1, remaining_nil g hc]
    simp
  · intro v hv
    rw [h1, h2, remaining_nil g hc]
    simp [hv]
  · rw [h1, h2]; simpa using hc.nodes_nodup.filter _
  · rw [h1, h2]
    intro v hv
    simp at hv
    exact hv.1
  · rw [h1]
    intro L1 v L2 h
    simp at h

theorem mem_outNeighbors {g : G D} (hc : Consistent g) (n v : NodeId) :
    v ∈ outNeighbors g n ↔ Adj g n v := by
  unfold outNeighbors Adj
  rw [hc.eout_eq]
  simp only [List.mem_map, List.mem_filter, beq_iff_eq]
  tauto

theorem mem_inNeighbors {g : G D} (hc : Consistent g) (n v : NodeId) :
    v ∈ inNeighbors g n ↔ Adj g v n := by
  unfold inNeighbors Adj
  rw [hc.ein_eq]
  simp only [List.mem_map, List.mem_filter, beq_iff_eq]
  constructor
  · rintro ⟨e, ⟨h1, h2⟩, h3⟩; exact ⟨e, h1, h3, h2⟩
  · rintro ⟨e, h1, h2, h3⟩; exact ⟨e, ⟨h1, h3⟩, h2⟩

theorem mem_neighbors {g : G D} (hc : Consistent g) (n v : NodeId) :
    v ∈ neighbors g n ↔ UAdj g n v := by
  unfold neighbors UAdj
  rw [List.mem_append, mem_inNeighbors hc, mem_outNeighbors hc]
  tauto

theorem Adj.mem {g : G D} (hc : Consistent g) {u v : NodeId} (h : Adj g u v) :
    u ∈ g.nodes ∧ v ∈ g.nodes := by
  obtain ⟨e, he, rfl, rfl⟩ := h
  exact hc.ends e he

theorem inDegree_ne_zero {g : G D} (hc : Consistent g) {u v : NodeId} (h : Adj g u v) :
    inDegree g v ≠ 0 := by
  obtain ⟨e, he, rfl, rfl⟩ := h
  unfold inDegree
  rw [hc.ein_eq]
  intro hz
  rw [List.length_eq_zero_iff, List.filter_eq_nil_iff] at hz
  exact hz e he (by simp)

/-- One iteration of the main loop from a non-empty queue. -/
theorem topo_iter (g : G D) (hc : Consistent g) (s : TopoState) (h : TopoInv g s) (n : NodeId)
    (q : List NodeId) (hq : s.queue = n :: q) :
    ∃ s', topoStep g s = .inl s' ∧ TopoInv g s' ∧ s'.list = s.list ++ [n] := by
  have hnd := h.son.nodup
  rw [hq] at hnd
  have hnL : n ∉ s.list := by
    intro hh
    have := (List.nodup_append.1 hnd).2.2 n hh n (by simp)
    exact this rfl
  have hnm : n ∈ g.nodes := h.son.sub n (by simp [hq])
  have hinv : SonInv g (remaining g (s.list ++ [n])) (outNeighbors g n)
      { s with list := s.list ++ [n], queue := q } := by
    refine ⟨?_, ?_, ?_, ?_⟩
    · intro v hv hd
      rw [h.son.rem v hv hd, remaining_snoc g s.list n v hnL hc]
      simp
    · intro v hv
      have := h.son.mem v hv
      rw [hq, remaining_snoc g s.list n v hnL hc] at this
      simp only [List.append_assoc, List.singleton_append]
      simpa using this
    · simpa using hnd
    · intro v hv
      exact h.son.sub v (by rw [hq]; simpa using hv)
  obtain ⟨s', h1, h2, h3⟩ := topoSons_spec g _ (outNeighbors g n) _ (by
    intro v hv
    have := (mem_outNeighbors hc n v).1 hv
    exact ⟨(Adj.mem hc this).2, inDegree_ne_zero hc this⟩) hinv
  simp only at h2
  refine ⟨s', ?_, ⟨?_, ?_⟩, h2⟩
  · unfold topoStep
    rw [hq]
    simp only
    rw [h1]
  · rw [h2]; exact h3
  · rw [h2]
    intro L1 v L2 heq u hu
    by_cases hL2 : L2 = []
    · subst hL2
      obtain ⟨ha, hb⟩ := List.append_inj' heq rfl
      simp at hb
      subst hb
      subst ha
      have := (h.son.mem n hnm).1 (by simp [hq])
      simp at this
      exact (remaining_eq_zero g _ _).1 this u hu
    · obtain ⟨L2', x, rfl⟩ := List.eq_nil_or_concat L2 |>.resolve_left hL2
      have heq' : s.list ++ [n] = (L1 ++ v :: L2') ++ [x] := by simpa using heq
      obtain ⟨ha, hb⟩ := List.append_inj' heq' rfl
      exact h.closed L1 v L2' ha u hu

theorem nodup_length_le {l m : List Nat} (hl : l.Nodup) (hs : ∀ x ∈ l, x ∈ m) :
    l.length ≤ m.length := by
  induction l generalizing m with
  | nil => simp
  | cons a l ih =>
    have hnd := List.nodup_cons.1 hl
    have ha : a ∈ m := hs a (by simp)
    have hle := ih hnd.2 (m := m.erase a) (fun x hx => by
      have hne : x ≠ a := fun e => hnd.1 (e ▸ hx)
      exact (List.mem_erase_of_ne hne).2 (hs x (by simp [hx])))
    rw [List.length_erase_of_mem ha] at hle
    have : 0 < m.length := List.length_pos_of_mem ha
    simp
    omega

/-- What is true when the loop is left. -/
theorem topo_returns (g : G D) (hc : Consistent g) :
    ∃ r, TopologicalSort g r ∧ ∃ L : List NodeId, L.Nodup ∧ (∀ v ∈ L, v ∈ g.nodes) ∧ PredClosed g L ∧
      (∀ v ∈ g.nodes, (∀ u, Adj g u v → u ∈ L) → v ∈ L) ∧
      r = if L.length = g.nodes.length then .ok L else .error (.topological L) := by
  refine Py.Returns.rule (step := topoStep g) (TopoInv g)
    (fun s => g.nodes.length - s.list.length) _ ?_ ?_ _ (topoInv_init g hc)
  · intro s s' hi hst
    cases hq : s.queue with
    | nil =>
      exfalso
      simp only [topoStep, hq] at hst
      split at hst <;> cases hst
    | cons n q =>
      obtain ⟨s'', h1, h2, h3⟩ := topo_iter g hc s hi n q hq
      rw [h1] at hst
      cases hst
      refine ⟨h2, ?_⟩
      have hle : (s'.list).length ≤ g.nodes.length :=
        nodup_length_le (List.nodup_append.1 h2.son.nodup).1
          (fun x hx => h2.son.sub x (by simp [hx]))
      rw [h3] at hle ⊢
      simp at hle ⊢
      omega
  · intro s r hi hst
    cases hq : s.queue with
    | cons n q =>
      exfalso
      obtain ⟨s'', h1, _, _⟩ := topo_iter g hc s hi n q hq
      rw [h1] at hst
      cases hst
    | nil =>
      refine ⟨s.list, (List.nodup_append.1 hi.son.nodup).1, ?_, hi.closed, ?_, ?_⟩
      · intro v hv; exact hi.son.sub v (by simp [hv])
      · intro v hv hp
        have := (hi.son.mem v hv).2 (by simp [(remaining_eq_zero g s.list v).2 hp])
        simpa [hq] using this
      · simp only [topoStep, hq] at hst
        split at hst
        · next h => cases hst; rw [if_neg h]
        · next h => cases hst; rw [if_pos (not_not.mp h)]

theorem PredClosed.idxOf_lt {g : G D} {L : List NodeId} (h : PredClosed g L) {u v : NodeId}
    (hv : v ∈ L) (ha : Adj g u v) : L.idxOf u < L.idxOf v := by
  obtain ⟨L1, L2, heq, hn⟩ := List.eq_append_cons_of_mem hv
  have hu := h L1 v L2 heq u ha
  rw [heq, List.idxOf_append_of_mem hu, List.idxOf_append_of_notMem hn]
  have := List.idxOf_lt_length_of_mem hu
  omega

theorem PredClosed.mem {g : G D} {L : List NodeId} (h : PredClosed g L) {u v : NodeId}
    (hv : v ∈ L) (ha : Adj g u v) : u ∈ L := by
  obtain ⟨L1, L2, heq, _⟩ := List.eq_append_cons_of_mem hv
  have hu := h L1 v L2 heq u ha
  rw [heq]; simp [hu]

theorem PredClosed.idxOf_lt_trans {g : G D} {L : List NodeId} (h : PredClosed g L) {u v : NodeId}
    (hv : v ∈ L) (ha : Relation.TransGen (Adj g) u v) : u ∈ L ∧ L.idxOf u < L.idxOf v := by
  induction ha with
  | single ha => exact ⟨h.mem hv ha, h.idxOf_lt hv ha⟩
  | tail _ ha ih =>
    have := ih (h.mem hv ha)
    exact ⟨this.1, Nat.lt_trans this.2 (h.idxOf_lt hv ha)⟩

theorem PredClosed.mem_reach {g : G D} {L : List NodeId} (h : PredClosed g L) {u v : NodeId}
    (hv : v ∈ L) (ha : Reach g u v) : u ∈ L := by
  unfold Reach at ha
  induction ha with
  | refl => exact hv
  | tail _ ha ih => exact ih (h.mem hv ha)

/-- A node outside a closed list is reached by a cycle. -/
theorem exists_cycle {g : G D} (hc : Consistent g) {L : List NodeId}
    (hcomp : ∀ v ∈ g.nodes, (∀ u, Adj g u v → u ∈ L) → v ∈ L) {v : NodeId} (hv : v ∈ g.nodes)
    (hvL : v ∉ L) : ∃ c, OnCycle g c ∧ Reach g c v := by
  by_contra hno
  let B : Set NodeId := {u | u ∈ g.nodes ∧ u ∉ L ∧ Reach g u v}
  have hfin : Finite B := by
    have : (B : Set Nat).Finite := (List.finite_toSet g.nodes).subset (fun u hu => hu.1)
    exact this
  let r : B → B → Prop := fun a b => Relation.TransGen (Adj g) a.1 b.1
  have : IsTrans B r := ⟨fun a b c h1 h2 => Relation.TransGen.trans h1 h2⟩
  have : Std.Irrefl r := ⟨fun a ha => hno ⟨a.1, ha, a.2.2.2⟩⟩
  have hwf : WellFounded r := Finite.wellFounded_of_trans_of_irrefl r
  obtain ⟨m, -, hmin⟩ := hwf.has_min Set.univ ⟨⟨v, hv, hvL, Relation.ReflTransGen.refl⟩, trivial⟩
  obtain ⟨m, hm, hmL, hmr⟩ := m
  have : ∃ u, Adj g u m ∧ u ∉ L := by
    by_contra hh
    push Not at hh
    exact hmL (hcomp m hm hh)
  obtain ⟨u, hu, huL⟩ := this
  have hum : u ∈ g.nodes := (Adj.mem hc hu).1
  exact hmin ⟨u, hum, huL, Relation.ReflTransGen.head hu hmr⟩ trivial (Relation.TransGen.single hu)

end Mdp.Graph
