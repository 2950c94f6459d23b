import Verif.Nodes.NeuralGasLemmas
import Mathlib.Algebra.Order.Field.Basic
import Mathlib.Tactic.Ring

/-! # One step of the growing neural gas -/

namespace Mdp.NeuralGas

open Mdp.Graph (G Edge upd Consistent)
open Mdp.Cov (Row)

variable {F : Type} [Field F] [LinearOrder F] {d : Nat}

theorem upd_same {α : Type} (f : Nat → α) (k : Nat) (v : α) : upd f k v k = v := by simp [upd]

theorem upd_ne {α : Type} (f : Nat → α) {k n : Nat} (v : α) (h : n ≠ k) : upd f k v n = f n := by
  simp [upd, h]

/-- Distinct edges have distinct identities. -/
def Ids (g : G Unit) : Prop := ∀ e ∈ g.edges, ∀ e' ∈ g.edges, e.id = e'.id → e = e'

theorem Joins.symm {e : Edge} {u v : Nat} (h : Joins e u v) : Joins e v u := Or.symm h

theorem Simple.loop {g : G Unit} (h : Simple g) : ∀ e ∈ g.edges, e.head ≠ e.tail := by
  intro e he hh
  exact h.1 e he (.inl ⟨rfl, hh.symm⟩)

theorem Simple.unique {g : G Unit} (h : Simple g) {e e' : Edge} (he : e ∈ g.edges)
    (he' : e' ∈ g.edges) {u v : Nat} (hj : Joins e u v) (hj' : Joins e' u v) : e' = e := by
  apply h.2 e he e' he'
  rcases hj with ⟨rfl, rfl⟩ | ⟨rfl, rfl⟩
  · exact hj'
  · exact hj'.symm

/-! ### The three loops without branches -/

theorem foldAge (es : List Edge) (s : S F d) (hnd : (es.map Edge.id).Nodup) :
    es.foldl (fun s e => { s with age := upd s.age e.id (s.age e.id + 1) }) s =
      { s with age := fun k => if k ∈ es.map Edge.id then s.age k + 1 else s.age k } := by
  induction es generalizing s with
  | nil => simp
  | cons e es ih =>
    rw [List.map_cons, List.nodup_cons] at hnd
    rw [List.foldl_cons, ih _ hnd.2]
    congr 1
    funext k
    by_cases hk : k = e.id
    · subst hk
      rw [if_neg hnd.1]
      simp [upd]
    · simp [upd, hk]

theorem foldMove (l : List Nat) (s : S F d) (x : Row F d) (eps : F) (hnd : l.Nodup) :
    l.foldl (fun s n => move s x eps n) s =
      { s with pos := fun n => if n ∈ l then fun i => s.pos n i + eps * (x i - s.pos n i)
                               else s.pos n } := by
  induction l generalizing s with
  | nil => simp
  | cons m l ih =>
    rw [List.nodup_cons] at hnd
    rw [List.foldl_cons, ih _ hnd.2]
    simp only [move]
    congr 1
    funext n
    by_cases hk : n = m
    · subst hk
      rw [if_neg hnd.1, if_pos (by simp), upd_same]
    · simp [upd, hk]

theorem foldDecay (l : List Nat) (s : S F d) (c : F) (hnd : l.Nodup) :
    l.foldl (fun s n => { s with err := upd s.err n (s.err n * c) }) s =
      { s with err := fun n => if n ∈ l then s.err n * c else s.err n } := by
  induction l generalizing s with
  | nil => simp
  | cons m l ih =>
    rw [List.nodup_cons] at hnd
    rw [List.foldl_cons, ih _ hnd.2]
    congr 1
    funext n
    by_cases hk : n = m
    · subst hk
      rw [if_neg hnd.1]
      simp [upd]
    · simp [upd, hk]

theorem ids_nodup {g : G Unit} (hi : Ids g) {l : List Edge} (hl : l.Nodup)
    (hs : ∀ e ∈ l, e ∈ g.edges) : (l.map Edge.id).Nodup := by
  rw [List.nodup_map_iff_inj_on hl]
  intro a ha b hb hab
  exact hi a (hs a ha) b (hs b hb) hab

theorem getEdges_nodup {g : G Unit} (h : Consistent g) (hs : Simple g) (n : Nat) :
    (Mdp.Graph.getEdges g n).Nodup := by
  rw [Mdp.Graph.getEdges_nodup_iff h]
  rintro e he ⟨h1, h2⟩
  exact hs.loop e he (h1.trans h2.symm)

theorem neighbors_nodup {g : G Unit} (h : Consistent g) (hs : Simple g) (n : Nat) :
    (Mdp.Graph.neighbors g n).Nodup := by
  unfold Mdp.Graph.neighbors Mdp.Graph.inNeighbors Mdp.Graph.outNeighbors
  rw [h.ein_eq, h.eout_eq, List.nodup_append]
  refine ⟨?_, ?_, ?_⟩
  · rw [List.nodup_map_iff_inj_on (h.edges_nodup.filter _)]
    intro a ha b hb hab
    simp only [List.mem_filter, beq_iff_eq] at ha hb
    exact hs.unique hb.1 ha.1 (u := n) (v := b.head) (.inr ⟨rfl, hb.2⟩) (.inr ⟨hab, ha.2⟩)
  · rw [List.nodup_map_iff_inj_on (h.edges_nodup.filter _)]
    intro a ha b hb hab
    simp only [List.mem_filter, beq_iff_eq] at ha hb
    exact hs.unique hb.1 ha.1 (u := n) (v := b.tail) (.inl ⟨hb.2, rfl⟩) (.inl ⟨ha.2, hab⟩)
  · intro a ha b hb hab
    subst hab
    simp only [List.mem_map, List.mem_filter, beq_iff_eq] at ha hb
    obtain ⟨e, ⟨he, ht⟩, hh⟩ := ha
    obtain ⟨e', ⟨he', ht'⟩, hh'⟩ := hb
    have := hs.unique he he' (u := n) (v := a) (.inr ⟨hh, ht⟩) (.inl ⟨ht', hh'⟩)
    subst this
    exact hs.loop e' he (ht'.trans ht.symm)

/-- The state after steps 3 to 5. -/
theorem adapt_eq (P : P F) (sqrt : F → F) (x : Row F d) (n0 : Nat) (d0 : F) (s : S F d)
    (h : Consistent s.g) (hs : Simple s.g) (hi : Ids s.g) :
    (adapt P sqrt x n0 d0 s).g = s.g ∧ (adapt P sqrt x n0 d0 s).tlen = s.tlen ∧
    (∀ e ∈ s.g.edges, (adapt P sqrt x n0 d0 s).age e.id =
      if e.head = n0 ∨ e.tail = n0 then s.age e.id + 1 else s.age e.id) ∧
    (adapt P sqrt x n0 d0 s).err = upd s.err n0 (s.err n0 + sqrt d0) ∧
    ∀ n, (adapt P sqrt x n0 d0 s).pos n =
      if n = n0 then fun i => s.pos n i + P.epsB * (x i - s.pos n i)
      else if n ∈ Mdp.Graph.neighbors s.g n0 then fun i => s.pos n i + P.epsN * (x i - s.pos n i)
      else s.pos n := by
  have hn0 : n0 ∉ Mdp.Graph.neighbors s.g n0 := by
    rw [mem_neighbors h]
    rintro ⟨e, he, hj | hj⟩ <;> exact hs.loop e he (hj.1.trans hj.2.symm)
  obtain ⟨s1, hs1⟩ : ∃ s1 : S F d, s1 =
    ⟨s.g, upd s.pos n0 fun i => s.pos n0 i + P.epsB * (x i - s.pos n0 i),
      upd s.err n0 (s.err n0 + sqrt d0),
      fun k => if k ∈ (Mdp.Graph.getEdges s.g n0).map Edge.id then s.age k + 1 else s.age k,
      s.tlen⟩ := ⟨_, rfl⟩
  have he : adapt P sqrt x n0 d0 s = (Mdp.Graph.neighbors s.g n0).foldl
      (fun s n => move s x P.epsN n) s1 := by
    unfold adapt
    dsimp only
    rw [foldAge _ _ (ids_nodup hi (getEdges_nodup h hs n0)
      (fun e he => ((Mdp.Graph.mem_getEdges h n0 e).1 he).1)), hs1]
    rfl
  rw [foldMove _ _ _ _ (neighbors_nodup h hs n0), hs1] at he
  rw [he]
  refine ⟨rfl, rfl, ?_, rfl, ?_⟩
  · intro e hm
    simp only
    by_cases ht : e.head = n0 ∨ e.tail = n0
    · rw [if_pos ht, if_pos]
      exact List.mem_map_of_mem ((Mdp.Graph.mem_getEdges h n0 e).2 ⟨hm, ht.symm⟩)
    · rw [if_neg ht, if_neg]
      intro hh
      obtain ⟨e', he', hid⟩ := List.mem_map.1 hh
      have h' := (Mdp.Graph.mem_getEdges h n0 e').1 he'
      have := hi e' h'.1 e hm hid
      subst this
      exact ht h'.2.symm
  · intro n
    simp only
    by_cases hn : n = n0
    · subst hn
      rw [if_neg hn0, if_pos rfl, upd_same]
    · rw [if_neg hn, upd_ne _ _ hn]

theorem decay_eq (P : P F) (s : S F d) (h : Consistent s.g) :
    decay P s = { s with err := fun n => if n ∈ s.g.nodes then s.err n * P.d else s.err n } :=
  foldDecay _ _ _ h.nodes_nodup

/-! ### Renewing the edge between the two nearest nodes -/

theorem mem_addEdge {g : G Unit} (a b : Nat) (e : Edge) :
    e ∈ (Mdp.Graph.addEdge g a b).1.edges ↔ e ∈ g.edges ∨ e = ⟨g.nextEdge, a, b⟩ := by
  simp [Mdp.Graph.addEdge]

theorem simple_addEdge {g : G Unit} (hs : Simple g) {a b : Nat} (hab : a ≠ b)
    (hno : ∀ e ∈ g.edges, ¬ Joins e a b) : Simple (Mdp.Graph.addEdge g a b).1 := by
  constructor
  · intro e he
    rw [mem_addEdge] at he
    rcases he with he | rfl
    · exact hs.1 e he
    · rintro (⟨_, hh⟩ | ⟨_, hh⟩) <;> exact hab hh.symm
  · intro e he e' he' hj
    rw [mem_addEdge] at he he'
    rcases he with he | rfl
    · rcases he' with he' | rfl
      · exact hs.2 e he e' he' hj
      · exfalso
        apply hno e he
        rcases hj with ⟨h1, h2⟩ | ⟨h1, h2⟩
        · exact .inl ⟨h1.symm, h2.symm⟩
        · exact .inr ⟨h2.symm, h1.symm⟩
    · rcases he' with he' | rfl
      · exact absurd hj (hno e' he')
      · rfl

theorem ids_addEdge {g : G Unit} (h : Consistent g) (hi : Ids g) (a b : Nat) :
    Ids (Mdp.Graph.addEdge g a b).1 := by
  intro e he e' he' hid
  rw [mem_addEdge] at he he'
  rcases he with he | rfl
  · rcases he' with he' | rfl
    · exact hi e he e' he' hid
    · have := h.edge_lt e he; simp only at hid; omega
  · rcases he' with he' | rfl
    · have := h.edge_lt e' he'; simp only at hid; omega
    · rfl

theorem renew_ok (n0 n1 : Nat) (s : S F d) (h : Consistent s.g) (hs : Simple s.g) (hi : Ids s.g)
    (h0 : n0 ∈ s.g.nodes) (h1 : n1 ∈ s.g.nodes) (hne : n0 ≠ n1) :
    ∃ s', renew n0 n1 s = .ok s' ∧ Consistent s'.g ∧ Simple s'.g ∧ Ids s'.g ∧
      s'.g.nodes = s.g.nodes ∧ s'.pos = s.pos ∧ s'.err = s.err ∧ s'.tlen = s.tlen ∧
      (∃ e ∈ s'.g.edges, Joins e n0 n1) ∧
      (∀ e ∈ s'.g.edges, e ∈ s.g.edges ∨ Joins e n0 n1) ∧
      (∀ e ∈ s.g.edges, e ∈ s'.g.edges) ∧
      (∀ e ∈ s'.g.edges, Joins e n0 n1 → s'.age e.id = 0) ∧
      ∀ e ∈ s'.g.edges, ¬ Joins e n0 n1 → s'.age e.id = s.age e.id := by
  unfold renew
  by_cases hn : n1 ∈ Mdp.Graph.neighbors s.g n0
  · rw [if_pos hn]
    obtain ⟨e, he, hj⟩ := (mem_neighbors h n0 n1).1 hn
    have hmem := (mem_edgesTo h n0 n1 e).2 ⟨he, hj⟩
    have hall := fun x => (mem_edgesTo h n0 n1 x).1
    generalize edgesTo s.g n0 n1 = l at hmem hall
    match l with
    | [] => simp at hmem
    | e' :: t =>
      have h' := hall e' (by simp)
      refine ⟨_, rfl, h, hs, hi, rfl, rfl, rfl, rfl, ⟨e, he, hj⟩, fun x hx => .inl hx,
        fun x hx => hx, ?_, ?_⟩
      · intro x hx hxj
        rw [hs.unique h'.1 hx h'.2 hxj]
        exact upd_same _ _ _
      · intro x hx hxj
        apply upd_ne
        intro hid
        have := hi x hx e' h'.1 hid
        exact hxj (this ▸ h'.2)
  · rw [if_neg hn]
    have hno : ∀ e ∈ s.g.edges, ¬ Joins e n0 n1 :=
      fun e he hj => hn ((mem_neighbors h n0 n1).2 ⟨e, he, hj⟩)
    refine ⟨_, rfl, Mdp.Graph.consistent_addEdge h h0 h1, simple_addEdge hs hne hno,
      ids_addEdge h hi n0 n1, rfl, rfl, rfl, rfl,
      ⟨_, (mem_addEdge _ _ _).2 (.inr rfl), .inl ⟨rfl, rfl⟩⟩, ?_, ?_, ?_, ?_⟩
    · intro e he
      rcases (mem_addEdge n0 n1 e).1 he with he | rfl
      · exact .inl he
      · exact .inr (.inl ⟨rfl, rfl⟩)
    · intro e he
      exact (mem_addEdge n0 n1 e).2 (.inl he)
    · intro e he hj
      rcases (mem_addEdge n0 n1 e).1 he with he | rfl
      · exact absurd hj (hno e he)
      · exact upd_same _ _ _
    · intro e he hj
      rcases (mem_addEdge n0 n1 e).1 he with he | rfl
      · apply upd_ne
        have := h.edge_lt e he
        show e.id ≠ s.g.nextEdge
        omega
      · exact absurd (.inl ⟨rfl, rfl⟩) hj

/-! ### Inserting a node -/

theorem insert_ok (P : P F) (s : S F d) (h : Consistent s.g) (hs : Simple s.g) (hi : Ids s.g)
    (hc : NoIsolated s.g) (hne : s.g.nodes ≠ []) :
    ∃ q f e s', insert P s = .ok s' ∧
      q ∈ s.g.nodes ∧ (∀ m ∈ s.g.nodes, s.err m ≤ s.err q) ∧
      f ∈ s.g.nodes ∧ e ∈ s.g.edges ∧ Joins e q f ∧
      (∀ m, (∃ e' ∈ s.g.edges, Joins e' q m) → s.err m ≤ s.err f) ∧
      Consistent s'.g ∧ Simple s'.g ∧ Ids s'.g ∧ NoIsolated s'.g ∧
      s.g.nextNode ∉ s.g.nodes ∧
      s'.g.nodes = s.g.nodes ++ [s.g.nextNode] ∧
      (∀ x, x ∈ s'.g.edges ↔ (x ∈ s.g.edges ∧ x ≠ e) ∨ x = ⟨s.g.nextEdge, q, s.g.nextNode⟩ ∨
        x = ⟨s.g.nextEdge + 1, f, s.g.nextNode⟩) ∧
      s'.tlen = s.tlen ∧
      s'.age s.g.nextEdge = 0 ∧ s'.age (s.g.nextEdge + 1) = 0 ∧
      (∀ x ∈ s.g.edges, s'.age x.id = s.age x.id) ∧
      (s'.pos s.g.nextNode = fun i => 1 / 2 * (s.pos q i + s.pos f i)) ∧
      (∀ n ∈ s.g.nodes, s'.pos n = s.pos n) ∧
      (∀ n ∈ s.g.nodes, s'.err n = if n = q ∨ n = f then s.err n * P.alpha else s.err n) ∧
      s'.err s.g.nextNode = 1 / 2 * (s.err q * P.alpha + s.err f * P.alpha) := by
  obtain ⟨q, hq, hw, hmax⟩ := worst_ok s _ hne
  have hnb : Mdp.Graph.neighbors s.g q ≠ [] := by
    obtain ⟨e, he, ht⟩ := hc q hq
    apply List.ne_nil_of_mem (a := if e.head = q then e.tail else e.head)
    rw [mem_neighbors h]
    refine ⟨e, he, ?_⟩
    by_cases hh : e.head = q
    · rw [if_pos hh]; exact .inl ⟨hh, rfl⟩
    · rw [if_neg hh]; exact .inr ⟨rfl, ht.resolve_left hh⟩
  obtain ⟨f, hf, hw2, hmax2⟩ := worst_ok s _ hnb
  obtain ⟨e0, he0, hj0⟩ := (mem_neighbors h q f).1 hf
  have hqf : q ≠ f := by
    rintro rfl
    rcases hj0 with hj | hj <;> exact hs.loop e0 he0 (hj.1.trans hj.2.symm)
  have hfn : f ∈ s.g.nodes := by
    have := h.ends e0 he0
    rcases hj0 with ⟨_, rfl⟩ | ⟨rfl, _⟩
    · exact this.2
    · exact this.1
  have hfresh : s.g.nextNode ∉ s.g.nodes := fun hm => Nat.lt_irrefl _ (h.node_lt _ hm)
  have hqn : q ≠ s.g.nextNode := fun hh => hfresh (hh ▸ hq)
  have hfn' : f ≠ s.g.nextNode := fun hh => hfresh (hh ▸ hfn)
  have hc1 : Consistent (Mdp.Graph.addNode s.g (some ())).1 := Mdp.Graph.consistent_addNode h _
  have hmem : e0 ∈ edgesTo (Mdp.Graph.addNode s.g (some ())).1 q f :=
    (mem_edgesTo hc1 q f e0).2 ⟨he0, hj0⟩
  have hall := fun x => (mem_edgesTo hc1 q f x).1
  unfold insert
  rw [hw]
  simp only
  rw [hw2]
  simp only [addNode]
  generalize edgesTo (Mdp.Graph.addNode s.g (some ())).1 q f = l at hmem hall
  match l with
  | [] => simp at hmem
  | e :: t =>
    have he := hall e (by simp)
    obtain ⟨g', hr, c', n', ed', x', y'⟩ := removeEdge_ok hc1 he.1
    have hn' : g'.nodes = s.g.nodes ++ [s.g.nextNode] := n'
    have hx' : g'.nextEdge = s.g.nextEdge := x'
    have hed : g'.edges = s.g.edges.erase e := ed'
    have hmem' : ∀ x, x ∈ g'.edges ↔ x ∈ s.g.edges ∧ x ≠ e := by
      intro x; rw [hed, h.edges_nodup.mem_erase_iff]; tauto
    simp only [hr, lift]
    have hs1 : Simple g' := by
      constructor
      · intro x hx; exact hs.1 x ((hmem' x).1 hx).1
      · intro x hx y hy; exact hs.2 x ((hmem' x).1 hx).1 y ((hmem' y).1 hy).1
    have hi1 : Ids g' := fun x hx y hy => hi x ((hmem' x).1 hx).1 y ((hmem' y).1 hy).1
    have hold : ∀ x ∈ g'.edges, ∀ u, ¬ Joins x u s.g.nextNode := by
      intro x hx u hj
      have := h.ends x ((hmem' x).1 hx).1
      rcases hj with ⟨_, hh⟩ | ⟨hh, _⟩
      · exact hfresh (hh ▸ this.2)
      · exact hfresh (hh ▸ this.1)
    have c2 : Consistent (Mdp.Graph.addEdge g' q s.g.nextNode).1 :=
      Mdp.Graph.consistent_addEdge c' (by simp [hn', hq]) (by simp [hn'])
    have s2 : Simple (Mdp.Graph.addEdge g' q s.g.nextNode).1 :=
      simple_addEdge hs1 hqn (fun x hx => hold x hx q)
    have i2 := ids_addEdge c' hi1 q s.g.nextNode
    have c3 : Consistent
        (Mdp.Graph.addEdge (Mdp.Graph.addEdge g' q s.g.nextNode).1 f s.g.nextNode).1 :=
      Mdp.Graph.consistent_addEdge c2
        (by show f ∈ g'.nodes; simp [hn', hfn]) (by show _ ∈ g'.nodes; simp [hn'])
    have s3 : Simple
        (Mdp.Graph.addEdge (Mdp.Graph.addEdge g' q s.g.nextNode).1 f s.g.nextNode).1 := by
      apply simple_addEdge s2 hfn'
      intro x hx
      rcases (mem_addEdge _ _ _).1 hx with hx | rfl
      · exact hold x hx f
      · rintro (⟨hh, _⟩ | ⟨hh, _⟩)
        · exact hqf hh
        · exact hqn hh
    have i3 := ids_addEdge c2 i2 f s.g.nextNode
    have hm3 : ∀ x, x ∈ (Mdp.Graph.addEdge (Mdp.Graph.addEdge g' q s.g.nextNode).1 f
        s.g.nextNode).1.edges ↔ (x ∈ s.g.edges ∧ x ≠ e) ∨ x = ⟨s.g.nextEdge, q, s.g.nextNode⟩ ∨
        x = ⟨s.g.nextEdge + 1, f, s.g.nextNode⟩ := by
      intro x
      rw [mem_addEdge, mem_addEdge, hmem', hx', or_assoc]
      have : (Mdp.Graph.addEdge g' q s.g.nextNode).1.nextEdge = s.g.nextEdge + 1 := by
        show g'.nextEdge + 1 = _
        rw [hx']
      rw [this]
    refine ⟨q, f, e, _, rfl, hq, hmax, hfn, he.1, he.2, ?_, c3, s3, i3, ?_, hfresh, hn', hm3, rfl,
      ?_, ?_, ?_, ?_, ?_, ?_, ?_⟩
    · intro m hm
      exact hmax2 m ((mem_neighbors h q m).2 hm)
    · intro n hn
      have hn : n ∈ g'.nodes := hn
      rw [hn', List.mem_append, List.mem_singleton] at hn
      show Touched (Mdp.Graph.addEdge (Mdp.Graph.addEdge g' q s.g.nextNode).1 f
        s.g.nextNode).1.edges n
      have tq : Touched (Mdp.Graph.addEdge (Mdp.Graph.addEdge g' q s.g.nextNode).1 f
        s.g.nextNode).1.edges q := ⟨_, (hm3 _).2 (.inr (.inl rfl)), .inl rfl⟩
      have tf : Touched (Mdp.Graph.addEdge (Mdp.Graph.addEdge g' q s.g.nextNode).1 f
        s.g.nextNode).1.edges f := ⟨_, (hm3 _).2 (.inr (.inr rfl)), .inl rfl⟩
      rcases hn with hn | rfl
      · obtain ⟨x, hx, hxt⟩ := hc n hn
        by_cases hxe : x = e
        · subst hxe
          have : n = q ∨ n = f := by
            rcases he.2 with ⟨h1, h2⟩ | ⟨h1, h2⟩ <;> rcases hxt with h3 | h3 <;> subst h3 <;> tauto
          rcases this with rfl | rfl
          · exact tq
          · exact tf
        · exact ⟨x, (hm3 x).2 (.inl ⟨hx, hxe⟩), hxt⟩
      · exact ⟨_, (hm3 _).2 (.inr (.inl rfl)), .inr rfl⟩
    · show upd (upd s.age g'.nextEdge 0) (g'.nextEdge + 1) 0 s.g.nextEdge = 0
      rw [hx', upd_ne _ _ (by omega), upd_same]
    · show upd (upd s.age g'.nextEdge 0) (g'.nextEdge + 1) 0 (s.g.nextEdge + 1) = 0
      rw [hx', upd_same]
    · intro x hx
      have := h.edge_lt x hx
      show upd (upd s.age g'.nextEdge 0) (g'.nextEdge + 1) 0 x.id = s.age x.id
      rw [hx', upd_ne _ _ (by omega), upd_ne _ _ (by omega)]
    · show upd s.pos s.g.nextNode _ s.g.nextNode = _
      rw [upd_same]
    · intro n hn
      show upd s.pos s.g.nextNode _ n = _
      rw [upd_ne]
      exact fun hh => hfresh (hh ▸ hn)
    · intro n hn
      have hnn : n ≠ s.g.nextNode := fun hh => hfresh (hh ▸ hn)
      simp only [addEdge, addNode, Mdp.Graph.addNode]
      rw [upd_ne _ _ hnn]
      by_cases hnf : n = f
      · subst hnf
        rw [upd_same, upd_ne _ _ hqf.symm, if_pos (.inr rfl), upd_ne _ _ hnn]
      · rw [upd_ne _ _ hnf]
        by_cases hnq : n = q
        · subst hnq
          rw [upd_same, if_pos (.inl rfl), upd_ne _ _ hnn]
        · rw [upd_ne _ _ hnq, if_neg (by tauto), upd_ne _ _ hnn]
    · simp only [addEdge, addNode, Mdp.Graph.addNode]
      rw [upd_same, upd_ne _ _ hqf, upd_same, upd_same, upd_ne _ _ hqf.symm, upd_ne _ _ hqn,
        upd_ne _ _ hfn']

end Mdp.NeuralGas
