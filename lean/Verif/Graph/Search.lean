import Verif.Graph.Topo

namespace Mdp.Graph

variable {D : Type}

theorem pushSons_spec (sons : List NodeId) : ∀ (V W : List NodeId), V.Nodup →
    ∃ new : List NodeId, pushSons V W sons = (V ++ new, W ++ new) ∧ (V ++ new).Nodup ∧
      (∀ x ∈ new, x ∈ sons) ∧ (∀ x ∈ sons, x ∈ V ++ new) := by
  induction sons with
  | nil => intro V W h; exact ⟨[], by simp [pushSons], by simpa using h, by simp, by simp⟩
  | cons s sons ih =>
    intro V W h
    simp only [pushSons]
    split
    · next hs =>
      obtain ⟨new, h1, h2, h3, h4⟩ := ih V W h
      refine ⟨new, h1, h2, fun x hx => by simp [h3 x hx], ?_⟩
      intro x hx
      rcases List.mem_cons.1 hx with rfl | hx
      · simp [hs]
      · exact h4 x hx
    · next hs =>
      have hnd : (V ++ [s]).Nodup := by
        rw [List.nodup_append]
        refine ⟨h, by simp, ?_⟩
        intro a ha b hb hab
        simp at hb
        exact hs (hb ▸ hab ▸ ha)
      obtain ⟨new, h1, h2, h3, h4⟩ := ih (V ++ [s]) (W ++ [s]) hnd
      refine ⟨s :: new, by simpa using h1, by simpa using h2, ?_, ?_⟩
      · intro x hx
        rcases List.mem_cons.1 hx with rfl | hx
        · simp
        · simp [h3 x hx]
      · intro x hx
        rcases List.mem_cons.1 hx with rfl | hx
        · simp
        · simpa using h4 x hx

/-- Invariant of both search loops. -/
structure SearchInv {α : Type} (nb : NodeId → List NodeId) (visit : α → NodeId → α) (N : List NodeId)
    (root : NodeId) (a : α) (s : SearchState α) : Prop where
  nodup : (s.list ++ s.work).Nodup
  vis : ∀ x, x ∈ s.visited ↔ x ∈ s.list ++ s.work
  vnodup : s.visited.Nodup
  rootv : root ∈ s.visited
  sub : ∀ x ∈ s.visited, x ∈ N
  reach : ∀ x ∈ s.visited, Relation.ReflTransGen (fun u v => v ∈ nb u) root x
  closed : ∀ x ∈ s.list, ∀ y ∈ nb x, y ∈ s.visited
  acc : s.acc = s.list.foldl visit a

theorem SearchInv.init {α : Type} (nb : NodeId → List NodeId) (visit : α → NodeId → α) (N : List NodeId)
    (root : NodeId) (a : α) (hr : root ∈ N) :
    SearchInv nb visit N root a ⟨[], [root], [root], a⟩ := by
  refine ⟨by simp, by simp, by simp, by simp, ?_, ?_, by simp, by simp⟩
  · intro x hx; simp at hx; exact hx ▸ hr
  · intro x hx; simp at hx; subst hx; exact Relation.ReflTransGen.refl

/-- One iteration. -/
theorem SearchInv.move {α : Type} {nb : NodeId → List NodeId} {visit : α → NodeId → α} {N : List NodeId}
    {root : NodeId} {a : α} (hN : ∀ x ∈ N, ∀ y ∈ nb x, y ∈ N) {s : SearchState α}
    (h : SearchInv nb visit N root a s) {n : NodeId} {rest : List NodeId}
    (hw : s.work.Perm (n :: rest)) :
    ∃ new, pushSons s.visited rest (nb n) = (s.visited ++ new, rest ++ new) ∧
      SearchInv nb visit N root a ⟨s.list ++ [n], s.visited ++ new, rest ++ new, visit s.acc n⟩ ∧
      (∀ x ∈ new, x ∈ nb n ∧ x ∉ s.visited) := by
  obtain ⟨new, h1, h2, h3, h4⟩ := pushSons_spec (nb n) s.visited rest h.vnodup
  have hnv : n ∈ s.visited := by rw [h.vis]; simp [hw.mem_iff]
  have hnew : ∀ x ∈ new, x ∉ s.visited := by
    intro x hx hv
    exact (List.nodup_append.1 h2).2.2 x hv x hx rfl
  have hp : (s.list ++ s.work).Perm (s.list ++ [n] ++ rest) := by
    simpa using hw.append_left s.list
  refine ⟨new, h1, ⟨?_, ?_, h2, ?_, ?_, ?_, ?_, ?_⟩, fun x hx => ⟨h3 x hx, hnew x hx⟩⟩
  · simp only
    rw [← List.append_assoc, List.nodup_append]
    refine ⟨hp.nodup h.nodup, (List.nodup_append.1 h2).2.1, ?_⟩
    intro x hx y hy hxy
    subst hxy
    exact hnew x hy ((h.vis x).2 (hp.mem_iff.2 hx))
  · intro x
    simp only
    rw [List.mem_append, h.vis, hp.mem_iff, ← List.append_assoc, List.mem_append (t := new)]
  · simp [h.rootv]
  · intro x hx
    rcases List.mem_append.1 hx with hx | hx
    · exact h.sub x hx
    · exact hN n (h.sub n hnv) x (h3 x hx)
  · intro x hx
    rcases List.mem_append.1 hx with hx | hx
    · exact h.reach x hx
    · exact (h.reach n hnv).tail (h3 x hx)
  · intro x hx y hy
    rcases List.mem_append.1 hx with hx | hx
    · exact List.mem_append_left _ (h.closed x hx y hy)
    · simp at hx; subst hx; exact h4 y hy
  · simp [h.acc, List.foldl_append]

theorem SearchInv.final {α : Type} {nb : NodeId → List NodeId} {visit : α → NodeId → α} {N : List NodeId}
    {root : NodeId} {a : α} {s : SearchState α}
    (h : SearchInv nb visit N root a s) (hw : s.work = []) :
    s.list.Nodup ∧ (∀ x, x ∈ s.list ↔ Relation.ReflTransGen (fun u v => v ∈ nb u) root x) ∧
      s.acc = s.list.foldl visit a := by
  have hvl : ∀ x, x ∈ s.visited ↔ x ∈ s.list := by intro x; rw [h.vis, hw]; simp
  refine ⟨by simpa [hw] using h.nodup, fun x => ⟨fun hx => h.reach x ((hvl x).2 hx), ?_⟩, h.acc⟩
  intro hr
  induction hr with
  | refl => exact (hvl root).1 h.rootv
  | tail _ hy ih => exact (hvl _).1 (h.closed _ ih _ hy)

theorem measure_lt {N V new rest : List NodeId} (hv : (V ++ new).Nodup) (hs : ∀ x ∈ V ++ new, x ∈ N) :
    2 * (N.length - (V ++ new).length) + (rest ++ new).length <
      2 * (N.length - V.length) + (rest.length + 1) := by
  have := nodup_length_le hv hs
  simp at this ⊢
  omega

theorem getLast?_some_perm {l : List NodeId} {n : NodeId} (h : l.getLast? = some n) :
    l.Perm (n :: l.dropLast) := by
  have hne : l ≠ [] := by intro e; subst e; simp at h
  have h2 := List.dropLast_append_getLast hne
  rw [List.getLast?_eq_some_getLast hne] at h
  have h3 := Option.some.inj h
  rw [h3] at h2
  calc l.Perm (l.dropLast ++ [n]) := by rw [h2]
    _ |>.Perm (n :: l.dropLast) := List.perm_append_singleton n l.dropLast

theorem dfs_returns {α : Type} (nb : NodeId → List NodeId) (visit : α → NodeId → α) (N : List NodeId)
    (hN : ∀ x ∈ N, ∀ y ∈ nb x, y ∈ N) (root : NodeId) (hr : root ∈ N) (a : α) :
    ∃ r, DfsWith nb visit root a r ∧ r.1.Nodup ∧
      (∀ x, x ∈ r.1 ↔ Relation.ReflTransGen (fun u v => v ∈ nb u) root x) ∧
      r.2 = r.1.foldl visit a := by
  refine Py.Returns.rule (step := dfsStep nb visit) (SearchInv nb visit N root a)
    (fun s => 2 * (N.length - s.visited.length) + s.work.length) _ ?_ ?_ _
    (SearchInv.init nb visit N root a hr)
  · intro s s' hi hst
    simp only [dfsStep] at hst
    cases hw : s.work.getLast? with
    | none => rw [hw] at hst; simp at hst
    | some n =>
      rw [hw] at hst
      have hp := getLast?_some_perm hw
      obtain ⟨new, h1, h2, _⟩ := hi.move hN hp
      simp only [h1, Sum.inl.injEq] at hst
      subst hst
      refine ⟨h2, ?_⟩
      have := measure_lt (rest := s.work.dropLast) h2.vnodup h2.sub
      rw [hp.length_eq]
      simpa using this
  · intro s r hi hst
    simp only [dfsStep] at hst
    cases hw : s.work.getLast? with
    | some n => rw [hw] at hst; simp at hst
    | none =>
      rw [hw] at hst
      cases hst
      exact hi.final (List.getLast?_eq_none_iff.1 hw)

/-! ### Breadth-first order -/

theorem reach_walk {R : NodeId → NodeId → Prop} {u v : NodeId} (h : Relation.ReflTransGen R u v) :
    ∃ n, Walk R n u v := by
  induction h with
  | refl => exact ⟨0, Walk.refl _⟩
  | tail _ h ih => obtain ⟨n, hn⟩ := ih; exact ⟨n + 1, hn.step h⟩

theorem walk_reach {R : NodeId → NodeId → Prop} {n : Nat} {u v : NodeId} (h : Walk R n u v) :
    Relation.ReflTransGen R u v := by
  induction h with
  | refl => exact Relation.ReflTransGen.refl
  | step _ h ih => exact ih.tail h

def IsDist (R : NodeId → NodeId → Prop) (root v : NodeId) (d : Nat) : Prop :=
  Walk R d root v ∧ ∀ n, Walk R n root v → d ≤ n

open Classical in
theorem exists_dist {R : NodeId → NodeId → Prop} {root v : NodeId}
    (h : Relation.ReflTransGen R root v) : ∃ d, IsDist R root v d :=
  ⟨Nat.find (reach_walk h), Nat.find_spec (reach_walk h), fun _ hn => Nat.find_min' _ hn⟩

open Classical in
/-- Distance from the root (0 if unreachable). -/
noncomputable def dist (R : NodeId → NodeId → Prop) (root v : NodeId) : Nat :=
  if h : ∃ n, Walk R n root v then Nat.find h else 0

open Classical in
theorem dist_walk {R : NodeId → NodeId → Prop} {root v : NodeId} (h : Relation.ReflTransGen R root v) :
    Walk R (dist R root v) root v := by
  have h := reach_walk h
  unfold dist
  rw [dif_pos h]
  exact Nat.find_spec h

open Classical in
theorem dist_le {R : NodeId → NodeId → Prop} {root v : NodeId} {n : Nat} (h : Walk R n root v) :
    dist R root v ≤ n := by
  unfold dist
  rw [dif_pos ⟨n, h⟩]
  exact Nat.find_min' _ h

theorem dist_pred {R : NodeId → NodeId → Prop} {root v : NodeId} {d : Nat}
    (h : Relation.ReflTransGen R root v) (hd : dist R root v = d + 1) :
    ∃ u, Relation.ReflTransGen R root u ∧ R u v ∧ dist R root u ≤ d := by
  have hw := dist_walk h
  rw [hd] at hw
  cases hw with
  | step hw hr => exact ⟨_, walk_reach hw, hr, dist_le hw⟩

/-- Additional invariant of the breadth-first loop. -/
structure BfsInv {α : Type} (nb : NodeId → List NodeId) (root : NodeId) (s : SearchState α) : Prop where
  sorted : (s.list ++ s.work).Pairwise
    (fun u v => dist (fun u v => v ∈ nb u) root u ≤ dist (fun u v => v ∈ nb u) root v)
  front : ∀ n q, s.work = n :: q →
    (∀ x ∈ q, dist (fun u v => v ∈ nb u) root x ≤ dist (fun u v => v ∈ nb u) root n + 1) ∧
    (∀ x, Relation.ReflTransGen (fun u v => v ∈ nb u) root x →
      dist (fun u v => v ∈ nb u) root x ≤ dist (fun u v => v ∈ nb u) root n → x ∈ s.visited)

theorem BfsInv.init {α : Type} (nb : NodeId → List NodeId) (root : NodeId) (a : α) :
    BfsInv nb root ⟨[], [root], [root], a⟩ := by
  refine ⟨by simp, ?_⟩
  intro n q h
  simp only [List.cons.injEq] at h
  obtain ⟨h1, h2⟩ := h
  subst h1; subst h2
  refine ⟨by simp, ?_⟩
  intro x hx hd
  have h0 : dist (fun u v => v ∈ nb u) root root = 0 := Nat.le_zero.1 (dist_le (Walk.refl _))
  have hw := dist_walk hx
  have : dist (fun u v => v ∈ nb u) root x = 0 := by omega
  rw [this] at hw
  cases hw
  simp

theorem BfsInv.move {α : Type} {nb : NodeId → List NodeId} {visit : α → NodeId → α} {N : List NodeId}
    {root : NodeId} {a : α} {s : SearchState α} (hi : SearchInv nb visit N root a s)
    (hb : BfsInv nb root s) {n : NodeId} {q : List NodeId} (hw : s.work = n :: q) {new : List NodeId}
    {b : α} (hi' : SearchInv nb visit N root a ⟨s.list ++ [n], s.visited ++ new, q ++ new, b⟩)
    (hnew : ∀ x ∈ new, x ∈ nb n ∧ x ∉ s.visited) :
    BfsInv nb root (⟨s.list ++ [n], s.visited ++ new, q ++ new, b⟩ : SearchState α) := by
  obtain ⟨hf1, hf2⟩ := hb.front n q hw
  have hnv : n ∈ s.visited := by rw [hi.vis, hw]; simp
  have hnr := hi.reach n hnv
  generalize hR : (fun u v => v ∈ nb u) = R at *
  have hRdef : ∀ u v, R u v ↔ v ∈ nb u := by intro u v; rw [← hR]
  have hsort := hb.sorted
  rw [hR] at hsort
  rw [hw] at hsort
  have hnewd : ∀ x ∈ new, dist R root x = dist R root n + 1 := by
    intro x hx
    obtain ⟨h1, h2⟩ := hnew x hx
    have hle : dist R root x ≤ dist R root n + 1 :=
      dist_le ((dist_walk hnr).step ((hRdef n x).2 h1))
    have hgt : ¬ dist R root x ≤ dist R root n := by
      intro hh
      exact h2 (hf2 x (hnr.tail ((hRdef n x).2 h1)) hh)
    omega
  have hlist : ∀ x ∈ s.list ++ n :: q, dist R root x ≤ dist R root n + 1 := by
    intro x hx
    rcases List.mem_append.1 hx with hx | hx
    · have := (List.pairwise_append.1 hsort).2.2 x hx n (by simp)
      omega
    · rcases List.mem_cons.1 hx with rfl | hx
      · omega
      · exact hf1 x hx
  have hsort' : (s.list ++ [n] ++ (q ++ new)).Pairwise
      (fun u v => dist R root u ≤ dist R root v) := by
    have e : s.list ++ [n] ++ (q ++ new) = (s.list ++ n :: q) ++ new := by simp
    rw [e, List.pairwise_append]
    refine ⟨hsort, ?_, ?_⟩
    · apply List.pairwise_of_forall_mem_list
      intro x hx y hy
      rw [hnewd x hx, hnewd y hy]
    · intro x hx y hy
      rw [hnewd y hy]
      exact hlist x hx
  refine ⟨by simpa only [hR] using hsort', ?_⟩
  simp only [hR]
  intro m q' hmq
  -- all of the queue lies between dist n and dist n + 1
  have hge : ∀ x ∈ q ++ new, dist R root n ≤ dist R root x := by
    intro x hx
    have := (List.pairwise_append.1 hsort').2.2 n (by simp) x hx
    exact this
  have hle : ∀ x ∈ q ++ new, dist R root x ≤ dist R root n + 1 := by
    intro x hx
    rcases List.mem_append.1 hx with hx | hx
    · exact hf1 x hx
    · rw [hnewd x hx]
  have hm : m ∈ q ++ new := by rw [hmq]; simp
  refine ⟨?_, ?_⟩
  · intro x hx
    have hx : x ∈ q ++ new := by rw [hmq]; simp [hx]
    have := hle x hx
    have := hge m hm
    omega
  · intro x hx hxd
    by_cases hcase : dist R root x ≤ dist R root n
    · exact List.mem_append_left _ (hf2 x hx hcase)
    · have h1 := hle m hm
      have hmd : dist R root m = dist R root n + 1 := by omega
      have hxe : dist R root x = dist R root n + 1 := by omega
      obtain ⟨u, hu1, hu2, hu3⟩ := dist_pred hx hxe
      have huv := hf2 u hu1 hu3
      have huv' : u ∈ s.visited ++ new := List.mem_append_left _ huv
      have := (hi'.vis u).1 huv'
      simp only at this
      rcases List.mem_append.1 this with h | h
      · exact hi'.closed u h x ((hRdef u x).1 hu2)
      · exfalso
        have hsq := (List.pairwise_append.1 hsort').2.1
        rw [hmq] at hsq h
        rcases List.mem_cons.1 h with h | h
        · subst h; omega
        · have := (List.pairwise_cons.1 hsq).1 u h
          omega

theorem bfs_returns {α : Type} (nb : NodeId → List NodeId) (visit : α → NodeId → α) (N : List NodeId)
    (hN : ∀ x ∈ N, ∀ y ∈ nb x, y ∈ N) (root : NodeId) (hr : root ∈ N) (a : α) :
    ∃ r, BfsWith nb visit root a r ∧ r.1.Nodup ∧
      (∀ x, x ∈ r.1 ↔ Relation.ReflTransGen (fun u v => v ∈ nb u) root x) ∧
      r.2 = r.1.foldl visit a ∧ r.1.Pairwise (NoFarther (fun u v => v ∈ nb u) root) := by
  refine Py.Returns.rule (step := bfsStep nb visit)
    (fun s => SearchInv nb visit N root a s ∧ BfsInv nb root s)
    (fun s => 2 * (N.length - s.visited.length) + s.work.length) _ ?_ ?_ _
    ⟨SearchInv.init nb visit N root a hr, BfsInv.init nb root a⟩
  · intro s s' ⟨hi, hb⟩ hst
    simp only [bfsStep] at hst
    cases hw : s.work with
    | nil => rw [hw] at hst; simp at hst
    | cons n q =>
      rw [hw] at hst
      obtain ⟨new, h1, h2, h3⟩ := hi.move hN (n := n) (rest := q) (by rw [hw])
      simp only [h1, Sum.inl.injEq] at hst
      subst hst
      refine ⟨⟨h2, hb.move hi hw h2 h3⟩, ?_⟩
      have := measure_lt (rest := q) h2.vnodup h2.sub
      simpa using this
  · intro s r ⟨hi, hb⟩ hst
    simp only [bfsStep] at hst
    cases hw : s.work with
    | cons n q => rw [hw] at hst; simp at hst
    | nil =>
      rw [hw] at hst
      cases hst
      have hf := hi.final hw
      refine ⟨hf.1, hf.2.1, hf.2.2, ?_⟩
      have := hb.sorted
      rw [hw, List.append_nil] at this
      refine List.Pairwise.imp_of_mem ?_ this
      intro u v hu hv hd n hn
      refine ⟨_, ?_, dist_walk ((hf.2.1 u).1 hu)⟩
      exact Nat.le_trans hd (dist_le hn)

/-! ### Connected components -/

theorem uadj_symm {g : G D} {u v : NodeId} (h : UAdj g u v) : UAdj g v u := Or.symm h

theorem ureach_symm {g : G D} {u v : NodeId} (h : UReach g u v) : UReach g v u := by
  unfold UReach at *
  induction h with
  | refl => exact Relation.ReflTransGen.refl
  | tail _ h ih => exact Relation.ReflTransGen.head (uadj_symm h) ih

theorem rel_neighbors {g : G D} (hc : Consistent g) :
    (fun u v => v ∈ neighbors g u) = UAdj g := by
  funext u v; exact propext (mem_neighbors hc u v)

theorem rel_outNeighbors {g : G D} (hc : Consistent g) :
    (fun u v => v ∈ outNeighbors g u) = Adj g := by
  funext u v; exact propext (mem_outNeighbors hc u v)

theorem neighbors_closed {g : G D} (hc : Consistent g) :
    ∀ x ∈ g.nodes, ∀ y ∈ neighbors g x, y ∈ g.nodes := by
  intro x _ y hy
  rcases (mem_neighbors hc x y).1 hy with h | h
  · exact (Adj.mem hc h).2
  · exact (Adj.mem hc h).1

theorem outNeighbors_closed {g : G D} (hc : Consistent g) :
    ∀ x ∈ g.nodes, ∀ y ∈ outNeighbors g x, y ∈ g.nodes := by
  intro x _ y hy
  exact (Adj.mem hc ((mem_outNeighbors hc x y).1 hy)).2

theorem UReach.mem {g : G D} (hc : Consistent g) {u v : NodeId} (h : UReach g u v)
    (hu : u ∈ g.nodes) : v ∈ g.nodes := by
  unfold UReach at h
  induction h with
  | refl => exact hu
  | tail _ h ih =>
    rcases h with h | h
    · exact (Adj.mem hc h).2
    · exact (Adj.mem hc h).1

theorem foldl_snoc (v l : List NodeId) : l.foldl (fun v m => v ++ [m]) v = v ++ l := by
  induction l generalizing v with
  | nil => simp
  | cons a l ih => simp [ih]

theorem components_exists {g : G D} (hc : Consistent g) (ns visited : List NodeId)
    (hns : ∀ n ∈ ns, n ∈ g.nodes) (hv : ∀ x ∈ visited, ∀ y, UReach g x y → y ∈ visited) :
    ∃ cs, Components g ns visited cs ∧
      cs.flatten.Nodup ∧
      (∀ x, x ∈ cs.flatten → x ∉ visited) ∧
      (∀ n ∈ ns, n ∈ visited ∨ n ∈ cs.flatten) ∧
      (∀ x ∈ cs.flatten, x ∈ g.nodes) ∧
      (∀ c ∈ cs, c ≠ [] ∧ ∀ x ∈ c, ∀ y, y ∈ c ↔ UReach g x y) := by
  induction ns generalizing visited with
  | nil => exact ⟨[], Components.nil _, by simp, by simp, by simp, by simp, by simp⟩
  | cons n ns ih =>
    by_cases hn : n ∈ visited
    · obtain ⟨cs, h1, h2, h3, h4, h5, h6⟩ := ih visited (fun m hm => hns m (by simp [hm])) hv
      refine ⟨cs, Components.skip hn h1, h2, h3, ?_, h5, h6⟩
      intro m hm
      rcases List.mem_cons.1 hm with rfl | hm
      · exact Or.inl hn
      · exact h4 m hm
    · have hnm := hns n (by simp)
      obtain ⟨⟨l, v'⟩, hd, hnd, hmem, hacc⟩ := dfs_returns (neighbors g) (fun v m => v ++ [m]) g.nodes
        (neighbors_closed hc) n hnm visited
      simp only [foldl_snoc, rel_neighbors hc] at hmem hacc hnd
      subst hacc
      have hv' : ∀ x ∈ visited ++ l, ∀ y, UReach g x y → y ∈ visited ++ l := by
        intro x hx y hxy
        rcases List.mem_append.1 hx with hx | hx
        · exact List.mem_append_left _ (hv x hx y hxy)
        · exact List.mem_append_right _ ((hmem y).2 (Relation.ReflTransGen.trans ((hmem x).1 hx) hxy))
      obtain ⟨cs, h1, h2, h3, h4, h5, h6⟩ := ih (visited ++ l) (fun m hm => hns m (by simp [hm])) hv'
      refine ⟨l :: cs, Components.comp hn hd h1, ?_, ?_, ?_, ?_, ?_⟩
      · rw [List.flatten_cons, List.nodup_append]
        refine ⟨hnd, h2, ?_⟩
        intro a ha b hb hab
        subst hab
        exact h3 a hb (List.mem_append_right _ ha)
      · intro x hx
        rw [List.flatten_cons] at hx
        rcases List.mem_append.1 hx with hx | hx
        · intro hxv
          exact hn (hv x hxv n (ureach_symm ((hmem x).1 hx)))
        · intro hxv; exact h3 x hx (List.mem_append_left _ hxv)
      · intro m hm
        rw [List.flatten_cons]
        rcases List.mem_cons.1 hm with rfl | hm
        · right; exact List.mem_append_left _ ((hmem m).2 Relation.ReflTransGen.refl)
        · rcases h4 m hm with h | h
          · rcases List.mem_append.1 h with h | h
            · exact Or.inl h
            · exact Or.inr (List.mem_append_left _ h)
          · exact Or.inr (List.mem_append_right _ h)
      · intro x hx
        rw [List.flatten_cons] at hx
        rcases List.mem_append.1 hx with hx | hx
        · exact UReach.mem hc ((hmem x).1 hx) hnm
        · exact h5 x hx
      · intro c hcm
        rcases List.mem_cons.1 hcm with rfl | hcm
        · refine ⟨?_, ?_⟩
          · intro e
            have := (hmem n).2 Relation.ReflTransGen.refl
            rw [e] at this
            simp at this
          · intro x hx y
            have hx := (hmem x).1 hx
            rw [hmem]
            exact ⟨fun hy => Relation.ReflTransGen.trans (ureach_symm hx) hy,
              fun hy => Relation.ReflTransGen.trans hx hy⟩
        · exact h6 c hcm

theorem Components.det {g : G D} {ns visited : List NodeId} {cs cs' : List (List NodeId)}
    (h : Components g ns visited cs) (h' : Components g ns visited cs') : cs = cs' := by
  induction h generalizing cs' with
  | nil => cases h'; rfl
  | skip hn _ ih =>
    cases h' with
    | skip _ h2 => exact ih h2
    | comp hn' _ _ => exact absurd hn hn'
  | comp hn hd _ ih =>
    cases h' with
    | skip hn' _ => exact absurd hn' hn
    | comp _ hd' h2 =>
      have := Py.Returns.det hd hd'
      cases this
      rw [ih h2]

end Mdp.Graph

namespace Mdp.Graph

variable {D : Type}

theorem pushSons_nonempty_prefix (sons : List NodeId) (V W : List NodeId) :
    ∃ new, (pushSons V W sons).2 = W ++ new := by
  induction sons generalizing V W with
  | nil => exact ⟨[], by simp [pushSons]⟩
  | cons s sons ih =>
    simp only [pushSons]
    split
    · exact ih V W
    · obtain ⟨new, h⟩ := ih (V ++ [s]) (W ++ [s])
      exact ⟨s :: new, by simpa using h⟩

theorem dfs_head {α : Type} {nb : NodeId → List NodeId} {visit : α → NodeId → α} {root : NodeId} {a : α}
    {r : List NodeId × α} (h : DfsWith nb visit root a r) : r.1.head? = some root := by
  refine Py.Returns.partial_rule (step := dfsStep nb visit)
    (fun s => (s.list = [] ∧ s.work = [root]) ∨ s.list.head? = some root)
    (fun r => r.1.head? = some root) ?_ ?_ _ (Or.inl ⟨rfl, rfl⟩) r h
  · intro s s' hi hst
    simp only [dfsStep] at hst
    right
    rcases hi with ⟨h1, h2⟩ | h1
    · simp [h1, h2] at hst
      subst hst
      simp
    · split at hst
      · cases hst
      · cases hst
        simp [List.head?_append, h1]
  · intro s r hi hst
    simp only [dfsStep] at hst
    rcases hi with ⟨h1, h2⟩ | h1
    · simp [h1, h2] at hst
    · split at hst
      · cases hst; exact h1
      · cases hst

theorem bfs_head {α : Type} {nb : NodeId → List NodeId} {visit : α → NodeId → α} {root : NodeId} {a : α}
    {r : List NodeId × α} (h : BfsWith nb visit root a r) : r.1.head? = some root := by
  refine Py.Returns.partial_rule (step := bfsStep nb visit)
    (fun s => (s.list = [] ∧ s.work = [root]) ∨ s.list.head? = some root)
    (fun r => r.1.head? = some root) ?_ ?_ _ (Or.inl ⟨rfl, rfl⟩) r h
  · intro s s' hi hst
    simp only [bfsStep] at hst
    right
    rcases hi with ⟨h1, h2⟩ | h1
    · simp [h1, h2] at hst
      subst hst
      simp
    · split at hst
      · cases hst
      · cases hst
        simp [List.head?_append, h1]
  · intro s r hi hst
    simp only [bfsStep] at hst
    rcases hi with ⟨h1, h2⟩ | h1
    · simp [h1, h2] at hst
    · split at hst
      · cases hst; exact h1
      · cases hst

mutual
/-- In a tree description every value but the root is the child end of exactly one link. -/
theorem values_perm_links {α : Type} (t : Nested α) (h : Nested.isTree t = true) :
    ∃ r, Nested.root? t = some r ∧ (Nested.values t).Perm (r :: (Nested.links t).map Prod.snd) := by
  match t with
  | .leaf a => exact ⟨a, rfl, by simp [Nested.values, Nested.links]⟩
  | .seq [] => simp [Nested.isTree] at h
  | .seq (.seq _ :: _) => simp [Nested.isTree] at h
  | .seq (.leaf r :: cs) =>
    refine ⟨r, rfl, ?_⟩
    have := valuesL_perm_linksL r cs (by simpa [Nested.isTree] using h)
    simpa [Nested.values, Nested.valuesL, Nested.links] using this
theorem valuesL_perm_linksL {α : Type} (r : α) (cs : List (Nested α)) (h : Nested.areTrees cs = true) :
    (Nested.valuesL cs).Perm ((Nested.linksL r cs).map Prod.snd) := by
  match cs with
  | [] => simp [Nested.valuesL, Nested.linksL]
  | c :: cs =>
    simp only [Nested.areTrees, Bool.and_eq_true] at h
    obtain ⟨s, hs, hp⟩ := values_perm_links c h.1
    have := valuesL_perm_linksL r cs h.2
    simp only [Nested.valuesL, Nested.linksL, hs, Option.toList_some, List.map_cons, List.map_nil,
      List.map_append]
    exact hp.append this
end

mutual
theorem Nested_Rel_isTree {α β : Type} {R : α → β → Prop} (t : Nested α) (u : Nested β)
    (hr : Nested.Rel R t u) : Nested.isTree t = Nested.isTree u := by
  match t, u with
  | .leaf a, .leaf b => rfl
  | .seq [], .seq [] => rfl
  | .seq [], .seq (_ :: _) => simp [Nested.Rel, Nested.RelL] at hr
  | .seq (_ :: _), .seq [] => simp [Nested.Rel, Nested.RelL] at hr
  | .seq (.leaf _ :: l), .seq (.leaf _ :: m) =>
    simp only [Nested.Rel, Nested.RelL] at hr
    simp only [Nested.isTree]
    exact Nested_RelL_areTrees l m hr.2
  | .seq (.seq _ :: l), .seq (.seq _ :: m) => simp only [Nested.isTree]
  | .seq (.leaf _ :: _), .seq (.seq _ :: _) => simp [Nested.Rel, Nested.RelL] at hr
  | .seq (.seq _ :: _), .seq (.leaf _ :: _) => simp [Nested.Rel, Nested.RelL] at hr
  | .leaf _, .seq _ => simp [Nested.Rel] at hr
  | .seq _, .leaf _ => simp [Nested.Rel] at hr
theorem Nested_RelL_areTrees {α β : Type} {R : α → β → Prop} (l : List (Nested α)) (m : List (Nested β))
    (hr : Nested.RelL R l m) : Nested.areTrees l = Nested.areTrees m := by
  match l, m with
  | [], [] => rfl
  | a :: l, b :: m =>
    simp only [Nested.RelL] at hr
    simp only [Nested.areTrees]
    rw [Nested_Rel_isTree a b hr.1, Nested_RelL_areTrees l m hr.2]
  | [], _ :: _ => simp [Nested.RelL] at hr
  | _ :: _, [] => simp [Nested.RelL] at hr
end

end Mdp.Graph
