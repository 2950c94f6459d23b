import Verif.Nodes.NeuralGasSpec
import Verif.Graph.Lemmas
import Mathlib.Tactic.Tauto
import Mathlib.Tactic.Linarith

/-! # Helper lemmas for the neural gas nodes -/

namespace Mdp.NeuralGas

open Mdp.Graph (G Edge upd Consistent)
open Mdp.Cov (Row)

variable {F : Type} [Field F] [LinearOrder F] {d : Nat}

theorem mem_neighbors {g : G Unit} (h : Consistent g) (n m : Nat) :
    m ∈ Mdp.Graph.neighbors g n ↔ ∃ e ∈ g.edges, Joins e n m := by
  unfold Mdp.Graph.neighbors Mdp.Graph.inNeighbors Mdp.Graph.outNeighbors Joins
  rw [h.ein_eq, h.eout_eq]
  simp only [List.mem_append, List.mem_map, List.mem_filter, beq_iff_eq]
  constructor
  · rintro (⟨e, ⟨he, ht⟩, hh⟩ | ⟨e, ⟨he, ht⟩, hh⟩)
    · exact ⟨e, he, .inr ⟨hh, ht⟩⟩
    · exact ⟨e, he, .inl ⟨ht, hh⟩⟩
  · rintro ⟨e, he, ⟨h1, h2⟩ | ⟨h1, h2⟩⟩
    · exact .inr ⟨e, ⟨he, h1⟩, h2⟩
    · exact .inl ⟨e, ⟨he, h2⟩, h1⟩

theorem mem_edgesTo {g : G Unit} (h : Consistent g) (n m : Nat) (e : Edge) :
    e ∈ edgesTo g n m ↔ e ∈ g.edges ∧ Joins e n m := by
  unfold edgesTo Joins
  rw [h.ein_eq, h.eout_eq]
  simp only [List.mem_append, List.mem_filter, beq_iff_eq]
  tauto

theorem removeEdge_ok {g : G Unit} (h : Consistent g) {e : Edge} (he : e ∈ g.edges) :
    ∃ g', Mdp.Graph.removeEdge g e = (g', .ok ()) ∧ Consistent g' ∧ g'.nodes = g.nodes ∧
      g'.edges = g.edges.erase e ∧ g'.nextEdge = g.nextEdge ∧ g'.nextNode = g.nextNode := by
  have h1 := Mdp.Graph.removeEdge_eq h e
  have h2 := Mdp.Graph.consistent_removeEdge h e
  rw [if_pos he] at h1
  rw [h1] at h2
  exact ⟨_, h1, h2, rfl, rfl, rfl, rfl⟩

theorem degree_zero {g : G Unit} (h : Consistent g) (n : Nat) :
    Mdp.Graph.inDegree g n + Mdp.Graph.outDegree g n = 0 ↔ ¬ Touched g.edges n := by
  unfold Mdp.Graph.inDegree Mdp.Graph.outDegree Touched
  rw [h.ein_eq, h.eout_eq, Nat.add_eq_zero_iff, List.length_eq_zero_iff, List.length_eq_zero_iff,
    List.filter_eq_nil_iff, List.filter_eq_nil_iff]
  simp only [beq_iff_eq, not_exists, not_and, not_or]
  constructor
  · rintro ⟨h1, h2⟩ e he
    exact ⟨h2 e he, h1 e he⟩
  · intro hh
    exact ⟨fun e he => (hh e he).2, fun e he => (hh e he).1⟩

theorem removeIsolated_ok {g : G Unit} (h : Consistent g) {n : Nat} (hn : n ∈ g.nodes)
    (ht : ¬ Touched g.edges n) :
    ∃ g', Mdp.Graph.removeNode g n = (g', .ok ()) ∧ Consistent g' ∧ g'.nodes = g.nodes.erase n ∧
      g'.edges = g.edges ∧ g'.nextEdge = g.nextEdge ∧ g'.nextNode = g.nextNode := by
  have hc := Mdp.Graph.consistent_removeNode h n
  have he : Mdp.Graph.getEdges g n = [] := by
    rw [List.eq_nil_iff_forall_not_mem]
    intro e hm
    have := (Mdp.Graph.mem_getEdges h n e).1 hm
    exact ht ⟨e, this.1, this.2.symm⟩
  have heq : Mdp.Graph.removeNode g n = ({ g with nodes := g.nodes.erase n }, .ok ()) := by
    unfold Mdp.Graph.removeNode
    rw [if_neg (not_not.mpr hn), he]
    simp [Mdp.Graph.removeEdges, Mdp.Graph.listRemove_eq, hn]
  rw [heq] at hc
  exact ⟨_, heq, hc, rfl, rfl, rfl, rfl⟩

theorem dropIsolated_ok {s : S F d} (h : Consistent s.g) {n : Nat} (hn : n ∈ s.g.nodes) :
    ∃ g', dropIsolated s n = .ok { s with g := g' } ∧ Consistent g' ∧
      g'.nodes.Sublist s.g.nodes ∧
      (∀ m, m ∈ g'.nodes ↔ m ∈ s.g.nodes ∧ (m = n → Touched s.g.edges n)) ∧
      g'.edges = s.g.edges ∧ g'.nextEdge = s.g.nextEdge ∧ g'.nextNode = s.g.nextNode := by
  unfold dropIsolated
  by_cases ht : Touched s.g.edges n
  · rw [if_neg (by rw [degree_zero h]; exact not_not.2 ht)]
    exact ⟨s.g, rfl, h, List.Sublist.refl _, fun m => by simp [ht], rfl, rfl, rfl⟩
  · rw [if_pos ((degree_zero h n).2 ht)]
    obtain ⟨g', h1, h2, h3, h4, h5, h6⟩ := removeIsolated_ok h hn ht
    refine ⟨g', by rw [h1]; rfl, h2, h3 ▸ List.erase_sublist, ?_, h4, h5, h6⟩
    intro m
    rw [h3, h.nodes_nodup.mem_erase_iff]
    by_cases hm : m = n <;> simp [hm, ht]

theorem touch_aux {N a b c h t : Prop} (h1 : a → b) (h2 : b → c) (h3 : c → ¬ h → ¬ t → b)
    (h4 : h ∨ t → c) : ((N ∧ (h → b)) ∧ (t → b)) ∧ (a ∨ ¬ b) ↔ N ∧ (a ∨ ¬ c) := by
  tauto

/-- Removing the edges of a list that are too old, and the nodes that lose their last edge. -/
theorem removeOld_ok (A : F) (es : List Edge) (s : S F d) (h : Consistent s.g)
    (hloop : ∀ e ∈ s.g.edges, e.head ≠ e.tail) (hnd : es.Nodup)
    (hsub : ∀ e ∈ es, e ∈ s.g.edges) :
    ∃ g', removeOld A es s = .ok { s with g := g' } ∧ Consistent g' ∧
      g'.nodes.Sublist s.g.nodes ∧
      (∀ e, e ∈ g'.edges ↔ e ∈ s.g.edges ∧ ¬ (e ∈ es ∧ (s.age e.id : F) > A)) ∧
      (∀ n, n ∈ g'.nodes ↔ n ∈ s.g.nodes ∧ (Touched g'.edges n ∨ ¬ Touched s.g.edges n)) ∧
      g'.nextEdge = s.g.nextEdge ∧ g'.nextNode = s.g.nextNode := by
  induction es generalizing s with
  | nil =>
    refine ⟨s.g, rfl, h, List.Sublist.refl _, by simp, fun n => ?_, rfl, rfl⟩
    tauto
  | cons e es ih =>
    have hnd' := List.nodup_cons.1 hnd
    have he := hsub e (by simp)
    by_cases hA : (s.age e.id : F) > A
    · obtain ⟨g1, h1, c1, n1, e1, x1, y1⟩ := removeEdge_ok h he
      have hends := h.ends e he
      obtain ⟨g2, h2, c2, s2, m2, e2, x2, y2⟩ :=
        dropIsolated_ok (s := { s with g := g1 }) (n := e.head) c1 (by rw [n1]; exact hends.1)
      have ht : e.tail ∈ g2.nodes := by
        rw [m2]
        refine ⟨by simp only; rw [n1]; exact hends.2, ?_⟩
        intro hh
        exact absurd hh.symm (hloop e he)
      obtain ⟨g3, h3, c3, s3, m3, e3, x3, y3⟩ :=
        dropIsolated_ok (s := { s with g := g2 }) (n := e.tail) c2 ht
      simp only at s2 m2 e2 s3 m3 e3 x2 y2 x3 y3
      have hed : g3.edges = s.g.edges.erase e := by rw [e3, e2, e1]
      have hmem : ∀ x, x ∈ g3.edges ↔ x ≠ e ∧ x ∈ s.g.edges := by
        intro x; rw [hed, h.edges_nodup.mem_erase_iff]
      obtain ⟨g', h4, c4, s4, m4, t4, x4, y4⟩ := ih { s with g := g3 } c3
        (fun x hx => hloop x ((hmem x).1 hx).2) hnd'.2
        (fun x hx => (hmem x).2 ⟨fun hh => hnd'.1 (hh ▸ hx), hsub x (by simp [hx])⟩)
      simp only at h4 s4 m4 t4 x4 y4
      refine ⟨g', ?_, c4, ?_, ?_, ?_, ?_, ?_⟩
      · rw [removeOld, if_pos hA, h1]
        simp only [lift]
        rw [h2]
        simp only
        rw [h3]
        exact h4
      · exact s4.trans (s3.trans (s2.trans (by rw [n1])))
      · intro x
        rw [m4, hmem]
        by_cases hx : x = e
        · subst hx; simp [hA]
        · simp [hx]
      · intro n
        rw [t4, m3, m2, n1]
        have hT : Touched g'.edges n → Touched g3.edges n := by
          rintro ⟨x, hx, hh⟩; exact ⟨x, ((m4 x).1 hx).1, hh⟩
        have hT2 : Touched g3.edges n → Touched s.g.edges n := by
          rintro ⟨x, hx, hh⟩; exact ⟨x, ((hmem x).1 hx).2, hh⟩
        have hT3 : Touched s.g.edges n → n ≠ e.head → n ≠ e.tail → Touched g3.edges n := by
          rintro ⟨x, hx, hh⟩ hn1 hn2
          refine ⟨x, (hmem x).2 ⟨?_, hx⟩, hh⟩
          rintro rfl
          rcases hh with hh | hh
          · exact hn1 hh.symm
          · exact hn2 hh.symm
        have hTe : n = e.head ∨ n = e.tail → Touched s.g.edges n := by
          rintro (hh | hh)
          · exact ⟨e, he, .inl hh.symm⟩
          · exact ⟨e, he, .inr hh.symm⟩
        have q1 : g2.edges = g3.edges := e3.symm
        have q2 : g1.edges = g3.edges := by rw [e3, e2]
        rw [q1, q2]
        have k1 : (n = e.head → Touched g3.edges e.head) ↔ (n = e.head → Touched g3.edges n) :=
          ⟨fun hh hn => hn ▸ hh hn, fun hh hn => hn ▸ hh hn⟩
        have k2 : (n = e.tail → Touched g3.edges e.tail) ↔ (n = e.tail → Touched g3.edges n) :=
          ⟨fun hh hn => hn ▸ hh hn, fun hh hn => hn ▸ hh hn⟩
        rw [k1, k2]
        exact touch_aux hT hT2 hT3 hTe
      · rw [x4, x3, x2, x1]
      · rw [y4, y3, y2, y1]
    · obtain ⟨g', h4, c4, s4, m4, t4, x4, y4⟩ := ih s h hloop hnd'.2
        (fun x hx => hsub x (by simp [hx]))
      refine ⟨g', ?_, c4, s4, ?_, t4, x4, y4⟩
      · rw [removeOld, if_neg hA]; exact h4
      · intro x
        rw [m4]
        by_cases hx : x = e
        · subst hx; simp [hA]
        · simp [hx]

/-! ### argmax -/

theorem argmax_spec (l : List F) (h : l ≠ []) :
    ∃ i a, argmax l = some i ∧ l[i]? = some a ∧ ∀ b ∈ l, b ≤ a := by
  induction l with
  | nil => exact absurd rfl h
  | cons a l ih =>
    rw [argmax]
    by_cases hl : l = []
    · subst hl
      exact ⟨0, a, by simp [argmax], rfl, by simp⟩
    · obtain ⟨i, m, h1, h2, h3⟩ := ih hl
      rw [h1]
      have hg : l.getD i 0 = m := by simp [List.getD, h2]
      simp only [hg]
      by_cases ha : a < m
      · rw [if_pos ha]
        refine ⟨i + 1, m, rfl, by simpa using h2, ?_⟩
        intro b hb
        rcases List.mem_cons.1 hb with rfl | hb
        · exact ha.le
        · exact h3 b hb
      · rw [if_neg ha]
        refine ⟨0, a, rfl, rfl, ?_⟩
        intro b hb
        rcases List.mem_cons.1 hb with rfl | hb
        · exact le_refl _
        · exact (h3 b hb).trans (not_lt.1 ha)

theorem worst_ok (s : S F d) (l : List Nat) (h : l ≠ []) :
    ∃ n ∈ l, worst s l = .ok n ∧ ∀ m ∈ l, s.err m ≤ s.err n := by
  obtain ⟨i, a, h1, h2, h3⟩ := argmax_spec (l.map s.err) (by simpa using h)
  rw [List.getElem?_map, Option.map_eq_some_iff] at h2
  obtain ⟨n, hn, rfl⟩ := h2
  refine ⟨n, List.mem_of_getElem? hn, ?_, ?_⟩
  · simp [worst, h1, hn]
  · intro m hm
    exact h3 _ (List.mem_map_of_mem hm)

/-! ### The two nearest nodes -/

theorem getNearest_ok {argsort : List F → List Nat} (ha : IsArgsort argsort) (s : S F d)
    (hnd : s.g.nodes.Nodup) (h2 : 2 ≤ s.g.nodes.length) (x : Row F d) :
    ∃ n0 n1, getNearest argsort s x = .ok ((n0, n1), dist2 (s.pos n0) x) ∧ n0 ∈ s.g.nodes ∧
      n1 ∈ s.g.nodes ∧ n0 ≠ n1 ∧
      (∀ m ∈ s.g.nodes, dist2 (s.pos n0) x ≤ dist2 (s.pos m) x) ∧
      ∀ m ∈ s.g.nodes, m ≠ n0 → dist2 (s.pos n1) x ≤ dist2 (s.pos m) x := by
  unfold getNearest
  dsimp only
  obtain ⟨hp, hs⟩ := ha (s.g.nodes.map fun n => dist2 (s.pos n) x)
  generalize argsort (s.g.nodes.map fun n => dist2 (s.pos n) x) = l at hp hs ⊢
  have hlen : l.length = s.g.nodes.length := by simpa using hp.length_eq
  have hmem : ∀ i, i ∈ l ↔ i < s.g.nodes.length := by
    intro i; rw [hp.mem_iff]; simp
  have hl : l.Nodup := hp.nodup_iff.2 List.nodup_range
  match l, hlen with
  | [], hlen => simp at hlen; omega
  | [a], hlen => simp at hlen; omega
  | i0 :: i1 :: t, hlen =>
    have b0 : i0 < s.g.nodes.length := (hmem i0).1 (by simp)
    have b1 : i1 < s.g.nodes.length := (hmem i1).1 (by simp)
    simp only [List.take_succ_cons, List.take_zero, List.getElem?_map,
      List.getElem?_eq_getElem b0, List.getElem?_eq_getElem b1, Option.map_some]
    refine ⟨_, _, rfl, List.getElem_mem _, List.getElem_mem _, ?_, ?_, ?_⟩
    · intro hh
      rw [hnd.getElem_inj_iff] at hh
      subst hh
      simp at hl
    · intro m hm
      obtain ⟨j, hj, rfl⟩ := List.getElem_of_mem hm
      have hjl := (hmem j).2 hj
      rcases List.mem_cons.1 hjl with rfl | hjl
      · exact le_refl _
      · exact (List.pairwise_cons.1 hs).1 j hjl _ _
          (by rw [List.getElem?_map, List.getElem?_eq_getElem b0]; rfl)
          (by rw [List.getElem?_map, List.getElem?_eq_getElem hj]; rfl)
    · intro m hm hne
      obtain ⟨j, hj, rfl⟩ := List.getElem_of_mem hm
      have hjl := (hmem j).2 hj
      rcases List.mem_cons.1 hjl with rfl | hjl
      · exact absurd rfl hne
      · rcases List.mem_cons.1 hjl with rfl | hjl
        · exact le_refl _
        · exact (List.pairwise_cons.1 (List.pairwise_cons.1 hs).2).1 j hjl _ _
            (by rw [List.getElem?_map, List.getElem?_eq_getElem b1]; rfl)
            (by rw [List.getElem?_map, List.getElem?_eq_getElem hj]; rfl)

end Mdp.NeuralGas
