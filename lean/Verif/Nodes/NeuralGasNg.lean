import Verif.Nodes.NeuralGasOut
import Verif.Nodes.NeuralGasSched
import Mathlib.Tactic.Positivity

/-! # Properties of the neural gas node -/

namespace Mdp.NeuralGas

open Mdp.Graph (G Edge upd Consistent)
open Mdp.Cov (Row)

variable {F : Type} [Field F] [LinearOrder F] {d : Nat}

/-! ### Helper lemmas -/

theorem mapM_getElem {l : List Nat} {ids : List Nat} (h : ∀ i ∈ ids, i < l.length) :
    ids.mapM (fun i => l[i]?) = some (ids.map fun i => l.getD i 0) := by
  induction ids with
  | nil => rfl
  | cons i ids ih =>
    have hi := h i (by simp)
    rw [List.mapM_cons, ih (fun j hj => h j (by simp [hj])), List.getElem?_eq_getElem hi]
    simp [List.getD, List.getElem?_eq_getElem hi]

theorem rank_ok {argsort : List F → List Nat} (ha : IsArgsort argsort) (s : S F d) (x : Row F d) :
    ∃ r, rankNodes argsort s x = some r ∧ r.Perm s.g.nodes ∧
      r.Pairwise fun a b => dist2 (s.pos a) x ≤ dist2 (s.pos b) x := by
  unfold rankNodes
  obtain ⟨hp, hs⟩ := ha (s.g.nodes.map fun n => dist2 (s.pos n) x)
  generalize argsort (s.g.nodes.map fun n => dist2 (s.pos n) x) = ids at hp hs ⊢
  rw [List.length_map] at hp
  have hmem : ∀ i, i ∈ ids ↔ i < s.g.nodes.length := by
    intro i; rw [hp.mem_iff]; simp
  refine ⟨_, mapM_getElem (fun i hi => (hmem i).1 hi), ?_, ?_⟩
  · refine (hp.map _).trans ?_
    have : (List.range s.g.nodes.length).map (fun i => s.g.nodes.getD i 0) = s.g.nodes := by
      apply List.ext_getElem
      · simp
      · intro i h1 h2
        simp [List.getD, List.getElem?_eq_getElem h2]
    rw [this]
  · rw [List.pairwise_map]
    refine hs.imp_of_mem ?_
    intro i j hi hj h
    have hi := (hmem i).1 hi
    have hj := (hmem j).1 hj
    refine h _ _ ?_ ?_
    · simp [List.getD, List.getElem?_eq_getElem hi]
    · simp [List.getD, List.getElem?_eq_getElem hj]

theorem moveRanked_eq (E : Epoch F) (x : Row F d) (l : List Nat) (k : Nat) (s : S F d)
    (hl : l.Nodup) :
    ∃ p, moveRanked E x l k s = { s with pos := p } ∧ (∀ n, n ∉ l → p n = s.pos n) ∧
      ∀ (j : ℕ) n, l[j]? = some n →
        p n = fun i => s.pos n i + E.eps * E.w (k + j) * (x i - s.pos n i) := by
  induction l generalizing k s with
  | nil => exact ⟨s.pos, rfl, fun _ _ => rfl, by simp⟩
  | cons m l ih =>
    rw [List.nodup_cons] at hl
    obtain ⟨p, h1, h2, h3⟩ := ih (k + 1)
      ⟨s.g, upd s.pos m (fun i => s.pos m i + E.eps * E.w k * (x i - s.pos m i)), s.err, s.age,
        s.tlen⟩ hl.2
    refine ⟨p, h1, ?_, ?_⟩
    · intro n hn
      rw [List.mem_cons, not_or] at hn
      rw [h2 n hn.2]
      exact upd_ne _ _ hn.1
    · intro j n hj
      cases j with
      | zero =>
        simp only [List.getElem?_cons_zero, Option.some.injEq] at hj
        subst hj
        rw [h2 m hl.1]
        simp only
        rw [upd_same]
        rfl
      | succ j =>
        simp only [List.getElem?_cons_succ] at hj
        have hn : n ≠ m := fun h => hl.1 (h ▸ List.mem_of_getElem? hj)
        rw [h3 j n hj]
        simp only
        rw [upd_ne _ _ hn, show k + 1 + j = k + (j + 1) by omega]

theorem sweep_sub (T : F) (k i : Nat) (s : S F d) (h : Consistent s.g) :
    ∃ g', sweep T k i s = .ok { s with g := g' } ∧ Consistent g' ∧ g'.nodes = s.g.nodes ∧
      (∀ e ∈ g'.edges, e ∈ s.g.edges) ∧
      ∀ e ∈ s.g.edges, ¬ (s.age e.id : F) > T → e ∈ g'.edges := by
  induction k generalizing i s with
  | zero => exact ⟨s.g, rfl, h, rfl, fun _ h => h, fun _ h _ => h⟩
  | succ k ih =>
    rw [sweep]
    cases hi : s.g.edges[i]? with
    | none => exact ⟨s.g, rfl, h, rfl, fun _ h => h, fun _ h _ => h⟩
    | some e =>
      dsimp only
      by_cases hT : (s.age e.id : F) > T
      · rw [if_pos hT]
        obtain ⟨g1, hr, c1, n1, e1, _, _⟩ := removeEdge_ok h (List.mem_of_getElem? hi)
        rw [hr]
        obtain ⟨g2, h2, c2, n2, a2, b2⟩ := ih (i + 1) { s with g := g1 } c1
        refine ⟨g2, h2, c2, n2.trans n1, ?_, ?_⟩
        · intro x hx
          have : x ∈ g1.edges := a2 x hx
          rw [e1] at this
          exact List.mem_of_mem_erase this
        · intro x hx hxT
          refine b2 x ?_ hxT
          show x ∈ g1.edges
          rw [e1]
          have hxe : x ≠ e := by
            rintro rfl
            exact hxT hT
          exact (List.mem_erase_of_ne hxe).2 hx
      · rw [if_neg hT]
        exact ih (i + 1) s h

theorem sweep_one (T : F) (k i : Nat) (s : S F d) (h : Consistent s.g)
    (hone : ∀ e ∈ s.g.edges, ∀ e' ∈ s.g.edges, (s.age e.id : F) > T → (s.age e'.id : F) > T →
      e = e')
    (hk : s.g.edges.length ≤ k + i)
    (hbef : ∀ j e, j < i → s.g.edges[j]? = some e → ¬ (s.age e.id : F) > T) :
    ∃ g', sweep T k i s = .ok { s with g := g' } ∧ ∀ e ∈ g'.edges, ¬ (s.age e.id : F) > T := by
  induction k generalizing i with
  | zero =>
    refine ⟨s.g, rfl, ?_⟩
    intro e he
    obtain ⟨j, hj, rfl⟩ := List.getElem_of_mem he
    exact hbef j _ (by omega) (List.getElem?_eq_getElem hj)
  | succ k ih =>
    rw [sweep]
    cases hi : s.g.edges[i]? with
    | none =>
      refine ⟨s.g, rfl, ?_⟩
      intro e he
      obtain ⟨j, hj, rfl⟩ := List.getElem_of_mem he
      rw [List.getElem?_eq_none_iff] at hi
      exact hbef j _ (by omega) (List.getElem?_eq_getElem hj)
    | some e =>
      dsimp only
      have he := List.mem_of_getElem? hi
      by_cases hT : (s.age e.id : F) > T
      · rw [if_pos hT]
        obtain ⟨g1, hr, c1, n1, e1, _, _⟩ := removeEdge_ok h he
        rw [hr]
        obtain ⟨g2, h2, c2, n2, a2, b2⟩ := sweep_sub T k (i + 1) { s with g := g1 } c1
        refine ⟨g2, h2, ?_⟩
        intro x hx hxT
        have : x ∈ g1.edges := a2 x hx
        rw [e1, h.edges_nodup.mem_erase_iff] at this
        exact this.1 (hone x this.2 e he hxT hT)
      · rw [if_neg hT]
        refine ih (i + 1) (by omega) ?_
        intro j x hj hx
        by_cases hji : j = i
        · subst hji
          rw [hi] at hx
          cases hx
          exact hT
        · exact hbef j x (by omega) hx

/-- The invariant of training a neural gas. -/
structure NInv (N : List Nat) (C : Row F d → Prop) (s : S F d) : Prop where
  cons : Consistent s.g
  simple : Simple s.g
  ids : Ids s.g
  nodes : s.g.nodes = N
  pos : ∀ n ∈ N, C (s.pos n)
  ages : ∀ e ∈ s.g.edges, ∀ e' ∈ s.g.edges, s.age e.id = s.age e'.id → e = e'

/-- What one data point does. -/
structure NMid (E : Epoch F) (s : S F d) (x : Row F d) (r : List Nat) (s' : S F d) : Prop where
  perm : r.Perm s.g.nodes
  sorted : r.Pairwise fun a b => dist2 (s.pos a) x ≤ dist2 (s.pos b) x
  pos : ∀ (j : ℕ) n, r[j]? = some n →
    s'.pos n = fun i => s.pos n i + E.eps * E.w j * (x i - s.pos n i)
  nodes : s'.g.nodes = s.g.nodes
  old : ∀ n0 n1, r[0]? = some n0 → r[1]? = some n1 →
    ∀ e ∈ s'.g.edges, e ∈ s.g.edges ∨ Joins e n0 n1
  age0 : ∀ n0 n1, r[0]? = some n0 → r[1]? = some n1 →
    ∀ e ∈ s'.g.edges, Joins e n0 n1 → s'.age e.id = 0
  age1 : ∀ n0 n1, r[0]? = some n0 → r[1]? = some n1 →
    ∀ e ∈ s'.g.edges, ¬ Joins e n0 n1 → s'.age e.id = s.age e.id + 1
  joined : 0 ≤ E.T → ∀ n0 n1, r[0]? = some n0 → r[1]? = some n1 → ∃ e ∈ s'.g.edges, Joins e n0 n1
  kept : ∀ e ∈ s.g.edges, ¬ ((s.age e.id + 1 : ℕ) : F) > E.T → e ∈ s'.g.edges
  young : 0 ≤ E.T → (∀ e ∈ s.g.edges, (s.age e.id : F) ≤ E.T) →
    ∀ e ∈ s'.g.edges, (s'.age e.id : F) ≤ E.T

theorem ngStep_ok [IsStrictOrderedRing F] {argsort : List F → List Nat} (ha : IsArgsort argsort)
    (E : Epoch F) (N : List Nat) (hN : 2 ≤ N.length) (C : Row F d → Prop)
    (hC : ∀ j a b, C a → C b → C fun i => a i + E.eps * E.w j * (b i - a i)) (s : S F d)
    (hI : NInv N C s) (x : Row F d) (hx : C x) :
    ∃ r s', ngStep argsort E s x = .ok s' ∧ NInv N C s' ∧ NMid E s x r s' := by
  obtain ⟨r, hr, hperm, hsort⟩ := rank_ok ha s x
  have hrnd : r.Nodup := hperm.nodup_iff.2 hI.cons.nodes_nodup
  have hlen : 2 ≤ r.length := by rw [hperm.length_eq, hI.nodes]; exact hN
  obtain ⟨p, hmv, hp0, hp1⟩ := moveRanked_eq E x r 0 s hrnd
  have hage : ageAll { s with pos := p } = ({ s with
      pos := p, age := fun k => if k ∈ s.g.edges.map Edge.id then s.age k + 1 else s.age k } :
      S F d) :=
    foldAge s.g.edges _ (ids_nodup hI.ids hI.cons.edges_nodup fun _ h => h)
  unfold ngStep
  rw [hr]
  dsimp only
  rw [hmv, hage]
  match r, hlen with
  | [], h => simp at h
  | [_], h => simp at h
  | n0 :: n1 :: t, _ =>
    have h0 : n0 ∈ s.g.nodes := hperm.mem_iff.1 (by simp)
    have h1 : n1 ∈ s.g.nodes := hperm.mem_iff.1 (by simp)
    have hne : n0 ≠ n1 := by rintro rfl; simp at hrnd
    obtain ⟨s1, hr1, c1, si1, i1, nd1, p1, er1, t1, j1, ol1, ke1, z1, a1⟩ :=
      renew_ok n0 n1 ({ s with
        pos := p, age := fun k => if k ∈ s.g.edges.map Edge.id then s.age k + 1 else s.age k } :
        S F d) hI.cons hI.simple hI.ids h0 h1 hne
    simp only at nd1 p1 er1 t1 ol1 ke1 a1
    dsimp only
    rw [hr1]
    dsimp only
    obtain ⟨g2, hsw, c2, n2, sub2, keep2⟩ := sweep_sub E.T s1.g.edges.length 0 s1 c1
    have hage1 : ∀ e ∈ s1.g.edges, ¬ Joins e n0 n1 → s1.age e.id = s.age e.id + 1 := by
      intro e he hj
      rw [a1 e he hj, if_pos (List.mem_map_of_mem ((ol1 e he).resolve_right hj))]
    refine ⟨n0 :: n1 :: t, { s1 with g := g2 }, hsw, ⟨c2, ?_, ?_, ?_, ?_, ?_⟩,
      ⟨hperm, hsort, ?_, ?_, ?_, ?_, ?_, ?_, ?_, ?_⟩⟩
    · constructor
      · intro e he; exact si1.1 e (sub2 e he)
      · intro e he e' he'; exact si1.2 e (sub2 e he) e' (sub2 e' he')
    · intro e he e' he'; exact i1 e (sub2 e he) e' (sub2 e' he')
    · show g2.nodes = N
      rw [n2, nd1, hI.nodes]
    · intro n hn
      show C (s1.pos n)
      rw [p1]
      have hnr : n ∈ n0 :: n1 :: t := hperm.mem_iff.2 (hI.nodes ▸ hn)
      obtain ⟨j, hj⟩ := List.getElem?_of_mem hnr
      rw [hp1 j n hj, Nat.zero_add]
      exact hC j _ _ (hI.pos n hn) hx
    · intro e he e' he' hh
      have he1 := sub2 e he
      have he1' := sub2 e' he'
      have hh : s1.age e.id = s1.age e'.id := hh
      by_cases hj : Joins e n0 n1 <;> by_cases hj' : Joins e' n0 n1
      · exact (si1.unique he1 he1' hj hj').symm
      · rw [z1 e he1 hj, hage1 e' he1' hj'] at hh; omega
      · rw [z1 e' he1' hj', hage1 e he1 hj] at hh; omega
      · rw [hage1 e he1 hj, hage1 e' he1' hj'] at hh
        exact hI.ages e ((ol1 e he1).resolve_right hj) e' ((ol1 e' he1').resolve_right hj')
          (by omega)
    · intro j n hj
      show s1.pos n = _
      rw [p1, hp1 j n hj, Nat.zero_add]
    · show g2.nodes = _
      rw [n2, nd1]
    · intro a b h1 h2 e he
      simp only [List.getElem?_cons_zero, List.getElem?_cons_succ, Option.some.injEq] at h1 h2
      subst h1 h2
      exact ol1 e (sub2 e he)
    · intro a b h1 h2 e he hj
      simp only [List.getElem?_cons_zero, List.getElem?_cons_succ, Option.some.injEq] at h1 h2
      subst h1 h2
      exact z1 e (sub2 e he) hj
    · intro a b h1 h2 e he hj
      simp only [List.getElem?_cons_zero, List.getElem?_cons_succ, Option.some.injEq] at h1 h2
      subst h1 h2
      exact hage1 e (sub2 e he) hj
    · intro hT a b h1 h2
      simp only [List.getElem?_cons_zero, List.getElem?_cons_succ, Option.some.injEq] at h1 h2
      subst h1 h2
      obtain ⟨e, he, hj⟩ := j1
      refine ⟨e, keep2 e he ?_, hj⟩
      rw [z1 e he hj]
      simpa using hT
    · intro e he hT
      refine keep2 e (ke1 e he) ?_
      by_cases hj : Joins e n0 n1
      · rw [z1 e (ke1 e he) hj]
        intro hh
        apply hT
        refine lt_of_lt_of_le hh ?_
        simp only [Nat.cast_zero]
        exact Nat.cast_nonneg _
      · rw [hage1 e (ke1 e he) hj]
        exact hT
    · intro hT hyoung e he
      have hone : ∀ e ∈ s1.g.edges, (s1.age e.id : F) > E.T →
          e ∈ s.g.edges ∧ s1.age e.id = s.age e.id + 1 := by
        intro e he hold
        have hj : ¬ Joins e n0 n1 := by
          intro hj
          rw [z1 e he hj] at hold
          simp at hold
          exact absurd hT (not_le.2 hold)
        exact ⟨(ol1 e he).resolve_right hj, hage1 e he hj⟩
      obtain ⟨g3, hsw3, hyo3⟩ := sweep_one E.T s1.g.edges.length 0 s1 c1 (by
        intro e he e' he' ho ho'
        obtain ⟨q1, q2⟩ := hone e he ho
        obtain ⟨q1', q2'⟩ := hone e' he' ho'
        apply hI.ages e q1 e' q1'
        have y := hyoung e q1
        have y' := hyoung e' q1'
        rw [q2] at ho
        rw [q2'] at ho'
        have l1 : (s.age e.id : F) < ((s.age e'.id + 1 : ℕ) : F) := lt_of_le_of_lt y ho'
        have l2 : (s.age e'.id : F) < ((s.age e.id + 1 : ℕ) : F) := lt_of_le_of_lt y' ho
        rw [Nat.cast_lt] at l1 l2
        omega) (by omega) (by intro j e hj; omega)
      rw [hsw] at hsw3
      have : g2 = g3 := by
        have := congrArg S.g (Except.ok.inj hsw3)
        exact this
      subst this
      exact not_lt.1 (hyo3 e he)

theorem ngEpoch_ok [IsStrictOrderedRing F] {argsort : List F → List Nat} (ha : IsArgsort argsort)
    (E : Epoch F) (N : List Nat) (hN : 2 ≤ N.length) (C : Row F d → Prop)
    (hC : ∀ j a b, C a → C b → C fun i => a i + E.eps * E.w j * (b i - a i))
    (xs : List (Row F d)) (hx : ∀ x ∈ xs, C x) (s : S F d) (hI : NInv N C s) :
    ∃ s', ngEpoch argsort E xs s = .ok s' ∧ NInv N C s' ∧
      (0 ≤ E.T → (∀ e ∈ s.g.edges, (s.age e.id : F) ≤ E.T) →
        ∀ e ∈ s'.g.edges, (s'.age e.id : F) ≤ E.T) := by
  induction xs generalizing s with
  | nil => exact ⟨s, rfl, hI, fun _ h => h⟩
  | cons x xs ih =>
    obtain ⟨r, s1, h1, i1, m1⟩ := ngStep_ok ha E N hN C hC s hI x (hx x (by simp))
    obtain ⟨s2, h2, i2, y2⟩ := ih (fun y hy => hx y (by simp [hy])) s1 i1
    refine ⟨s2, ?_, i2, fun hT hy => y2 hT (m1.young hT hy)⟩
    rw [ngEpoch, h1]
    exact h2

theorem ngTrain_inv [IsStrictOrderedRing F] {argsort : List F → List Nat} (ha : IsArgsort argsort)
    (N : List Nat) (hN : 2 ≤ N.length) (C : Row F d → Prop)
    (es : List (Epoch F × List (Row F d)))
    (hC : ∀ c ∈ es, ∀ j a b, C a → C b → C fun i => a i + c.1.eps * c.1.w j * (b i - a i))
    (hx : ∀ c ∈ es, ∀ x ∈ c.2, C x) (s : S F d) (hI : NInv N C s) :
    ∃ s', ngTrain argsort es s = .ok s' ∧ NInv N C s' ∧
      ∀ T0 : F, (∀ e ∈ s.g.edges, (s.age e.id : F) ≤ T0) → (∀ c ∈ es, 0 ≤ c.1.T ∧ T0 ≤ c.1.T) →
        (es.Pairwise fun a b => a.1.T ≤ b.1.T) →
        ∀ T1, (es = [] → T0 ≤ T1) → (∀ c ∈ es, c.1.T ≤ T1) →
          ∀ e ∈ s'.g.edges, (s'.age e.id : F) ≤ T1 := by
  induction es generalizing s with
  | nil => exact ⟨s, rfl, hI, fun T0 h _ _ T1 h1 _ e he => (h e he).trans (h1 rfl)⟩
  | cons c es ih =>
    obtain ⟨E, xs⟩ := c
    obtain ⟨s1, h1, i1, y1⟩ := ngEpoch_ok ha E N hN C (hC (E, xs) (by simp)) xs
      (hx (E, xs) (by simp)) s hI
    obtain ⟨s2, h2, i2, y2⟩ := ih (fun c hc => hC c (by simp [hc])) (fun c hc => hx c (by simp [hc]))
      s1 i1
    refine ⟨s2, by rw [ngTrain, h1]; exact h2, i2, ?_⟩
    intro T0 hy hT hp T1 _ hT1
    rw [List.pairwise_cons] at hp
    have hE := hT (E, xs) (by simp)
    refine y2 E.T (y1 hE.1 fun e he => (hy e he).trans hE.2) ?_ hp.2 T1 ?_ ?_
    · intro c hc
      exact ⟨(hT c (by simp [hc])).1, hp.1 c hc⟩
    · intro _
      exact hT1 (E, xs) (by simp)
    · intro c hc
      exact hT1 c (by simp [hc])

theorem ngNew_inv (ps : List (Row F d)) (C : Row F d → Prop) (hC : ∀ p ∈ ps, C p) (s : S F d)
    (hI : NInv s.g.nodes C s) (he : s.g.edges = []) :
    NInv (ngNew ps s).g.nodes C (ngNew ps s) ∧ (ngNew ps s).g.edges = [] ∧
      (ngNew ps s).g.nodes.length = s.g.nodes.length + ps.length := by
  induction ps generalizing s with
  | nil => exact ⟨hI, he, rfl⟩
  | cons p ps ih =>
    have he' : (addNode s p).1.g.edges = [] := he
    have hfresh : s.g.nextNode ∉ s.g.nodes := fun hm => Nat.lt_irrefl _ (hI.cons.node_lt _ hm)
    obtain ⟨h1, h2, h3⟩ := ih (fun q hq => hC q (by simp [hq])) (addNode s p).1
      ⟨Mdp.Graph.consistent_addNode hI.cons _, ⟨by simp [he'], by simp [he']⟩, by simp [Ids, he'],
        rfl, by
          intro n hn
          have hn : n ∈ s.g.nodes ++ [s.g.nextNode] := hn
          rw [List.mem_append, List.mem_singleton] at hn
          show C (upd s.pos s.g.nextNode p n)
          rcases hn with hn | rfl
          · have hne : n ≠ s.g.nextNode := by
              rintro rfl
              exact hfresh hn
            rw [upd_ne _ _ hne]
            exact hI.pos n hn
          · rw [upd_same]
            exact hC p (by simp), by simp [he']⟩ he'
    refine ⟨h1, h2, ?_⟩
    rw [ngNew, h3]
    show (s.g.nodes ++ [s.g.nextNode]).length + _ = _
    simp
    omega

theorem ngTrain_ok [IsStrictOrderedRing F] {argsort : List F → List Nat} (ha : IsArgsort argsort)
    (ps : List (Row F d)) (hp : 2 ≤ ps.length) (C : Row F d → Prop) (hps : ∀ p ∈ ps, C p)
    (es : List (Epoch F × List (Row F d)))
    (hC : ∀ c ∈ es, ∀ j a b, C a → C b → C fun i => a i + c.1.eps * c.1.w j * (b i - a i))
    (hx : ∀ c ∈ es, ∀ x ∈ c.2, C x) :
    ∃ s', ngTrain argsort es (ngNew ps S.empty) = .ok s' ∧ NInv s'.g.nodes C s' ∧
      s'.g.nodes.length = ps.length ∧
      ((∀ c ∈ es, 0 ≤ c.1.T) → (es.Pairwise fun a b => a.1.T ≤ b.1.T) →
        ∀ T1, 0 ≤ T1 → (∀ c ∈ es, c.1.T ≤ T1) →
          ∀ e ∈ s'.g.edges, (s'.age e.id : F) ≤ T1) := by
  obtain ⟨i0, e0, l0⟩ := ngNew_inv ps C hps (S.empty : S F d)
    ⟨Mdp.Graph.consistent_empty, ⟨by simp [S.empty, G.empty], by simp [S.empty, G.empty]⟩,
      by simp [Ids, S.empty, G.empty], rfl, by simp [S.empty, G.empty],
      by simp [S.empty, G.empty]⟩ rfl
  have l0 : (ngNew ps (S.empty : S F d)).g.nodes.length = ps.length := l0.trans (Nat.zero_add _)
  obtain ⟨s', h1, i1, y1⟩ := ngTrain_inv ha _ (by rw [l0]; exact hp) C es hC hx _ i0
  have hn := i1.nodes
  refine ⟨s', h1, by rw [hn]; exact i1, by rw [hn]; exact l0, ?_⟩
  intro hT hpw T1 h0 hT1
  exact y1 0 (by simp [e0]) (fun c hc => ⟨hT c hc, hT c hc⟩) hpw T1 (fun _ => h0) hT1

/-! ### Properties -/

/-- Training a neural gas with at least two nodes never raises; the number of nodes stays the
same, the edges join two different nodes of the graph and no two edges join the same nodes. -/
theorem ng_graph [IsStrictOrderedRing F] (argsort : List F → List Nat) (ha : IsArgsort argsort)
    (ps : List (Row F d)) (hp : 2 ≤ ps.length) (es : List (Epoch F × List (Row F d))) :
    ∃ s, ngTrain argsort es (ngNew ps S.empty) = .ok s ∧ s.g.nodes.length = ps.length ∧
      s.g.nodes.Nodup ∧ (∀ e ∈ s.g.edges, e.head ∈ s.g.nodes ∧ e.tail ∈ s.g.nodes) ∧
      Simple s.g := by
  obtain ⟨s, h1, h2, h3, _⟩ := ngTrain_ok ha ps hp (fun _ => True) (fun _ _ => trivial) es
    (fun _ _ _ _ _ _ _ => trivial) (fun _ _ _ _ => trivial)
  exact ⟨s, h1, h3, h2.cons.nodes_nodup, h2.cons.ends, h2.simple⟩

/-- With fewer than two nodes the first data point raises an `IndexError`. -/
theorem ng_one_node (argsort : List F → List Nat) (ha : IsArgsort argsort) (s : S F d)
    (h : s.g.nodes.length < 2) (E : Epoch F) (x : Row F d) (xs : List (Row F d))
    (es : List (Epoch F × List (Row F d))) :
    ngTrain argsort ((E, x :: xs) :: es) s = .error .index := by
  obtain ⟨r, hr, hperm, _⟩ := rank_ok ha s x
  have hstep : ngStep argsort E s x = .error .index := by
    unfold ngStep
    rw [hr]
    have := hperm.length_eq
    match r, this with
    | [], _ => rfl
    | [_], _ => rfl
    | _ :: _ :: _, h' => simp at h'; omega
  rw [ngTrain, ngEpoch, hstep]

/-- If the step widths lie between 0 and 1, and the start positions and all data points lie in a
convex set, all nodes stay in that set. -/
theorem ng_positions [IsStrictOrderedRing F] (argsort : List F → List Nat)
    (ha : IsArgsort argsort) (ps : List (Row F d)) (hp : 2 ≤ ps.length)
    (es : List (Epoch F × List (Row F d)))
    (hw : ∀ c ∈ es, ∀ j, 0 ≤ c.1.eps * c.1.w j ∧ c.1.eps * c.1.w j ≤ 1)
    (C : Row F d → Prop) (hC : ConvexSet C) (hps : ∀ p ∈ ps, C p)
    (hx : ∀ c ∈ es, ∀ x ∈ c.2, C x) :
    ∃ s, ngTrain argsort es (ngNew ps S.empty) = .ok s ∧ ∀ n ∈ s.g.nodes, C (s.pos n) := by
  obtain ⟨s, h1, h2, _, _⟩ := ngTrain_ok ha ps hp C hps es
    (fun c hc j a b ca cb => hC a b _ ca cb (hw c hc j).1 (hw c hc j).2) hx
  exact ⟨s, h1, h2.pos⟩

/-- One data point: the nodes are moved towards the point, the one of rank `j` in the order of the
distances by the fraction `epsilon * exp(-j / lambda)`; the edge between the two nearest nodes has
age zero and exists; the other edges are one step older; an edge that is not older than the maximal
age stays. -/
theorem ng_step [IsStrictOrderedRing F] (argsort : List F → List Nat) (ha : IsArgsort argsort)
    (ps : List (Row F d)) (hp : 2 ≤ ps.length) (es : List (Epoch F × List (Row F d))) (s : S F d)
    (hs : ngTrain argsort es (ngNew ps S.empty) = .ok s) (E : Epoch F) (hT : 0 ≤ E.T)
    (x : Row F d) :
    ∃ (r : List Nat) (n0 n1 : Nat) (s' : S F d), ngStep argsort E s x = .ok s' ∧ r.Perm s.g.nodes ∧
      (r.Pairwise fun a b => sqDist (s.pos a) x ≤ sqDist (s.pos b) x) ∧
      (∀ (j : ℕ) n, r[j]? = some n →
        s'.pos n = fun i => s.pos n i + E.eps * E.w j * (x i - s.pos n i)) ∧
      s'.g.nodes = s.g.nodes ∧
      r[0]? = some n0 ∧ r[1]? = some n1 ∧ (∃ e ∈ s'.g.edges, Joins e n0 n1) ∧
      (∀ e ∈ s'.g.edges, e ∈ s.g.edges ∨ Joins e n0 n1) ∧
      (∀ e ∈ s'.g.edges, Joins e n0 n1 → s'.age e.id = 0) ∧
      (∀ e ∈ s'.g.edges, ¬ Joins e n0 n1 → s'.age e.id = s.age e.id + 1) ∧
      (∀ e ∈ s.g.edges, (s.age e.id : F) + 1 ≤ E.T → e ∈ s'.g.edges) := by
  obtain ⟨s0, h1, h2, h3, _⟩ := ngTrain_ok ha ps hp (fun _ => True) (fun _ _ => trivial) es
    (fun _ _ _ _ _ _ _ => trivial) (fun _ _ _ _ => trivial)
  rw [hs] at h1
  cases h1
  obtain ⟨r, s', hst, _, m⟩ := ngStep_ok ha E _ (by rw [h3]; exact hp) (fun _ => True)
    (fun _ _ _ _ _ => trivial) s h2 x trivial
  have hlen := m.perm.length_eq
  rw [h3] at hlen
  obtain ⟨n0, hn0⟩ : ∃ n0, r[0]? = some n0 := ⟨_, List.getElem?_eq_getElem (by omega)⟩
  obtain ⟨n1, hn1⟩ : ∃ n1, r[1]? = some n1 := ⟨_, List.getElem?_eq_getElem (by omega)⟩
  refine ⟨r, n0, n1, s', hst, m.perm, ?_, m.pos, m.nodes, hn0, hn1, m.joined hT n0 n1 hn0 hn1,
    m.old n0 n1 hn0 hn1, m.age0 n0 n1 hn0 hn1, m.age1 n0 n1 hn0 hn1, ?_⟩
  · simpa only [dist2_eq] using m.sorted
  · intro e he hle
    apply m.kept e he
    push_cast
    exact not_lt.2 hle

/-- If the maximal age does not decrease from one epoch to the next, no edge is older than the
maximal age of the present epoch. (`es` may end in the middle of an epoch.) -/
theorem ng_ages_partial [IsStrictOrderedRing F] (argsort : List F → List Nat)
    (ha : IsArgsort argsort) (ps : List (Row F d)) (hp : 2 ≤ ps.length)
    (es : List (Epoch F × List (Row F d))) (hT : ∀ c ∈ es, 0 ≤ c.1.T)
    (hmono : es.Pairwise fun a b => a.1.T ≤ b.1.T) (last : Epoch F × List (Row F d))
    (hlast : es.getLast? = some last) :
    ∃ s, ngTrain argsort es (ngNew ps S.empty) = .ok s ∧
      ∀ e ∈ s.g.edges, (s.age e.id : F) ≤ last.1.T := by
  obtain ⟨s, h1, _, _, h4⟩ := ngTrain_ok ha ps hp (fun _ => True) (fun _ _ => trivial) es
    (fun _ _ _ _ _ _ _ => trivial) (fun _ _ _ _ => trivial)
  obtain ⟨ys, rfl⟩ := List.getLast?_eq_some_iff.1 hlast
  refine ⟨s, h1, h4 hT hmono last.1.T (hT last (by simp)) ?_⟩
  intro c hc
  rw [List.mem_append, List.mem_singleton] at hc
  rcases hc with hc | rfl
  · exact (List.pairwise_append.1 hmono).2.2 c hc last (by simp)
  · exact le_refl _

/-! ### The schedule -/

theorem denom_mem (N : NgParams) (t : Nat) : 0 ≤ denom N t ∧ denom N t ≤ 1 := by
  unfold denom
  split
  · next h =>
    have : (0 : ℝ) < N.maxEpochs := lt_of_le_of_lt (Nat.cast_nonneg _) h
    exact ⟨div_nonneg (Nat.cast_nonneg _) this.le, (div_le_one this).2 h.le⟩
  · exact ⟨zero_le_one, le_refl _⟩

theorem denom_mono (N : NgParams) {t u : Nat} (h : t ≤ u) : denom N t ≤ denom N u := by
  by_cases hu : (u : ℝ) < N.maxEpochs
  · have ht : (t : ℝ) < N.maxEpochs := lt_of_le_of_lt (Nat.cast_le.2 h) hu
    have : (0 : ℝ) < N.maxEpochs := lt_of_le_of_lt (Nat.cast_nonneg _) hu
    unfold denom
    rw [if_pos hu, if_pos ht]
    exact div_le_div_of_nonneg_right (Nat.cast_le.2 h) this.le
  · have : denom N u = 1 := by unfold denom; rw [if_neg hu]
    rw [this]
    exact (denom_mem N t).2

/-- The interpolation between two positive values stays between them. -/
theorem interp_le {a b c t : ℝ} (ha : 0 < a) (hb : 0 < b) (hac : a ≤ c) (hbc : b ≤ c) (h0 : 0 ≤ t)
    (h1 : t ≤ 1) : a * (b / a) ^ t ≤ c := by
  rcases le_total b a with h | h
  · have : (b / a) ^ t ≤ 1 := Real.rpow_le_one (div_nonneg hb.le ha.le) ((div_le_one ha).2 h) h0
    calc a * (b / a) ^ t ≤ a * 1 := mul_le_mul_of_nonneg_left this ha.le
      _ ≤ c := by rw [mul_one]; exact hac
  · have h2 : 1 ≤ b / a := (one_le_div ha).2 h
    have : (b / a) ^ t ≤ (b / a) ^ (1 : ℝ) := Real.rpow_le_rpow_of_exponent_le h2 h1
    rw [Real.rpow_one] at this
    calc a * (b / a) ^ t ≤ a * (b / a) := mul_le_mul_of_nonneg_left this ha.le
      _ = b := by field_simp
      _ ≤ c := hbc

/-- With positive parameters and step widths of at most one the schedule meets the hypotheses of
`ng_positions`. -/
theorem schedule_width (N : NgParams) (h1 : 0 < N.epsilonI) (h2 : N.epsilonI ≤ 1)
    (h3 : 0 < N.epsilonF) (h4 : N.epsilonF ≤ 1) (h5 : 0 < N.lambdaI) (h6 : 0 < N.lambdaF)
    (t j : Nat) :
    0 ≤ (schedule N t).eps * (schedule N t).w j ∧ (schedule N t).eps * (schedule N t).w j ≤ 1 := by
  obtain ⟨d0, d1⟩ := denom_mem N t
  have e0 : 0 ≤ (schedule N t).eps :=
    mul_nonneg h1.le (Real.rpow_nonneg (div_nonneg h3.le h1.le) _)
  have e1 : (schedule N t).eps ≤ 1 := interp_le h1 h3 h2 h4 d0 d1
  have w0 : 0 ≤ (schedule N t).w j := (Real.exp_pos _).le
  have w1 : (schedule N t).w j ≤ 1 := by
    apply Real.exp_le_one_iff.2
    apply div_nonpos_of_nonpos_of_nonneg
    · simp
    · exact mul_nonneg h5.le (Real.rpow_nonneg (div_nonneg h6.le h5.le) _)
  exact ⟨mul_nonneg e0 w0, mul_le_one₀ e1 w0 w1⟩

/-- If the final maximal age is not below the initial one, the schedule meets the hypotheses of
`ng_ages_partial`. -/
theorem schedule_ages (N : NgParams) (h1 : 0 < N.maxAgeI) (h2 : N.maxAgeI ≤ N.maxAgeF) {t u : Nat}
    (h : t ≤ u) : 0 ≤ (schedule N t).T ∧ (schedule N t).T ≤ (schedule N u).T := by
  have hq : 1 ≤ N.maxAgeF / N.maxAgeI := (one_le_div h1).2 h2
  refine ⟨mul_nonneg h1.le (Real.rpow_nonneg (by linarith) _), ?_⟩
  exact mul_le_mul_of_nonneg_left (Real.rpow_le_rpow_of_exponent_le hq (denom_mono N h)) h1.le

/-- The schedule goes from the initial to the final values and keeps the latter. -/
theorem schedule_ends (N : NgParams) (hI : N.epsilonI ≠ 0) (hA : N.maxAgeI ≠ 0)
    (hm : 0 < N.maxEpochs) :
    (schedule N 0).eps = N.epsilonI ∧ (schedule N 0).T = N.maxAgeI ∧
      ∀ t, N.maxEpochs ≤ t →
        (schedule N t).eps = N.epsilonF ∧ (schedule N t).T = N.maxAgeF := by
  have d0 : denom N 0 = 0 := by
    unfold denom
    rw [if_pos (by exact_mod_cast hm)]
    simp
  refine ⟨?_, ?_, ?_⟩
  · simp [schedule, d0]
  · simp [schedule, d0]
  · intro t ht
    have d1 : denom N t = 1 := by
      unfold denom
      rw [if_neg (by exact_mod_cast not_lt.2 ht)]
    constructor
    · simp only [schedule, d1, Real.rpow_one]
      field_simp
    · simp only [schedule, d1, Real.rpow_one]
      field_simp

/-- Training for `k + 1` epochs with the schedule of the node: all nodes stay in every convex set
that contains the start positions and the data, and if the maximal age does not shrink no edge is
older than the maximal age of the last epoch. -/
theorem ng_scheduled (N : NgParams) (h1 : 0 < N.epsilonI) (h2 : N.epsilonI ≤ 1)
    (h3 : 0 < N.epsilonF) (h4 : N.epsilonF ≤ 1) (h5 : 0 < N.lambdaI) (h6 : 0 < N.lambdaF)
    (argsort : List ℝ → List Nat) (ha : IsArgsort argsort) (ps : List (Row ℝ d))
    (hp : 2 ≤ ps.length) (C : Row ℝ d → Prop) (hC : ConvexSet C) (hps : ∀ p ∈ ps, C p)
    (data : Nat → List (Row ℝ d)) (hx : ∀ t, ∀ x ∈ data t, C x) (k : Nat) :
    ∃ s, ngTrain argsort ((List.range (k + 1)).map fun t => (schedule N t, data t))
        (ngNew ps S.empty) = .ok s ∧ (∀ n ∈ s.g.nodes, C (s.pos n)) ∧
      (0 < N.maxAgeI → N.maxAgeI ≤ N.maxAgeF →
        ∀ e ∈ s.g.edges, (s.age e.id : ℝ) ≤ (schedule N k).T) := by
  obtain ⟨s, hs, hpos⟩ := ng_positions argsort ha ps hp
    ((List.range (k + 1)).map fun t => (schedule N t, data t))
    (by
      intro c hc j
      obtain ⟨t, _, rfl⟩ := List.mem_map.1 hc
      exact schedule_width N h1 h2 h3 h4 h5 h6 t j) C hC hps
    (by
      intro c hc
      obtain ⟨t, _, rfl⟩ := List.mem_map.1 hc
      exact hx t)
  refine ⟨s, hs, hpos, ?_⟩
  intro a1 a2
  obtain ⟨s', hs', hage⟩ := ng_ages_partial argsort ha ps hp
    ((List.range (k + 1)).map fun t => (schedule N t, data t))
    (by
      intro c hc
      obtain ⟨t, _, rfl⟩ := List.mem_map.1 hc
      exact (schedule_ages N a1 a2 (le_refl t)).1)
    (by
      rw [List.pairwise_map]
      exact List.pairwise_lt_range.imp fun h => (schedule_ages N a1 a2 h.le).2)
    (schedule N k, data k) (by simp [List.range_succ])
  rw [hs] at hs'
  cases hs'
  exact hage

/-! ### The maximal age is not respected when it decreases -/

/-- An epoch with `epsilon = 1/100` and `lambda = 1/ln 2`, so that `exp(-rank/lambda)` is
`1/2^rank`. -/
def epochEx (T : ℚ) : Epoch ℚ := ⟨1 / 100, fun j => 1 / 2 ^ j, T⟩

/-- Two calls of `train` with one epoch each: `max_age_i = 100`, `max_age_f = 1`,
`max_epochs = 1`, `n_epochs_to_train = 1`. -/
def trainEx : List (Epoch ℚ × List (Row ℚ 1)) :=
  [(epochEx 100, [pt 4, pt 18, pt 60]), (epochEx 1, [pt 60])]

/-- The ages of the edges. -/
def agesEx (r : Except Err (S ℚ 1)) : Option (List Nat) :=
  match r with
  | .error _ => none
  | .ok s => some (s.g.edges.map fun e => s.age e.id)

/-- When the maximal age decreases, edges that are too old can survive: removing an edge from the
list that is being iterated over skips the edge behind it. -/
theorem ng_ages_false :
    ∃ (argsort : List ℚ → List Nat) (ps : List (Row ℚ 1)) (es : List (Epoch ℚ × List (Row ℚ 1)))
      (last : Epoch ℚ × List (Row ℚ 1)) (s : S ℚ 1),
      IsArgsort argsort ∧ 2 ≤ ps.length ∧ (∀ c ∈ es, 0 < c.1.T) ∧
      (∀ c ∈ es, ∀ j, 0 ≤ c.1.eps * c.1.w j ∧ c.1.eps * c.1.w j ≤ 1) ∧
      es.getLast? = some last ∧ last.2 ≠ [] ∧
      ngTrain argsort es (ngNew ps S.empty) = .ok s ∧
      ∃ e ∈ s.g.edges, (s.age e.id : ℚ) > last.1.T := by
  obtain ⟨s, hs, _⟩ := ng_graph sortEx isArgsort_ex [pt 0, pt 10, pt 30, pt 100] (by decide) trainEx
  have ha : agesEx (.ok s) = some [2, 0] := by rw [← hs]; decide +kernel
  have hw : ∀ j : ℕ, (0 : ℚ) ≤ 1 / 100 * (1 / 2 ^ j) ∧ (1 / 100 * (1 / 2 ^ j) : ℚ) ≤ 1 := by
    intro j
    have h1 : (1 : ℚ) ≤ 2 ^ j := one_le_pow₀ (by norm_num)
    have h2 : (1 / 2 ^ j : ℚ) ≤ 1 := (div_le_one (by linarith)).2 h1
    exact ⟨by positivity, by linarith⟩
  refine ⟨sortEx, _, trainEx, (epochEx 1, [pt 60]), s, isArgsort_ex, by decide, ?_, ?_, rfl,
    by simp, hs, ?_⟩
  · intro c hc
    simp only [trainEx, List.mem_cons, List.not_mem_nil, or_false] at hc
    rcases hc with rfl | rfl <;> norm_num [epochEx]
  · intro c hc j
    simp only [trainEx, List.mem_cons, List.not_mem_nil, or_false] at hc
    rcases hc with rfl | rfl <;> exact hw j
  · simp only [agesEx, Option.some.injEq] at ha
    have : 2 ∈ s.g.edges.map fun e => s.age e.id := by rw [ha]; simp
    obtain ⟨e, he, h2⟩ := List.mem_map.1 this
    refine ⟨e, he, ?_⟩
    rw [h2]
    norm_num [epochEx]

/-- The hypotheses of `ng_graph`, `ng_positions` and `ng_ages_partial` can be met: with the
constant maximal age 2 the oldest edge is removed. -/
example : agesEx (ngTrain sortEx [(epochEx 2, [pt 4, pt 18, pt 60]), (epochEx 2, [pt 60])]
    (ngNew [pt 0, pt 10, pt 30, pt 100] S.empty)) = some [2, 0] := by decide +kernel

/-- A realistic set of parameters (the defaults) meets the hypotheses about the schedule. -/
example : ∃ N : NgParams, 0 < N.epsilonI ∧ N.epsilonI ≤ 1 ∧ 0 < N.epsilonF ∧ N.epsilonF ≤ 1 ∧
    0 < N.lambdaI ∧ 0 < N.lambdaF ∧ 0 < N.maxAgeI ∧ N.maxAgeI ≤ N.maxAgeF ∧ 0 < N.maxEpochs :=
  ⟨⟨0.3, 0.05, 30, 0.01, 20, 200, 100⟩, by norm_num, by norm_num, by norm_num, by norm_num,
    by norm_num, by norm_num, by norm_num, by norm_num, by norm_num⟩

/-- A single node (`ng_one_node`). -/
example : (ngNew [pt 0] (S.empty : S ℚ 1)).g.nodes.length < 2 := by decide

end Mdp.NeuralGas
