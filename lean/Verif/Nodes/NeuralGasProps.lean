import Verif.Nodes.NeuralGasStep
import Mathlib.Data.List.Sort
import Mathlib.Data.Rat.Cast.Order
import Mathlib.Tactic.FieldSimp
import Mathlib.Tactic.NormNum

/-! # The growing neural gas node: what training does -/

namespace Mdp.NeuralGas

open Mdp.Graph (G Edge upd Consistent)
open Mdp.Cov (Row)

variable {F : Type} [Field F] [LinearOrder F] {d : Nat}

/-- The invariant of training. `C` is a property of all positions. -/
structure Inv (P : P F) (C : Row F d → Prop) (s : S F d) : Prop where
  cons : Consistent s.g
  simple : Simple s.g
  ids : Ids s.g
  young : ∀ e ∈ s.g.edges, (s.age e.id : F) ≤ P.maxAge
  two : 2 ≤ s.g.nodes.length
  bound : s.g.nodes.length ≤ max 2 P.maxNodes
  cov : NoIsolated s.g ∨ s.g.nodes.length = 2
  pos : ∀ n ∈ s.g.nodes, C (s.pos n)

/-- `C` is kept by the movements of the algorithm. -/
def Kept (P : P F) (C : Row F d → Prop) : Prop :=
  ∀ t, t = P.epsB ∨ t = P.epsN ∨ t = 1 / 2 → ∀ a b, C a → C b →
    C fun i => a i + t * (b i - a i)

/-- The state after steps 2 to 7 of the loop. -/
structure Mid (P : P F) (sqrt : F → F) (s : S F d) (x : Row F d) (n0 n1 : Nat) (s2 : S F d) :
    Prop where
  n0mem : n0 ∈ s.g.nodes
  n1mem : n1 ∈ s.g.nodes
  ne : n0 ≠ n1
  near : ∀ m ∈ s.g.nodes, dist2 (s.pos n0) x ≤ dist2 (s.pos m) x
  second : ∀ m ∈ s.g.nodes, m ≠ n0 → dist2 (s.pos n1) x ≤ dist2 (s.pos m) x
  cons : Consistent s2.g
  simple : Simple s2.g
  ids : Ids s2.g
  cov : NoIsolated s2.g
  young : ∀ e ∈ s2.g.edges, (s2.age e.id : F) ≤ P.maxAge
  sub : s2.g.nodes.Sublist s.g.nodes
  mem : ∀ n, n ∈ s2.g.nodes ↔ n ∈ s.g.nodes ∧ Touched s2.g.edges n
  joined : ∃ e ∈ s2.g.edges, Joins e n0 n1
  kept : ∀ e ∈ s.g.edges, (e ∈ s2.g.edges ↔
    Joins e n0 n1 ∨ ¬ ((e.head = n0 ∨ e.tail = n0) ∧ ((s.age e.id + 1 : ℕ) : F) > P.maxAge))
  old : ∀ e ∈ s2.g.edges, e ∈ s.g.edges ∨ Joins e n0 n1
  age0 : ∀ e ∈ s2.g.edges, Joins e n0 n1 → s2.age e.id = 0
  age1 : ∀ e ∈ s2.g.edges, ¬ Joins e n0 n1 →
    s2.age e.id = if e.head = n0 ∨ e.tail = n0 then s.age e.id + 1 else s.age e.id
  pos0 : s2.pos n0 = fun i => s.pos n0 i + P.epsB * (x i - s.pos n0 i)
  pos1 : ∀ n, n ≠ n0 → (∃ e ∈ s.g.edges, Joins e n0 n) →
    s2.pos n = fun i => s.pos n i + P.epsN * (x i - s.pos n i)
  pos2 : ∀ n, n ≠ n0 → (¬ ∃ e ∈ s.g.edges, Joins e n0 n) → s2.pos n = s.pos n
  err : s2.err = upd s.err n0 (s.err n0 + sqrt (dist2 (s.pos n0) x))
  tlen : s2.tlen = s.tlen + 1

theorem step_mid [IsStrictOrderedRing F] (P : P F) {argsort : List F → List Nat}
    (ha : IsArgsort argsort) (sqrt : F → F) (hA : 0 ≤ P.maxAge) (C : Row F d → Prop) (s : S F d)
    (hI : Inv P C s) (x : Row F d) :
    ∃ n0 n1 s2, Mid P sqrt s x n0 n1 s2 ∧
      step P argsort sqrt s x = finish P s2 := by
  obtain ⟨n0, n1, hn, h0, h1, hne, hnear, hsec⟩ :=
    getNearest_ok ha { s with tlen := s.tlen + 1 } hI.cons.nodes_nodup hI.two x
  simp only at h0 h1 hnear hsec
  obtain ⟨ag, at', aa, ae, ap⟩ := adapt_eq P sqrt x n0 (dist2 (s.pos n0) x)
    { s with tlen := s.tlen + 1 } hI.cons hI.simple hI.ids
  simp only at ag at' aa ae ap
  obtain ⟨s1, hr, c1, si1, i1, nd1, p1, er1, t1, j1, ol1, ke1, z1, a1⟩ :=
    renew_ok n0 n1 (adapt P sqrt x n0 (dist2 (s.pos n0) x) { s with tlen := s.tlen + 1 })
      (by rw [ag]; exact hI.cons) (by rw [ag]; exact hI.simple) (by rw [ag]; exact hI.ids)
      (by rw [ag]; exact h0) (by rw [ag]; exact h1) hne
  rw [ag] at nd1 ol1 ke1
  have hcov1 : NoIsolated s1.g := by
    intro n hnm
    rcases hI.cov with hc | hc
    · obtain ⟨e, he, ht⟩ := hc n (nd1 ▸ hnm)
      exact ⟨e, ke1 e he, ht⟩
    · have : n = n0 ∨ n = n1 := by
        by_contra hcon
        rw [not_or] at hcon
        have hnd : [n, n0, n1].Nodup := by simp [hcon, hne]
        have := (hnd.subperm (l₂ := s.g.nodes) (by
          intro y hy
          simp only [List.mem_cons, List.not_mem_nil, or_false] at hy
          rcases hy with rfl | rfl | rfl
          · exact nd1 ▸ hnm
          · exact h0
          · exact h1)).length_le
        simp at this
        omega
      obtain ⟨e, he, hj⟩ := j1
      refine ⟨e, he, ?_⟩
      rcases this with rfl | rfl <;> rcases hj with ⟨q1, q2⟩ | ⟨q1, q2⟩ <;> tauto
  obtain ⟨g2, hro, c2, sub2, m2, t2, x2, y2⟩ := removeOld_ok P.maxAge
    (Mdp.Graph.getEdges s1.g n0) s1 c1 si1.loop (getEdges_nodup c1 si1 n0)
    (fun e he => ((Mdp.Graph.mem_getEdges c1 n0 e).1 he).1)
  have hage : ∀ e ∈ s1.g.edges, ¬ Joins e n0 n1 →
      s1.age e.id = if e.head = n0 ∨ e.tail = n0 then s.age e.id + 1 else s.age e.id := by
    intro e he hj
    rw [a1 e he hj]
    exact aa e ((ol1 e he).resolve_right hj)
  have hcov2 : NoIsolated g2 := by
    intro n hn
    rcases ((t2 n).1 hn).2 with hh | hh
    · exact hh
    · exact absurd (hcov1 n ((t2 n).1 hn).1) hh
  refine ⟨n0, n1, { s1 with g := g2 },
    ⟨h0, h1, hne, hnear, hsec, c2, ?_, ?_, hcov2, ?_, ?_, ?_, ?_, ?_, ?_, ?_, ?_, ?_, ?_, ?_, ?_, ?_⟩, ?_⟩
  · constructor
    · intro e he; exact si1.1 e ((m2 e).1 he).1
    · intro e he e' he'; exact si1.2 e ((m2 e).1 he).1 e' ((m2 e').1 he').1
  · intro e he e' he'; exact i1 e ((m2 e).1 he).1 e' ((m2 e').1 he').1
  · intro e he
    have := (m2 e).1 he
    by_cases ht : e ∈ Mdp.Graph.getEdges s1.g n0
    · exact not_lt.1 fun hh => this.2 ⟨ht, hh⟩
    · have hnt : ¬ (e.head = n0 ∨ e.tail = n0) := fun hh =>
        ht ((Mdp.Graph.mem_getEdges c1 n0 e).2 ⟨this.1, hh.symm⟩)
      have hj : ¬ Joins e n0 n1 := by
        rintro (⟨hh, _⟩ | ⟨_, hh⟩)
        · exact hnt (.inl hh)
        · exact hnt (.inr hh)
      show (s1.age e.id : F) ≤ P.maxAge
      rw [hage e this.1 hj, if_neg hnt]
      exact hI.young e ((ol1 e this.1).resolve_right hj)
  · simpa [nd1] using sub2
  · intro n
    show n ∈ g2.nodes ↔ n ∈ s.g.nodes ∧ Touched g2.edges n
    constructor
    · intro hn; exact ⟨nd1 ▸ ((t2 n).1 hn).1, hcov2 n hn⟩
    · intro hn; exact (t2 n).2 ⟨nd1 ▸ hn.1, .inl hn.2⟩
  · obtain ⟨e, he, hj⟩ := j1
    refine ⟨e, (m2 e).2 ⟨he, fun hh => ?_⟩, hj⟩
    have := hh.2
    rw [z1 e he hj] at this
    simp at this
    exact absurd hA (not_le.2 this)
  · intro e he
    show e ∈ g2.edges ↔ _
    rw [m2 e]
    have he1 := ke1 e he
    by_cases hj : Joins e n0 n1
    · simp only [he1, hj, true_and, true_or, iff_true, not_and, z1 e he1 hj]
      intro _
      simpa using hA
    · simp only [he1, hj, true_and, false_or]
      rw [Mdp.Graph.mem_getEdges c1]
      by_cases ht : e.head = n0 ∨ e.tail = n0
      · rw [hage e he1 hj, if_pos ht]
        simp only [he1, ht, ht.symm, true_and]
      · simp only [ht, ht ∘ Or.symm, and_false, false_and, not_false_eq_true, Or.comm]
  · intro e he
    exact ol1 e ((m2 e).1 he).1
  · intro e he hj
    exact z1 e ((m2 e).1 he).1 hj
  · intro e he hj
    exact hage e ((m2 e).1 he).1 hj
  · show s1.pos n0 = _
    rw [p1, ap n0, if_pos rfl]
  · intro n hn he
    show s1.pos n = _
    rw [p1, ap n, if_neg hn, if_pos ((mem_neighbors hI.cons n0 n).2 he)]
  · intro n hn he
    show s1.pos n = _
    rw [p1, ap n, if_neg hn, if_neg fun hh => he ((mem_neighbors hI.cons n0 n).1 hh)]
  · show s1.err = _
    rw [er1, ae]
  · show s1.tlen = _
    rw [t1, at']
  · unfold step
    dsimp only
    rw [hn]
    dsimp only
    rw [hr]
    dsimp only
    rw [hro]

theorem half_eq [IsStrictOrderedRing F] (a b : F) : 1 / 2 * (a + b) = a + 1 / 2 * (b - a) := by
  ring

theorem step_ok [IsStrictOrderedRing F] (P : P F) {argsort : List F → List Nat}
    (ha : IsArgsort argsort) (sqrt : F → F) (hA : 0 ≤ P.maxAge) (hl : P.lam ≠ 0)
    (C : Row F d → Prop) (hC : Kept P C) (s : S F d) (hI : Inv P C s) (x : Row F d) (hx : C x) :
    ∃ s', step P argsort sqrt s x = .ok s' ∧ Inv P C s' ∧ NoIsolated s'.g ∧
      s'.tlen = s.tlen + 1 := by
  obtain ⟨n0, n1, s2, hm, hstep⟩ := step_mid P ha sqrt hA C s hI x
  rw [hstep]
  have hpos : ∀ n ∈ s2.g.nodes, C (s2.pos n) := by
    intro n hn
    have hc := hI.pos n ((hm.mem n).1 hn).1
    by_cases h0 : n = n0
    · subst h0
      rw [hm.pos0]
      exact hC _ (.inl rfl) _ _ hc hx
    · by_cases he : ∃ e ∈ s.g.edges, Joins e n0 n
      · rw [hm.pos1 n h0 he]
        exact hC _ (.inr (.inl rfl)) _ _ hc hx
      · rw [hm.pos2 n h0 he]
        exact hc
  have htwo : 2 ≤ s2.g.nodes.length := by
    obtain ⟨e, he, hj⟩ := hm.joined
    have hnd : [n0, n1].Nodup := by simp [hm.ne]
    exact (hnd.subperm (l₂ := s2.g.nodes) (by
      intro y hy
      simp only [List.mem_cons, List.not_mem_nil, or_false] at hy
      rcases hy with rfl | rfl
      · exact (hm.mem _).2 ⟨hm.n0mem, e, he, by rcases hj with hj | hj <;> tauto⟩
      · exact (hm.mem _).2 ⟨hm.n1mem, e, he, by rcases hj with hj | hj <;> tauto⟩)).length_le
  have hle := hm.sub.length_le
  unfold finish grow
  rw [if_neg hl]
  by_cases hg : s2.tlen % P.lam = 0 ∧ s2.g.nodes.length < P.maxNodes
  · rw [if_pos hg]
    obtain ⟨q, f, e, s3, hins, hq, hmax, hf, he, hj, hmax2, c3, si3, i3, cov3, hfr, hn3, he3, t3,
      a30, a31, a3, p3, p3', er3, er3'⟩ := insert_ok P s2 hm.cons hm.simple hm.ids hm.cov
        (by intro hh; rw [hh] at htwo; simp at htwo)
    rw [hins]
    dsimp only
    rw [decay_eq P s3 c3]
    refine ⟨_, rfl, ⟨c3, si3, i3, ?_, ?_, ?_, .inl cov3, ?_⟩, cov3, ?_⟩
    · intro y hy
      rcases (he3 y).1 hy with hy | rfl | rfl
      · show (s3.age y.id : F) ≤ _
        rw [a3 y hy.1]
        exact hm.young y hy.1
      · show (s3.age s2.g.nextEdge : F) ≤ _
        rw [a30]; simpa using hA
      · show (s3.age (s2.g.nextEdge + 1) : F) ≤ _
        rw [a31]; simpa using hA
    · show 2 ≤ s3.g.nodes.length
      rw [hn3]; simp; omega
    · show s3.g.nodes.length ≤ _
      rw [hn3]; simp; omega
    · intro n hn
      have hn : n ∈ s3.g.nodes := hn
      show C (s3.pos n)
      rw [hn3, List.mem_append, List.mem_singleton] at hn
      rcases hn with hn | rfl
      · rw [p3' n hn]; exact hpos n hn
      · rw [p3]
        simp only [half_eq]
        exact hC _ (.inr (.inr rfl)) _ _ (hpos q hq) (hpos f hf)
    · show s3.tlen = _
      rw [t3, hm.tlen]
  · rw [if_neg hg]
    dsimp only
    rw [decay_eq P s2 hm.cons]
    exact ⟨_, rfl, ⟨hm.cons, hm.simple, hm.ids, hm.young, htwo, hle.trans hI.bound, .inl hm.cov,
      hpos⟩, hm.cov, hm.tlen⟩

theorem steps_ok [IsStrictOrderedRing F] (P : P F) {argsort : List F → List Nat}
    (ha : IsArgsort argsort) (sqrt : F → F) (hA : 0 ≤ P.maxAge) (hl : P.lam ≠ 0)
    (C : Row F d → Prop) (hC : Kept P C) (xs : List (Row F d)) (hx : ∀ x ∈ xs, C x) (s : S F d)
    (hI : Inv P C s) :
    ∃ s', steps P argsort sqrt xs s = .ok s' ∧ Inv P C s' ∧
      (NoIsolated s.g ∨ xs ≠ [] → NoIsolated s'.g) ∧ s'.tlen = s.tlen + xs.length := by
  induction xs generalizing s with
  | nil => exact ⟨s, rfl, hI, by simp, rfl⟩
  | cons x xs ih =>
    obtain ⟨s1, h1, i1, n1, t1⟩ := step_ok P ha sqrt hA hl C hC s hI x (hx x (by simp))
    obtain ⟨s2, h2, i2, n2, t2⟩ := ih (fun y hy => hx y (by simp [hy])) s1 i1
    refine ⟨s2, ?_, i2, fun _ => n2 (.inl n1), ?_⟩
    · rw [steps, h1]; exact h2
    · rw [t2, t1, List.length_cons]; omega

theorem two_nodes (P : P F) (C : Row F d → Prop) (p q : Row F d) (hp : C p) (hq : C q) :
    Inv P C (addNode (addNode S.empty p).1 q).1 := by
  refine ⟨Mdp.Graph.consistent_addNode (Mdp.Graph.consistent_addNode
    Mdp.Graph.consistent_empty _) _, ⟨by simp [addNode, Mdp.Graph.addNode, S.empty, G.empty],
    by simp [addNode, Mdp.Graph.addNode, S.empty, G.empty]⟩,
    by simp [Ids, addNode, Mdp.Graph.addNode, S.empty, G.empty],
    by simp [addNode, Mdp.Graph.addNode, S.empty, G.empty],
    by simp [addNode, Mdp.Graph.addNode, S.empty, G.empty],
    by simp [addNode, Mdp.Graph.addNode, S.empty, G.empty],
    .inr (by simp [addNode, Mdp.Graph.addNode, S.empty, G.empty]), ?_⟩
  intro n hn
  simp only [addNode, Mdp.Graph.addNode, S.empty, G.empty, List.nil_append, List.mem_append,
    List.mem_singleton, List.cons_append] at hn ⊢
  have hn : n = 0 ∨ n = 1 := by simpa using hn
  rcases hn with rfl | rfl
  · simpa [upd] using hp
  · simpa [upd] using hq

theorem start_nodes [IsStrictOrderedRing F] (P : P F) (hA : 0 ≤ P.maxAge) (C : Row F d → Prop)
    (p q : Row F d) (hp : C p) (hq : C q) :
    Inv P C (new (some (p, q))) ∧ NoIsolated (new (some (p, q))).g := by
  have hI := two_nodes P C p q hp hq
  obtain ⟨s, hs⟩ : ∃ s, s = (addNode (addNode (S.empty (F := F)) p).1 q).1 := ⟨_, rfl⟩
  rw [← hs] at hI
  have hn : s.g.nodes = [0, 1] := by rw [hs]; rfl
  have he : s.g.edges = [] := by rw [hs]; rfl
  have hnew : new (some (p, q)) = addEdge s 0 1 := by rw [hs]; rfl
  have hcov : NoIsolated (addEdge s 0 1).g := by
    intro n hnn
    have : n ∈ s.g.nodes := hnn
    rw [hn] at this
    refine ⟨_, (mem_addEdge 0 1 _).2 (.inr rfl), ?_⟩
    simp at this
    rcases this with rfl | rfl
    · exact .inl rfl
    · exact .inr rfl
  rw [hnew]
  refine ⟨⟨Mdp.Graph.consistent_addEdge hI.cons (by simp [hn]) (by simp [hn]),
    simple_addEdge hI.simple (by omega) (by simp [he]), ids_addEdge hI.cons hI.ids 0 1, ?_,
    hI.two, hI.bound, .inl hcov, hI.pos⟩, hcov⟩
  intro e hee
  rcases (mem_addEdge 0 1 e).1 hee with h | rfl
  · simp [he] at h
  · show ((upd s.age s.g.nextEdge 0 s.g.nextEdge : ℕ) : F) ≤ _
    rw [upd_same]
    simpa using hA

theorem trainAll_inv [IsStrictOrderedRing F] (P : P F) {argsort : List F → List Nat}
    (ha : IsArgsort argsort) (sqrt : F → F) (hA : 0 ≤ P.maxAge) (hl : P.lam ≠ 0)
    (C : Row F d → Prop) (hC : Kept P C)
    (cs : List ((Row F d × Row F d) × List (Row F d))) (hx : ∀ c ∈ cs, ∀ x ∈ c.2, C x) (s : S F d)
    (hI : Inv P C s) :
    ∃ s', trainAll P argsort sqrt cs s = .ok s' ∧ Inv P C s' ∧
      (NoIsolated s.g ∨ (∃ c ∈ cs, c.2 ≠ []) → NoIsolated s'.g) ∧
      s'.tlen = s.tlen + (cs.map fun c => c.2.length).sum := by
  induction cs generalizing s with
  | nil => exact ⟨s, rfl, hI, by simp, rfl⟩
  | cons c cs ih =>
    obtain ⟨r, xs⟩ := c
    obtain ⟨s1, h1, i1, n1, t1⟩ := steps_ok P ha sqrt hA hl C hC xs (hx (r, xs) (by simp)) s hI
    obtain ⟨s2, h2, i2, n2, t2⟩ := ih (fun c hc => hx c (by simp [hc])) s1 i1
    refine ⟨s2, ?_, i2, ?_, ?_⟩
    · have : ¬ s.g.nodes.length = 0 := by have := hI.two; omega
      rw [trainAll, train, if_neg this]
      rw [h1]
      exact h2
    · rintro (h | ⟨c, hc, hne⟩)
      · exact n2 (.inl (n1 (.inl h)))
      · rcases List.mem_cons.1 hc with rfl | hc
        · exact n2 (.inl (n1 (.inr hne)))
        · exact n2 (.inr ⟨c, hc, hne⟩)
    · rw [t2, t1, List.map_cons, List.sum_cons]
      simp only
      omega

/-- All that training maintains. -/
theorem trainAll_ok [IsStrictOrderedRing F] (P : P F) {argsort : List F → List Nat}
    (ha : IsArgsort argsort) (sqrt : F → F) (hA : 0 ≤ P.maxAge) (hl : P.lam ≠ 0)
    (C : Row F d → Prop) (hC : Kept P C) (start : Option (Row F d × Row F d))
    (hs : ∀ p q, start = some (p, q) → C p ∧ C q)
    (cs : List ((Row F d × Row F d) × List (Row F d))) (hne : start.isSome ∨ cs ≠ [])
    (hr : ∀ c, start = none → cs.head? = some c → C c.1.1 ∧ C c.1.2)
    (hx : ∀ c ∈ cs, ∀ x ∈ c.2, C x) :
    ∃ s, trainAll P argsort sqrt cs (new start) = .ok s ∧ Inv P C s ∧
      (start.isSome ∨ (∃ c ∈ cs, c.2 ≠ []) → NoIsolated s.g) ∧
      s.tlen = (cs.map fun c => c.2.length).sum := by
  match start with
  | some (p, q) =>
    obtain ⟨i0, n0⟩ := start_nodes P hA C p q (hs p q rfl).1 (hs p q rfl).2
    obtain ⟨s, h1, h2, h3, h4⟩ := trainAll_inv P ha sqrt hA hl C hC cs hx _ i0
    exact ⟨s, h1, h2, fun _ => h3 (.inl n0), h4.trans (Nat.zero_add _)⟩
  | none =>
    match cs with
    | [] => simp at hne
    | (r, xs) :: cs =>
      have i0 := two_nodes P C r.1 r.2 (hr (r, xs) rfl rfl).1 (hr (r, xs) rfl rfl).2
      obtain ⟨s1, h1, i1, n1, t1⟩ := steps_ok P ha sqrt hA hl C hC xs (hx (r, xs) (by simp)) _ i0
      obtain ⟨s2, h2, i2, n2, t2⟩ :=
        trainAll_inv P ha sqrt hA hl C hC cs (fun c hc => hx c (by simp [hc])) s1 i1
      refine ⟨s2, ?_, i2, ?_, ?_⟩
      · have : (new (none : Option (Row F d × Row F d))).g.nodes.length = 0 := rfl
        rw [trainAll, train, if_pos this]
        rw [show new (none : Option (Row F d × Row F d)) = S.empty from rfl, h1]
        exact h2
      · rintro (h | ⟨c, hc, hne⟩)
        · simp at h
        · rcases List.mem_cons.1 hc with rfl | hc
          · exact n2 (.inl (n1 (.inr hne)))
          · exact n2 (.inr ⟨c, hc, hne⟩)
      · rw [t2, t1, List.map_cons, List.sum_cons]
        show 0 + _ + _ = _
        simp only
        omega

end Mdp.NeuralGas
