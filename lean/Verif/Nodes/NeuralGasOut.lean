import Verif.Nodes.NeuralGasProps

/-! # Properties of the growing neural gas node -/

namespace Mdp.NeuralGas

open Mdp.Graph (G Edge upd Consistent)
open Mdp.Cov (Row)

variable {F : Type} [Field F] [LinearOrder F] {d : Nat}

theorem dist2_eq (a b : Row F d) : dist2 a b = sqDist a b := by
  unfold dist2 sqDist
  exact Finset.sum_congr rfl fun i _ => by ring

theorem kept_true (P : P F) : Kept P (fun _ : Row F d => True) := by
  intro _ _ _ _ _ _
  trivial

/-- Training of a growing neural gas never raises (if `lambda_` is not zero), whatever the start
positions, the random positions, the data and their division into chunks; afterwards the graph has
at least two nodes and at most `max_nodes` (unless that is below two), its edges join two different
nodes of the graph, no two edges join the same nodes, no edge is older than `max_age`, and, once a
point has been presented, every node has an edge. -/
theorem gng_graph [IsStrictOrderedRing F] (P : P F) (argsort : List F → List Nat)
    (ha : IsArgsort argsort) (sqrt : F → F) (hA : 0 ≤ P.maxAge) (hl : P.lam ≠ 0)
    (start : Option (Row F d × Row F d))
    (cs : List ((Row F d × Row F d) × List (Row F d))) (hne : start.isSome ∨ cs ≠ []) :
    ∃ s, trainAll P argsort sqrt cs (new start) = .ok s ∧
      2 ≤ s.g.nodes.length ∧ s.g.nodes.length ≤ max 2 P.maxNodes ∧ s.g.nodes.Nodup ∧
      (∀ e ∈ s.g.edges, e.head ∈ s.g.nodes ∧ e.tail ∈ s.g.nodes) ∧ Simple s.g ∧
      (∀ e ∈ s.g.edges, (s.age e.id : F) ≤ P.maxAge) ∧
      (start.isSome ∨ (∃ c ∈ cs, c.2 ≠ []) → NoIsolated s.g) := by
  obtain ⟨s, h1, h2, h3, _⟩ := trainAll_ok P ha sqrt hA hl (fun _ => True) (kept_true P) start
    (fun _ _ _ => ⟨trivial, trivial⟩) cs hne (fun _ _ _ => ⟨trivial, trivial⟩)
    (fun _ _ _ _ => trivial)
  exact ⟨s, h1, h2.two, h2.bound, h2.cons.nodes_nodup, h2.cons.ends, h2.simple, h2.young, h3⟩

/-- If the start positions (the given ones or the random ones) and all data points lie in a convex
set, all nodes stay in that set. -/
theorem gng_positions [IsStrictOrderedRing F] (P : P F) (argsort : List F → List Nat)
    (ha : IsArgsort argsort) (sqrt : F → F) (hA : 0 ≤ P.maxAge) (hl : P.lam ≠ 0)
    (hb : 0 ≤ P.epsB ∧ P.epsB ≤ 1) (hn : 0 ≤ P.epsN ∧ P.epsN ≤ 1)
    (C : Row F d → Prop) (hC : ConvexSet C) (start : Option (Row F d × Row F d))
    (cs : List ((Row F d × Row F d) × List (Row F d))) (hne : start.isSome ∨ cs ≠ [])
    (hs : ∀ p q, start = some (p, q) → C p ∧ C q)
    (hr : ∀ c, start = none → cs.head? = some c → C c.1.1 ∧ C c.1.2)
    (hx : ∀ c ∈ cs, ∀ x ∈ c.2, C x) :
    ∃ s, trainAll P argsort sqrt cs (new start) = .ok s ∧ ∀ n ∈ s.g.nodes, C (s.pos n) := by
  have hk : Kept P C := by
    rintro t (rfl | rfl | rfl) a b hca hcb
    · exact hC a b _ hca hcb hb.1 hb.2
    · exact hC a b _ hca hcb hn.1 hn.2
    · exact hC a b _ hca hcb (by norm_num) (by norm_num)
  obtain ⟨s, h1, h2, _, _⟩ := trainAll_ok P ha sqrt hA hl C hk start hs cs hne hr hx
  exact ⟨s, h1, h2.pos⟩

/-- The states a program can reach by training. -/
def Trained (P : P F) (argsort : List F → List Nat) (sqrt : F → F) (s : S F d) : Prop :=
  ∃ start : Option (Row F d × Row F d), ∃ cs : List ((Row F d × Row F d) × List (Row F d)),
    (start.isSome ∨ cs ≠ []) ∧ trainAll P argsort sqrt cs (new start) = .ok s ∧
    s.tlen = (cs.map fun c => c.2.length).sum

theorem Trained.inv [IsStrictOrderedRing F] {P : P F} {argsort : List F → List Nat}
    (ha : IsArgsort argsort) {sqrt : F → F} (hA : 0 ≤ P.maxAge) (hl : P.lam ≠ 0) {s : S F d}
    (h : Trained P argsort sqrt s) : Inv P (fun _ => True) s := by
  obtain ⟨start, cs, hne, hs, _⟩ := h
  obtain ⟨s', h1, h2, _, _⟩ := trainAll_ok P ha sqrt hA hl (fun _ => True) (kept_true P) start
    (fun _ _ _ => ⟨trivial, trivial⟩) cs hne (fun _ _ _ => ⟨trivial, trivial⟩)
    (fun _ _ _ _ => trivial)
  rw [h1] at hs
  cases hs
  exact h2

/-- The number of points presented so far is counted correctly. -/
theorem gng_tlen [IsStrictOrderedRing F] (P : P F) (argsort : List F → List Nat)
    (ha : IsArgsort argsort) (sqrt : F → F) (hA : 0 ≤ P.maxAge) (hl : P.lam ≠ 0)
    (start : Option (Row F d × Row F d))
    (cs : List ((Row F d × Row F d) × List (Row F d))) (hne : start.isSome ∨ cs ≠ []) :
    ∃ s, trainAll P argsort sqrt cs (new start) = .ok s ∧
      s.tlen = (cs.map fun c => c.2.length).sum := by
  obtain ⟨s, h1, _, _, h4⟩ := trainAll_ok P ha sqrt hA hl (fun _ => True) (kept_true P) start
    (fun _ _ _ => ⟨trivial, trivial⟩) cs hne (fun _ _ _ => ⟨trivial, trivial⟩)
    (fun _ _ _ _ => trivial)
  exact ⟨s, h1, h4⟩

/-- Between two insertions: a data point moves the node nearest to it by the fraction `eps_b`
towards it, the nodes joined with that one by the fraction `eps_n`, and no other node. The edges
of the nearest node are one step older, except the one to the second nearest node, which has age
zero and is created if it is missing; an edge disappears exactly if it belongs to the nearest node,
does not lead to the second nearest and is now older than `max_age`; exactly the nodes without an
edge disappear. -/
theorem gng_step [IsStrictOrderedRing F] (P : P F) (argsort : List F → List Nat)
    (ha : IsArgsort argsort) (sqrt : F → F) (hA : 0 ≤ P.maxAge) (hl : P.lam ≠ 0) (s : S F d)
    (hs : Trained P argsort sqrt s) (x : Row F d)
    (hgrow : (s.tlen + 1) % P.lam ≠ 0 ∨ P.maxNodes ≤ 2) :
    ∃ n0 n1 s', step P argsort sqrt s x = .ok s' ∧ n0 ∈ s.g.nodes ∧ n1 ∈ s.g.nodes ∧ n0 ≠ n1 ∧
      (∀ m ∈ s.g.nodes, sqDist (s.pos n0) x ≤ sqDist (s.pos m) x) ∧
      (∀ m ∈ s.g.nodes, m ≠ n0 → sqDist (s.pos n1) x ≤ sqDist (s.pos m) x) ∧
      (s'.pos n0 = fun i => s.pos n0 i + P.epsB * (x i - s.pos n0 i)) ∧
      (∀ n, n ≠ n0 → (∃ e ∈ s.g.edges, Joins e n0 n) →
        s'.pos n = fun i => s.pos n i + P.epsN * (x i - s.pos n i)) ∧
      (∀ n, n ≠ n0 → (¬ ∃ e ∈ s.g.edges, Joins e n0 n) → s'.pos n = s.pos n) ∧
      (∃ e ∈ s'.g.edges, Joins e n0 n1) ∧
      (∀ e ∈ s'.g.edges, e ∈ s.g.edges ∨ Joins e n0 n1) ∧
      (∀ e ∈ s.g.edges, (e ∉ s'.g.edges ↔
        (e.head = n0 ∨ e.tail = n0) ∧ ¬ Joins e n0 n1 ∧ (s.age e.id : F) + 1 > P.maxAge)) ∧
      (∀ e ∈ s'.g.edges, Joins e n0 n1 → s'.age e.id = 0) ∧
      (∀ e ∈ s'.g.edges, ¬ Joins e n0 n1 → (e.head = n0 ∨ e.tail = n0) →
        s'.age e.id = s.age e.id + 1) ∧
      (∀ e ∈ s'.g.edges, ¬ (e.head = n0 ∨ e.tail = n0) → s'.age e.id = s.age e.id) ∧
      (∀ n, n ∈ s'.g.nodes ↔ n ∈ s.g.nodes ∧ Touched s'.g.edges n) := by
  have hI := hs.inv ha hA hl
  obtain ⟨n0, n1, s2, hm, hstep⟩ := step_mid P ha sqrt hA _ s hI x
  have htwo : 2 ≤ s2.g.nodes.length := by
    obtain ⟨e, he, hj⟩ := hm.joined
    have hnd : [n0, n1].Nodup := by simp [hm.ne]
    exact (hnd.subperm (l₂ := s2.g.nodes) (by
      intro y hy
      simp only [List.mem_cons, List.not_mem_nil, or_false] at hy
      rcases hy with rfl | rfl
      · exact (hm.mem _).2 ⟨hm.n0mem, e, he, by rcases hj with hj | hj <;> tauto⟩
      · exact (hm.mem _).2 ⟨hm.n1mem, e, he, by rcases hj with hj | hj <;> tauto⟩)).length_le
  have hno : ¬ (s2.tlen % P.lam = 0 ∧ s2.g.nodes.length < P.maxNodes) := by
    rw [hm.tlen]
    rintro ⟨h1, h2⟩
    rcases hgrow with h | h
    · exact h h1
    · omega
  refine ⟨n0, n1, decay P s2, ?_, hm.n0mem, hm.n1mem, hm.ne, ?_, ?_, ?_⟩
  · rw [hstep]
    unfold finish grow
    rw [if_neg hl, if_neg hno]
  · simpa only [dist2_eq] using hm.near
  · simpa only [dist2_eq] using hm.second
  · rw [decay_eq P s2 hm.cons]
    refine ⟨hm.pos0, hm.pos1, hm.pos2, hm.joined, hm.old, ?_, hm.age0, ?_, ?_, hm.mem⟩
    · intro e he
      show e ∉ s2.g.edges ↔ _
      rw [hm.kept e he]
      push_cast
      tauto
    · intro e he hj ht
      show s2.age e.id = _
      rw [hm.age1 e he hj, if_pos ht]
    · intro e he ht
      show s2.age e.id = _
      rw [hm.age1 e he (by rintro (⟨h, _⟩ | ⟨_, h⟩) <;> tauto), if_neg ht]

/-- With every `lambda_`-th data point, if there are fewer than `max_nodes` nodes, one node is
added: halfway between the node with the largest accumulated error and that one of its neighbours
with the largest error. The edge between these two is replaced by two new edges to the new node;
everything else stays as it is at that moment (`s2`, the state after the removal of old edges). -/
theorem gng_insert [IsStrictOrderedRing F] (P : P F) (argsort : List F → List Nat)
    (ha : IsArgsort argsort) (sqrt : F → F) (hA : 0 ≤ P.maxAge) (hl : P.lam ≠ 0) (s : S F d)
    (hs : Trained P argsort sqrt s) (x : Row F d) (hgrow : (s.tlen + 1) % P.lam = 0)
    (hmax : s.g.nodes.length < P.maxNodes) :
    ∃ n0 n1 s2 s', Mid P sqrt s x n0 n1 s2 ∧ step P argsort sqrt s x = .ok s' ∧
      ∃ q f new e, q ∈ s2.g.nodes ∧ (∀ m ∈ s2.g.nodes, s2.err m ≤ s2.err q) ∧
      e ∈ s2.g.edges ∧ Joins e q f ∧
      (∀ m, (∃ e' ∈ s2.g.edges, Joins e' q m) → s2.err m ≤ s2.err f) ∧
      new ∉ s2.g.nodes ∧ s'.g.nodes = s2.g.nodes ++ [new] ∧
      (s'.pos new = fun i => (s2.pos q i + s2.pos f i) / 2) ∧
      (∀ n ∈ s2.g.nodes, s'.pos n = s2.pos n) ∧
      e ∉ s'.g.edges ∧ (∀ y ∈ s2.g.edges, y ≠ e → y ∈ s'.g.edges ∧ s'.age y.id = s2.age y.id) ∧
      (∃ y ∈ s'.g.edges, Joins y q new ∧ s'.age y.id = 0) ∧
      (∃ y ∈ s'.g.edges, Joins y f new ∧ s'.age y.id = 0) ∧
      (∀ y ∈ s'.g.edges, y ∈ s2.g.edges ∨ Joins y q new ∨ Joins y f new) ∧
      (∀ n ∈ s2.g.nodes, s'.err n =
        (if n = q ∨ n = f then s2.err n * P.alpha else s2.err n) * P.d) ∧
      s'.err new = (s2.err q * P.alpha + s2.err f * P.alpha) / 2 * P.d := by
  have hI := hs.inv ha hA hl
  obtain ⟨n0, n1, s2, hm, hstep⟩ := step_mid P ha sqrt hA _ s hI x
  have hyes : s2.tlen % P.lam = 0 ∧ s2.g.nodes.length < P.maxNodes :=
    ⟨by rw [hm.tlen]; exact hgrow, lt_of_le_of_lt hm.sub.length_le hmax⟩
  have hn0 : n0 ∈ s2.g.nodes := by
    obtain ⟨e, he, hj⟩ := hm.joined
    exact (hm.mem _).2 ⟨hm.n0mem, e, he, by rcases hj with hj | hj <;> tauto⟩
  obtain ⟨q, f, e, s3, hins, hq, hmax, hf, he, hj, hmax2, c3, si3, i3, cov3, hfr, hn3, he3, t3,
      a30, a31, a3, p3, p3', er3, er3'⟩ := insert_ok P s2 hm.cons hm.simple hm.ids hm.cov
        (List.ne_nil_of_mem hn0)
  have hlt := hm.cons.edge_lt e he
  refine ⟨n0, n1, s2, decay P s3, hm, ?_, q, f, s2.g.nextNode, e, hq, hmax, he, hj, hmax2, hfr, ?_⟩
  · rw [hstep]
    unfold finish grow
    rw [if_neg hl, if_pos hyes, hins]
  · rw [decay_eq P s3 c3]
    refine ⟨hn3, ?_, p3', ?_, ?_, ?_, ?_, ?_, ?_, ?_⟩
    · show s3.pos _ = _
      rw [p3]
      funext i
      ring
    · show e ∉ s3.g.edges
      rw [he3]
      rintro (⟨_, h⟩ | h | h)
      · exact h rfl
      · rw [h] at hlt; simp at hlt
      · rw [h] at hlt; simp at hlt
    · intro y hy hye
      exact ⟨(he3 y).2 (.inl ⟨hy, hye⟩), a3 y hy⟩
    · exact ⟨_, (he3 _).2 (.inr (.inl rfl)), .inl ⟨rfl, rfl⟩, a30⟩
    · exact ⟨_, (he3 _).2 (.inr (.inr rfl)), .inl ⟨rfl, rfl⟩, a31⟩
    · intro y hy
      rcases (he3 y).1 hy with h | rfl | rfl
      · exact .inl h.1
      · exact .inr (.inl (.inl ⟨rfl, rfl⟩))
      · exact .inr (.inr (.inl ⟨rfl, rfl⟩))
    · intro n hn
      show (if n ∈ s3.g.nodes then s3.err n * P.d else s3.err n) = _
      rw [if_pos (by rw [hn3]; simp [hn]), er3 n hn]
    · show (if s2.g.nextNode ∈ s3.g.nodes then _ else _) = _
      rw [if_pos (by rw [hn3]; simp), er3']
      ring

theorem nearest_aux {argsort : List F → List Nat} (ha : IsArgsort argsort) (sqrt : F → F)
    (s : S F d) (hnd : s.g.nodes.Nodup) (h2 : 2 ≤ s.g.nodes.length) (xs : List (Row F d)) :
    ∃ ns ds, nearestNeighbor argsort sqrt s xs = .ok (ns, ds) ∧ ns.length = xs.length ∧
      ds.length = xs.length ∧
      ∀ (i : ℕ) x n δ, xs[i]? = some x → ns[i]? = some n → ds[i]? = some δ →
        n ∈ s.g.nodes ∧ δ = sqrt (sqDist (s.pos n) x) ∧
          ∀ m ∈ s.g.nodes, sqDist (s.pos n) x ≤ sqDist (s.pos m) x := by
  induction xs with
  | nil => exact ⟨[], [], rfl, rfl, rfl, by simp⟩
  | cons x xs ih =>
    obtain ⟨ns, ds, h, l1, l2, hall⟩ := ih
    obtain ⟨n0, n1, hn, hm, _, _, hmin, _⟩ := getNearest_ok ha s hnd h2 x
    refine ⟨n0 :: ns, sqrt (dist2 (s.pos n0) x) :: ds, ?_, by simp [l1], by simp [l2], ?_⟩
    · rw [nearestNeighbor, hn]
      dsimp only
      rw [h]
    · intro i y n δ hy hnn hd
      cases i with
      | zero =>
        simp only [List.getElem?_cons_zero, Option.some.injEq] at hy hnn hd
        subst hy hnn hd
        refine ⟨hm, by rw [dist2_eq], ?_⟩
        simpa only [dist2_eq] using hmin
      | succ i =>
        simp only [List.getElem?_cons_succ] at hy hnn hd
        exact hall i y n δ hy hnn hd

/-- After any training `nearest_neighbor` returns for every point a node of the graph such that no
node is nearer to the point, together with the distance. -/
theorem nearest_neighbor [IsStrictOrderedRing F] (P : P F) (argsort : List F → List Nat)
    (ha : IsArgsort argsort) (sqrt : F → F) (hA : 0 ≤ P.maxAge) (hl : P.lam ≠ 0) (s : S F d)
    (hs : Trained P argsort sqrt s) (xs : List (Row F d)) :
    ∃ ns ds, nearestNeighbor argsort sqrt s xs = .ok (ns, ds) ∧ ns.length = xs.length ∧
      ds.length = xs.length ∧
      ∀ (i : ℕ) x n δ, xs[i]? = some x → ns[i]? = some n → ds[i]? = some δ →
        n ∈ s.g.nodes ∧ δ = sqrt (sqDist (s.pos n) x) ∧
          ∀ m ∈ s.g.nodes, sqDist (s.pos n) x ≤ sqDist (s.pos m) x := by
  have hI := hs.inv ha hA hl
  exact nearest_aux ha sqrt s hI.cons.nodes_nodup hI.two xs

/-- The arrays given as `start_poss` are left alone if they have to be converted to the dtype of
the node. -/
theorem start_kept_partial (start : Row F d × Row F d) (s : S F d) :
    startArrays false start s = start := rfl

/-- The arrays given as `start_poss` are changed by training if they have the dtype of the node:
already the first point that is not exactly at its nearest start position does this. -/
theorem start_changed_false [IsStrictOrderedRing F] (P : P F) (argsort : List F → List Nat)
    (ha : IsArgsort argsort) (sqrt : F → F) (hA : 0 ≤ P.maxAge) (hl : P.lam ≠ 0)
    (hb : P.epsB ≠ 0) (r : Row F d × Row F d) (p q x : Row F d) (hx : x ≠ p)
    (hnear : sqDist p x < sqDist q x) :
    ∃ s, trainAll P argsort sqrt [(r, [x])] (new (some (p, q))) = .ok s ∧
      startArrays true (p, q) s ≠ (p, q) := by
  obtain ⟨hI, _⟩ := start_nodes P hA (fun _ => True) p q trivial trivial
  obtain ⟨n0, n1, s2, hm, hstep⟩ := step_mid P ha sqrt hA _ _ hI x
  obtain ⟨s', hs', hI', _, _⟩ :=
    step_ok P ha sqrt hA hl (fun _ => True) (kept_true P) _ hI x trivial
  have hn : (new (some (p, q))).g.nodes = [0, 1] := rfl
  have hp0 : (new (some (p, q))).pos 0 = p := rfl
  have hp1 : (new (some (p, q))).pos 1 = q := rfl
  have h0 : n0 = 0 := by
    have h1 := hm.n0mem
    have h2 := hm.near 0 (by simp [hn])
    rw [hn] at h1
    simp at h1
    rcases h1 with h1 | h1
    · exact h1
    · subst h1
      rw [hp0, hp1, dist2_eq, dist2_eq] at h2
      exact absurd hnear (not_lt.2 h2)
  subst h0
  have hn0 : 0 ∈ s2.g.nodes := by
    obtain ⟨e, he, hj⟩ := hm.joined
    exact (hm.mem _).2 ⟨hm.n0mem, e, he, by rcases hj with hj | hj <;> tauto⟩
  have hpos : s'.pos 0 = s2.pos 0 := by
    rw [hstep] at hs'
    unfold finish grow at hs'
    rw [if_neg hl] at hs'
    by_cases hg : s2.tlen % P.lam = 0 ∧ s2.g.nodes.length < P.maxNodes
    · rw [if_pos hg] at hs'
      obtain ⟨_, _, _, s3, hins, _, _, _, _, _, _, c3, _, _, _, _, _, _, _,
        _, _, _, _, p3', _, _⟩ := insert_ok P s2 hm.cons hm.simple hm.ids hm.cov
        (List.ne_nil_of_mem hn0)
      rw [hins] at hs'
      simp only [Except.ok.injEq] at hs'
      rw [← hs', decay_eq P s3 c3]
      exact p3' 0 hn0
    · rw [if_neg hg] at hs'
      simp only [Except.ok.injEq] at hs'
      rw [← hs', decay_eq P s2 hm.cons]
  refine ⟨s', ?_, ?_⟩
  · rw [trainAll, train, if_neg (by rw [hn]; simp), steps, hs']
    rfl
  · intro hh
    have h1 : s'.pos 0 = p := (Prod.mk.inj hh).1
    rw [hpos, hm.pos0, hp0] at h1
    apply hx
    funext i
    have : p i + P.epsB * (x i - p i) = p i := congrFun h1 i
    have hz : P.epsB * (x i - p i) = 0 := by linarith
    rcases mul_eq_zero.1 hz with h | h
    · exact absurd h hb
    · linarith

/-! ### The hypotheses can be met -/

/-- A stable `argsort`. -/
def sortEx (l : List ℚ) : List Nat :=
  (List.range l.length).insertionSort fun i j => l.getD i 0 ≤ l.getD j 0

theorem isArgsort_ex : IsArgsort sortEx := by
  intro l
  refine ⟨List.perm_insertionSort _ _, ?_⟩
  have : Std.Total fun i j => l.getD i 0 ≤ l.getD j 0 := ⟨fun a b => le_total _ _⟩
  have : IsTrans Nat fun i j => l.getD i 0 ≤ l.getD j 0 := ⟨fun a b c => le_trans⟩
  refine (List.pairwise_insertionSort (fun i j => l.getD i 0 ≤ l.getD j 0) _).imp ?_
  intro i j h a b ha hb
  simpa [List.getD, ha, hb] using h

/-- Parameters for the examples: a node every two points, edges live for one step. -/
def paramsEx : P ℚ := ⟨1 / 2, 1 / 4, 1, 2, 1 / 2, 1 / 2, 3⟩

def pt (a : ℚ) : Row ℚ 1 := fun _ => a

/-- The number of nodes and edges and the positions after some training. -/
def summary (r : Except Err (S ℚ 1)) : Option (List Nat × Nat × List ℚ) :=
  match r with
  | .error _ => none
  | .ok s => some (s.g.nodes, s.g.edges.length, s.g.nodes.map fun n => s.pos n 0)

example : summary (trainAll paramsEx sortEx (fun a => a) [((pt 0, pt 0), [pt 1, pt 2, pt 8])]
    (new (some (pt 0, pt 10)))) =
    some ([0, 1, 2], 2, [5 / 4, 229 / 32, 619 / 128]) := by decide +kernel

/-- The same without start positions, in two chunks. -/
example : summary (trainAll paramsEx sortEx (fun a => a)
    [((pt 0, pt 10), [pt 1, pt 2]), ((pt 5, pt 5), [pt 8])] (new none)) =
    some ([0, 1, 2], 2, [5 / 4, 8, 175 / 32]) := by decide +kernel

/-- The hypotheses of `gng_graph`, `gng_positions`, `gng_step` and `nearest_neighbor`. -/
example : IsArgsort sortEx ∧ 0 ≤ paramsEx.maxAge ∧ paramsEx.lam ≠ 0 ∧
    (0 ≤ paramsEx.epsB ∧ paramsEx.epsB ≤ 1) ∧ (0 ≤ paramsEx.epsN ∧ paramsEx.epsN ≤ 1) ∧
    ConvexSet (fun a : Row ℚ 1 => 0 ≤ a 0 ∧ a 0 ≤ 10) ∧
    Trained paramsEx sortEx (fun a => a) (new (some (pt 0, pt 10))) ∧
    ((new (some (pt 0, pt 10))).tlen + 1) % paramsEx.lam ≠ 0 := by
  refine ⟨isArgsort_ex, by decide +kernel, by decide +kernel, by decide +kernel,
    by decide +kernel, ?_, ⟨some (pt 0, pt 10), [], .inl rfl, rfl, rfl⟩, by decide +kernel⟩
  rintro a b t ⟨h1, h2⟩ ⟨h3, h4⟩ h5 h6
  constructor
  · have : (0 : ℚ) ≤ (1 - t) * a 0 + t * b 0 :=
      add_nonneg (mul_nonneg (by linarith) h1) (mul_nonneg h5 h3)
    simp only
    linarith
  · have h7 : (1 - t) * a 0 ≤ (1 - t) * 10 := mul_le_mul_of_nonneg_left h2 (by linarith)
    have h8 : t * b 0 ≤ t * 10 := mul_le_mul_of_nonneg_left h4 h5
    simp only
    linarith

/-- The hypotheses of `gng_insert`: the second point after the start inserts a node. -/
example : ∃ s, steps paramsEx sortEx (fun a => a) [pt 1] (new (some (pt 0, pt 10))) = .ok s ∧
    Trained paramsEx sortEx (fun a => a) s ∧ (s.tlen + 1) % paramsEx.lam = 0 ∧
    s.g.nodes.length < paramsEx.maxNodes := by
  obtain ⟨s, h1, h2, _, h4⟩ := steps_ok paramsEx isArgsort_ex (fun a => a) (by decide +kernel)
    (by decide +kernel) (fun _ => True) (kept_true _) [pt 1] (fun _ _ => trivial) _
    (start_nodes paramsEx (by decide +kernel) (fun _ => True) (pt 0) (pt 10) trivial trivial).1
  refine ⟨s, h1, ⟨some (pt 0, pt 10), [((pt 0, pt 0), [pt 1])], .inl rfl, ?_, h4⟩, ?_, ?_⟩
  · rw [trainAll, train, if_neg (by decide +kernel), h1]
    rfl
  · rw [h4]; rfl
  · have : summary (.ok s) = some ([0, 1], 1, [1 / 2, 31 / 4]) := by
      rw [← h1]; decide +kernel
    simp only [summary, Option.some.injEq, Prod.mk.injEq] at this
    rw [this.1]
    decide +kernel

/-- The hypotheses of `start_changed_false`. -/
example : paramsEx.epsB ≠ 0 ∧ pt 1 ≠ pt 0 ∧ sqDist (pt 0) (pt 1) < sqDist (pt 10) (pt 1) := by
  refine ⟨by decide +kernel, fun h => ?_, by decide +kernel⟩
  exact absurd (congrFun h 0) (by decide +kernel)

end Mdp.NeuralGas
