import Verif.Parallel.HinetFlow
import Mathlib.Data.Rat.Defs
import Mathlib.Tactic.FinCases

/-!
# Networks of any depth, and what a layer loses (C148, C149)
-/

namespace PHinet

variable {S S' U X : Type}

/-! ### Nesting -/

theorem map_ok {A B : Type} {f : A → B} {r : Except Err A} {b : B} : r.map f = .ok b ↔ ∃ a, r = .ok a ∧ b = f a := by
  cases r with
  | error e => simp [Except.map]
  | ok a =>
    simp only [Except.map, Except.ok.injEq, exists_eq_left']
    exact eq_comm

/-- Methods on `ι s` are those on `s`. -/
structure Emb (N : PN S X) (N' : PN S' X) (ι : S → S') : Prop where
  inj : ∀ {a b}, ι a = ι b → a = b
  training : ∀ s, N'.training (ι s) = N.training s
  execFork : ∀ s, N'.execFork (ι s) = N.execFork s
  train : ∀ s x, N'.train (ι s) x = (N.train s x).map ι
  exec : ∀ s x, N'.exec (ι s) x = (N.exec s x).map fun r => (r.1, ι r.2)
  fork : ∀ s, N'.fork (ι s) = (N.fork s).map ι
  join : ∀ s f, N'.join (ι s) (ι f) = (N.join s f).map ι

theorem Emb.trained {N : PN S X} {N' : PN S' X} {ι : S → S'} (E : Emb N N' ι) : ∀ (xs : List X) (s : S) (t : S'),
    Trained N' (ι s) xs t ↔ ∃ s', t = ι s' ∧ Trained N s xs s' := by
  intro xs
  induction xs with
  | nil =>
    intro s t
    simp only [trained_nil]
    constructor
    · rintro rfl; exact ⟨s, rfl, rfl⟩
    · rintro ⟨_, rfl, rfl⟩; rfl
  | cons x xs ih =>
    intro s t
    simp only [trained_cons, E.train, map_ok]
    constructor
    · rintro ⟨_, ⟨s1, h1, rfl⟩, h2⟩
      obtain ⟨s', rfl, h3⟩ := (ih s1 t).1 h2
      exact ⟨s', rfl, s1, h1, h3⟩
    · rintro ⟨s', rfl, s1, h1, h2⟩
      exact ⟨ι s1, ⟨s1, h1, rfl⟩, (ih s1 _).2 ⟨s', rfl, h2⟩⟩

theorem Emb.executed {N : PN S X} {N' : PN S' X} {ι : S → S'} (E : Emb N N' ι) : ∀ (xs ys : List X) (s : S) (t : S'),
    Executed N' (ι s) xs ys t ↔ ∃ s', t = ι s' ∧ Executed N s xs ys s' := by
  intro xs
  induction xs with
  | nil =>
    intro ys s t
    simp only [executed_nil]
    constructor
    · rintro ⟨rfl, rfl⟩; exact ⟨s, rfl, rfl, rfl⟩
    · rintro ⟨_, rfl, rfl, rfl⟩; exact ⟨rfl, rfl⟩
  | cons x xs ih =>
    intro ys s t
    simp only [executed_cons, E.exec, map_ok]
    constructor
    · rintro ⟨y, _, ys1, rfl, ⟨r, h1, h2⟩, h3⟩
      cases h2
      obtain ⟨s', rfl, h4⟩ := (ih ys1 r.2 t).1 h3
      exact ⟨s', rfl, r.1, r.2, ys1, rfl, h1, h4⟩
    · rintro ⟨s', rfl, y, s1, ys1, rfl, h1, h2⟩
      exact ⟨y, ι s1, ys1, rfl, ⟨(y, s1), h1, rfl⟩, (ih ys1 s1 _).2 ⟨s', rfl, h2⟩⟩

/-- The states `ι s` with `I s`. -/
def Im (ι : S → S') (I : S → Prop) (t : S') : Prop := ∃ s, t = ι s ∧ I s

theorem Emb.lawful {N : PN S X} {N' : PN S' X} {ι : S → S'} {I : S → Prop} (E : Emb N N' ι) (L : Lawful N I) :
    Lawful N' (Im ι I) where
  train_ok := by
    rintro _ x t ⟨s, rfl, hi⟩ h
    rw [E.train, map_ok] at h
    obtain ⟨s', h, rfl⟩ := h
    obtain ⟨a, b, c, d⟩ := L.train_ok hi h
    exact ⟨⟨s', rfl, a⟩, by rw [E.training]; exact b, by rw [E.training]; exact c, by rw [E.execFork, E.execFork]; exact d⟩
  exec_ok := by
    rintro _ x y t ⟨s, rfl, hi⟩ h
    rw [E.exec, map_ok] at h
    obtain ⟨r, h, h'⟩ := h
    cases h'
    obtain ⟨a, b, c, d⟩ := L.exec_ok hi (x := x) (y := r.1) (s' := r.2) h
    refine ⟨⟨r.2, rfl, a⟩, by rw [E.training, E.training]; exact b, by rw [E.execFork, E.execFork]; exact c, ?_⟩
    intro he
    rw [E.execFork] at he
    rw [d he]
  fork_ok := by
    rintro _ f ⟨s, rfl, hi⟩ h
    rw [E.fork, map_ok] at h
    obtain ⟨f, h, rfl⟩ := h
    obtain ⟨a, b, c⟩ := L.fork_ok hi h
    exact ⟨⟨f, rfl, a⟩, by rw [E.training, E.training]; exact b, by rw [E.execFork, E.execFork]; exact c⟩
  trains := by
    rintro _ f prior s js ⟨s0, rfl, hi⟩ ht hf hp hj t
    rw [E.fork, map_ok] at hf
    obtain ⟨f, hf, rfl⟩ := hf
    rw [E.training] at ht
    obtain ⟨s, rfl, hp'⟩ := (E.trained prior s0 s).1 hp
    rw [E.trained]
    have key := L.trains hi ht hf hp' hj
    constructor
    · rintro ⟨s', rfl, h⟩
      obtain ⟨f', h1, h2⟩ := (key s').1 h
      exact ⟨ι f', (E.trained js f _).2 ⟨f', rfl, h1⟩, by rw [E.join, h2]; rfl⟩
    · rintro ⟨_, h1, h2⟩
      obtain ⟨f', rfl, h3⟩ := (E.trained js f _).1 h1
      rw [E.join, map_ok] at h2
      obtain ⟨s', h2, rfl⟩ := h2
      exact ⟨s', rfl, (key s').2 ⟨f', h3, h2⟩⟩
  execs := by
    rintro _ f prior outs s js ⟨s0, rfl, hi⟩ ht he hf hp ys t
    rw [E.fork, map_ok] at hf
    obtain ⟨f, hf, rfl⟩ := hf
    rw [E.training] at ht
    rw [E.execFork] at he
    obtain ⟨s, rfl, hp'⟩ := (E.executed prior outs s0 s).1 hp
    rw [E.executed]
    have key := fun s' => L.execs (js := js) hi ht he hf hp' ys s'
    constructor
    · rintro ⟨s', rfl, h⟩
      obtain ⟨f', h1, h2⟩ := (key s').1 h
      exact ⟨ι f', (E.executed js ys f _).2 ⟨f', rfl, h1⟩, by rw [E.join, h2]; rfl⟩
    · rintro ⟨_, h1, h2⟩
      obtain ⟨f', rfl, h3⟩ := (E.executed js ys f _).1 h1
      rw [E.join, map_ok] at h2
      obtain ⟨s', h2, rfl⟩ := h2
      exact ⟨s', rfl, (key s').2 ⟨f', h3, h2⟩⟩

theorem emb_leaf (N : PN S X) : Emb N (ofLeaf N) T.leaf where
  inj := fun h => T.leaf.inj h
  training := fun _ => rfl
  execFork := fun _ => rfl
  train := fun _ _ => rfl
  exec := fun _ _ => rfl
  fork := fun _ => rfl
  join := fun _ _ => rfl

theorem emb_node (N : PN (List (T S)) X) : Emb N (ofNodes N) T.node where
  inj := fun h => T.node.inj h
  training := fun _ => rfl
  execFork := fun _ => rfl
  train := fun _ _ => rfl
  exec := fun _ _ => rfl
  fork := fun _ => rfl
  join := fun _ _ => rfl

/-- Networks built from nodes that obey the law, with layers, flow nodes and clone layers, nested to any depth. -/
inductive Built {S X : Type} : PN (T S) X → (T S → Prop) → Prop where
  | leaf {N : PN S X} {I} : Lawful N I → Built (ofLeaf N) (Im T.leaf I)
  | layer (part : Nat → X → X) (stack : List X → X) {L : List (PN (T S) X × (T S → Prop))} :
      (∀ p ∈ L, Built p.1 p.2) → (∀ ts, AllI L ts → anyFlag PN.execFork (ops L) ts = false) →
      Built (ofNodes (layer part stack (ops L))) (Im T.node (AllI L))
  | flow {L : List (PN (T S) X × (T S → Prop))} : (∀ p ∈ L, Built p.1 p.2) →
      Built (ofNodes (flowNode (ops L))) (Im T.node (FlowI false L))
  | clone (part : Nat → X → X) (gather scatter : X → X) {N : PN (T S) X} {I} {n : Nat} : Built N I → 0 < n →
      Built (clone part gather scatter N n) I

theorem built_lawful {N : PN (T S) X} {I : T S → Prop} (h : Built N I) : Lawful N I := by
  induction h with
  | leaf h => exact (emb_leaf _).lawful h
  | layer part stack _ hE ih => exact (emb_node _).lawful (layer_lawful part stack ih hE)
  | flow _ ih => exact (emb_node _).lawful (flow_lawful ih)
  | clone part gather scatter _ hn ih => exact clone_lawful ih part gather scatter hn

/-- **C148**: a network of layers, flow nodes and clone layers, nested to any depth, of nodes that can be forked and joined
can be forked and joined: training forks with nonempty jobs and joining them gives exactly the states that training the
network itself with all the chunks gives. -/
theorem net_fork_join_train {N : PN (T S) X} {I : T S → Prop} (h : Built N I) {s0 f : T S} (hi : I s0)
    (ht : N.training s0 = true) (hf : N.fork s0 = .ok f) (jobs : List (List X)) (hj : ∀ j ∈ jobs, j ≠ []) (s' : T S) :
    Trained N s0 jobs.flatten s' ↔
      ∃ fs, List.Forall₂ (fun j f' => Trained N f j f') jobs fs ∧ fs.foldlM N.join s0 = .ok s' :=
  fork_join_train (built_lawful h) hi ht hf jobs hj s'

/-- **C149**: the same for execution in forks of a network that asks for it. -/
theorem net_fork_join_exec {N : PN (T S) X} {I : T S → Prop} (h : Built N I) {s0 f : T S} (hi : I s0)
    (ht : N.training s0 = false) (he : N.execFork s0 = true) (hf : N.fork s0 = .ok f) (jobs outs : List (List X))
    (s' : T S) :
    (∃ fs, List.Forall₂ (fun (p : List X × List X) f' => Executed N f p.1 p.2 f') (jobs.zip outs) fs ∧
        fs.foldlM N.join s0 = .ok s' ∧ jobs.length = outs.length) →
      Executed N s0 jobs.flatten outs.flatten s' :=
  fork_join_exec (built_lawful h) hi ht he hf jobs outs s'

/-! ### Nodes -/

open Mdp.Join Mdp.Cov in
/-- `PCANode` in training: `none` is the trained node, here with the identity as its projection. -/
def pcaNode (F : Type) [Field F] (d : Nat) : PN (Option (CovSt F d)) (List (Row F d)) where
  training := Option.isSome
  train := fun s x => match s with
    | some c => .ok (some (pcaTrain c x))
    | none => .error .notTraining
  exec := fun s x => match s with
    | some _ => .error .node
    | none => .ok (x, none)
  fork := fun s => .ok (s.map fun _ => pcaFork F d)
  join := fun s f => match s, f with
    | some a, some b => match pcaJoin a b with
      | .ok c => .ok (some c)
      | .error _ => .error .join
    | _, _ => .error .join
  execFork := fun _ => false

open Mdp.Join Mdp.Cov in
theorem pca_trained (F : Type) [Field F] (d : Nat) : ∀ (xs : List (List (Row F d))) (c : CovSt F d) t,
    Trained (pcaNode F d) (some c) xs t ↔ t = some (xs.foldl CovSt.update c) := by
  intro xs
  induction xs with
  | nil => intro c t; rw [trained_nil]; rfl
  | cons x xs ih =>
    intro c t
    rw [trained_cons, List.foldl_cons]
    constructor
    · rintro ⟨s1, h1, h2⟩
      cases h1
      exact (ih _ t).1 h2
    · intro h
      exact ⟨_, rfl, (ih _ t).2 h⟩

open Mdp.Join Mdp.Cov in
theorem pca_lawful (F : Type) [Field F] (d : Nat) : Lawful (pcaNode F d) (fun s => ∀ c, s = some c → CovInv c) where
  train_ok := by
    intro s x s' hi h
    cases s with
    | none => cases h
    | some c =>
      cases h
      refine ⟨?_, rfl, rfl, rfl⟩
      rintro _ ⟨⟩
      exact covInv_update c x (hi c rfl)
  exec_ok := by
    intro s x y s' hi h
    cases s with
    | some c => cases h
    | none => cases h; exact ⟨hi, rfl, rfl, fun _ => rfl⟩
  fork_ok := by
    intro s f hi h
    cases h
    cases s with
    | none => exact ⟨by simp, rfl, rfl⟩
    | some c =>
      refine ⟨?_, rfl, rfl⟩
      rintro _ ⟨⟩
      exact ⟨fun _ => rfl, rfl⟩
  trains := by
    intro s0 f prior s js hi ht hf hp hj s'
    cases s0 with
    | none => cases ht
    | some c =>
      cases hf
      rw [pca_trained] at hp
      subst hp
      have hinv : ∀ (l : List (List (Row F d))) (c : CovSt F d), CovInv c → CovInv (l.foldl CovSt.update c) := by
        intro l
        induction l with
        | nil => exact fun c h => h
        | cons x l ih => exact fun c h => ih _ (covInv_update c x h)
      have hjoin := pca_join_run _ (hinv prior c (hi c rfl)) js hj
      rw [pca_trained]
      constructor
      · rintro rfl
        refine ⟨_, (pca_trained F d js _ _).2 rfl, ?_⟩
        simp only [pcaNode]
        rw [show pcaFork F d = CovSt.new F d false from rfl, hjoin]
      · rintro ⟨f', h1, h2⟩
        simp only [Option.map_some] at h1
        rw [pca_trained] at h1
        subst h1
        simp only [pcaNode] at h2
        rw [show pcaFork F d = CovSt.new F d false from rfl, hjoin] at h2
        cases h2
        rfl
  execs := by intro s0 f prior outs s js _ _ he; cases he

/-- A node that collects what it is given in execution (`use_execute_fork`, test_parallelflows.py:210-245). -/
def collector (X : Type) : PN (List X) X where
  training := fun _ => false
  train := fun _ _ => .error .notTraining
  exec := fun s x => .ok (x, s ++ [x])
  fork := fun _ => .ok []
  join := fun s f => .ok (s ++ f)
  execFork := fun _ => true

theorem collector_executed : ∀ (xs ys s t : List X), Executed (collector X) s xs ys t ↔ ys = xs ∧ t = s ++ xs := by
  intro xs
  induction xs with
  | nil => intro ys s t; simp [executed_nil]
  | cons x xs ih =>
    intro ys s t
    rw [executed_cons]
    constructor
    · rintro ⟨y, s1, ys1, rfl, h1, h2⟩
      cases h1
      obtain ⟨rfl, rfl⟩ := (ih _ _ _).1 h2
      exact ⟨rfl, by simp⟩
    · rintro ⟨rfl, rfl⟩
      exact ⟨x, s ++ [x], xs, rfl, rfl, (ih _ _ _).2 ⟨rfl, by simp⟩⟩

theorem collector_lawful : Lawful (collector X) (fun _ => True) where
  train_ok := by intro s x s' _ h; cases h
  exec_ok := by
    intro s x y s' _ h
    cases h
    exact ⟨trivial, rfl, rfl, fun h => by cases h⟩
  fork_ok := by intro s f _ h; cases h; exact ⟨trivial, rfl, rfl⟩
  trains := by intro s0 f prior s js _ ht; cases ht
  execs := by
    intro s0 f prior outs s js _ _ _ hf _ ys s'
    cases hf
    rw [collector_executed]
    constructor
    · rintro ⟨rfl, rfl⟩
      exact ⟨ys, (collector_executed _ _ _ _).2 ⟨rfl, rfl⟩, rfl⟩
    · rintro ⟨f', h1, h2⟩
      obtain ⟨rfl, rfl⟩ := (collector_executed _ _ _ _).1 h1
      cases h2
      exact ⟨rfl, by simp⟩

/-! ### Examples -/

section examples
open Mdp.Join Mdp.Cov

/-- The chunks of the examples have two columns; a node takes one of them. -/
def colOf (i : Nat) (x : List (Row ℚ 1)) : List (Row ℚ 1) := if i = 0 then x.take 1 else x.drop 1

/-- A layer with a PCA node and a clone layer of a PCA node, followed by a PCA node: flow node. -/
def exLayer : List (PN (T (Option (CovSt ℚ 1))) (List (Row ℚ 1)) × (T (Option (CovSt ℚ 1)) → Prop)) :=
  [(ofLeaf (pcaNode ℚ 1), Im T.leaf fun s => ∀ c, s = some c → CovInv c),
   (clone colOf id id (ofLeaf (pcaNode ℚ 1)) 2, Im T.leaf fun s => ∀ c, s = some c → CovInv c)]

def exFlow : List (PN (T (Option (CovSt ℚ 1))) (List (Row ℚ 1)) × (T (Option (CovSt ℚ 1)) → Prop)) :=
  [(ofNodes (layer colOf List.flatten (ops exLayer)), Im T.node (AllI exLayer)),
   (ofLeaf (pcaNode ℚ 1), Im T.leaf fun s => ∀ c, s = some c → CovInv c)]

theorem exLayer_exec : ∀ ts, AllI exLayer ts → anyFlag PN.execFork (ops exLayer) ts = false := by
  intro ts h
  obtain ⟨t, r, rfl, h1, h⟩ := allI_cons h
  obtain ⟨u, r, rfl, h2, h⟩ := allI_cons h
  cases r with
  | cons _ _ => exact h.elim
  | nil =>
    obtain ⟨a, rfl, _⟩ := h1
    obtain ⟨b, rfl, _⟩ := h2
    rfl

theorem exFlow_built : Built (ofNodes (flowNode (ops exFlow))) (Im T.node (FlowI false exFlow)) := by
  refine .flow ?_
  intro p hp
  simp only [exFlow, List.mem_cons, List.not_mem_nil, or_false] at hp
  rcases hp with rfl | rfl
  · refine .layer _ _ ?_ exLayer_exec
    intro p hp
    simp only [exLayer, List.mem_cons, List.not_mem_nil, or_false] at hp
    rcases hp with rfl | rfl
    · exact .leaf (pca_lawful ℚ 1)
    · exact .clone _ _ _ (.leaf (pca_lawful ℚ 1)) (by decide)
  · exact .leaf (pca_lawful ℚ 1)

/-- The new network: everything in training. -/
def exNew : T (Option (CovSt ℚ 1)) :=
  .node [.node [.leaf (some (pcaFork ℚ 1)), .leaf (some (pcaFork ℚ 1))], .leaf (some (pcaFork ℚ 1))]

/-- The hypotheses of **C148** are met. -/
example : Im T.node (FlowI false exFlow) exNew ∧ (ofNodes (flowNode (ops exFlow))).training exNew = true ∧
    (ofNodes (flowNode (ops exFlow))).fork exNew = .ok exNew ∧
    ∃ s, Trained (ofNodes (flowNode (ops exFlow))) exNew [[![1], ![2]], [![3], ![5]]] s := by
  have hc : Im T.leaf (fun s => ∀ c, s = some c → CovInv c) (T.leaf (some (pcaFork ℚ 1))) :=
    ⟨_, rfl, fun c h => by cases h; exact ⟨fun _ => rfl, rfl⟩⟩
  refine ⟨⟨_, rfl, ?_⟩, rfl, rfl, _, .cons rfl (.cons rfl (.nil _))⟩
  exact ⟨⟨_, rfl, hc, hc, trivial⟩, fun h => absurd h (by decide), hc, fun _ _ => rfl, trivial⟩

/-- A flow of two collecting nodes, for **C149**. -/
theorem exCollect_built : Built (ofNodes (flowNode (ops
    [(ofLeaf (collector Nat), Im T.leaf fun _ => True), (ofLeaf (collector Nat), Im T.leaf fun _ => True)])))
    (Im T.node (FlowI false
      [(ofLeaf (collector Nat), Im T.leaf fun _ => True), (ofLeaf (collector Nat), Im T.leaf fun _ => True)])) := by
  refine .flow ?_
  intro p hp
  simp only [List.mem_cons, List.not_mem_nil, or_false, or_self] at hp
  subst hp
  exact .leaf collector_lawful

example : ∃ fs, List.Forall₂ (fun (p : List Nat × List Nat) f' => Executed (flowNode [collector Nat, collector Nat])
      [[], []] p.1 p.2 f') ([[1, 2], [3]].zip [[1, 2], [3]]) fs ∧
    fs.foldlM (flowNode [collector Nat, collector Nat]).join [[0], [0]] = .ok [[0, 1, 2, 3], [0, 1, 2, 3]] :=
  ⟨[[[1, 2], [1, 2]], [[3], [3]]],
    .cons (.cons rfl (.cons rfl (.nil _))) (.cons (.cons rfl (.nil _)) .nil), rfl⟩

end examples

/-! ### What a layer loses -/

theorem layJoin_idle (Ns : List (PN U X)) : ∀ (ts fs : List U), anyFlag PN.training Ns ts = false →
    layJoin Ns ts fs = .ok ts := by
  induction Ns with
  | nil => intro ts fs _; rfl
  | cons N Ns ih =>
    intro ts fs h
    cases ts with
    | nil => rfl
    | cons t ts =>
      cases fs with
      | nil => rfl
      | cons f fs =>
        simp only [anyFlag, List.zip_cons_cons, List.any_cons, Bool.or_eq_false_iff] at h
        simp only [layJoin, h.1, Bool.false_eq_true, if_false]
        rw [ih ts fs h.2]

/-- **C149 is false for `Layer`**: a layer that asks to be forked for execution, because one of its nodes does, is joined
without an effect once it is trained: whatever its nodes have gathered in other processes is dropped. -/
theorem layer_execution_lost_false (part : Nat → X → X) (stack : List X → X) (Ns : List (PN U X)) (ts fs : List U)
    (h : (layer part stack Ns).training ts = false) : (layer part stack Ns).join ts fs = .ok ts :=
  layJoin_idle Ns ts fs h

/-- Already a layer of one collecting node does not obey the law, however its states are restricted. -/
theorem layer_collector_false (part : Nat → X → X) (stack : List X → X) (x : X) (I : List (List X) → Prop) (s : List X)
    (hI : I [s]) : ¬ Lawful (layer part stack [collector X]) I := by
  intro L
  have hs : Executed (layer part stack [collector X]) [s] [x] [stack [part 0 x]] [s ++ [part 0 x]] :=
    .cons rfl (.nil _)
  have h := (L.execs (s0 := [s]) (f := [s]) (prior := []) (outs := []) (s := [s]) (js := [x]) hI rfl rfl rfl (.nil _)
    [stack [part 0 x]] [s ++ [part 0 x]]).1 hs
  obtain ⟨f', _, h2⟩ := h
  rw [layer_execution_lost_false part stack [collector X] [s] f' rfl] at h2
  simp at h2

/-- The hypotheses are met: the layer asks to be forked. -/
example (part : Nat → X → X) (stack : List X → X) : (layer part stack [collector X]).execFork [[]] = true ∧
    (layer part stack [collector X]).training [[]] = false := ⟨rfl, rfl⟩

/-- A node that is in training and keeps the data it is trained with. -/
def learner (X : Type) : PN (List X) X where
  training := fun _ => true
  train := fun s x => .ok (s ++ [x])
  exec := fun _ _ => .error .node
  fork := fun _ => .ok []
  join := fun s f => .ok (s ++ f)
  execFork := fun _ => false

theorem learner_trained : ∀ (xs s t : List X), Trained (learner X) s xs t ↔ t = s ++ xs := by
  intro xs
  induction xs with
  | nil => intro s t; simp [trained_nil]
  | cons x xs ih =>
    intro s t
    rw [trained_cons]
    constructor
    · rintro ⟨s1, h1, h2⟩
      cases h1
      rw [(ih _ _).1 h2]; simp
    · rintro rfl
      exact ⟨s ++ [x], rfl, (ih _ _).2 (by simp)⟩

theorem learner_lawful : Lawful (learner X) (fun _ => True) where
  train_ok := by intro s x s' _ h; exact ⟨trivial, rfl, rfl, rfl⟩
  exec_ok := by intro s x y s' _ h; cases h
  fork_ok := by intro s f _ h; exact ⟨trivial, rfl, rfl⟩
  trains := by
    intro s0 f prior s js _ _ hf _ _ s'
    cases hf
    rw [learner_trained]
    constructor
    · rintro rfl
      exact ⟨js, (learner_trained _ _ _).2 rfl, rfl⟩
    · rintro ⟨f', h1, h2⟩
      cases h2
      rw [(learner_trained _ _ _).1 h1]; simp
  execs := by intro s0 f prior outs s js _ ht; cases ht

/-- **C148 is false for flows in which a layer with a node that gathers data in execution (`use_execute_fork`) precedes the node in training**:
both nodes can be forked and joined, but what the node of the layer gathers while the network is trained is lost in parallel
training, for all data. -/
theorem net_train_lost_violation (part : Nat → X → X) (stack : List X → X) (s t : List X) (x : X) :
    Lawful (collector X) (fun _ => True) ∧ Lawful (learner X) (fun _ => True) ∧
    ∃ N : PN (T (List X)) X,
      N = ofNodes (flowNode [ofNodes (layer part stack [ofLeaf (collector X)]), ofLeaf (learner X)]) ∧
      ∃ f f', N.training (.node [.node [.leaf s], .leaf t]) = true ∧ N.fork (.node [.node [.leaf s], .leaf t]) = .ok f ∧
        Trained N (.node [.node [.leaf s], .leaf t]) [x] (.node [.node [.leaf (s ++ [part 0 x])], .leaf (t ++ [stack [part 0 x]])]) ∧
        Trained N f [x] f' ∧
        N.join (.node [.node [.leaf s], .leaf t]) f' = .ok (.node [.node [.leaf s], .leaf (t ++ [stack [part 0 x]])]) := by
  refine ⟨collector_lawful, learner_lawful, _, rfl, .node [.node [.leaf s], .leaf []],
    .node [.node [.leaf (s ++ [part 0 x])], .leaf [stack [part 0 x]]], rfl, rfl, .cons rfl (.nil _), .cons rfl (.nil _), rfl⟩

end PHinet
