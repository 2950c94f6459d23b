import Mathlib.Logic.Function.Basic
import Mathlib.Tactic.Common

/-!
# Random number generators of online nodes

signal_node_online.py:60-103 and 217-227, layer_online.py:42-44, 84-89, flownode_online.py:43-45, 80-86, 215-220,
sfa_nodes_online.py:110-117, pca_nodes_online.py:113-123, mca_nodes_online.py:106-113.

A generator is an object that is shared by the nodes that refer to it: nodes hold a reference, the world the state of each
generator. What is modelled of `train` is what it does with generators: the nodes without a generator get a new one when data
arrive, and a node without initial vectors draws them. Data, dimensions and exceptions of training are left out; the numbers of
values drawn are known. Layers are modelled; in a `CloneOnlineLayer` the node is given once (it is set and trained again for each
clone, which changes nothing, `train_again`). A trained `OnlineFlowNode` executes its nodes as well, which is not modelled.
-/

namespace Mdp.Rng

variable {G V : Type}

/-- Nodes in an online network: a node that is not an `OnlineNode`; an `OnlineNode` that draws `n` numbers for its initial vectors
(0: none); an online container (`OnlineLayer`, `OnlineFlowNode`, `IncSFANode`). `opn`: `is_training()`. -/
inductive Net (V : Type) where
  | plain
  | leaf (rng : Option Nat) (n : Nat) (init : Option (List V)) (opn : Bool)
  | cont (rng : Option Nat) (opn : Bool) (kids : List (Net V))

/-- The states of the generators and the next free reference. -/
structure World (G : Type) where
  gen : Nat → G
  next : Nat

/-- What can be assigned to `numx_rng`. -/
inductive Val where
  | none
  | gen (r : Nat)
  | other

mutual
/-- `_set_numx_rng` (signal_node_online.py:102-103; layer_online.py:84-89: `hasattr(node, 'set_numx_rng')`;
sfa_nodes_online.py:110-117). -/
def setRng (r : Nat) : Net V → Net V
  | .plain => .plain
  | .leaf _ n i o => .leaf (some r) n i o
  | .cont _ o ks => .cont (some r) o (setAll r ks)
/-- The loop over the nodes of a container. -/
def setAll (r : Nat) : List (Net V) → List (Net V)
  | [] => []
  | k :: ks => setRng r k :: setAll r ks
end

/-- `set_numx_rng` (signal_node_online.py:90-100); `none` is the `OnlineNodeException`. -/
def assign (v : Val) (t : Net V) : Option (Net V) :=
  match v with
  | .none => some t
  | .gen r => some (setRng r t)
  | .other => none

/-- `mdp.numx_rand.RandomState()` (signal_node_online.py:221-222); `seed` is what the system gives. -/
def fresh (seed : Nat → G) (w : World G) : Nat × World G :=
  (w.next, { gen := Function.update w.gen w.next (seed w.next), next := w.next + 1 })

/-- `_check_params` (pca_nodes_online.py:113-123): vectors are drawn with the generator `r` if there are none. -/
def drawInit (draw : Nat → G → List V × G) (r n : Nat) (i : Option (List V)) (w : World G) : Option (List V) × World G :=
  match i with
  | some v => (some v, w)
  | none => (some (draw n (w.gen r)).1, { w with gen := Function.update w.gen r (draw n (w.gen r)).2 })

mutual
/-- `train`: `_check_input` (signal_node_online.py:217-227), then `_check_params`, then the training of the nodes of a container
(layer.py:147-155; sfa_nodes_online.py:143-160). `s`: the generator the container has just set (layer_online.py:84-89), if any;
`trainIn_set` shows that this is training after `setRng`. -/
def trainIn (seed : Nat → G) (draw : Nat → G → List V × G) (s : Option Nat) : Net V → World G → Net V × World G
  | .plain, w => (.plain, w)
  | .leaf rng n i o, w =>
    if o then
      match s.or rng with
      | some r => ((Net.leaf (some r) n (drawInit draw r n i w).1 o), (drawInit draw r n i w).2)
      | none =>
        let f := fresh seed w
        ((Net.leaf (some f.1) n (drawInit draw f.1 n i f.2).1 o), (drawInit draw f.1 n i f.2).2)
    else (.leaf (s.or rng) n i o, w)
  | .cont rng o ks, w =>
    if o then
      match s.or rng with
      | some r => (.cont (some r) o (trainAll seed draw s ks w).1, (trainAll seed draw s ks w).2)
      | none =>
        let f := fresh seed w
        (.cont (some f.1) o (trainAll seed draw (some f.1) ks f.2).1, (trainAll seed draw (some f.1) ks f.2).2)
    else (.cont (s.or rng) o (match s with | some r => setAll r ks | none => ks), w)
/-- The loop over the nodes of a container. -/
def trainAll (seed : Nat → G) (draw : Nat → G → List V × G) (s : Option Nat) : List (Net V) → World G → List (Net V) × World G
  | [], w => ([], w)
  | k :: ks, w =>
    ((trainIn seed draw s k w).1 :: (trainAll seed draw s ks (trainIn seed draw s k w).2).1,
      (trainAll seed draw s ks (trainIn seed draw s k w).2).2)
end

/-- `train` of a node by the user. -/
def train (seed : Nat → G) (draw : Nat → G → List V × G) : Net V → World G → Net V × World G := trainIn seed draw none

/-! ### Specification -/

mutual
/-- The network without its generators. -/
def forget : Net V → Net V
  | .plain => .plain
  | .leaf _ n i o => .leaf none n i o
  | .cont _ o ks => .cont none o (forgetAll ks)
def forgetAll : List (Net V) → List (Net V)
  | [] => []
  | k :: ks => forget k :: forgetAll ks
end

mutual
/-- The generators of all online nodes of the network, at all levels. -/
def gens : Net V → List (Option Nat)
  | .plain => []
  | .leaf g _ _ _ => [g]
  | .cont g _ ks => g :: gensAll ks
def gensAll : List (Net V) → List (Option Nat)
  | [] => []
  | k :: ks => gens k ++ gensAll ks
end

/-! ### Lemmas -/

mutual
theorem setRng_forget (r : Nat) : ∀ t : Net V, forget (setRng r t) = forget t
  | .plain => rfl
  | .leaf .. => rfl
  | .cont _ o ks => by simp only [setRng, forget, setAll_forget r ks]
theorem setAll_forget (r : Nat) : ∀ ks : List (Net V), forgetAll (setAll r ks) = forgetAll ks
  | [] => rfl
  | k :: ks => by simp only [setAll, forgetAll, setRng_forget r k, setAll_forget r ks]
end

mutual
theorem setRng_gens (r : Nat) : ∀ t : Net V, ∀ g ∈ gens (setRng r t), g = some r
  | .plain => by intro g h; cases h
  | .leaf .. => by intro g h; exact List.mem_singleton.1 h
  | .cont _ o ks => by
    intro g h
    simp only [setRng, gens, List.mem_cons] at h
    rcases h with h | h
    · exact h
    · exact setAll_gens r ks g h
theorem setAll_gens (r : Nat) : ∀ ks : List (Net V), ∀ g ∈ gensAll (setAll r ks), g = some r
  | [] => by intro g h; cases h
  | k :: ks => by
    intro g h
    simp only [setAll, gensAll, List.mem_append] at h
    rcases h with h | h
    · exact setRng_gens r k g h
    · exact setAll_gens r ks g h
end

mutual
theorem trainIn_set (seed : Nat → G) (draw : Nat → G → List V × G) (r : Nat) : ∀ (t : Net V) (w : World G),
    trainIn seed draw (some r) t w = train seed draw (setRng r t) w
  | .plain, w => by simp only [train, setRng, trainIn]
  | .leaf rng n i o, w => by simp only [train, setRng, trainIn, Option.some_or, Option.none_or]
  | .cont rng o ks, w => by
    simp only [train, setRng, trainIn, Option.some_or, Option.none_or, trainAll_set seed draw r ks]
theorem trainAll_set (seed : Nat → G) (draw : Nat → G → List V × G) (r : Nat) : ∀ (ks : List (Net V)) (w : World G),
    trainAll seed draw (some r) ks w = trainAll seed draw none (setAll r ks) w
  | [], w => by simp only [setAll, trainAll]
  | k :: ks, w => by
    have h := trainIn_set seed draw r k w
    unfold train at h
    simp only [setAll, trainAll, h, trainAll_set seed draw r ks]
end

mutual
/-- The network draws from one generator. -/
def one (draw : Nat → G → List V × G) : Net V → G → Net V × G
  | .plain, g => (.plain, g)
  | .leaf rng n i o, g =>
    if o then
      match i with
      | some v => (.leaf rng n (some v) o, g)
      | none => (.leaf rng n (some (draw n g).1) o, (draw n g).2)
    else (.leaf rng n i o, g)
  | .cont rng o ks, g => if o then (.cont rng o (oneAll draw ks g).1, (oneAll draw ks g).2) else (.cont rng o ks, g)
def oneAll (draw : Nat → G → List V × G) : List (Net V) → G → List (Net V) × G
  | [], g => ([], g)
  | k :: ks, g => ((one draw k g).1 :: (oneAll draw ks (one draw k g).2).1, (oneAll draw ks (one draw k g).2).2)
end

mutual
theorem one_forget (draw : Nat → G → List V × G) : ∀ (t : Net V) (g : G),
    forget (one draw t g).1 = (one draw (forget t) g).1 ∧ (one draw t g).2 = (one draw (forget t) g).2
  | .plain, g => ⟨rfl, rfl⟩
  | .leaf rng n i o, g => by
    cases o <;> cases i <;> simp [one, forget]
  | .cont rng o ks, g => by
    obtain ⟨h1, h2⟩ := oneAll_forget draw ks g
    cases o <;> simp [one, forget, h1, h2]
theorem oneAll_forget (draw : Nat → G → List V × G) : ∀ (ks : List (Net V)) (g : G),
    forgetAll (oneAll draw ks g).1 = (oneAll draw (forgetAll ks) g).1 ∧ (oneAll draw ks g).2 = (oneAll draw (forgetAll ks) g).2
  | [], g => ⟨rfl, rfl⟩
  | k :: ks, g => by
    obtain ⟨h1, h2⟩ := one_forget draw k g
    obtain ⟨h3, h4⟩ := oneAll_forget draw ks (one draw (forget k) g).2
    simp only [oneAll, forgetAll, h1, h2, h3, h4, and_self]
end

/-- The state of a generator changes. -/
def World.put (w : World G) (r : Nat) (g : G) : World G := { w with gen := Function.update w.gen r g }

@[simp] theorem put_self (w : World G) (r : Nat) : w.put r (w.gen r) = w := by simp [World.put]
@[simp] theorem put_gen (w : World G) (r : Nat) (g : G) : (w.put r g).gen r = g := by simp [World.put]
@[simp] theorem put_put (w : World G) (r : Nat) (g g' : G) : (w.put r g).put r g' = w.put r g' := by simp [World.put]

mutual
theorem trainIn_one (seed : Nat → G) (draw : Nat → G → List V × G) (r : Nat) : ∀ (t : Net V) (w : World G),
    trainIn seed draw (some r) t w = (setRng r (one draw t (w.gen r)).1, w.put r (one draw t (w.gen r)).2)
  | .plain, w => by simp [trainIn, one, setRng]
  | .leaf rng n i o, w => by
    cases o <;> cases i <;> simp [trainIn, one, setRng, drawInit, World.put]
  | .cont rng o ks, w => by
    cases o
    · simp [trainIn, one, setRng]
    · simp [trainIn, one, setRng, trainAll_one seed draw r ks]
theorem trainAll_one (seed : Nat → G) (draw : Nat → G → List V × G) (r : Nat) : ∀ (ks : List (Net V)) (w : World G),
    trainAll seed draw (some r) ks w = (setAll r (oneAll draw ks (w.gen r)).1, w.put r (oneAll draw ks (w.gen r)).2)
  | [], w => by simp [trainAll, oneAll, setAll]
  | k :: ks, w => by
    simp [trainAll, oneAll, setAll, trainIn_one seed draw r k, trainAll_one seed draw r ks]
end

/-! ### C357 -/

/-- **A generator given to a network arrives everywhere**: after `numx_rng = r` all online nodes, at all levels, refer to this
generator, and nothing else has changed. -/
theorem rng_everywhere (r : Nat) (t : Net V) :
    ∃ t', assign (.gen r) t = some t' ∧ (∀ g ∈ gens t', g = some r) ∧ forget t' = forget t :=
  ⟨_, rfl, setRng_gens r t, setRng_forget r t⟩

/-- `None` changes nothing; anything but a generator is refused. -/
theorem rng_refused (t : Net V) : assign .none t = some t ∧ assign .other t = none := ⟨rfl, rfl⟩

/-- **Reproducible**: two networks that differ only in the generators they had before, with generators in the same state assigned,
have the same initial vectors after training, whatever the other generators are and the system gives, and leave their generators in
the same state. -/
theorem rng_reproducible (seed seed' : Nat → G) (draw : Nat → G → List V × G) (t t' : Net V) (ht : forget t = forget t')
    (r r' : Nat) (w w' : World G) (hw : w.gen r = w'.gen r') :
    forget (train seed draw (setRng r t) w).1 = forget (train seed' draw (setRng r' t') w').1 ∧
    (train seed draw (setRng r t) w).2.gen r = (train seed' draw (setRng r' t') w').2.gen r' := by
  rw [← trainIn_set, ← trainIn_set, trainIn_one, trainIn_one]
  simp only [setRng_forget, put_gen, hw]
  obtain ⟨h1, h2⟩ := one_forget draw t (w'.gen r')
  obtain ⟨h3, h4⟩ := one_forget draw t' (w'.gen r')
  rw [h1, h2, h3, h4, ht]
  exact ⟨rfl, rfl⟩

/-- **All the nodes draw from the same generator, one after the other**, and no other generator is touched. -/
theorem rng_shared (seed : Nat → G) (draw : Nat → G → List V × G) (t : Net V) (r : Nat) (w : World G) :
    (∀ q, q ≠ r → (train seed draw (setRng r t) w).2.gen q = w.gen q) ∧
    (∀ g ∈ gens (train seed draw (setRng r t) w).1, g = some r) ∧ (train seed draw (setRng r t) w).2.next = w.next := by
  rw [← trainIn_set, trainIn_one]
  refine ⟨fun q hq => ?_, setRng_gens r _, rfl⟩
  simp [World.put, Function.update_of_ne hq]

/-- Two nodes: the first takes the first numbers of the generator, the second the next ones. -/
theorem rng_order (seed : Nat → G) (draw : Nat → G → List V × G) (r n m : Nat) (g1 g2 g3 : Option Nat) (w : World G) :
    forget (train seed draw (setRng r (.cont g1 true [.leaf g2 n none true, .leaf g3 m none true])) w).1 =
      .cont none true [.leaf none n (some (draw n (w.gen r)).1) true,
        .leaf none m (some (draw m (draw n (w.gen r)).2).1) true] := by
  rw [← trainIn_set, trainIn_one]
  simp [one, oneAll, setRng_forget, forget, forgetAll]

mutual
theorem one_again (draw : Nat → G → List V × G) : ∀ (t : Net V) (g : G), ∀ h : G,
    one draw (one draw t g).1 h = ((one draw t g).1, h)
  | .plain, g, h => rfl
  | .leaf rng n i o, g, h => by cases o <;> cases i <;> simp [one]
  | .cont rng o ks, g, h => by
    cases o
    · simp [one]
    · simp [one, oneAll_again draw ks]
theorem oneAll_again (draw : Nat → G → List V × G) : ∀ (ks : List (Net V)) (g : G), ∀ h : G,
    oneAll draw (oneAll draw ks g).1 h = ((oneAll draw ks g).1, h)
  | [], g, h => rfl
  | k :: ks, g, h => by simp [oneAll, one_again draw k, oneAll_again draw ks]
end

mutual
theorem setRng_set (r s : Nat) : ∀ t : Net V, setRng r (setRng s t) = setRng r t
  | .plain => rfl
  | .leaf .. => rfl
  | .cont _ o ks => by simp only [setRng, setAll_set r s ks]
theorem setAll_set (r s : Nat) : ∀ ks : List (Net V), setAll r (setAll s ks) = setAll r ks
  | [] => rfl
  | k :: ks => by simp only [setAll, setRng_set r s k, setAll_set r s ks]
end

mutual
theorem one_set (draw : Nat → G → List V × G) (r : Nat) : ∀ (t : Net V) (g : G),
    one draw (setRng r t) g = (setRng r (one draw t g).1, (one draw t g).2)
  | .plain, g => rfl
  | .leaf rng n i o, g => by cases o <;> cases i <;> simp [one, setRng]
  | .cont rng o ks, g => by
    cases o
    · simp [one, setRng]
    · simp [one, setRng, oneAll_set draw r ks]
theorem oneAll_set (draw : Nat → G → List V × G) (r : Nat) : ∀ (ks : List (Net V)) (g : G),
    oneAll draw (setAll r ks) g = (setAll r (oneAll draw ks g).1, (oneAll draw ks g).2)
  | [], g => rfl
  | k :: ks, g => by simp [oneAll, setAll, one_set draw r k, oneAll_set draw r ks]
end

/-- **Drawn once**: further training changes neither vectors nor generators. -/
theorem train_again (seed : Nat → G) (draw : Nat → G → List V × G) (t : Net V) (r : Nat) (w : World G) :
    train seed draw (train seed draw (setRng r t) w).1 (train seed draw (setRng r t) w).2 =
      train seed draw (setRng r t) w := by
  rw [← trainIn_set, trainIn_one]
  simp only
  rw [← trainIn_set, trainIn_one]
  simp [one_again, World.put]

/-! ### C358 -/

/-- **Violated: the generators of the nodes in a layer without a generator of its own are replaced** by a new one with a seed of the
system at the first training, for all layers in training, whatever generators the nodes were given. -/
theorem inner_generators_violation (seed : Nat → G) (draw : Nat → G → List V × G) (ks : List (Net V)) (w : World G) :
    (∀ g ∈ gens (train seed draw (.cont none true ks) w).1, g = some w.next) ∧
    ∀ (w' : World G) (r : Nat), w'.gen r = seed w.next →
      forget (train seed draw (.cont none true ks) w).1 = forget (train seed draw (setRng r (.cont none true ks)) w').1 := by
  have e : train seed draw (.cont none true ks) w = train seed draw (setRng w.next (.cont none true ks)) (fresh seed w).2 := by
    rw [← trainIn_set]
    unfold train
    simp only [trainIn, if_true, Option.none_or, Option.some_or, fresh]
  rw [e]
  refine ⟨(rng_shared seed draw _ _ _).2.1, fun w' r hr => ?_⟩
  exact (rng_reproducible seed seed draw _ _ rfl _ _ _ _ (by rw [hr]; simp [fresh])).1

/-- The same node on its own draws from its own generator (the full claim: so does a node in a layer). A network in which every
online node has a generator keeps them all. -/
theorem own_generator_partial (seed : Nat → G) (draw : Nat → G → List V × G) (r n : Nat) (w : World G) :
    train seed draw (.leaf (some r) n none true) w = (.leaf (some r) n (some (draw n (w.gen r)).1) true,
      { w with gen := Function.update w.gen r (draw n (w.gen r)).2 }) := by
  simp [train, trainIn, drawInit]

/-- Nodes without a generator in a network with one: each gets a new generator of its own with a seed of the system. -/
theorem new_generators (seed : Nat → G) (draw : Nat → G → List V × G) (r n m : Nat) (w : World G) :
    (train seed draw (.cont (some r) true [.leaf none n none true, .leaf none m none true]) w).1 =
      .cont (some r) true [.leaf (some w.next) n (some (draw n (seed w.next)).1) true,
        .leaf (some (w.next + 1)) m (some (draw m (seed (w.next + 1))).1) true] := by
  simp [train, trainIn, trainAll, fresh, drawInit]

mutual
theorem trainIn_keeps (seed : Nat → G) (draw : Nat → G → List V × G) : ∀ (t : Net V) (w : World G), (∀ g ∈ gens t, g ≠ none) →
    gens (trainIn seed draw none t w).1 = gens t
  | .plain, w, _ => by simp only [trainIn]
  | .leaf rng n i o, w, h => by
    cases rng with
    | none => exact absurd rfl (h none (by simp [gens]))
    | some r => cases o <;> simp [trainIn, gens]
  | .cont rng o ks, w, h => by
    cases rng with
    | none => exact absurd rfl (h none (by simp [gens]))
    | some r =>
      cases o
      · simp [trainIn, gens]
      · simp [trainIn, gens, trainAll_keeps seed draw ks w fun g hg => h g (by simp [gens, hg])]
theorem trainAll_keeps (seed : Nat → G) (draw : Nat → G → List V × G) : ∀ (ks : List (Net V)) (w : World G),
    (∀ g ∈ gensAll ks, g ≠ none) → gensAll (trainAll seed draw none ks w).1 = gensAll ks
  | [], w, _ => by simp only [trainAll]
  | k :: ks, w, h => by
    simp only [trainAll, gensAll]
    rw [trainIn_keeps seed draw k w fun g hg => h g (by simp [gensAll, hg]),
      trainAll_keeps seed draw ks _ fun g hg => h g (by simp [gensAll, hg])]
end

theorem generators_kept (seed : Nat → G) (draw : Nat → G → List V × G) (t : Net V) (w : World G) (h : ∀ g ∈ gens t, g ≠ none) :
    gens (train seed draw t w).1 = gens t := trainIn_keeps seed draw t w h

/-- **Violated: without the argument there is no generator** before the first training (the documentation: it is set to one with a
random seed). -/
theorem no_generator_violation (t : Net V) : assign .none t = some t ∧ ∃ t0 : Net V, gens t0 = [none] :=
  ⟨rfl, .leaf none 1 none true, rfl⟩

/-! ### Examples -/

/-- A generator that counts. -/
def count (n g : Nat) : List Nat × Nat := ((List.range n).map (g + ·), g + n)

/-- A layer of a node, a nested layer and an ordinary node, with generator 5 in state 10. -/
example : forget (train (fun _ => 100) count (setRng 5 (.cont none true [.leaf (some 1) 2 none true,
      .cont (some 2) true [.leaf none 3 none true, .leaf none 1 (some [7]) true], .plain])) ⟨fun _ => 10, 20⟩).1 =
    .cont none true [.leaf none 2 (some [10, 11]) true,
      .cont none true [.leaf none 3 (some [12, 13, 14]) true, .leaf none 1 (some [7]) true], .plain] := rfl

/-- Nodes with the seeds 1 and 2 in a layer: the vectors come from the seed of the system, 100. -/
example : forget (train (fun _ => 100) count (.cont none true [.leaf (some 1) 1 none true, .leaf (some 2) 1 none true])
      ⟨fun r => r, 20⟩).1 =
    .cont none true [.leaf none 1 (some [100]) true, .leaf none 1 (some [101]) true] := rfl

end Mdp.Rng
