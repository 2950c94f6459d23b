import Verif.Bi.Autogen

/-!
# The modules of generated BiNodes and BiClassifiers (C368)

`_get_node_subclasses`, `_binode_module`, `binodes_code` and `biclassifiers_code` (`bimdp/nodes/autogen.py`), and the execution of the
generated code (`bimdp/nodes/__init__.py`). Default values are taken to be such that their `repr` can be evaluated.
-/

namespace Bi.Autogen

variable {V : Type}

/-! ## Model -/

/-- A class: its identity, `__name__`, whether it is a subclass of `mdp.Node` and of `mdp.ClassifierNode`, and the signature of its
`__init__`. -/
structure Cls (V : Type) where
  id : Nat
  name : Name
  node : Bool
  classifier : Bool
  sig : Sig V

/-- The module `mdp.nodes`: its attributes in the order of `dir`; `none` is a value that is not a class. -/
abbrev Mod (V : Type) := List (Name × Option (Cls V))

/-- `_get_node_subclasses` (autogen.py:22-31); `p` tells whether a class is a subclass of `node_class`. -/
def subclasses (p : Cls V → Bool) : Mod V → List (Cls V)
  | [] => []
  | (_, some c) :: m => if p c then c :: subclasses p m else subclasses p m
  | (_, none) :: m => subclasses p m

def sNode : Name := "Node".toList
def sBiNode : Name := "BiNode".toList
def sClassifier : Name := "Classifier".toList
def sBiClassifier : Name := "BiClassifier".toList
def sNoise : Name := "NoiseNode".toList

/-- The classes of `binodes_code` (autogen.py:125-128). -/
def nodeClasses (m : Mod V) : List (Cls V) := (subclasses (·.node) m).filter fun c => !c.classifier && decide (c.name ∉ [sNoise])

/-- The classes of `biclassifiers_code` (autogen.py:142-145); the list of exceptions is empty. -/
def classifierClasses (m : Mod V) : List (Cls V) := subclasses (·.classifier) m

/-- A generated class: the class it is derived from and the name of the BiMDP class. -/
abbrev Gen := Nat × Name

/-- What `mdp.nodes.NAME` gives. -/
def attr (m : Mod V) (a : Name) : Option (Option (Cls V)) := (m.find? fun p => p.1 == a).map (·.2)

/-- The execution of the class statements (autogen.py:51-53): the base class is looked up by its `__name__`. `none`: an AttributeError or
TypeError. The last definition of a name comes first. -/
def execAll (m : Mod V) (old base : Name) : List (Cls V) → List (Name × Gen) → Option (List (Name × Gen))
  | [], ns => some ns
  | c :: l, ns =>
    match attr m c.name with
    | some (some b) => execAll m old base l ((biName old base c.name, b.id, base) :: ns)
    | _ => none

/-- `_binode_module` (autogen.py:90-110) and `exec`: the code of all classes is written before any of it is executed; `genSig` is `none`
where writing raises an exception. -/
def genModule (nil : V) (m : Mod V) (old base : Name) (l : List (Cls V)) (ns : List (Name × Gen)) : Option (List (Name × Gen)) :=
  if l.all fun c => (genSig nil c.sig).isSome then execAll m old base l ns else none

/-- `exec(binodes_code())` and `exec(biclassifiers_code())` (bimdp/nodes/__init__.py:3-4): the names they define. -/
def importAll (nil : V) (m : Mod V) : Option (List (Name × Gen)) :=
  match genModule nil m sNode sBiNode (nodeClasses m) [] with
  | none => none
  | some ns => genModule nil m sClassifier sBiClassifier (classifierClasses m) ns

/-! ## Specification -/

/-- The class has a generated version, with this name and derived from this BiMDP class. -/
def Has (c : Cls V) (key base : Name) : Prop :=
  (c.node = true ∧ c.classifier = false ∧ c.name ≠ "NoiseNode".toList ∧ base = "BiNode".toList ∧
    ∃ stem, c.name = stem ++ "Node".toList ∧ key = stem ++ "BiNode".toList) ∨
  (c.classifier = true ∧ base = "BiClassifier".toList ∧
    ∃ stem, c.name = stem ++ "Classifier".toList ∧ key = stem ++ "BiClassifier".toList)

/-- The module has each name once; each class is in it under its own name, which has the usual ending, and has an argument with a default
value. -/
structure Usual (m : Mod V) : Prop where
  once : (m.map (·.1)).Nodup
  own : ∀ a c, (a, some c) ∈ m → c.node = true ∨ c.classifier = true → a = c.name
  nodes : ∀ a c, (a, some c) ∈ m → c.node = true → c.classifier = false → "Node".toList <:+ c.name
  classifiers : ∀ a c, (a, some c) ∈ m → c.classifier = true → "Classifier".toList <:+ c.name
  defaults : ∀ a c, (a, some c) ∈ m → c.node = true ∨ c.classifier = true → c.sig.defaults ≠ none

/-! ## Proof -/

theorem mem_subclasses (p : Cls V → Bool) (m : Mod V) (c : Cls V) : c ∈ subclasses p m ↔ p c = true ∧ ∃ a, (a, some c) ∈ m := by
  induction m with
  | nil => simp [subclasses]
  | cons x m ih =>
    obtain ⟨a, _ | b⟩ := x
    · simp [subclasses, ih]
    · by_cases hp : p b = true
      · simp only [subclasses, hp, if_true, List.mem_cons, ih, Prod.mk.injEq, Option.some.injEq]
        constructor
        · rintro (rfl | ⟨h, a', ha⟩)
          · exact ⟨hp, a, .inl ⟨rfl, rfl⟩⟩
          · exact ⟨h, a', .inr ha⟩
        · rintro ⟨h, a', ⟨-, rfl⟩ | ha⟩
          · exact .inl rfl
          · exact .inr ⟨h, a', ha⟩
      · simp only [subclasses, if_neg hp, ih, List.mem_cons, Prod.mk.injEq, Option.some.injEq]
        constructor
        · rintro ⟨h, a', ha⟩
          exact ⟨h, a', .inr ha⟩
        · rintro ⟨h, a', ⟨-, rfl⟩ | ha⟩
          · exact absurd h hp
          · exact ⟨h, a', ha⟩

theorem attr_of_mem (m : Mod V) (h : (m.map (·.1)).Nodup) (a : Name) (v : Option (Cls V)) (hm : (a, v) ∈ m) : attr m a = some v := by
  induction m with
  | nil => simp at hm
  | cons x m ih =>
    obtain ⟨b, w⟩ := x
    simp only [List.map_cons, List.nodup_cons] at h
    rcases List.mem_cons.1 hm with e | e
    · cases e
      simp [attr]
    · have : b ≠ a := by
        rintro rfl
        exact h.1 (List.mem_map.2 ⟨_, e, rfl⟩)
      have := ih h.2 e
      simp_all [attr]

theorem execAll_eq (m : Mod V) (old base : Name) : ∀ (l : List (Cls V)) (ns : List (Name × Gen)), (∀ c ∈ l, attr m c.name = some (some c)) →
    execAll m old base l ns = some ((l.map fun c => (biName old base c.name, c.id, base)).reverse ++ ns) := by
  intro l
  induction l with
  | nil => intro ns _; rfl
  | cons c l ih =>
    intro ns h
    rw [execAll, h c (by simp)]
    simp only
    rw [ih _ fun c hc => h c (by simp [hc])]
    simp

theorem lookup_gen (l : List (Name × Gen)) (key : Name) (v : Gen) (h : ∀ w, (key, w) ∈ l → w = v) : lookup l key = some v ↔ (key, v) ∈ l := by
  induction l with
  | nil => simp [lookup]
  | cons x l ih =>
    obtain ⟨k, w⟩ := x
    by_cases hk : k = key
    · subst hk
      have := h w (by simp)
      subst this
      simp [lookup]
    · have : lookup ((k, w) :: l) key = lookup l key := by simp [lookup, hk]
      rw [this, ih fun w hw => h w (by simp [hw])]
      simp [Ne.symm hk]

theorem has_nodes (m : Mod V) (hu : Usual m) (key base : Name) (id : Nat) :
    (key, id, base) ∈ (nodeClasses m).map (fun c => (biName sNode sBiNode c.name, c.id, sBiNode)) ↔
      ∃ c, (c.name, some c) ∈ m ∧ c.id = id ∧ base = sBiNode ∧ c.node = true ∧ c.classifier = false ∧ c.name ≠ sNoise ∧
        ∃ stem, c.name = stem ++ sNode ∧ key = stem ++ sBiNode := by
  simp only [List.mem_map, nodeClasses, List.mem_filter, mem_subclasses, Prod.mk.injEq]
  constructor
  · rintro ⟨c, ⟨⟨h1, a, h2⟩, h3⟩, rfl, rfl, rfl⟩
    have hb := hu.own a c h2 (.inl h1)
    subst hb
    simp only [Bool.and_eq_true, Bool.not_eq_true', decide_eq_true_eq, List.mem_singleton] at h3
    obtain ⟨stem, hs⟩ := hu.nodes _ c h2 h1 h3.1
    refine ⟨c, h2, rfl, rfl, h1, h3.1, h3.2, stem, hs.symm, ?_⟩
    rw [← hs]
    exact biName_spec _ _ _
  · rintro ⟨c, h1, rfl, rfl, h2, h3, h4, stem, h5, rfl⟩
    refine ⟨c, ⟨⟨h2, _, h1⟩, by simp [h3, h4]⟩, ?_, rfl, rfl⟩
    rw [h5]
    exact biName_spec _ _ _

theorem has_classifiers (m : Mod V) (hu : Usual m) (key base : Name) (id : Nat) :
    (key, id, base) ∈ (classifierClasses m).map (fun c => (biName sClassifier sBiClassifier c.name, c.id, sBiClassifier)) ↔
      ∃ c, (c.name, some c) ∈ m ∧ c.id = id ∧ base = sBiClassifier ∧ c.classifier = true ∧
        ∃ stem, c.name = stem ++ sClassifier ∧ key = stem ++ sBiClassifier := by
  simp only [List.mem_map, classifierClasses, mem_subclasses, Prod.mk.injEq]
  constructor
  · rintro ⟨c, ⟨h1, a, h2⟩, rfl, rfl, rfl⟩
    have hb := hu.own a c h2 (.inr h1)
    subst hb
    obtain ⟨stem, hs⟩ := hu.classifiers _ c h2 h1
    refine ⟨c, h2, rfl, rfl, h1, stem, hs.symm, ?_⟩
    rw [← hs]
    exact biName_spec _ _ _
  · rintro ⟨c, h1, rfl, rfl, h3, stem, h5, rfl⟩
    refine ⟨c, ⟨h3, _, h1⟩, ?_, rfl, rfl⟩
    rw [h5]
    exact biName_spec _ _ _

theorem defaults_some (nil : V) (s : Sig V) (h : s.defaults ≠ none) : (genSig nil s).isSome = true := by
  rcases hd : s.defaults with _ | d
  · exact absurd hd h
  · simp [genSig, hd]

theorem stems {s t a b : Name} (h : s ++ a = t ++ b) (hn : a.getLast? ≠ b.getLast?) (ha : a ≠ []) (hb : b ≠ []) : False := by
  have := congrArg List.getLast? h
  rw [List.getLast?_append_of_ne_nil _ ha, List.getLast?_append_of_ne_nil _ hb] at this
  exact hn this

/-- C368. Importing `bimdp.nodes` defines exactly one class for each node and each classifier in `mdp.nodes` except `NoiseNode`: under the
name of the node with the ending replaced, derived from this node and from `BiNode` or `BiClassifier`. -/
theorem module_complete (nil : V) (m : Mod V) (hu : Usual m) :
    ∃ ns, importAll nil m = some ns ∧ ∀ key id base, lookup ns key = some (id, base) ↔
      ∃ c, (c.name, some c) ∈ m ∧ c.id = id ∧ Has c key base := by
  have hn : genModule nil m sNode sBiNode (nodeClasses m) [] =
      some (((nodeClasses m).map fun c => (biName sNode sBiNode c.name, c.id, sBiNode)).reverse ++ []) := by
    have h1 : ∀ c ∈ nodeClasses m, ∃ a, (a, some c) ∈ m ∧ c.node = true := by
      intro c hc
      rw [nodeClasses, List.mem_filter, mem_subclasses] at hc
      exact ⟨hc.1.2.choose, hc.1.2.choose_spec, hc.1.1⟩
    rw [genModule, if_pos, execAll_eq]
    · intro c hc
      obtain ⟨a, h2, h3⟩ := h1 c hc
      have := hu.own a c h2 (.inl h3)
      subst this
      exact attr_of_mem m hu.once _ _ h2
    · rw [List.all_eq_true]
      intro c hc
      obtain ⟨a, h2, h3⟩ := h1 c hc
      exact defaults_some nil _ (hu.defaults a c h2 (.inl h3))
  have hc : ∀ ns, genModule nil m sClassifier sBiClassifier (classifierClasses m) ns =
      some (((classifierClasses m).map fun c => (biName sClassifier sBiClassifier c.name, c.id, sBiClassifier)).reverse ++ ns) := by
    intro ns
    have h1 : ∀ c ∈ classifierClasses m, ∃ a, (a, some c) ∈ m ∧ c.classifier = true := by
      intro c hc
      rw [classifierClasses, mem_subclasses] at hc
      exact ⟨hc.2.choose, hc.2.choose_spec, hc.1⟩
    rw [genModule, if_pos, execAll_eq]
    · intro c hc
      obtain ⟨a, h2, h3⟩ := h1 c hc
      have := hu.own a c h2 (.inr h3)
      subst this
      exact attr_of_mem m hu.once _ _ h2
    · rw [List.all_eq_true]
      intro c hc
      obtain ⟨a, h2, h3⟩ := h1 c hc
      exact defaults_some nil _ (hu.defaults a c h2 (.inr h3))
  refine ⟨_, by rw [importAll, hn]; exact hc _, fun key id base => ?_⟩
  have mem : ∀ id base, (key, id, base) ∈ ((classifierClasses m).map fun c => (biName sClassifier sBiClassifier c.name, c.id, sBiClassifier)).reverse ++
      (((nodeClasses m).map fun c => (biName sNode sBiNode c.name, c.id, sBiNode)).reverse ++ []) ↔
      ∃ c, (c.name, some c) ∈ m ∧ c.id = id ∧ Has c key base := by
    intro id base
    rw [List.append_nil, List.mem_append, List.mem_reverse, List.mem_reverse, has_nodes m hu, has_classifiers m hu]
    constructor
    · rintro (⟨c, h1, h2, h3, h4, h5⟩ | ⟨c, h1, h2, h3, h4, h5, h6, h7⟩)
      · exact ⟨c, h1, h2, .inr ⟨h4, h3, h5⟩⟩
      · exact ⟨c, h1, h2, .inl ⟨h4, h5, h6, h3, h7⟩⟩
    · rintro ⟨c, h1, h2, ⟨h4, h5, h6, h3, h7⟩ | ⟨h4, h3, h5⟩⟩
      · exact .inr ⟨c, h1, h2, h3, h4, h5, h6, h7⟩
      · exact .inl ⟨c, h1, h2, h3, h4, h5⟩
  have uniq : ∀ id base id' base', (∃ c, (c.name, some c) ∈ m ∧ c.id = id ∧ Has c key base) →
      (∃ c, (c.name, some c) ∈ m ∧ c.id = id' ∧ Has c key base') → (id', base') = (id, base) := by
    rintro id base id' base' ⟨c, h1, rfl, h2⟩ ⟨d, g1, rfl, g2⟩
    have same : c.name = d.name → d = c := by
      intro e
      have a1 := attr_of_mem m hu.once _ _ h1
      have a2 := attr_of_mem m hu.once _ _ g1
      rw [e, a2] at a1
      simpa using a1
    rcases h2 with ⟨-, -, -, rfl, s, h3, h4⟩ | ⟨-, rfl, s, h3, h4⟩ <;> rcases g2 with ⟨-, -, -, rfl, t, g3, g4⟩ | ⟨-, rfl, t, g3, g4⟩
    · rw [h4] at g4
      rw [same (by rw [h3, g3, List.append_cancel_right g4])]
    · exact (stems (h4.symm.trans g4) (by decide) (by decide) (by decide)).elim
    · exact (stems (h4.symm.trans g4) (by decide) (by decide) (by decide)).elim
    · rw [h4] at g4
      rw [same (by rw [h3, g3, List.append_cancel_right g4])]
  by_cases hex : ∃ v, (key, v) ∈ ((classifierClasses m).map fun c => (biName sClassifier sBiClassifier c.name, c.id, sBiClassifier)).reverse ++
      (((nodeClasses m).map fun c => (biName sNode sBiNode c.name, c.id, sBiNode)).reverse ++ [])
  · obtain ⟨⟨i, b⟩, hv⟩ := hex
    have hw := lookup_gen _ key (i, b) (fun w hw => by
      obtain ⟨i', b'⟩ := w
      exact uniq i b i' b' ((mem _ _).1 hv) ((mem _ _).1 hw))
    rw [hw.2 hv]
    constructor
    · intro h
      simp only [Option.some.injEq, Prod.mk.injEq] at h
      obtain ⟨rfl, rfl⟩ := h
      exact (mem _ _).1 hv
    · intro h
      rw [uniq i b id base ((mem _ _).1 hv) h]
  · rw [lookup_none]
    · constructor
      · intro h; cases h
      · intro h
        exact absurd ⟨_, (mem _ _).2 h⟩ hex
    · intro h
      obtain ⟨⟨k, v⟩, h1, rfl⟩ := List.mem_map.1 h
      exact hex ⟨v, h1⟩

/-- C368. A single node whose `__init__` has no argument with a default value makes the import of all of `bimdp.nodes` fail. -/
theorem module_no_default_refused (nil : V) (m : Mod V) (a : Name) (c : Cls V) (hm : (a, some c) ∈ m) (hc : c.node = true)
    (hk : c.classifier = false) (hn : c.name ≠ "NoiseNode".toList) (hd : c.sig.defaults = none) : importAll nil m = none := by
  have : genModule nil m sNode sBiNode (nodeClasses m) [] = none := by
    rw [genModule, if_neg]
    rw [List.all_eq_true]
    intro h
    have h' : c ∈ nodeClasses m := by
      rw [nodeClasses, List.mem_filter, mem_subclasses]
      exact ⟨⟨hc, a, hm⟩, by
        have hn' : c.name ≠ sNoise := hn
        simpa [hk] using hn'⟩
    have := h c h'
    simp [genSig, hd] at this
  rw [importAll, this]

theorem execAll_none (m : Mod V) (old base : Name) (c : Cls V) (h : attr m c.name = none) : ∀ (l : List (Cls V)) (ns : List (Name × Gen)), c ∈ l →
    execAll m old base l ns = none := by
  intro l
  induction l with
  | nil => intro ns hc; simp at hc
  | cons b l ih =>
    intro ns hc
    rw [execAll]
    rcases List.mem_cons.1 hc with rfl | hc
    · rw [h]
    · split
      · exact ih _ hc
      · rfl

/-- C368. A node that is in `mdp.nodes` only under a name that is not its `__name__` makes the import fail as well. -/
theorem module_alias_refused (nil : V) (m : Mod V) (a : Name) (c : Cls V) (hm : (a, some c) ∈ m) (hc : c.node = true)
    (hk : c.classifier = false) (hn : c.name ≠ "NoiseNode".toList) (ha : ∀ v, (c.name, v) ∉ m) : importAll nil m = none := by
  have h0 : attr m c.name = none := by
    rw [attr, Option.map_eq_none_iff, List.find?_eq_none]
    intro p hp he
    obtain ⟨k, v⟩ := p
    have : k = c.name := by simpa using he
    subst this
    exact ha v hp
  have : genModule nil m sNode sBiNode (nodeClasses m) [] = none := by
    rw [genModule]
    split
    · refine execAll_none m _ _ c h0 _ _ ?_
      rw [nodeClasses, List.mem_filter, mem_subclasses]
      exact ⟨⟨hc, a, hm⟩, by
        have hn' : c.name ≠ sNoise := hn
        simpa [hk] using hn'⟩
    · rfl
  rw [importAll, this]

/-! ### Examples -/

def exMod : Mod Nat :=
  [("KNNClassifier".toList, some ⟨1, "KNNClassifier".toList, true, true, exSig⟩), ("NoiseNode".toList, some ⟨2, "NoiseNode".toList, true, false, exSig⟩),
   ("PCANode".toList, some ⟨3, "PCANode".toList, true, false, exSig⟩), ("__name__".toList, none)]

theorem exMod_usual : Usual exMod := by
  refine ⟨by decide +kernel, ?_, ?_, ?_, ?_⟩ <;>
  · intro a c h
    simp only [exMod, List.mem_cons, Prod.mk.injEq, Option.some.injEq, List.not_mem_nil, or_false, reduceCtorEq, and_false] at h
    rcases h with ⟨rfl, rfl⟩ | ⟨rfl, rfl⟩ | ⟨rfl, rfl⟩ <;> first | decide +kernel | simp [exSig]

example : importAll 0 exMod = some [("KNNBiClassifier".toList, 1, "BiClassifier".toList), ("PCABiNode".toList, 3, "BiNode".toList)] := by
  decide +kernel

example : ∃ ns, importAll 0 exMod = some ns ∧ ∀ key id base, lookup ns key = some (id, base) ↔
      ∃ c, (c.name, some c) ∈ exMod ∧ c.id = id ∧ Has c key base := module_complete 0 exMod exMod_usual

example : importAll 0 [("ANode".toList, some (⟨3, "PCANode".toList, true, false, exSig⟩ : Cls Nat))] = none :=
  module_alias_refused 0 _ "ANode".toList _ (List.mem_singleton.2 rfl) rfl rfl (by decide +kernel) (by
    intro v h
    simp only [List.mem_singleton, Prod.mk.injEq] at h
    exact absurd h.1 (by decide +kernel))

example : importAll 0 (("ANode".toList, some (⟨3, "ANode".toList, true, false, { exSig with defaults := none }⟩ : Cls Nat)) :: exMod) = none :=
  module_no_default_refused 0 _ "ANode".toList ⟨3, "ANode".toList, true, false, { exSig with defaults := none }⟩ (List.mem_cons_self ..) rfl rfl (by decide +kernel) rfl

end Bi.Autogen
