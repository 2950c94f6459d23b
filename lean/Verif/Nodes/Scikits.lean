import Mathlib.Data.List.Basic
import Mathlib.Data.List.Nodup

/-! # Finding and wrapping the algorithms of sklearn (C305, C306) -/

namespace Mdp.Scikits

/-! ## Model -/

variable {M K : Type} [DecidableEq M] [DecidableEq K]

/-- A member of a module: a class, a module, or anything else. -/
inductive Member (M K : Type) where
  | cls (c : K)
  | mod (m : M)
  | other

/-- What the traversal reads of the imported modules: the members of each module in the order of its dictionary
(with the flag whether the name begins with an underscore), whether the name of a module begins with the prefix of
sklearn, and whether a class has a method `fit`, `predict` or `transform`. -/
structure World (M K : Type) where
  members : M → List (Bool × Member M K)
  sk : M → Bool
  fit : K → Bool
  predict : K → Bool
  transform : K → Bool

/-- The two lists of the traversal and the calls of `action`. -/
structure St (M K : Type) where
  mods : List M
  classes : List K
  calls : List K

/-- The class branch of the loop.
/repo/mdp/nodes/scikits_nodes.py 183-189. -/
def onClass (w : World M K) (st : St M K) (c : K) : St M K :=
  if c ∈ st.classes then st
  else { st with classes := st.classes ++ [c],
                 calls := if w.fit c || w.predict c || w.transform c then st.calls ++ [c] else st.calls }

/-- The loop over the members, with the recursive call as a parameter.
/repo/mdp/nodes/scikits_nodes.py 179-195. -/
def onMembers (w : World M K) (rec : M → St M K → St M K) : List (Bool × Member M K) → St M K → St M K
  | [], st => st
  | (true, _) :: l, st => onMembers w rec l st
  | (false, .cls c) :: l, st => onMembers w rec l (onClass w st c)
  | (false, .mod m) :: l, st => onMembers w rec l (if w.sk m then rec m st else st)
  | (false, .other) :: l, st => onMembers w rec l st

/-- `apply_to_scikits_algorithms`.  The recursion is bounded by `fuel`; the theorems show that the number of modules
suffices, so that the bound is never met.
/repo/mdp/nodes/scikits_nodes.py 155-196. -/
def visit (w : World M K) : Nat → M → St M K → St M K
  | 0, _, st => st
  | n + 1, m, st =>
    if m ∈ st.mods then st
    else onMembers w (visit w n) (w.members m) { st with mods := st.mods ++ [m] }

/-- The call at the bottom of the module, for a program with `n` modules.
/repo/mdp/nodes/scikits_nodes.py 543-545. -/
def applyAll (w : World M K) (n : Nat) (root : M) : St M K := visit w (n + 1) root ⟨[], [], []⟩

/-! ## Specification -/

/-- `x` can be reached from `m` through public members that are modules of sklearn. -/
inductive Reach (w : World M K) (m : M) : M → Prop
  | refl : Reach w m m
  | step {x y} : Reach w m x → (false, Member.mod y) ∈ w.members x → w.sk y = true → Reach w m y

/-- The algorithms a user expects to be found: the public classes of the public modules of sklearn with one of the
three methods. -/
def Algorithm (w : World M K) (root : M) (c : K) : Prop :=
  (∃ m, Reach w root m ∧ (false, Member.cls c) ∈ w.members m) ∧
    (w.fit c = true ∨ w.predict c = true ∨ w.transform c = true)

/-! ## Proofs -/

theorem Reach.trans {w : World M K} {a b c : M} (h1 : Reach w a b) (h2 : Reach w b c) : Reach w a c := by
  induction h2 with
  | refl => exact h1
  | step _ h3 h4 ih => exact .step ih h3 h4

/-- Each class once, the calls are the classes with one of the methods. -/
def Good (w : World M K) (st : St M K) : Prop :=
  st.classes.Nodup ∧ st.calls = st.classes.filter fun c => w.fit c || w.predict c || w.transform c

/-- The number of modules of `u` that have not been processed. -/
def todo (u : List M) (st : St M K) : Nat := (u.filter fun m => decide (m ∉ st.mods)).length

theorem todo_mono {u : List M} {st st' : St M K} (h : st.mods ⊆ st'.mods) : todo u st' ≤ todo u st := by
  unfold todo
  refine List.Sublist.length_le (List.monotone_filter_right u ?_)
  intro x hx
  simp only [decide_eq_true_eq] at hx ⊢
  exact fun hn => hx (h hn)

theorem todo_lt {u : List M} {st st' : St M K} {m : M} (h : st.mods ⊆ st'.mods) (hu : m ∈ u) (hm : m ∉ st.mods)
    (hm' : m ∈ st'.mods) : todo u st' < todo u st := by
  unfold todo
  induction u with
  | nil => cases hu
  | cons x u ih =>
    have hmono : (u.filter fun m => decide (m ∉ st'.mods)).length ≤
        (u.filter fun m => decide (m ∉ st.mods)).length := todo_mono (u := u) h
    rcases List.mem_cons.1 hu with rfl | hu
    · rw [List.filter_cons_of_neg (by simpa using hm'), List.filter_cons_of_pos (by simpa using hm)]
      simp only [List.length_cons]
      omega
    · have := ih hu
      rw [List.filter_cons, List.filter_cons]
      by_cases h1 : x ∈ st'.mods
      · rw [if_neg (by simpa using h1)]
        split
        · simp only [List.length_cons]; omega
        · exact this
      · rw [if_pos (by simpa using h1), if_pos (by simpa using fun hn => h1 (h hn))]
        simp only [List.length_cons]
        omega

/-- What a part of the traversal that began at modules `S m` does. -/
structure Grows (w : World M K) (S : M → Prop) (Cl : K → Prop) (st st' : St M K) : Prop where
  mods : st.mods ⊆ st'.mods
  classes : st.classes ⊆ st'.classes
  good : Good w st → Good w st'
  closed : ∀ x ∈ st'.mods, x ∉ st.mods → S x ∧
    (∀ y, (false, Member.mod y) ∈ w.members x → w.sk y = true → y ∈ st'.mods) ∧
    (∀ c, (false, Member.cls c) ∈ w.members x → c ∈ st'.classes)
  sound : ∀ c ∈ st'.classes, c ∉ st.classes → Cl c

theorem Grows.refl (w : World M K) (S : M → Prop) (Cl : K → Prop) (st : St M K) : Grows w S Cl st st :=
  ⟨fun _ h => h, fun _ h => h, fun h => h, fun _ h h' => absurd h h', fun _ h h' => absurd h h'⟩

theorem Grows.trans {w : World M K} {S : M → Prop} {Cl : K → Prop} {a b c : St M K} (h1 : Grows w S Cl a b)
    (h2 : Grows w S Cl b c) : Grows w S Cl a c where
  mods := fun x hx => h2.mods (h1.mods hx)
  classes := fun x hx => h2.classes (h1.classes hx)
  good := fun h => h2.good (h1.good h)
  closed := by
    intro x hx hn
    by_cases hb : x ∈ b.mods
    · obtain ⟨h3, h4, h5⟩ := h1.closed x hb hn
      exact ⟨h3, fun y hy hs => h2.mods (h4 y hy hs), fun k hk => h2.classes (h5 k hk)⟩
    · exact h2.closed x hx hb
  sound := by
    intro k hk hn
    by_cases hb : k ∈ b.classes
    · exact h1.sound k hb hn
    · exact h2.sound k hk hb

theorem Grows.weaken {w : World M K} {S S' : M → Prop} {Cl Cl' : K → Prop} {a b : St M K} (h : Grows w S Cl a b)
    (hs : ∀ x, S x → S' x) (hc : ∀ x, Cl x → Cl' x) : Grows w S' Cl' a b :=
  ⟨h.mods, h.classes, h.good, fun x hx hn => ⟨hs x (h.closed x hx hn).1, (h.closed x hx hn).2⟩,
    fun c hc' hn => hc c (h.sound c hc' hn)⟩

theorem onClass_grows (w : World M K) (S : M → Prop) (Cl : K → Prop) (st : St M K) (c : K) (hc : Cl c) :
    Grows w S Cl st (onClass w st c) ∧ c ∈ (onClass w st c).classes := by
  unfold onClass
  split
  · rename_i h
    exact ⟨.refl w S Cl st, h⟩
  · rename_i h
    refine ⟨⟨fun _ h => h, fun _ h => by simp [h], ?_, fun x hx hn => absurd hx hn, ?_⟩, by simp⟩
    · rintro ⟨h1, h2⟩
      refine ⟨?_, ?_⟩
      · refine List.nodup_append.2 ⟨h1, List.nodup_singleton c, ?_⟩
        intro a ha b hb
        rw [List.mem_singleton] at hb
        subst hb
        rintro rfl
        exact h ha
      · simp only [List.filter_append, h2]
        cases hb : (w.fit c || w.predict c || w.transform c)
        · rw [List.filter_cons_of_neg (by simp [hb])]
          simp
        · rw [List.filter_cons_of_pos (by simp [hb])]
          simp
    · intro k hk hn
      simp only [List.mem_append, List.mem_singleton] at hk
      rcases hk with hk | rfl
      · exact absurd hk hn
      · exact hc

/-- Everything below `m`. -/
def Below (w : World M K) (m : M) (c : K) : Prop := ∃ x, Reach w m x ∧ (false, Member.cls c) ∈ w.members x

theorem onMembers_grows (w : World M K) (u : List M) (root : M) (n : Nat) (rec : M → St M K → St M K)
    (hrec : ∀ m st, m ∈ u → todo u st ≤ n → Grows w (Reach w m) (Below w m) st (rec m st) ∧ m ∈ (rec m st).mods)
    (l : List (Bool × Member M K))
    (hu : ∀ y, (false, Member.mod y) ∈ l → w.sk y = true → y ∈ u)
    (hmod : ∀ y, (false, Member.mod y) ∈ l → w.sk y = true → Reach w root y)
    (hcls : ∀ c, (false, Member.cls c) ∈ l → Below w root c)
    (st : St M K) (ht : todo u st ≤ n) :
    Grows w (Reach w root) (Below w root) st (onMembers w rec l st) ∧
      (∀ y, (false, Member.mod y) ∈ l → w.sk y = true → y ∈ (onMembers w rec l st).mods) ∧
      (∀ c, (false, Member.cls c) ∈ l → c ∈ (onMembers w rec l st).classes) := by
  induction l generalizing st with
  | nil => exact ⟨.refl _ _ _ _, by simp, by simp⟩
  | cons e l ih =>
    have ih' := ih (fun y hy => hu y (by simp [hy])) (fun y hy => hmod y (by simp [hy]))
      (fun c hc => hcls c (by simp [hc]))
    obtain ⟨b, e⟩ := e
    cases b with
    | true =>
      simp only [onMembers]
      obtain ⟨h1, h2, h3⟩ := ih' st ht
      exact ⟨h1, fun y hy => h2 y (by simpa using hy), fun c hc => h3 c (by simpa using hc)⟩
    | false =>
      cases e with
      | other =>
        simp only [onMembers]
        obtain ⟨h1, h2, h3⟩ := ih' st ht
        exact ⟨h1, fun y hy => h2 y (by simpa using hy), fun c hc => h3 c (by simpa using hc)⟩
      | cls c =>
        simp only [onMembers]
        obtain ⟨g1, g2⟩ := onClass_grows w (Reach w root) (Below w root) st c (hcls c (by simp))
        obtain ⟨h1, h2, h3⟩ := ih' (onClass w st c) (Nat.le_trans (todo_mono g1.mods) ht)
        refine ⟨g1.trans h1, fun y hy => h2 y (by simpa using hy), ?_⟩
        intro k hk
        simp only [List.mem_cons, Prod.mk.injEq, Member.cls.injEq, true_and] at hk
        rcases hk with rfl | hk
        · exact h1.classes g2
        · exact h3 k hk
      | mod m =>
        simp only [onMembers]
        by_cases hs : w.sk m = true
        · rw [if_pos hs]
          obtain ⟨g1, g2⟩ := hrec m st (hu m (by simp) hs) ht
          have hrm := hmod m (by simp) hs
          have g1' : Grows w (Reach w root) (Below w root) st (rec m st) :=
            g1.weaken (fun x hx => hrm.trans hx) (fun c ⟨x, hx, hc⟩ => ⟨x, hrm.trans hx, hc⟩)
          obtain ⟨h1, h2, h3⟩ := ih' (rec m st) (Nat.le_trans (todo_mono g1.mods) ht)
          refine ⟨g1'.trans h1, ?_, fun c hc => h3 c (by simpa using hc)⟩
          intro y hy hsy
          simp only [List.mem_cons, Prod.mk.injEq, Member.mod.injEq, true_and] at hy
          rcases hy with rfl | hy
          · exact h1.mods g2
          · exact h2 y hy hsy
        · rw [if_neg hs]
          obtain ⟨h1, h2, h3⟩ := ih' st ht
          refine ⟨h1, ?_, fun c hc => h3 c (by simpa using hc)⟩
          intro y hy hsy
          simp only [List.mem_cons, Prod.mk.injEq, Member.mod.injEq, true_and] at hy
          rcases hy with rfl | hy
          · exact absurd hsy hs
          · exact h2 y hy hsy

theorem visit_grows (w : World M K) (u : List M)
    (hu : ∀ x ∈ u, ∀ y, (false, Member.mod y) ∈ w.members x → w.sk y = true → y ∈ u) (n : Nat) (m : M) (st : St M K)
    (hm : m ∈ u) (ht : todo u st < n) :
    Grows w (Reach w m) (Below w m) st (visit w n m st) ∧ m ∈ (visit w n m st).mods := by
  induction n generalizing m st with
  | zero => omega
  | succ n ih =>
    unfold visit
    split
    · rename_i h
      exact ⟨.refl _ _ _ _, h⟩
    · rename_i h
      have hlt : todo u ({ st with mods := st.mods ++ [m] } : St M K) < todo u st :=
        todo_lt (fun x hx => by simp [hx]) hm h (by simp)
      have key : ∀ k, k + 1 = n ∨ n = 0 → ∀ y st', y ∈ u → todo u st' ≤ k →
          Grows w (Reach w y) (Below w y) st' (visit w n y st') ∧ y ∈ (visit w n y st').mods := by
        intro k hk y st' hy hle
        rcases hk with rfl | h0
        · exact ih y st' hy (by omega)
        · subst h0
          omega
      have hn : n ≠ 0 := by omega
      obtain ⟨k, rfl⟩ := Nat.exists_eq_succ_of_ne_zero hn
      obtain ⟨h1, h2, h3⟩ := onMembers_grows w u m k (visit w (k + 1)) (key k (.inl rfl)) (w.members m)
        (hu m hm) (fun y hy hs => .step .refl hy hs) (fun c hc => ⟨m, .refl, hc⟩)
        { st with mods := st.mods ++ [m] } (by omega)
      have hmm : m ∈ (onMembers w (visit w (k + 1)) (w.members m)
          { st with mods := st.mods ++ [m] }).mods := h1.mods (by simp)
      refine ⟨⟨fun x hx => h1.mods (by simp [hx]), h1.classes, h1.good, ?_, h1.sound⟩, hmm⟩
      intro x hx hn
      by_cases hxm : x = m
      · subst hxm
        exact ⟨.refl, h2, h3⟩
      · refine h1.closed x hx ?_
        simp only [List.mem_append, List.mem_singleton, not_or]
        exact ⟨hn, hxm⟩

/-- C305: `action` is called exactly once for every public class with a method `fit`, `predict` or `transform` in a
module of sklearn that is reached from the package through public names, and for nothing else, whatever modules
import each other. -/
theorem action_exactly_once (w : World M K) (u : List M) (root : M) (hr : root ∈ u)
    (hu : ∀ x ∈ u, ∀ y, (false, Member.mod y) ∈ w.members x → w.sk y = true → y ∈ u) :
    (applyAll w u.length root).calls.Nodup ∧
      ∀ c, c ∈ (applyAll w u.length root).calls ↔ Algorithm w root c := by
  have h0 : todo u (⟨[], [], []⟩ : St M K) < u.length + 1 := by
    unfold todo
    have := List.length_filter_le (fun m => decide (m ∉ ([] : List M))) u
    simp only at this ⊢
    omega
  obtain ⟨g, hm⟩ := visit_grows w u hu (u.length + 1) root ⟨[], [], []⟩ hr h0
  have good : Good w (applyAll w u.length root) := g.good ⟨List.nodup_nil, rfl⟩
  have hall : ∀ x, Reach w root x → x ∈ (applyAll w u.length root).mods := by
    intro x hx
    induction hx with
    | refl => exact hm
    | step _ h1 h2 ih => exact ((g.closed _ ih (by simp)).2.1 _ h1 h2)
  refine ⟨by rw [good.2]; exact good.1.filter _, ?_⟩
  intro c
  rw [good.2, List.mem_filter]
  simp only [Bool.or_eq_true]
  constructor
  · rintro ⟨h1, h2⟩
    exact ⟨g.sound c h1 (by simp), by rcases h2 with (h | h) | h <;> simp [h]⟩
  · rintro ⟨⟨m, h1, h2⟩, h3⟩
    refine ⟨(g.closed m (hall m h1) (by simp)).2.2 c h2, ?_⟩
    rcases h3 with h | h | h <;> simp [h]

/-! ## Wrapping -/

inductive Kind where
  | classifier
  | transformer
  | predictor
deriving DecidableEq

/-- What `wrap_scikits_algorithms` reads of a class. -/
structure Cls where
  name : List Char
  isClassifier : Bool
  fit : Bool
  predict : Bool
  transform : Bool
deriving DecidableEq

def excluded (s : List Char) : Bool :=
  s.take 4 == ['B', 'a', 's', 'e'] ||
  s == ['L', 'i', 'n', 'e', 'a', 'r', 'M', 'o', 'd', 'e', 'l'] ||
  ['E', 'l', 'l', 'i', 'p', 't', 'i', 'c', 'E', 'n', 'v', 'e', 'l', 'o', 'p'].isPrefixOf s ||
  ['F', 'o', 'r', 'e', 's', 't', 'C', 'l', 'a', 's', 's', 'i', 'f', 'i', 'e', 'r'].isPrefixOf s

def suffix : List Char :=
  ['S', 'c', 'i', 'k', 'i', 't', 's', 'L', 'e', 'a', 'r', 'n', 'N', 'o', 'd', 'e']

/-- `wrap_scikits_algorithms`: the kind of the wrapper, if there is one.
/repo/mdp/nodes/scikits_nodes.py 523-541. -/
def wrap (c : Cls) : Option Kind :=
  if excluded c.name then none
  else if c.isClassifier && c.fit then some .classifier
  else if c.transform && c.fit then some .transformer
  else if c.predict && c.fit then some .predictor
  else none

/-- The list of the wrapped classes.
/repo/mdp/nodes/scikits_nodes.py 543-545. -/
def nodesList (l : List Cls) : List (Cls × Kind) := l.filterMap fun c => (wrap c).map (c, ·)

/-- The dictionary `DICT_` from the names of the nodes: a later class of the same name replaces an earlier one.
/repo/mdp/nodes/scikits_nodes.py 549-552; the name is made in line 283, 385 and 474. -/
def dict (l : List (Cls × Kind)) (name : List Char) : Option (Cls × Kind) :=
  l.foldl (fun r x => if x.1.name ++ suffix = name then some x else r) none

/-- C306: the kind of the wrapper: a classifier that can be fitted becomes a classifier node, otherwise a class with
`transform` a transformer node, otherwise a class with `predict` a predictor node; without `fit` there is none. -/
theorem wrap_kind (c : Cls) (h : excluded c.name = false) :
    (wrap c = none ↔ c.fit = false ∨ (c.isClassifier = false ∧ c.transform = false ∧ c.predict = false)) ∧
    (wrap c = some .classifier ↔ c.fit = true ∧ c.isClassifier = true) ∧
    (wrap c = some .transformer ↔ c.fit = true ∧ c.isClassifier = false ∧ c.transform = true) ∧
    (wrap c = some .predictor ↔
      c.fit = true ∧ c.isClassifier = false ∧ c.transform = false ∧ c.predict = true) := by
  obtain ⟨n, a, b, d, e⟩ := c
  simp only at h
  unfold wrap
  simp only [h]
  cases a <;> cases b <;> cases d <;> cases e <;> simp

theorem dict_spec (l : List (Cls × Kind)) (name : List Char) (r : Option (Cls × Kind)) :
    l.foldl (fun r x => if x.1.name ++ suffix = name then some x else r) r =
      ((l.filter fun x => decide (x.1.name ++ suffix = name)).getLast?).or r := by
  induction l generalizing r with
  | nil => simp
  | cons x l ih =>
    rw [List.foldl_cons, ih]
    by_cases h : x.1.name ++ suffix = name
    · rw [if_pos h, List.filter_cons_of_pos (by simpa using h), List.getLast?_cons]
      cases (l.filter fun x => decide (x.1.name ++ suffix = name)).getLast? <;> rfl
    · rw [if_neg h, List.filter_cons_of_neg (by simpa using h)]

/-- C306, what holds: a wrapped class whose name no other wrapped class has is in the dictionary, under its name with
the suffix, with its kind. -/
theorem every_algorithm_has_node_partial (l : List Cls) (c : Cls) (hc : c ∈ l) (k : Kind) (hk : wrap c = some k)
    (hn : ∀ d ∈ l, d.name = c.name → d = c) :
    dict (nodesList l) (c.name ++ suffix) = some (c, k) := by
  unfold dict
  rw [dict_spec, Option.or_none]
  have hmem : (c, k) ∈ (nodesList l).filter fun x => decide (x.1.name ++ suffix = c.name ++ suffix) := by
    rw [List.mem_filter]
    refine ⟨?_, by simp⟩
    unfold nodesList
    rw [List.mem_filterMap]
    exact ⟨c, hc, by rw [hk]; rfl⟩
  have hall : ∀ x ∈ (nodesList l).filter fun x => decide (x.1.name ++ suffix = c.name ++ suffix), x = (c, k) := by
    intro x hx
    rw [List.mem_filter] at hx
    obtain ⟨h1, h2⟩ := hx
    unfold nodesList at h1
    rw [List.mem_filterMap] at h1
    obtain ⟨d, hd, hdx⟩ := h1
    rw [Option.map_eq_some_iff] at hdx
    obtain ⟨k', hk', rfl⟩ := hdx
    have hname : d.name = c.name := by
      simp only [decide_eq_true_eq] at h2
      exact List.append_cancel_right h2
    have := hn d hd hname
    subst this
    rw [hk] at hk'
    cases hk'
    rfl
  generalize (nodesList l).filter (fun x => decide (x.1.name ++ suffix = c.name ++ suffix)) = f at *
  cases hl : f.getLast? with
  | none => rw [List.getLast?_eq_none_iff] at hl; subst hl; cases hmem
  | some x => rw [hall x (List.mem_of_getLast? hl)]

/-- What the module promises: every wrapped class has its node. -/
def EveryAlgorithmHasNode : Prop := ∀ (l : List Cls) (c : Cls) (k : Kind), c ∈ l → wrap c = some k →
  dict (nodesList l) (c.name ++ suffix) = some (c, k)

/-- C306: two classes of the same name in different modules get one node; the first is lost. -/
theorem every_algorithm_has_node_false : ¬ EveryAlgorithmHasNode := by
  intro h
  have := h [⟨['S'], true, true, true, false⟩, ⟨['S'], false, true, false, true⟩] ⟨['S'], true, true, true, false⟩
    .classifier (by simp) rfl
  revert this
  decide

/-! ### Examples -/

/-- Three modules that import each other, a private class, a class imported twice, a module that is not sklearn. -/
def exWorld : World Nat Nat where
  members m := match m with
    | 0 => [(true, .cls 9), (false, .mod 1), (false, .cls 5), (false, .mod 7), (false, .other)]
    | 1 => [(false, .mod 0), (false, .cls 6), (false, .cls 5), (false, .mod 2)]
    | 2 => [(false, .mod 1), (true, .mod 3), (false, .cls 4)]
    | _ => [(false, .cls 8)]
  sk m := m < 5
  fit c := c != 4
  predict _ := false
  transform _ := false

example : (applyAll exWorld 4 0).calls = [6, 5] ∧ (applyAll exWorld 4 0).mods = [0, 1, 2] := by decide
example : ∀ x ∈ [0, 1, 2, 3], ∀ y, (false, Member.mod y) ∈ exWorld.members x → exWorld.sk y = true →
    y ∈ [0, 1, 2, 3] := by
  intro x hx y hy hs
  simp [exWorld] at hs
  simp only [List.mem_cons, List.not_mem_nil, or_false] at hx ⊢
  rcases hx with rfl | rfl | rfl | rfl <;> simp [exWorld] at hy <;> omega
example : ∃ c : Cls, excluded c.name = false ∧ wrap c = some .predictor :=
  ⟨⟨['L', 'a', 'r', 's'], false, true, true, false⟩, by decide, by decide⟩
example : dict (nodesList [⟨['L'], false, true, true, false⟩, ⟨['M'], true, true, true, true⟩]) (['M'] ++ suffix) =
    some (⟨['M'], true, true, true, true⟩, .classifier) := by decide

end Mdp.Scikits
