/-!
# The default implementation of forking a node

Models `_default_fork` of `ParallelExtensionNode` (`mdp/parallel/parallelnodes.py`, lines 117-163): the arguments of
`__init__` are read from attributes with the same name, or with an underscore in front, and the class is called with
them.  `hasattr` and `getattr` are given by functions, which also see attributes of the class.
-/

namespace Mdp.DefaultFork

variable {K V : Type} [DecidableEq K]

inductive Err (K : Type) where
  /-- NotForkableParallelException: 'could not find attributes for init arguments' -/
  | notForkable (missing : List K)
  /-- TypeError of the call of the class -/
  | typeError
deriving DecidableEq

/-- The call `self.__class__(**kwargs)`: all arguments without default must be given. -/
def call (args : List K) (ndef : Nat) (kwargs : List (K × V)) : Except (Err K) (List (K × V)) :=
  if (args.take (args.length - ndef)).all (fun a => kwargs.any fun p => decide (p.1 = a)) then .ok kwargs
  else .error .typeError

/-- `_default_fork`: the keyword arguments of the new node.  `args` are the arguments of `__init__` without `self`, the
last `ndef` of them with defaults. -/
def fork (args : List K) (ndef : Nat) (pub under : K → Option V) : Except (Err K) (List (K × V)) :=
  let nonDefault := if ndef > 0 then args.take (args.length - ndef) else []
  let kwargs := args.filterMap fun a => (pub a).map fun v => (a, v)
  let rest := args.filter fun a => (pub a).isNone
  let underKwargs := rest.filterMap fun a => (under a).map fun v => (a, v)
  let rest' := rest.filter fun a => (under a).isNone
  let missing := nonDefault.filter fun a => decide (a ∈ rest')
  if missing = [] then call args ndef (kwargs ++ underKwargs) else .error (.notForkable missing)

/-! ### Specification -/

/-- The value that `__init__` sees: the given one, or the default. -/
def seen (kwargs : List (K × V)) (dflt : K → V) (a : K) : V :=
  ((kwargs.find? fun p => decide (p.1 = a)).map (·.2)).getD (dflt a)

/-- What is found for an argument: the attribute with its name, otherwise the one with an underscore. -/
def found (pub under : K → Option V) (a : K) : Option V := (pub a).orElse fun _ => under a

/-! ### Theorems -/

theorem find_filterMap (l : List K) (g : K → Option V) (a : K) :
    (l.filterMap fun b => (g b).map fun v => (b, v)).find? (fun p => decide (p.1 = a)) =
      if a ∈ l then (g a).map fun v => (a, v) else none := by
  induction l with
  | nil => rfl
  | cons b l ih =>
    by_cases hb : b = a
    · subst hb
      cases hg : g b with
      | none =>
        rw [List.filterMap_cons_none (by simp [hg]), ih]
        simp [hg]
      | some v => simp [hg]
    · have hb' : ¬ a = b := fun h => hb h.symm
      cases hg : g b with
      | none => rw [List.filterMap_cons_none (by simp [hg]), ih]; simp [hb']
      | some v =>
        rw [List.filterMap_cons_some (b := (b, v)) (by simp [hg]), List.find?_cons_of_neg (by simpa using hb), ih]
        simp [hb']

theorem find_kwargs (args : List K) (pub under : K → Option V) (a : K) (ha : a ∈ args) :
    ((args.filterMap fun a => (pub a).map fun v => (a, v)) ++
      ((args.filter fun a => (pub a).isNone).filterMap fun a => (under a).map fun v => (a, v))).find?
        (fun p => decide (p.1 = a)) = (found pub under a).map fun v => (a, v) := by
  rw [List.find?_append, find_filterMap, find_filterMap, if_pos ha]
  cases hp : pub a with
  | some v => simp [found, hp]
  | none => simp [found, hp, ha]

theorem any_of_find (l : List (K × V)) (a : K) :
    l.any (fun p => decide (p.1 = a)) = (l.find? fun p => decide (p.1 = a)).isSome := by
  induction l with
  | nil => rfl
  | cons p l ih =>
    by_cases h : p.1 = a
    · simp [h]
    · simp [h, ih]

/-- **When a node can be forked.**  If `__init__` has defaults, the fork is made exactly if each argument without a
default is found; each argument then gets what is found for it, the others their defaults. Otherwise the node is
reported as not forkable. -/
theorem fork_partial (args : List K) (ndef : Nat) (pub under : K → Option V) (hd : 0 < ndef) :
    ((∀ a ∈ args.take (args.length - ndef), (found pub under a).isSome) →
      ∃ kw, fork args ndef pub under = .ok kw ∧
        ∀ dflt : K → V, ∀ a ∈ args, seen kw dflt a = (found pub under a).getD (dflt a)) ∧
    ((∃ a ∈ args.take (args.length - ndef), (found pub under a).isSome = false) →
      ∃ m, fork args ndef pub under = .error (.notForkable m) ∧ m ≠ [] ∧
        ∀ a, a ∈ m ↔ a ∈ args.take (args.length - ndef) ∧ found pub under a = none) := by
  have hmem : ∀ a, a ∈ (args.take (args.length - ndef)).filter (fun a => decide
      (a ∈ (args.filter fun a => (pub a).isNone).filter fun a => (under a).isNone)) ↔
      a ∈ args.take (args.length - ndef) ∧ found pub under a = none := by
    intro a
    simp only [List.mem_filter, decide_eq_true_eq, Option.isNone_iff_eq_none, found]
    constructor
    · rintro ⟨h1, ⟨-, h2⟩, h3⟩; exact ⟨h1, by simp [h2, h3]⟩
    · rintro ⟨h1, h2⟩
      refine ⟨h1, ⟨List.mem_of_mem_take h1, ?_⟩, ?_⟩
      · cases hp : pub a with
        | none => rfl
        | some v => simp [hp] at h2
      · cases hp : pub a with
        | none => simpa [hp] using h2
        | some v => simp [hp] at h2
  have hfork : fork args ndef pub under =
      if (args.take (args.length - ndef)).filter (fun a => decide
        (a ∈ (args.filter fun a => (pub a).isNone).filter fun a => (under a).isNone)) = [] then
        call args ndef ((args.filterMap fun a => (pub a).map fun v => (a, v)) ++
          ((args.filter fun a => (pub a).isNone).filterMap fun a => (under a).map fun v => (a, v)))
      else .error (.notForkable ((args.take (args.length - ndef)).filter (fun a => decide
        (a ∈ (args.filter fun a => (pub a).isNone).filter fun a => (under a).isNone)))) := by
    unfold fork
    simp only [hd, if_true]
  constructor
  · intro h
    have hnil : (args.take (args.length - ndef)).filter (fun a => decide
        (a ∈ (args.filter fun a => (pub a).isNone).filter fun a => (under a).isNone)) = [] := by
      apply List.eq_nil_iff_forall_not_mem.2
      intro a ha
      obtain ⟨h1, h2⟩ := (hmem a).1 ha
      have := h a h1
      rw [h2] at this
      cases this
    refine ⟨(args.filterMap fun a => (pub a).map fun v => (a, v)) ++
      ((args.filter fun a => (pub a).isNone).filterMap fun a => (under a).map fun v => (a, v)), ?_, ?_⟩
    · rw [hfork, if_pos hnil]
      unfold call
      rw [if_pos]
      rw [List.all_eq_true]
      intro a ha
      rw [any_of_find, find_kwargs args pub under a (List.mem_of_mem_take ha)]
      simpa using h a ha
    · intro dflt a ha
      unfold seen
      rw [find_kwargs args pub under a ha]
      cases found pub under a <;> rfl
  · rintro ⟨a, ha, hn⟩
    have hin := (hmem a).2 ⟨ha, by simpa using hn⟩
    have hne : (args.take (args.length - ndef)).filter (fun a => decide
        (a ∈ (args.filter fun a => (pub a).isNone).filter fun a => (under a).isNone)) ≠ [] :=
      List.ne_nil_of_mem hin
    exact ⟨_, by rw [hfork, if_neg hne], hne, hmem⟩

/-- **A fork is made with the arguments of the original**, if each argument is kept in the attribute with its name, or
with an underscore and nothing else has its name; an argument that is not kept must be the default. -/
theorem fork_same_arguments_partial (args : List K) (ndef : Nat) (pub under : K → Option V) (hd : 0 < ndef)
    (dflt orig : K → V)
    (h : ∀ a ∈ args, pub a = some (orig a) ∨ (pub a = none ∧ under a = some (orig a)) ∨
      (pub a = none ∧ under a = none ∧ a ∉ args.take (args.length - ndef) ∧ orig a = dflt a)) :
    ∃ kw, fork args ndef pub under = .ok kw ∧ ∀ a ∈ args, seen kw dflt a = orig a := by
  obtain ⟨kw, h1, h2⟩ := (fork_partial args ndef pub under hd).1 (by
    intro a ha
    rcases h a (List.mem_of_mem_take ha) with h' | h' | h'
    · simp [found, h']
    · simp [found, h'.1, h'.2]
    · exact absurd ha h'.2.2.1)
  refine ⟨kw, h1, fun a ha => ?_⟩
  rw [h2 dflt a ha]
  rcases h a ha with h' | h' | h'
  · simp [found, h']
  · simp [found, h'.1, h'.2]
  · simp [found, h'.1, h'.2.1, h'.2.2.2]

/-- **A TypeError instead of the exception for nodes that cannot be forked**, if `__init__` has arguments but no
defaults and one of them is not found: the parallel flow, which trains such nodes without forks, is left. -/
theorem no_defaults_violation (a : K) (args : List K) (ha : a ∈ args) (pub under : K → Option V)
    (h1 : pub a = none) (h2 : under a = none) : fork args 0 pub under = .error .typeError := by
  unfold fork
  simp only [Nat.lt_irrefl, gt_iff_lt, if_false, List.filter_nil, if_true]
  unfold call
  rw [if_neg]
  intro h
  rw [Nat.sub_zero, List.take_length, List.all_eq_true] at h
  have := h a ha
  rw [any_of_find, find_kwargs args pub under a ha] at this
  simp [found, h1, h2] at this

/-- **An attribute that happens to have the name of an argument is passed on**, also if the value is kept with an
underscore (as for a method with the name of the argument). -/
theorem name_clash_violation (args : List K) (ndef : Nat) (pub under : K → Option V) (hd : 0 < ndef) (a : K)
    (ha : a ∈ args) (v w : V) (hp : pub a = some v) (_hu : under a = some w) (dflt : K → V)
    (h : ∀ b ∈ args.take (args.length - ndef), (found pub under b).isSome) :
    ∃ kw, fork args ndef pub under = .ok kw ∧ seen kw dflt a = v := by
  obtain ⟨kw, h1, h2⟩ := (fork_partial args ndef pub under hd).1 h
  exact ⟨kw, h1, by rw [h2 dflt a ha]; simp [found, hp]⟩

/-- Non-vacuity: three arguments, the last two with defaults; one public, one with an underscore, one not kept. -/
example : fork [0, 1, 2] 2 (fun a => if a = 0 then some 10 else none) (fun a => if a = 1 then some 11 else none) =
    .ok [(0, 10), (1, 11)] := rfl
example : fork [0, 1, 2] 2 (fun _ => (none : Option Nat)) (fun a => if a = 1 then some 11 else none) =
    .error (.notForkable [0]) := rfl

end Mdp.DefaultFork
