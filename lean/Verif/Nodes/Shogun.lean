import Mathlib.Data.List.Basic
import Mathlib.Data.List.Perm.Basic
import Mathlib.Tactic.Common

/-!
# The wrapper around the SHOGUN toolbox

Models `mdp/nodes/shogun_svm_classifier.py`: the constructor of `ShogunSVMClassifier` with its
class-level dictionary of default parameters (lines 260-340), `Classifier.set_param` (138-156),
`set_kernel` (370-415), `Classifier.set_classifier` (64-126) and `training_set` (428-443).

The toolbox is external.  A machine is described by the parameters it accepts; its classes by their
name, whether they can be instantiated and the type they report; a kernel by the positional
arguments handed to its constructor.
-/

namespace Mdp.Shogun

/-- Option names, as their characters. -/
abbrev Name := List Char

/-- A Python `dict`, as its items in order. -/
abbrev Dict (V : Type) := List (Name × V)

variable {V : Type}

/-- `d[k] = v`: a known key keeps its place, a new key comes last. -/
def put (d : Dict V) (k : Name) (v : V) : Dict V :=
  if k ∈ d.map Prod.fst then d.map (fun e => if e.1 = k then (k, v) else e) else d ++ [(k, v)]

/-- `d.update(e)`. -/
def update (d e : Dict V) : Dict V := e.foldl (fun d kv => put d kv.1 kv.2) d

/-! ### Options of the classifier -/

/-- A machine of the toolbox: which parameters it lets one set with how many values, and the values
set so far (newest first). -/
structure Machine (V : Type) where
  accepts : Name → Nat → Bool
  set : List (Name × List V)

/-- `Classifier.set_param` (lines 138-156): a single value for `C` is doubled; a missing setter or a
wrong number of values is an exception (`none`). -/
def setParam (m : Machine V) (p : Name) (value : List V) : Option (Machine V) :=
  let value := if p = ['C'] ∧ value.length = 1 then value ++ value else value
  if m.accepts p value.length then some { m with set := (p, value) :: m.set } else none

/-- The loop of lines 328-332: all options are set, exceptions are swallowed. -/
def setOptions (m : Machine V) (opts : Dict V) : Machine V :=
  opts.foldl (fun m kv => (setParam m kv.1 [kv.2]).getD m) m

/-- The state of the program: the class attribute `ShogunSVMClassifier.default_parameters` (one
object, shared), and the machines of the nodes made so far, newest first. -/
structure World (V : Type) where
  defaults : Dict V
  nodes : List (Machine V)

/-- `ShogunSVMClassifier.__init__` (lines 318-332): `self.classifier_options` *is* the class
attribute, which is then updated with the given options. -/
def create (w : World V) (m : Machine V) (options : Dict V) : World V :=
  let d := update w.defaults options
  { defaults := d, nodes := setOptions m d :: w.nodes }

/-- `node.classifier_options` of any node: the class attribute. -/
def optionsOf (w : World V) (_node : Nat) : Dict V := w.defaults

/-- A history of constructions. -/
def createAll (w : World V) (h : List (Machine V × Dict V)) : World V :=
  h.foldl (fun w x => create w x.1 x.2) w

/-! ### Specification: the value of an option in a history -/

/-- The value a dictionary gives to a key. -/
def Has (d : Dict V) (k : Name) (v : V) : Prop := (k, v) ∈ d

/-- Keys of a dictionary are distinct. -/
def Valid (d : Dict V) : Prop := (d.map Prod.fst).Nodup

/-- The newest entry for `k` in a sequence of dictionaries given in the order of time. -/
def Newest : List (Dict V) → Name → Option V
  | [], _ => none
  | d :: r, k => match Newest r k with
    | some v => some v
    | none => d.lookup k

theorem put_keys (d : Dict V) (k : Name) (v : V) :
    (put d k v).map Prod.fst = if k ∈ d.map Prod.fst then d.map Prod.fst else d.map Prod.fst ++ [k] := by
  unfold put
  split
  · rw [List.map_map]
    apply List.map_congr_left
    intro e _
    by_cases h : e.1 = k <;> simp [h]
  · simp

theorem put_valid {d : Dict V} (h : Valid d) (k : Name) (v : V) : Valid (put d k v) := by
  unfold Valid
  rw [put_keys]
  split
  · exact h
  · rename_i hk
    rw [List.nodup_append]
    refine ⟨h, by simp, ?_⟩
    intro a ha b hb
    simp at hb
    subst hb
    rintro rfl
    exact hk ha

theorem lookup_map_ne (d : Dict V) (k a : Name) (v : V) (h : a ≠ k) :
    (d.map (fun e => if e.1 = k then (k, v) else e)).lookup a = d.lookup a := by
  induction d with
  | nil => rfl
  | cons x r ih =>
    obtain ⟨b, w⟩ := x
    rw [List.map_cons]
    by_cases hb : b = k
    · subst hb
      have h' : (a == b) = false := by simpa using h
      simp only [if_true, List.lookup_cons, h']
      simpa using ih
    · simp only [if_neg hb, List.lookup_cons]
      cases a == b
      · simpa using ih
      · rfl

theorem lookup_map_eq (d : Dict V) (k : Name) (v : V) (h : k ∈ d.map Prod.fst) :
    (d.map (fun e => if e.1 = k then (k, v) else e)).lookup k = some v := by
  induction d with
  | nil => simp at h
  | cons x r ih =>
    obtain ⟨b, w⟩ := x
    rw [List.map_cons]
    by_cases hb : b = k
    · subst hb
      simp [List.lookup]
    · have h' : (k == b) = false := by simpa using fun q => hb q.symm
      rw [if_neg (by simpa using hb), List.lookup_cons, h']
      simp only [Bool.false_eq_true, if_false]
      apply ih
      rw [List.map_cons, List.mem_cons] at h
      rcases h with h | h
      · exact absurd h.symm hb
      · exact h

theorem lookup_append_ne (d : Dict V) (k a : Name) (v : V) (h : a ≠ k) :
    (d ++ [(k, v)]).lookup a = d.lookup a := by
  induction d with
  | nil =>
    have h' : (a == k) = false := by simpa using h
    simp [List.lookup, h']
  | cons x r ih =>
    obtain ⟨b, w⟩ := x
    rw [List.cons_append, List.lookup_cons, List.lookup_cons, ih]

theorem lookup_append_eq (d : Dict V) (k : Name) (v : V) (h : k ∉ d.map Prod.fst) :
    (d ++ [(k, v)]).lookup k = some v := by
  induction d with
  | nil => simp [List.lookup]
  | cons x r ih =>
    obtain ⟨b, w⟩ := x
    rw [List.map_cons, List.mem_cons, not_or] at h
    have h' : (k == b) = false := by simpa using h.1
    rw [List.cons_append, List.lookup_cons, h']
    simpa using ih h.2

theorem put_lookup (d : Dict V) (k a : Name) (v : V) :
    (put d k v).lookup a = if a = k then some v else d.lookup a := by
  unfold put
  by_cases ha : a = k
  · subst ha
    rw [if_pos rfl]
    split
    · rename_i h; exact lookup_map_eq d a v h
    · rename_i h; exact lookup_append_eq d a v h
  · rw [if_neg ha]
    split
    · exact lookup_map_ne d k a v ha
    · exact lookup_append_ne d k a v ha

theorem update_valid (e : Dict V) : ∀ {d : Dict V}, Valid d → Valid (update d e) := by
  unfold update
  induction e with
  | nil => intro d h; exact h
  | cons x r ih => intro d h; exact ih (put_valid h _ _)

theorem lookup_none_of {l : Dict V} {a : Name} (h : a ∉ l.map Prod.fst) : l.lookup a = none := by
  induction l with
  | nil => rfl
  | cons x r ih =>
    obtain ⟨b, w⟩ := x
    rw [List.map_cons, List.mem_cons, not_or] at h
    have h' : (a == b) = false := by simpa using h.1
    rw [List.lookup_cons, h']
    simpa using ih h.2

theorem update_lookup (e : Dict V) (he : Valid e) : ∀ (d : Dict V) (a : Name),
    (update d e).lookup a = match e.lookup a with | some v => some v | none => d.lookup a := by
  unfold update
  induction e with
  | nil => intro d a; rfl
  | cons x r ih =>
    obtain ⟨k, v⟩ := x
    intro d a
    unfold Valid at he
    rw [List.map_cons, List.nodup_cons] at he
    rw [List.foldl_cons, ih he.2, put_lookup]
    by_cases ha : a = k
    · subst ha
      rw [lookup_none_of he.1]
      simp [List.lookup]
    · have h' : (a == k) = false := by simpa using ha
      rw [List.lookup_cons, h', if_neg ha]

/-- **What the code does.**  After any sequence of constructions the options of *every* node are
the newest values given to *any* node (the built-in defaults counting as the first). -/
theorem options_history (d0 : Dict V) (ns : List (Machine V)) (h : List (Machine V × Dict V))
    (hv : ∀ x ∈ h, Valid x.2) (i : Nat) (k : Name) :
    (optionsOf (createAll ⟨d0, ns⟩ h) i).lookup k = Newest (d0 :: h.map Prod.snd) k := by
  unfold optionsOf createAll
  induction h generalizing d0 ns with
  | nil => simp [Newest]
  | cons x r ih =>
    rw [List.foldl_cons]
    have hd : create ⟨d0, ns⟩ x.1 x.2 =
        ⟨update d0 x.2, setOptions x.1 (update d0 x.2) :: ns⟩ := rfl
    rw [hd, ih _ _ (fun y hy => hv y (List.mem_cons_of_mem _ hy))]
    rw [List.map_cons, Newest, Newest, Newest]
    cases Newest (r.map Prod.snd) k with
    | some v => rfl
    | none =>
      simp only
      rw [update_lookup x.2 (hv x (by simp))]

/-! ### What reaches the machine -/

/-- The values a machine with the given setters takes for an option `k` with value `v`: `C` is given
twice, any other option once; `none` when the machine does not accept it. -/
def Sent (accepts : Name → Nat → Bool) (k : Name) (v : V) : Option (List V) :=
  if k = ['C'] then (if accepts ['C'] 2 then some [v, v] else none)
  else if accepts k 1 then some [v] else none

/-- Setting the options in turn leaves on the machine exactly the accepted ones. -/
theorem setOptions_set (opts : Dict V) : ∀ (m : Machine V),
    (setOptions m opts).set = (opts.filterMap (fun kv =>
      (Sent m.accepts kv.1 kv.2).map (fun vs => (kv.1, vs)))).reverse ++ m.set := by
  unfold setOptions
  induction opts with
  | nil => intro m; simp
  | cons x r ih =>
    obtain ⟨k, v⟩ := x
    intro m
    rw [List.foldl_cons]
    have hs : (setParam m k [v]).getD m = match Sent m.accepts k v with
        | some vs => { m with set := (k, vs) :: m.set }
        | none => m := by
      unfold setParam Sent
      by_cases hC : k = ['C']
      · subst hC
        by_cases ha : m.accepts ['C'] 2 <;> simp [ha]
      · by_cases ha : m.accepts k 1 <;> simp [ha, hC]
    simp only [hs]
    cases h : Sent m.accepts k v with
    | none => rw [ih m]; simp [h]
    | some vs => rw [ih]; simp [h]

/-- The value a machine has been given for an option. -/
def Machine.get (m : Machine V) (k : Name) : Option (List V) := m.set.lookup k

theorem lookup_append' {W : Type} (l r : List (Name × W)) (k : Name) :
    (l ++ r).lookup k = match l.lookup k with | some v => some v | none => r.lookup k := by
  induction l with
  | nil => rfl
  | cons x t ih =>
    obtain ⟨b, w⟩ := x
    rw [List.cons_append, List.lookup_cons, List.lookup_cons, ih]
    cases k == b <;> rfl

theorem lookup_filterMap_reverse (g : Name → V → Option (List V)) (opts : Dict V) (hv : Valid opts)
    (k : Name) : ((opts.filterMap (fun kv => (g kv.1 kv.2).map (fun vs => (kv.1, vs)))).reverse).lookup k
      = (opts.lookup k).bind (g k) := by
  induction opts with
  | nil => rfl
  | cons x r ih =>
    obtain ⟨b, w⟩ := x
    unfold Valid at hv
    rw [List.map_cons, List.nodup_cons] at hv
    have ih := ih hv.2
    by_cases hkb : k = b
    · subst hkb
      rw [lookup_none_of hv.1] at ih
      cases h : g k w with
      | none =>
        rw [List.filterMap_cons_none (by simp [h]), ih]
        simp [List.lookup, h]
      | some vs =>
        rw [List.filterMap_cons_some (b := (k, vs)) (by simp [h]), List.reverse_cons, lookup_append', ih]
        simp [List.lookup, h]
    · have h' : (k == b) = false := by simpa using hkb
      have hl : List.lookup k ((b, w) :: r) = r.lookup k := by rw [List.lookup_cons, h']
      rw [hl, ← ih]
      cases h : g b w with
      | none => rw [List.filterMap_cons_none (by simp [h])]
      | some vs =>
        rw [List.filterMap_cons_some (b := (b, vs)) (by simp [h]), List.reverse_cons, lookup_append']
        cases List.lookup k _ with
        | some v => rfl
        | none => simp [List.lookup, h']

/-- The value of an option on a new machine: what is sent for the option of that name. -/
theorem setOptions_get (opts : Dict V) (hv : Valid opts) (m : Machine V) (hm : m.set = [])
    (k : Name) : (setOptions m opts).get k = (opts.lookup k).bind (Sent m.accepts k) := by
  unfold Machine.get
  rw [setOptions_set opts m, hm, List.append_nil]
  exact lookup_filterMap_reverse (Sent m.accepts) opts hv k

/-- **The promise, when it holds.**  If no option was ever given to an earlier node, a node made
with its own options gets, for each option its machine accepts, its own value or else the built-in
default. -/
theorem own_options_partial (d0 : Dict V) (h0 : Valid d0) (ns : List (Machine V))
    (earlier : List (Machine V × Dict V)) (hearly : ∀ x ∈ earlier, x.2 = [])
    (m : Machine V) (hm : m.set = []) (opts : Dict V) (hv : Valid opts) (k : Name) :
    ∃ n rest, (create (createAll ⟨d0, ns⟩ earlier) m opts).nodes = n :: rest ∧
      n.get k = (match opts.lookup k with
        | some v => Sent m.accepts k v
        | none => (d0.lookup k).bind (Sent m.accepts k)) := by
  have hd : (createAll ⟨d0, ns⟩ earlier).defaults = d0 := by
    unfold createAll
    clear hv
    induction earlier generalizing ns with
    | nil => rfl
    | cons x r ih =>
      rw [List.foldl_cons]
      have hx : x.2 = [] := hearly x (by simp)
      have : create ⟨d0, ns⟩ x.1 x.2 = ⟨d0, setOptions x.1 d0 :: ns⟩ := by rw [hx]; rfl
      rw [this]
      exact ih _ (fun y hy => hearly y (List.mem_cons_of_mem _ hy))
  refine ⟨_, _, rfl, ?_⟩
  rw [hd, setOptions_get _ (update_valid opts h0) m hm, update_lookup opts hv]
  cases opts.lookup k <;> rfl

/-- **The promise fails.**  The options of one node change the defaults of the class: a node made
afterwards without options does not get the built-in value `C = 1`, and the options reported by the
first node change when a second one is made. -/
theorem options_leak_violation :
    ∃ (d0 : Dict Int) (m : Machine Int), d0 = [(['C'], 1)] ∧ m.set = [] ∧
      (∃ n rest, (createAll ⟨d0, []⟩ [(m, [(['C'], 5)]), (m, [])]).nodes = n :: rest ∧
        n.get ['C'] = some [5, 5]) ∧
      optionsOf (createAll ⟨d0, []⟩ [(m, [(['C'], 5)])]) 0 = [(['C'], 5)] ∧
      optionsOf (createAll ⟨d0, []⟩ [(m, [(['C'], 5)]), (m, [(['C'], 7)])]) 0 = [(['C'], 7)] := by
  refine ⟨_, { accepts := fun _ n => n == 2, set := [] }, rfl, rfl, ⟨_, _, rfl, ?_⟩, ?_, ?_⟩ <;>
    decide +kernel

/-! ### Kernels -/

/-- The exceptions of `set_kernel`. -/
inductive KErr where
  | valueError | unboundLocal | attributeError
deriving DecidableEq, Repr

/-- What the caller passes as `kernel_options`. -/
inductive KOpts (V : Type) where
  | dict (d : Dict V)
  | list (l : List V)

/-- An entry of `kernel_parameters` (lines 266-276): the parameters of the constructor in order, each
with a default, or (kernel `PyramidChi2`) without one. -/
inductive Entry (V : Type) where
  | defaults (d : Dict V)
  | bare (names : List Name)

/-- `set_kernel` (lines 395-415) up to the call of the kernel's constructor: the positional
arguments.  `_OrderedDict` of one-element tuples is a `ValueError`; if the kernel is not in the table
or the options are a list, the name `options` is never bound. -/
def kernelArgs (table : List (Name × Entry V)) (available : Name → Bool) (kernel : Name)
    (o : Option (KOpts V)) : Except KErr (List V) :=
  let opts := match o with | none => KOpts.dict [] | some x => x
  match table.lookup kernel, opts with
  | some (.bare (_ :: _)), .dict _ => .error .valueError
  | some (.bare []), .dict d =>
    if available kernel then .ok ((update [] d).map Prod.snd) else .error .attributeError
  | some (.defaults d0), .dict d =>
    if available kernel then .ok ((update d0 d).map Prod.snd) else .error .attributeError
  | _, _ => if available kernel then .error .unboundLocal else .error .attributeError

/-- Updating a dictionary with keys it has: the order stays, the given values replace the old. -/
theorem update_known (e : Dict V) (he : Valid e) : ∀ (d : Dict V), Valid d →
    (∀ kv ∈ e, kv.1 ∈ d.map Prod.fst) →
    update d e = d.map (fun x => (x.1, (e.lookup x.1).getD x.2)) := by
  unfold update
  induction e with
  | nil => intro d _ _; simp
  | cons x r ih =>
    obtain ⟨k, v⟩ := x
    intro d hd h
    unfold Valid at he
    rw [List.map_cons, List.nodup_cons] at he
    have hk : k ∈ d.map Prod.fst := h (k, v) (by simp)
    rw [List.foldl_cons, ih he.2 (put d k v) (put_valid hd k v) (by
      intro kv hkv
      rw [put_keys, if_pos hk]
      exact h kv (List.mem_cons_of_mem _ hkv))]
    unfold put
    rw [if_pos hk, List.map_map]
    apply List.map_congr_left
    intro y _
    obtain ⟨b, w⟩ := y
    by_cases hb : b = k
    · subst hb
      simp only [Function.comp, if_true, List.lookup_cons, beq_self_eq_true]
      rw [lookup_none_of he.1]
      rfl
    · have h' : (b == k) = false := by simpa using hb
      simp only [Function.comp, if_neg hb, List.lookup_cons, h']

/-- **Kernels with named options.**  For a kernel of the table and options that are parameters of
that kernel, the constructor receives one positional argument per parameter, in the declared order:
the given value or else the default.  The order in which the caller wrote the options is
irrelevant. -/
theorem kernel_named_options (table : List (Name × Entry V)) (available : Name → Bool)
    (kernel : Name) (d0 : Dict V) (ht : table.lookup kernel = some (.defaults d0)) (h0 : Valid d0)
    (hav : available kernel) (d : Dict V) (hd : Valid d) (hk : ∀ kv ∈ d, kv.1 ∈ d0.map Prod.fst) :
    ∃ args, kernelArgs table available kernel (some (.dict d)) = .ok args ∧
      args.length = d0.length ∧
      ∀ i (hi : i < d0.length) (v : V), args[i]? = some v ↔
        (Has d d0[i].1 v ∨ (d0[i].1 ∉ d.map Prod.fst ∧ v = d0[i].2)) := by
  have hlm : ∀ (l : Dict V), Valid l → ∀ a v, l.lookup a = some v ↔ (a, v) ∈ l := by
    intro l hl a v
    induction l with
    | nil => simp
    | cons x r ih =>
      obtain ⟨b, w⟩ := x
      unfold Valid at hl
      rw [List.map_cons, List.nodup_cons] at hl
      by_cases hab : a = b
      · subst hab
        have : (a, v) ∉ r := fun hm => hl.1 (List.mem_map.2 ⟨(a, v), hm, rfl⟩)
        simp [List.lookup, this]
        exact eq_comm
      · have h' : (a == b) = false := by simpa using hab
        rw [List.lookup_cons, h']
        simp only [Bool.false_eq_true, if_false]
        rw [ih hl.2, List.mem_cons, Prod.mk.injEq]
        simp [hab]
  refine ⟨(update d0 d).map Prod.snd, ?_, ?_, ?_⟩
  · unfold kernelArgs
    rw [ht]
    simp only [hav, if_true]
  · rw [update_known d hd d0 h0 hk]
    simp
  · intro i hi v
    rw [update_known d hd d0 h0 hk, List.map_map, List.getElem?_map, List.getElem?_eq_getElem hi]
    simp only [Option.map_some, Function.comp, Option.some.injEq]
    unfold Has
    rw [← hlm d hd]
    cases hl : d.lookup d0[i].1 with
    | some w =>
      have : d0[i].1 ∈ d.map Prod.fst :=
        List.mem_map.2 ⟨_, (hlm d hd _ _).1 hl, rfl⟩
      simp [this]
    | none =>
      have hn : d0[i].1 ∉ d.map Prod.fst := by
        intro hm
        obtain ⟨⟨a, w⟩, hw, hwa⟩ := List.mem_map.1 hm
        simp at hwa
        rw [hwa] at hw
        rw [(hlm d hd _ _).2 hw] at hl
        exact absurd hl (by simp)
      simp [hn]
      exact eq_comm

/-- An option that is no parameter of the kernel is not refused: it arrives as one more positional
argument behind the declared ones. -/
theorem kernel_unknown_option (table : List (Name × Entry V)) (available : Name → Bool)
    (kernel : Name) (d0 : Dict V) (ht : table.lookup kernel = some (.defaults d0))
    (hav : available kernel) (k : Name) (v : V) (hk : k ∉ d0.map Prod.fst) :
    kernelArgs table available kernel (some (.dict [(k, v)])) = .ok (d0.map Prod.snd ++ [v]) := by
  unfold kernelArgs
  rw [ht]
  simp only [hav, if_true]
  unfold update put
  simp [hk]

/-- **Kernels with a list of arguments.**  The documentation says that kernels not in the table need
an ordered list of constructor arguments; every such call fails, because `options` is not bound. -/
theorem kernel_list_refused (table : List (Name × Entry V)) (available : Name → Bool)
    (kernel : Name) (hav : available kernel) (l : List V) :
    kernelArgs table available kernel (some (.list l)) = .error .unboundLocal := by
  unfold kernelArgs
  rcases h : table.lookup kernel with _ | ⟨d⟩ | ⟨_ | ⟨n, r⟩⟩ <;> simp [hav]

theorem kernel_unknown_refused (table : List (Name × Entry V)) (available : Name → Bool)
    (kernel : Name) (hav : available kernel) (ht : table.lookup kernel = none)
    (o : Option (KOpts V)) :
    kernelArgs table available kernel o = .error .unboundLocal := by
  unfold kernelArgs
  rw [ht]
  simp [hav]

/-- A kernel whose parameters have no defaults in the table (`PyramidChi2`) cannot be used with
named options at all, not even with a value for each parameter. -/
theorem kernel_bare_refused (table : List (Name × Entry V)) (available : Name → Bool)
    (kernel : Name) (n : Name) (r : List Name) (ht : table.lookup kernel = some (.bare (n :: r)))
    (d : Dict V) :
    kernelArgs table available kernel (some (.dict d)) = .error .valueError := by
  unfold kernelArgs
  rw [ht]

/-- The table of lines 266-276 restricted to three kernels, with integers for the values. -/
def exTable : List (Name × Entry Int) :=
  [(['P','o','l','y'], .defaults [(['s'], 10), (['d'], 3), (['i'], 1)]),
   (['L','i','n'], .defaults []),
   (['P','y','r'], .bare [['s'], ['n']])]

example : kernelArgs exTable (fun _ => true) ['P','o','l','y']
    (some (.dict [(['i'], 0), (['d'], 5)])) = .ok [10, 5, 0] := by rfl

example : Valid [(['s'], (10 : Int)), (['d'], 3), (['i'], 1)] := by
  unfold Valid
  decide +kernel

example : kernelArgs exTable (fun _ => true) ['P','o','l','y'] (some (.dict [(['x'], 0)])) =
    .ok [10, 3, 1, 0] := by rfl

/-! ### Choosing the classifier -/

/-- A class of the toolbox: its name, whether it is a subclass of `Machine`, whether it can be
instantiated with the given arguments, and the type its instances report (`none`: not in the table
of types; `some false`: `CT_NONE`; `some true`: any other). -/
structure Cls where
  name : Name
  machine : Bool
  concrete : Bool
  type : Option Bool
deriving DecidableEq, Repr

/-- What the caller passes as `classifier`. -/
inductive Choice where
  | instance (c : Cls)
  | cls (c : Cls)
  | text (s : Name)
  | other
deriving DecidableEq, Repr

inductive CErr where
  | nodeException | attributeError | keyError
deriving DecidableEq, Repr

/-- The two attributes of `Classifier`: the class and the instance (named by its class). -/
structure State where
  cls : Option Cls
  inst : Option Cls
deriving DecidableEq, Repr

def lower (s : Name) : Name := s.map Char.toLower

/-- The loop of lines 108-114. -/
def tryAll (s : State) (cs : List Cls) : State :=
  cs.foldl (fun s c => if c.concrete then { cls := some c, inst := some c } else s) s

/-- Lines 119-126: the common end of `set_classifier`. -/
def finish (s : State) : State × Option CErr :=
  match s.cls, s.inst with
  | some _, some i => match i.type with
    | none => (s, some .keyError)
    | some false => (s, some .nodeException)
    | some true => (s, none)
  | _, _ => (s, some .nodeException)

/-- `Classifier.set_classifier` (lines 64-126).  The previous state is forgotten at once (lines
81-82).  A class that is no machine: the message reads `self._class.__name__` of `None`. -/
def setClassifier (defaults : List Cls) (_old : State) : Choice → State × Option CErr
  | .instance c => finish { cls := some c, inst := some c }
  | .cls c =>
    if c.machine then
      if c.concrete then finish { cls := some c, inst := some c }
      else ({ cls := some c, inst := none }, some .nodeException)
    else ({ cls := none, inst := none }, some .attributeError)
  | .text t =>
    let possible := defaults.filter (fun c => lower c.name = lower t)
    if possible = [] then ({ cls := none, inst := none }, some .nodeException)
    else
      let s := tryAll { cls := none, inst := none } possible
      if s.inst = none then (s, some .nodeException) else finish s
  | .other => finish { cls := none, inst := none }

theorem tryAll_spec (cs : List Cls) : ∀ s : State,
    tryAll s cs = match (cs.filter (·.concrete)).getLast? with
      | some c => { cls := some c, inst := some c }
      | none => s := by
  unfold tryAll
  induction cs with
  | nil => intro s; rfl
  | cons c r ih =>
    intro s
    rw [List.foldl_cons, ih]
    by_cases hc : c.concrete
    · rw [List.filter_cons_of_pos (by simpa using hc)]
      cases hr : (r.filter (·.concrete)).getLast? with
      | none =>
        have : r.filter (·.concrete) = [] := by simpa using hr
        rw [this]
        simp [hc]
      | some d =>
        have : (c :: r.filter (·.concrete)).getLast? = some d := by
          rw [List.getLast?_cons, hr]
          rfl
        rw [this]
    · rw [List.filter_cons_of_neg (by simpa using hc)]
      simp [hc]

/-- **Choosing by name.**  A text chooses, among the library's classes of that name in any case, the
*last* one that can be instantiated. -/
theorem text_choice (defaults : List Cls) (old : State) (t : Name) (before after : List Cls) (c : Cls)
    (hd : defaults = before ++ c :: after) (hn : lower c.name = lower t) (hc : c.concrete)
    (ht : c.type = some true)
    (hlast : ∀ x ∈ after, lower x.name = lower t → x.concrete = false) :
    setClassifier defaults old (.text t) = ({ cls := some c, inst := some c }, none) := by
  have hl : ((defaults.filter (fun c => lower c.name = lower t)).filter (·.concrete)).getLast? =
      some c := by
    rw [hd, List.filter_append, List.filter_append,
      List.filter_cons_of_pos (by simpa using hn), List.filter_cons_of_pos (by simpa using hc)]
    have : (after.filter (fun c => lower c.name = lower t)).filter (·.concrete) = [] := by
      rw [List.filter_eq_nil_iff]
      intro x hx
      rw [List.mem_filter] at hx
      simp [hlast x hx.1 (by simpa using hx.2)]
    rw [this]
    simp
  have hne : defaults.filter (fun c => lower c.name = lower t) ≠ [] := by
    intro h
    rw [h] at hl
    simp at hl
  unfold setClassifier
  simp only [if_neg hne]
  rw [tryAll_spec, hl]
  simp only [reduceCtorEq, if_false]
  unfold finish
  simp [ht]

/-- **Not the first.**  The comment in the code says "take the first classifier which works"; with
two working classes whose names differ in case, the second is taken. -/
theorem first_working_violation :
    ∃ (defaults : List Cls) (t : Name) (c d : Cls), defaults = [c, d] ∧ c.name = t ∧ c.concrete ∧
      c.type = some true ∧ c ≠ d ∧
      setClassifier defaults ⟨none, none⟩ (.text t) = ({ cls := some d, inst := some d }, none) :=
  ⟨_, ['a'], ⟨['a'], true, true, some true⟩, ⟨['A'], true, true, some true⟩, rfl, rfl, rfl, rfl,
    by decide +kernel, by decide +kernel⟩

/-- **Success.**  A successful call leaves a class and an instance of it that reports a valid
type. -/
theorem set_ok (defaults : List Cls) (old s : State) (ch : Choice)
    (h : setClassifier defaults old ch = (s, none)) :
    ∃ c, s.cls = some c ∧ s.inst = some c ∧ c.type = some true ∧
      (∀ t, ch = .text t → c ∈ defaults ∧ lower c.name = lower t ∧ c.concrete) ∧
      (∀ d, ch = .cls d → c = d ∧ d.machine ∧ d.concrete) ∧
      (∀ d, ch = .instance d → c = d) := by
  have hf : ∀ c : Cls, finish { cls := some c, inst := some c } = (s, none) →
      s.cls = some c ∧ s.inst = some c ∧ c.type = some true := by
    intro c hc
    unfold finish at hc
    simp only at hc
    split at hc
    · simp at hc
    · simp at hc
    · rename_i ht
      simp only [Prod.mk.injEq, and_true] at hc
      rw [← hc]
      exact ⟨rfl, rfl, ht⟩
  cases ch with
  | «instance» c =>
    obtain ⟨a, b, d⟩ := hf c h
    exact ⟨c, a, b, d, by simp, by simp, by simp⟩
  | cls c =>
    simp only [setClassifier] at h
    split at h
    · split at h
      · rename_i hm hcc
        obtain ⟨a, b, d⟩ := hf c h
        refine ⟨c, a, b, d, by simp, ?_, by simp⟩
        intro d hd
        simp only [Choice.cls.injEq] at hd
        subst hd
        exact ⟨rfl, hm, hcc⟩
      · simp at h
    · simp at h
  | text t =>
    unfold setClassifier at h
    simp only at h
    split at h
    · simp at h
    · split at h
      · simp at h
      · rename_i hne hin
        rw [tryAll_spec] at h hin
        cases hl : ((defaults.filter (fun c => lower c.name = lower t)).filter
            (·.concrete)).getLast? with
        | none => rw [hl] at hin; simp at hin
        | some c =>
          rw [hl] at h
          obtain ⟨a, b, d⟩ := hf c h
          refine ⟨c, a, b, d, ?_, by simp, by simp⟩
          intro u hu
          simp only [Choice.text.injEq] at hu
          subst hu
          have hm := List.mem_of_getLast? hl
          rw [List.mem_filter, List.mem_filter] at hm
          exact ⟨hm.1.1, by simpa using hm.1.2, hm.2⟩
  | other =>
    unfold setClassifier finish at h
    simp at h

/-- **Failure.**  Whatever was set before, a call that fails because nothing suitable was found
leaves the object without an instance. -/
theorem set_fails_forgets (defaults : List Cls) (old : State) (t : Name)
    (hno : ∀ c ∈ defaults, lower c.name = lower t → c.concrete = false) :
    ∃ s, setClassifier defaults old (.text t) = (s, some .nodeException) ∧ s.inst = none := by
  unfold setClassifier
  simp only
  split
  · exact ⟨_, rfl, rfl⟩
  · have : ((defaults.filter (fun c => lower c.name = lower t)).filter (·.concrete)) = [] := by
      rw [List.filter_eq_nil_iff]
      intro x hx
      rw [List.mem_filter] at hx
      simp [hno x hx.1 (by simpa using hx.2)]
    rw [tryAll_spec, this]
    exact ⟨⟨none, none⟩, by simp, rfl⟩

/-- A class that is no machine is refused with an `AttributeError` about `None`, not with the
`NodeException` the code means to raise. -/
theorem foreign_class_violation (defaults : List Cls) (old : State) (c : Cls)
    (h : c.machine = false) :
    (setClassifier defaults old (.cls c)).2 = some .attributeError := by
  simp [setClassifier, h]

example : setClassifier [⟨['L'], true, false, some true⟩, ⟨['l'], true, true, some true⟩] ⟨none, none⟩
    (.text ['L']) = (⟨some ⟨['l'], true, true, some true⟩, some ⟨['l'], true, true, some true⟩⟩, none) := by
  decide +kernel

/-! ### The training set, ordered by label -/

/-- `training_set(ordered=True)` (lines 436-442): a bucket for each label (`keys`: the set of the
labels in some order), filled sample by sample. -/
def trainingSet {L X : Type} [DecidableEq L] (keys : List L) (samples : List (L × X)) :
    List (L × List X) :=
  samples.foldl (fun d s => d.map (fun b => if b.1 = s.1 then (b.1, b.2 ++ [s.2]) else b))
    (keys.map (fun l => (l, [])))

theorem fill_spec {L X : Type} [DecidableEq L] (samples : List (L × X)) :
    ∀ d : List (L × List X),
      samples.foldl (fun d s => d.map (fun b => if b.1 = s.1 then (b.1, b.2 ++ [s.2]) else b)) d =
      d.map (fun b => (b.1, b.2 ++ (samples.filter (fun s => s.1 = b.1)).map Prod.snd)) := by
  induction samples with
  | nil => intro d; simp
  | cons s r ih =>
    intro d
    rw [List.foldl_cons, ih, List.map_map]
    apply List.map_congr_left
    intro b _
    by_cases h : b.1 = s.1
    · have h' : s.1 = b.1 := h.symm
      simp [h']
    · have h' : ¬ s.1 = b.1 := fun q => h q.symm
      simp [h, h']

/-- **Ordered training set.**  There is one bucket per label, and it holds the samples of that label
in the order in which they were trained. -/
theorem training_set_bucket {L X : Type} [DecidableEq L] (keys : List L) (samples : List (L × X)) :
    (trainingSet keys samples).map Prod.fst = keys ∧
    ∀ l xs, (l, xs) ∈ trainingSet keys samples →
      xs = (samples.filter (fun s => s.1 = l)).map Prod.snd := by
  unfold trainingSet
  rw [fill_spec]
  constructor
  · simp [Function.comp_def]
  · intro l xs h
    simp only [List.map_map, List.mem_map, Function.comp, Prod.mk.injEq, List.nil_append] at h
    obtain ⟨a, _, rfl, rfl⟩ := h
    rfl

/-- Nothing is lost: the buckets together are a rearrangement of the training set. -/
theorem training_set_perm {L X : Type} [DecidableEq L] (keys : List L) (hn : keys.Nodup)
    (samples : List (L × X)) (hk : ∀ s ∈ samples, s.1 ∈ keys) :
    ((trainingSet keys samples).flatMap (fun b => b.2.map (fun x => (b.1, x)))).Perm samples := by
  have e : (trainingSet keys samples).flatMap (fun b => b.2.map (fun x => (b.1, x))) =
      keys.flatMap (fun l => samples.filter (fun s => s.1 = l)) := by
    unfold trainingSet
    rw [fill_spec, List.map_map, List.flatMap_map]
    apply List.flatMap_congr
    intro l _
    simp only [Function.comp, List.nil_append, List.map_map]
    rw [List.map_congr_left (g := id)]
    · simp
    · intro s hs
      rw [List.mem_filter] at hs
      obtain ⟨a, b⟩ := s
      have : a = l := by simpa using hs.2
      simp [this]
  rw [e]
  clear e
  induction keys generalizing samples with
  | nil =>
    cases samples with
    | nil => simp
    | cons s r => exact absurd (hk s (by simp)) (by simp)
  | cons l ks ih =>
    rw [List.nodup_cons] at hn
    rw [List.flatMap_cons]
    have h2 : ks.flatMap (fun l => samples.filter (fun s => s.1 = l)) =
        ks.flatMap (fun k => (samples.filter (fun s => ¬ s.1 = l)).filter (fun s => s.1 = k)) := by
      apply List.flatMap_congr
      intro k hkk
      rw [List.filter_filter]
      apply List.filter_congr
      intro s _
      by_cases hs : s.1 = k
      · have : ¬ s.1 = l := by
          rintro hl
          exact hn.1 (by rw [← hl, hs]; exact hkk)
        simp [hs, this]
        exact fun q => this (hs.trans q)
      · simp [hs]
    rw [h2]
    refine ((List.Perm.refl _).append (ih hn.2 (samples.filter (fun s => ¬ s.1 = l)) ?_)).trans ?_
    · intro s hs
      rw [List.mem_filter] at hs
      have h1 := hk s hs.1
      rw [List.mem_cons] at h1
      rcases h1 with h1 | h1
      · exact absurd h1 (by simpa using hs.2)
      · exact h1
    · have := List.filter_append_perm (fun s : L × X => decide (s.1 = l)) samples
      simpa using this

example : trainingSet [2, 1] [(1, 10), (2, 20), (1, 11)] = [(2, [20]), (1, [10, 11])] := by
  decide +kernel

end Mdp.Shogun
