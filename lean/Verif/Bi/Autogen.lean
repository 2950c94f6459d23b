import Mathlib.Data.List.Basic
import Mathlib.Data.List.Nodup

/-! # The generated BiNode versions of nodes (C307, C308) -/

namespace Bi.Autogen

/-! ## Model -/

variable {V : Type}

abbrev Name := List Char

/-- The signature of an `__init__`, without `self`: what `getfullargspec` gives.  `defaults` is `none` when no
argument has a default value; otherwise the values belong to the last arguments. -/
structure Sig (V : Type) where
  args : List Name
  defaults : Option (List V)
  varargs : Bool
  varkw : Bool

/-- The default value of the argument with number `i`. -/
def Sig.default (s : Sig V) (i : Nat) : Option V :=
  let ds := s.defaults.getD []
  if i < s.args.length - ds.length then none else ds[i - (s.args.length - ds.length)]?

def lookup (kw : List (Name × V)) (a : Name) : Option V := (kw.find? fun p => p.1 == a).map (·.2)

/-- What an argument is bound to: by position, by name, by default; `none`: TypeError (two values, or none). -/
def bindArg (s : Sig V) (pos : List V) (kw : List (Name × V)) (i : Nat) (a : Name) : Option V :=
  match pos[i]?, lookup kw a with
  | some v, none => some v
  | some _, some _ => none
  | none, some v => some v
  | none, none => s.default i

/-- The binding of the arguments from number `i` on. -/
def bindFrom (s : Sig V) (pos : List V) (kw : List (Name × V)) : Nat → List Name → Option (List V)
  | _, [] => some []
  | i, a :: l =>
    match bindArg s pos kw i a with
    | none => none
    | some v => (bindFrom s pos kw (i + 1) l).map (v :: ·)

/-- A call in Python: the values of the arguments, the further positional ones and the further keywords; `none`: a
TypeError. -/
def bind (s : Sig V) (pos : List V) (kw : List (Name × V)) : Option (List V × List V × List (Name × V)) :=
  match bindFrom s pos kw 0 s.args with
  | none => none
  | some vals =>
    let ex := pos.drop s.args.length
    let exkw := kw.filter fun p => decide (p.1 ∉ s.args)
    if (ex ≠ [] ∧ s.varargs = false) ∨ (exkw ≠ [] ∧ s.varkw = false) then none
    else some (vals, ex, exkw)

def nodeId : Name := ['n', 'o', 'd', 'e', '_', 'i', 'd']
def stopResult : Name := ['s', 't', 'o', 'p', '_', 'r', 'e', 's', 'u', 'l', 't']

/-- The signature that `_binode_code` writes; `nil` is the value `None`.  Without defaults `defaults += (None, None)`
raises (the test for `None` comes two lines later).
/repo/bimdp/nodes/autogen.py 59-78. -/
def genSig (nil : V) (s : Sig V) : Option (Sig V) :=
  s.defaults.map fun ds =>
    { args := s.args ++ [nodeId, stopResult], defaults := some (ds ++ [nil, nil]), varargs := s.varargs, varkw := true }

/-- The signature of `BiNode.__init__`.
/repo/bimdp/binode.py 108. -/
def biSig (nil : V) : Sig V :=
  { args := [nodeId, stopResult], defaults := some [nil, nil], varargs := false, varkw := true }

/-- Calling the generated class: its `__init__` passes every argument by name, then `*varargs` and `**kwargs`, to
`BiNode.__init__`, which takes its two arguments and passes the rest, by name, to the `__init__` of the node.  The
result is what the node's `__init__` is bound to, and the two values of `BiNode`.
/repo/bimdp/nodes/autogen.py 83-92 and /repo/bimdp/binode.py 122-125. -/
def construct (nil : V) (s : Sig V) (pos : List V) (kw : List (Name × V)) :
    Option ((List V × List V × List (Name × V)) × List V) :=
  match genSig nil s with
  | none => none
  | some g =>
    match bind g pos kw with
    | none => none
    | some (vals, ex, exkw) =>
      match bind (biSig nil) ex (g.args.zip vals ++ exkw) with
      | none => none
      | some (bv, _, rest) => (bind s [] rest).map (·, bv)

/-- The name of the generated class.
/repo/bimdp/nodes/autogen.py 51. -/
def biName (old base : Name) (name : Name) : Name := name.take (name.length - old.length) ++ base

/-! ## Lemmas -/

theorem lookup_append (l m : List (Name × V)) (a : Name) :
    lookup (l ++ m) a = (lookup l a).or (lookup m a) := by
  unfold lookup
  rw [List.find?_append]
  cases l.find? fun p => p.1 == a <;> rfl

theorem lookup_none {l : List (Name × V)} {a : Name} (h : a ∉ l.map (·.1)) : lookup l a = none := by
  unfold lookup
  rw [List.find?_eq_none.2]
  · rfl
  · intro p hp hpa
    simp only [beq_iff_eq] at hpa
    exact h (List.mem_map.2 ⟨p, hp, hpa⟩)

theorem lookup_filter {l : List (Name × V)} {a : Name} (p : Name → Bool) (h : p a = true) :
    lookup (l.filter fun x => p x.1) a = lookup l a := by
  unfold lookup
  congr 1
  induction l with
  | nil => rfl
  | cons x l ih =>
    by_cases hx : p x.1 = true
    · rw [List.filter_cons_of_pos (by simpa using hx), List.find?_cons, List.find?_cons, ih]
    · rw [List.filter_cons_of_neg (by simpa using hx), ih, List.find?_cons]
      have : (x.1 == a) = false := by
        rw [beq_eq_false_iff_ne]
        rintro rfl
        exact hx h
      rw [this]

theorem lookup_zip {as : List Name} {vs : List V} (hn : as.Nodup) (hl : as.length = vs.length) (i : Nat) (a : Name)
    (ha : as[i]? = some a) : lookup (as.zip vs) a = vs[i]? := by
  induction as generalizing vs i with
  | nil => simp at ha
  | cons b as ih =>
    cases vs with
    | nil => simp at hl
    | cons v vs =>
      rw [List.nodup_cons] at hn
      cases i with
      | zero =>
        simp only [List.getElem?_cons_zero, Option.some.injEq] at ha
        subst ha
        simp [lookup]
      | succ i =>
        simp only [List.getElem?_cons_succ] at ha ⊢
        have hne : (b == a) = false := by
          rw [beq_eq_false_iff_ne]
          rintro rfl
          exact hn.1 (List.mem_of_getElem? ha)
        have := ih hn.2 (by simpa using hl) i ha
        unfold lookup at this ⊢
        rw [List.zip_cons_cons, List.find?_cons]
        simp only [hne]
        exact this

theorem bindFrom_congr {s s' : Sig V} {pos pos' : List V} {kw kw' : List (Name × V)} (l : List Name) (i : Nat)
    (h : ∀ j a, l[j]? = some a → bindArg s pos kw (i + j) a = bindArg s' pos' kw' (i + j) a) :
    bindFrom s pos kw i l = bindFrom s' pos' kw' i l := by
  induction l generalizing i with
  | nil => rfl
  | cons a l ih =>
    simp only [bindFrom]
    have h0 := h 0 a rfl
    rw [Nat.add_zero] at h0
    rw [h0]
    have : bindFrom s pos kw (i + 1) l = bindFrom s' pos' kw' (i + 1) l := by
      refine ih (i + 1) ?_
      intro j b hj
      have := h (j + 1) b (by simpa using hj)
      rw [show i + 1 + j = i + (j + 1) by omega]
      exact this
    rw [this]

theorem bindFrom_append (s : Sig V) (pos : List V) (kw : List (Name × V)) (l m : List Name) (i : Nat) :
    bindFrom s pos kw i (l ++ m) =
      match bindFrom s pos kw i l with
      | none => none
      | some v => (bindFrom s pos kw (i + l.length) m).map (v ++ ·) := by
  induction l generalizing i with
  | nil => simp [bindFrom]
  | cons a l ih =>
    simp only [List.cons_append, bindFrom, ih (i + 1), List.length_cons]
    cases bindArg s pos kw i a with
    | none => rfl
    | some v =>
      simp only
      rw [show i + 1 + l.length = i + (l.length + 1) by omega]
      cases bindFrom s pos kw (i + 1) l with
      | none => rfl
      | some w => cases bindFrom s pos kw (i + (l.length + 1)) m <;> rfl

theorem bindFrom_length {s : Sig V} {pos : List V} {kw : List (Name × V)} {l : List Name} {i : Nat} {v : List V}
    (h : bindFrom s pos kw i l = some v) : l.length = v.length := by
  induction l generalizing i v with
  | nil => simp only [bindFrom, Option.some.injEq] at h; subst h; rfl
  | cons a l ih =>
    simp only [bindFrom] at h
    split at h
    · cases h
    · rw [Option.map_eq_some_iff] at h
      obtain ⟨w, hw, rfl⟩ := h
      simp [ih hw]

theorem bindFrom_all {s : Sig V} {pos : List V} {kw : List (Name × V)} {l : List Name} {i : Nat} {v : List V}
    (hl : l.length = v.length) (h : ∀ j a, l[j]? = some a → bindArg s pos kw (i + j) a = v[j]?) :
    bindFrom s pos kw i l = some v := by
  induction l generalizing i v with
  | nil => cases v <;> simp_all [bindFrom]
  | cons a l ih =>
    cases v with
    | nil => simp at hl
    | cons x v =>
      have h0 := h 0 a rfl
      simp only [Nat.add_zero, List.getElem?_cons_zero] at h0
      simp only [bindFrom, h0]
      rw [ih (i := i + 1) (v := v) (by simpa using hl)]
      · rfl
      · intro j b hj
        have := h (j + 1) b (by simpa using hj)
        rw [show i + 1 + j = i + (j + 1) by omega, this]
        simp

/-! ## Specification -/

/-- The keywords without the two of `BiNode`. -/
def userKw (kw : List (Name × V)) : List (Name × V) :=
  kw.filter fun p => decide (p.1 ≠ nodeId ∧ p.1 ≠ stopResult)

/-- The value of one of the keywords of `BiNode`, `None` when it is not given. -/
def valueOr (nil : V) (kw : List (Name × V)) (a : Name) : V := (lookup kw a).getD nil

/-- A signature as Python has it, without the names of `BiNode`. -/
structure Proper (s : Sig V) : Prop where
  nodup : s.args.Nodup
  node : nodeId ∉ s.args
  stop : stopResult ∉ s.args
  len : (s.defaults.getD []).length ≤ s.args.length

/-! ## Theorems -/

theorem default_gen {nil : V} {s g : Sig V} (hg : genSig nil s = some g) (h : Proper s) (i : Nat)
    (hi : i < s.args.length) : g.default i = s.default i := by
  unfold genSig at hg
  rw [Option.map_eq_some_iff] at hg
  obtain ⟨ds, hds, rfl⟩ := hg
  have hlen := h.len
  rw [hds] at hlen
  simp only [Option.getD_some] at hlen
  unfold Sig.default
  simp only [hds, Option.getD_some, List.length_append, List.length_cons, List.length_nil]
  rw [show s.args.length + (0 + 1 + 1) - (ds.length + (0 + 1 + 1)) = s.args.length - ds.length by omega]
  split
  · rfl
  · rw [List.getElem?_append_left (by omega)]

theorem default_gen_new {nil : V} {s g : Sig V} (hg : genSig nil s = some g) (h : Proper s) (j : Nat) (hj : j < 2) :
    g.default (s.args.length + j) = some nil := by
  unfold genSig at hg
  rw [Option.map_eq_some_iff] at hg
  obtain ⟨ds, hds, rfl⟩ := hg
  have hlen := h.len
  rw [hds] at hlen
  simp only [Option.getD_some] at hlen
  unfold Sig.default
  simp only [Option.getD_some, List.length_append, List.length_cons, List.length_nil]
  rw [if_neg (by omega), List.getElem?_append_right (by omega)]
  rw [show s.args.length + j - (s.args.length + (0 + 1 + 1) - (ds.length + (0 + 1 + 1))) - ds.length = j by omega]
  have : j = 0 ∨ j = 1 := by omega
  rcases this with rfl | rfl <;> rfl

/-- C307: the generated class takes the arguments of the node: for every call that gives no more positional
arguments than the node has, the `__init__` of the node is called with the arguments it would get if the node itself
were called that way, a call is refused exactly when the node would refuse it, and the keywords `node_id` and
`stop_result` go to the BiNode, with `None` as default. -/
theorem generated_signature {nil : V} {s : Sig V} (h : Proper s) (hd : s.defaults ≠ none) (pos : List V)
    (kw : List (Name × V)) (hp : pos.length ≤ s.args.length) :
    construct nil s pos kw =
      (bind s pos (userKw kw)).map (·, [valueOr nil kw nodeId, valueOr nil kw stopResult]) := by
  obtain ⟨ds, hds⟩ := Option.ne_none_iff_exists'.1 hd
  have hne : nodeId ≠ stopResult := by decide
  unfold construct
  cases hg : genSig nil s with
  | none => unfold genSig at hg; rw [hds] at hg; simp at hg
  | some g =>
    have hargs : g.args = s.args ++ [nodeId, stopResult] := by
      unfold genSig at hg; rw [hds] at hg; simp only [Option.map_some, Option.some.injEq] at hg; rw [← hg]
    have hvk : g.varkw = true := by
      unfold genSig at hg; rw [hds] at hg; simp only [Option.map_some, Option.some.injEq] at hg; rw [← hg]
    simp only
    have hsub : ∀ a ∈ s.args, a ≠ nodeId ∧ a ≠ stopResult := fun a ha =>
      ⟨fun e => h.node (e ▸ ha), fun e => h.stop (e ▸ ha)⟩
    -- the arguments of the node
    have hfirst : bindFrom g pos kw 0 s.args = bindFrom s pos (userKw kw) 0 s.args := by
      refine bindFrom_congr _ _ ?_
      intro j a hj
      have ha := List.mem_of_getElem? hj
      have hjl : j < s.args.length := (List.getElem?_eq_some_iff.1 hj).1
      unfold bindArg
      rw [Nat.zero_add, default_gen hg h j hjl]
      have : lookup (userKw kw) a = lookup kw a :=
        lookup_filter (fun x => decide (x ≠ nodeId ∧ x ≠ stopResult)) (by simpa using hsub a ha)
      rw [this]
    -- the two new ones
    have hnew : bindFrom g pos kw (0 + s.args.length) [nodeId, stopResult] =
        some [valueOr nil kw nodeId, valueOr nil kw stopResult] := by
      refine bindFrom_all rfl ?_
      intro j a hj
      have hj2 : j < 2 := (List.getElem?_eq_some_iff.1 hj).1
      have hpn : pos[0 + s.args.length + j]? = none := List.getElem?_eq_none (by omega)
      unfold bindArg
      rw [hpn]
      have hdef := default_gen_new hg h j hj2
      rw [Nat.zero_add]
      have hj01 : j = 0 ∨ j = 1 := by omega
      rcases hj01 with rfl | rfl
      · simp only [List.getElem?_cons_zero, Option.some.injEq] at hj
        subst hj
        rw [hdef]
        unfold valueOr
        cases lookup kw nodeId <;> rfl
      · simp only [List.getElem?_cons_succ, List.getElem?_cons_zero, Option.some.injEq] at hj
        subst hj
        rw [hdef]
        unfold valueOr
        cases lookup kw stopResult <;> rfl
    have hexk : (kw.filter fun p => decide (p.1 ∉ g.args)) =
        (userKw kw).filter fun p => decide (p.1 ∉ s.args) := by
      unfold userKw
      rw [List.filter_filter]
      refine List.filter_congr fun p _ => ?_
      rw [hargs]
      simp only [List.mem_append, List.mem_cons, List.not_mem_nil, or_false, not_or]
      by_cases h1 : p.1 ∈ s.args <;> by_cases h2 : p.1 = nodeId <;> by_cases h3 : p.1 = stopResult <;> simp [h1, h2, h3]
    cases hb : bindFrom s pos (userKw kw) 0 s.args with
    | none =>
      have h1 : bind g pos kw = none := by
        unfold bind
        rw [hargs, bindFrom_append, hfirst, hb]
      have h2 : bind s pos (userKw kw) = none := by
        unfold bind
        rw [hb]
      rw [h1, h2]
      rfl
    | some vals =>
      have hlen := bindFrom_length hb
      have h1 : bind g pos kw = some (vals ++ [valueOr nil kw nodeId, valueOr nil kw stopResult], [],
          (userKw kw).filter fun p => decide (p.1 ∉ s.args)) := by
        unfold bind
        rw [hexk]
        rw [show bindFrom g pos kw 0 g.args =
          some (vals ++ [valueOr nil kw nodeId, valueOr nil kw stopResult]) by
            rw [hargs, bindFrom_append, hfirst, hb]; simp only; rw [hnew]; rfl]
        have hdrop : pos.drop g.args.length = [] := by
          rw [List.drop_eq_nil_iff, hargs]; simp; omega
        simp only [hdrop, hvk]
        simp
      rw [h1]
      simp only
      -- BiNode takes its two arguments
      rw [hargs, List.zip_append hlen, List.append_assoc]
      have hzk : (s.args.zip vals).map (·.1) = s.args := by
        rw [List.map_fst_zip (by omega)]
      have hz1 : lookup (s.args.zip vals) nodeId = none := lookup_none (by rw [hzk]; exact h.node)
      have hz2 : lookup (s.args.zip vals) stopResult = none := lookup_none (by rw [hzk]; exact h.stop)
      have hne' : (nodeId == stopResult) = false := by decide
      have h2 : bind (biSig nil) [] (s.args.zip vals ++ ([nodeId, stopResult].zip
          [valueOr nil kw nodeId, valueOr nil kw stopResult] ++
          (userKw kw).filter fun p => decide (p.1 ∉ s.args))) =
          some ([valueOr nil kw nodeId, valueOr nil kw stopResult], [],
            s.args.zip vals ++ (userKw kw).filter fun p => decide (p.1 ∉ s.args)) := by
        unfold bind
        have hb1 : bindFrom (biSig nil) [] (s.args.zip vals ++ ([nodeId, stopResult].zip
          [valueOr nil kw nodeId, valueOr nil kw stopResult] ++
          (userKw kw).filter fun p => decide (p.1 ∉ s.args))) 0 (biSig nil).args =
            some [valueOr nil kw nodeId, valueOr nil kw stopResult] := by
          have e1 : lookup (s.args.zip vals ++ ([nodeId, stopResult].zip
            [valueOr nil kw nodeId, valueOr nil kw stopResult] ++
            (userKw kw).filter fun p => decide (p.1 ∉ s.args))) nodeId = some (valueOr nil kw nodeId) := by
            rw [lookup_append, lookup_append, hz1]
            simp [lookup]
          have e2 : lookup (s.args.zip vals ++ ([nodeId, stopResult].zip
            [valueOr nil kw nodeId, valueOr nil kw stopResult] ++
            (userKw kw).filter fun p => decide (p.1 ∉ s.args))) stopResult = some (valueOr nil kw stopResult) := by
            rw [lookup_append, lookup_append, hz2]
            simp [lookup, hne']
          simp only [biSig, bindFrom, bindArg, List.getElem?_nil, e1, e2, Option.map_some]
        rw [hb1]
        have hf1 : (s.args.zip vals).filter (fun p => decide (p.1 ∉ (biSig nil).args)) = s.args.zip vals := by
          rw [List.filter_eq_self]
          intro p hp
          have : p.1 ∈ s.args := by rw [← hzk]; exact List.mem_map_of_mem hp
          have := hsub _ this
          simp [biSig, this.1, this.2]
        have hf2 : ((userKw kw).filter fun p => decide (p.1 ∉ s.args)).filter
            (fun p => decide (p.1 ∉ (biSig nil).args)) = (userKw kw).filter fun p => decide (p.1 ∉ s.args) := by
          rw [List.filter_eq_self]
          intro p hp
          have := (List.mem_filter.1 (List.mem_filter.1 hp).1).2
          simpa [biSig] using this
        have hf3 : ([nodeId, stopResult].zip [valueOr nil kw nodeId, valueOr nil kw stopResult]).filter
            (fun p => decide (p.1 ∉ (biSig nil).args)) = [] := by
          simp [biSig]
        simp only [List.filter_append, hf1, hf2, hf3, List.nil_append, List.drop_nil]
        simp [biSig]
      rw [h2]
      simp only
      -- the node itself
      have hb3 : bindFrom s [] (s.args.zip vals ++ (userKw kw).filter fun p => decide (p.1 ∉ s.args)) 0 s.args =
          some vals := by
        refine bindFrom_all hlen ?_
        intro j a hj
        have hjl : j < vals.length := by rw [← hlen]; exact (List.getElem?_eq_some_iff.1 hj).1
        unfold bindArg
        rw [lookup_append, lookup_zip h.nodup hlen j a hj, List.getElem?_eq_getElem hjl]
        rfl
      have hf4 : (s.args.zip vals).filter (fun p => decide (p.1 ∉ s.args)) = [] := by
        rw [List.filter_eq_nil_iff]
        intro p hp
        have : p.1 ∈ s.args := by rw [← hzk]; exact List.mem_map_of_mem hp
        simp [this]
      have hf5 : ((userKw kw).filter fun p => decide (p.1 ∉ s.args)).filter (fun p => decide (p.1 ∉ s.args)) =
          (userKw kw).filter fun p => decide (p.1 ∉ s.args) := by
        rw [List.filter_filter]
        simp
      have hdrop : pos.drop s.args.length = [] := by rw [List.drop_eq_nil_iff]; exact hp
      unfold bind
      rw [hb3, hb]
      simp only [List.filter_append, hf4, hf5, List.nil_append, List.drop_nil, hdrop]

/-- What the comment of the generator says: it preserves the signature, for every node. -/
def Preserves (nil : V) : Prop := ∀ (s : Sig V), Proper s → ∀ (pos : List V) (kw : List (Name × V)),
  pos.length ≤ s.args.length → construct nil s pos kw ≠ none → bind s pos (userKw kw) ≠ none

/-- C307: no call that the node refuses is accepted. -/
theorem generated_refuses (nil : V) : Preserves (V := V) nil := by
  intro s h pos kw hp hc hb
  by_cases hd : s.defaults = none
  · apply hc
    unfold construct genSig
    rw [hd]
    rfl
  · apply hc
    rw [generated_signature h hd pos kw hp, hb]
    rfl

/-- C307: for a node without a default value the generator fails. -/
theorem no_defaults_refused (nil : V) (s : Sig V) (hd : s.defaults = none) (pos : List V) (kw : List (Name × V)) :
    genSig nil s = none ∧ construct nil s pos kw = none := by
  have h : genSig nil s = none := by unfold genSig; rw [hd]; rfl
  refine ⟨h, ?_⟩
  unfold construct
  rw [h]

/-- C307: what a node with `*args` accepts, the generated class refuses as soon as there is one positional argument
more than named ones: it becomes the first positional argument of `BiNode`, which is also given by name. -/
theorem varargs_refused (nil : V) (s : Sig V) (h : Proper s) (pos : List V) (kw : List (Name × V))
    (hp : s.args.length + 2 < pos.length) : construct nil s pos kw = none := by
  unfold construct
  cases hg : genSig nil s with
  | none => rfl
  | some g =>
    have hargs : g.args = s.args ++ [nodeId, stopResult] := by
      unfold genSig at hg
      rw [Option.map_eq_some_iff] at hg
      obtain ⟨ds, -, rfl⟩ := hg
      rfl
    simp only
    cases hb : bind g pos kw with
    | none => rfl
    | some r =>
      obtain ⟨vals, ex, exkw⟩ := r
      simp only
      have hr : bindFrom g pos kw 0 g.args = some vals ∧ ex = pos.drop g.args.length := by
        unfold bind at hb
        split at hb
        · cases hb
        · rename_i v hv
          simp only at hb
          split at hb
          · cases hb
          · simp only [Option.some.injEq, Prod.mk.injEq] at hb
            exact ⟨by rw [hv, hb.1], hb.2.1.symm⟩
      have hlen := bindFrom_length hr.1
      have hex : ex ≠ [] := by
        rw [hr.2, Ne, List.drop_eq_nil_iff, hargs]
        simp
        omega
      obtain ⟨e, ex', rfl⟩ := List.exists_cons_of_ne_nil hex
      have hnd : g.args.Nodup := by
        rw [hargs, List.nodup_append]
        refine ⟨h.nodup, by decide, ?_⟩
        intro a ha b hb hab
        subst hab
        simp only [List.mem_cons, List.not_mem_nil, or_false] at hb
        rcases hb with rfl | rfl
        · exact h.node ha
        · exact h.stop ha
      have hlk : lookup (g.args.zip vals ++ exkw) nodeId ≠ none := by
        rw [lookup_append, lookup_zip hnd hlen s.args.length nodeId (by rw [hargs]; simp)]
        rw [List.getElem?_eq_getElem (by rw [← hlen, hargs]; simp)]
        simp
      obtain ⟨v, hv⟩ := Option.ne_none_iff_exists'.1 hlk
      have : bind (biSig nil) (e :: ex') (g.args.zip vals ++ exkw) = none := by
        unfold bind
        have : bindFrom (biSig nil) (e :: ex') (g.args.zip vals ++ exkw) 0 (biSig nil).args = none := by
          simp [biSig, bindFrom, bindArg, hv]
        rw [this]
      rw [this]

/-- C308: the name of the generated class is the name of the node with the ending replaced, and different nodes
get different names: for the names that have the ending. -/
theorem biName_spec (old base stem : Name) : biName old base (stem ++ old) = stem ++ base := by
  unfold biName
  simp

theorem biName_injective_partial (old base a b : Name) (ha : old <:+ a) (hb : old <:+ b)
    (h : biName old base a = biName old base b) : a = b := by
  obtain ⟨s, rfl⟩ := ha
  obtain ⟨t, rfl⟩ := hb
  rw [biName_spec, biName_spec] at h
  rw [List.append_cancel_right h]

/-- C308: for other names the claim is false: two classifiers whose names differ only in the last characters get
the same name, so that the second class replaces the first. -/
theorem biName_injective_false (old base x y : Name) (hx : x.length = old.length) (hy : y.length = old.length)
    (hxy : x ≠ y) : ¬ ∀ a b : Name, biName old base a = biName old base b → a = b := by
  intro h
  refine hxy (h x y ?_)
  unfold biName
  rw [hx, hy]
  simp

/-! ### Examples -/

/-- `input_dim`, `output_dim=1`, with the values as numbers and 0 as `None`. -/
def exSig : Sig Nat := { args := [['i'], ['o']], defaults := some [1], varargs := false, varkw := false }

example : Proper exSig := ⟨by decide, by decide, by decide, by decide⟩
example : construct 0 exSig [5] [(nodeId, 7), (['o'], 3)] = some (([5, 3], [], []), [7, 0]) := rfl
example : construct 0 exSig [] [(['i'], 5)] = some (([5, 1], [], []), [0, 0]) := rfl
example : construct 0 exSig [] [(['o'], 5)] = none ∧ construct 0 exSig [5] [(['z'], 5)] = none := by decide
example : bind exSig [5] [(['o'], 3)] = some ([5, 3], [], []) := by decide
example : construct 0 ({ exSig with varargs := true }) [1, 2, 3, 4, 5] [] = none ∧
    bind ({ exSig with varargs := true }) [1, 2, 3, 4, 5] [] = some ([1, 2], [3, 4, 5], []) := by decide
example : biName ['N', 'o', 'd', 'e'] ['B', 'i', 'N', 'o', 'd', 'e'] ['P', 'C', 'A', 'N', 'o', 'd', 'e'] =
    ['P', 'C', 'A', 'B', 'i', 'N', 'o', 'd', 'e'] := by decide

end Bi.Autogen
