import Mathlib.Data.List.Basic
import Mathlib.Data.List.Nodup
import Mathlib.Data.List.Dedup
import Mathlib.Data.List.ProdSigma

/-!
# Base classes of classifiers: `ClassifierNode._execute`, `ClassifierCumulator` (mdp/classifier_node.py), `_LabelNormalizer`
(mdp/nodes/svm_classifiers.py), `BiClassifier` (bimdp/biclassifier.py); C289-C291

`rank` is in `Nodes/Markov.lean`, the checks of `train` and `execute` on the data are in `Node/Model.lean`.
-/

namespace Mdp.Classifier

inductive Err where
  /-- TrainingException -/
  | training
  /-- AttributeError: a list has no `ravel` -/
  | attribute
  /-- TypeError: `len()` of an array without dimensions -/
  | type
  /-- ValueError: the shape does not fit -/
  | value
  /-- NodeException -/
  | node
deriving DecidableEq

/-! ## Collecting data and labels -/

/-- The argument `labels`: an array without dimension, with one, with two (as list of rows), a list or tuple, another object. -/
inductive Labels (L : Type) where
  | array0 (a : L)
  | array1 (l : List L)
  | array2 (l : List (List L))
  | list (l : List L)
  | single (a : L)

/-- `tlen`, `data`, `labels` while training. -/
structure Cum (α L : Type) where
  tlen : Nat
  data : List α
  labels : List L

variable {α L : Type}

/-- After construction (mdp/signal_node.py, `VariadicCumulator`). -/
def Cum.new : Cum α L := ⟨0, [], []⟩

/-- `_check_train_args` (105-111) for `n` rows. -/
def Labels.check (n : Nat) : Labels L → Option Err
  | .array0 _ => some .type
  | .array1 l => if l.length ≠ n then some .training else none
  | .array2 l => if l.length ≠ n then some .training else none
  | .list l => if l.length ≠ n then some .training else none
  | .single _ => none

/-- `_train` (113-124) after the check. Lists and the list made from a number have no method `ravel`. -/
def Cum.train (s : Cum α L) (x : List (List α)) (l : Labels L) : Option Err × Cum α L :=
  match l.check x.length with
  | some e => (some e, s)
  | none =>
    let s := { s with tlen := s.tlen + x.length, data := s.data ++ x.flatten }
    match l with
    | .array0 _ => (some .type, s)
    | .array1 l => (none, { s with labels := s.labels ++ l })
    | .array2 l => (none, { s with labels := s.labels ++ l.flatten })
    | .list _ => (some .attribute, s)
    | .single _ => (some .attribute, s)

/-- `_stop_training` (126-131): `data` is as long as `tlen * input_dim` (see `cum_data`), so only the shape of `labels` can fail. The result is
the pair of `data` (before it is cut into rows) and `labels`. -/
def Cum.stop (s : Cum α L) : Except Err (List α × List L) := if s.labels.length ≠ s.tlen then .error .value else .ok (s.data, s.labels)

/-- Calls of `train` one after the other. -/
def Cum.trainAll (s : Cum α L) : List (List (List α) × Labels L) → Option Err × Cum α L
  | [] => (none, s)
  | (x, l) :: r =>
    match s.train x l with
    | (some e, s) => (some e, s)
    | (none, s) => s.trainAll r

theorem cum_data (s : Cum α L) (d : Nat) (h : s.data.length = s.tlen * d) (x : List (List α)) (hx : ∀ r ∈ x, r.length = d) (l : Labels L) :
    (s.train x l).2.data.length = (s.train x l).2.tlen * d := by
  have hf : x.flatten.length = x.length * d := by
    rw [List.length_flatten, List.map_congr_left hx, List.map_const', List.sum_replicate_nat]
  unfold Cum.train
  split
  · exact h
  · cases l <;> simp only [List.length_append, h, hf, Nat.add_mul]

theorem trainAll_arrays (s : Cum α L) (cs : List (List (List α) × List L)) (h : ∀ c ∈ cs, c.2.length = c.1.length) :
    s.trainAll (cs.map fun c => (c.1, .array1 c.2)) = (none, ⟨s.tlen + (cs.map fun c => c.1.length).sum, s.data ++ (cs.map fun c => c.1.flatten).flatten,
      s.labels ++ (cs.map fun c => c.2).flatten⟩) := by
  induction cs generalizing s with
  | nil => simp [Cum.trainAll]
  | cons c cs ih =>
    have hc := h c (by simp)
    simp only [List.map_cons, Cum.trainAll, Cum.train, Labels.check]
    rw [if_neg (by simpa using hc)]
    simp only
    rw [ih _ fun c' h' => h c' (by simp [h'])]
    simp [Nat.add_assoc]

/-- C289: with arrays of labels, one label for each row, training succeeds in any number of calls, and the data and the labels are those of the
calls, in their order. -/
theorem labels_collected (cs : List (List (List α) × List L)) (h : ∀ c ∈ cs, c.2.length = c.1.length) :
    ∃ s, Cum.new.trainAll (cs.map fun c => (c.1, .array1 c.2)) = (none, s) ∧
      s.stop = .ok ((cs.flatMap fun c => c.1).flatten, cs.flatMap fun c => c.2) ∧ s.tlen = (cs.flatMap fun c => c.1).length := by
  refine ⟨_, trainAll_arrays _ cs h, ?_, ?_⟩
  · have hl : ((cs.map fun c => c.2).flatten).length = (cs.map fun c => c.1.length).sum := by
      rw [List.length_flatten, List.map_map]
      exact congrArg List.sum (List.map_congr_left fun c hc => h c hc)
    simp only [Cum.stop, Cum.new, List.nil_append, Nat.zero_add]
    rw [if_neg (by simpa using hl)]
    simp only [List.flatMap_def, Except.ok.injEq, Prod.mk.injEq, and_true]
    clear h hl
    induction cs with
    | nil => rfl
    | cons c cs ih => simp only [List.map_cons, List.flatten_cons, List.flatten_append, ih]
  · simp [Cum.new, List.length_flatMap]

/-- C289: a wrong number of labels is refused, and nothing is collected. -/
theorem labels_refused (s : Cum α L) (x : List (List α)) (l : List L) (h : l.length ≠ x.length) :
    s.train x (.array1 l) = (some .training, s) ∧ s.train x (.list l) = (some .training, s) := by
  simp [Cum.train, Labels.check, h]

/-- C289, false: one label for all rows, or a list or tuple of labels, ends in an AttributeError, although the code says otherwise; and the data are
collected all the same. -/
theorem labels_list_violation (s : Cum α L) (x : List (List α)) (a : L) (l : List L) (h : l.length = x.length) :
    (s.train x (.single a)).1 = some .attribute ∧ (s.train x (.list l)).1 = some .attribute ∧
      (s.train x (.list l)).2.tlen = s.tlen + x.length ∧ (s.train x (.list l)).2.labels = s.labels := by
  simp [Cum.train, Labels.check, h]

/-- C289, false: so the training cannot be repeated with an array after such an error. -/
theorem labels_retry_violation (s : Cum α L) (hs : s.labels.length = s.tlen) (x : List (List α)) (hx : x ≠ []) (l : List L) (h : l.length = x.length)
    (cs : List (List (List α) × List L)) (hcs : ∀ c ∈ cs, c.2.length = c.1.length) :
    ∃ s', (s.train x (.list l)).2.trainAll (cs.map fun c => (c.1, .array1 c.2)) = (none, s') ∧ s'.stop = .error .value := by
  refine ⟨_, trainAll_arrays _ cs hcs, ?_⟩
  have e := labels_list_violation s x (l.head (by rintro rfl; exact hx (List.length_eq_zero_iff.1 h.symm))) l h
  have hl : ((cs.map fun c => c.2).flatten).length = (cs.map fun c => c.1.length).sum := by
    rw [List.length_flatten, List.map_map]
    exact congrArg List.sum (List.map_congr_left fun c hc => hcs c hc)
  simp only [Cum.stop, List.length_append, e.2.2.1, e.2.2.2, hl, hs]
  have := List.length_pos_of_ne_nil hx
  rw [if_pos (by omega)]

example : ((Cum.new : Cum Nat Bool).trainAll [([[1, 2], [3, 4]], .array1 [true, false]), ([[5, 6]], .array1 [true])]).2.stop =
    .ok ([1, 2, 3, 4, 5, 6], [true, false, true]) := by rfl

example : ((Cum.new : Cum Nat Nat).train [[1], [2]] (.array2 [[7], [8]])).2.stop = .ok ([1, 2], [7, 8]) := by rfl

/-! ## Execution -/

/-- What a classifier returns: the data, labels, ranked labels, probabilities, or `None`. -/
inductive Out (X A B C : Type) where
  | data (x : X)
  | labels (a : A)
  | ranks (b : B)
  | probs (c : C)
  | none

/-- `_execute` (80-88); `method` is `none` for `None` and for the empty string. -/
def execute {X A B C : Type} (label : X → A) (rank : X → B) (prob : X → C) (method : Option String) (x : X) : Out X A B C :=
  match method with
  | Option.none => .data x
  | some m =>
    if m = "" then .data x
    else if m = "label" then .labels (label x)
    else if m = "rank" then .ranks (rank x)
    else if m = "prob" then .probs (prob x)
    else .none

/-- C290: a classifier passes the data on, or returns what the chosen method returns. -/
theorem execute_methods {X A B C : Type} (label : X → A) (rank : X → B) (prob : X → C) (x : X) :
    execute label rank prob Option.none x = .data x ∧ execute label rank prob (some "label") x = .labels (label x) ∧
      execute label rank prob (some "rank") x = .ranks (rank x) ∧ execute label rank prob (some "prob") x = .probs (prob x) := by
  refine ⟨rfl, ?_, ?_, ?_⟩ <;> rfl

/-- C290, false: another name is not refused; the result is `None`. -/
theorem execute_unknown_violation {X A B C : Type} (label : X → A) (rank : X → B) (prob : X → C) (x : X) (m : String) (h0 : m ≠ "") (h1 : m ≠ "label")
    (h2 : m ≠ "rank") (h3 : m ≠ "prob") : execute label rank prob (some m) x = .none := by
  simp [execute, h0, h1, h2, h3]

example : execute (X := Nat) (fun _ => 1) (fun _ => 2) (fun _ => 3) (some "labels") 0 = .none := by rfl

/-! ### BiClassifier -/

/-- The arguments `return_labels`, `return_probs`, `return_ranks`: false (or `None`, or an empty string), true, a prefix that is not empty. -/
inductive Ask where
  | no
  | yes
  | prefix' (s : String)

/-- The key under which a result is stored. -/
def Ask.key (suffix : String) : Ask → Option String
  | .no => none
  | .yes => some suffix
  | .prefix' s => some (s ++ suffix)

/-- `d[k] = v` for a dictionary in order of insertion. -/
def put {V : Type} (d : List (String × V)) (k : String) (v : V) : List (String × V) :=
  if d.any (fun p => p.1 == k) then d.map fun p => if p.1 = k then (k, v) else p else d ++ [(k, v)]

/-- `_execute` of `BiClassifier` (bimdp/biclassifier.py 13-43): the data, and the message if it is not empty. -/
def biExecute {X V : Type} (label rank prob : X → V) (labels probs ranks : Ask) (x : X) : X × Option (List (String × V)) :=
  let m : List (String × V) := []
  let m := match labels.key "labels" with | none => m | some k => put m k (label x)
  let m := match probs.key "probs" with | none => m | some k => put m k (prob x)
  let m := match ranks.key "ranks" with | none => m | some k => put m k (rank x)
  (x, if m = [] then none else some m)

theorem key_end {suf k : String} (x : Ask) (h2 : 2 ≤ suf.toList.length) (h : x.key suf = some k) : k.toList.reverse.take 2 = suf.toList.reverse.take 2 := by
  cases x with
  | no => cases h
  | yes => cases h; rfl
  | prefix' s =>
    cases h
    rw [String.toList_append, List.reverse_append, List.take_append_of_le_length (by rw [List.length_reverse]; exact h2)]

theorem put_new {V : Type} (d : List (String × V)) (k : String) (v : V) (h : ∀ p ∈ d, p.1 ≠ k) : put d k v = d ++ [(k, v)] := by
  unfold put
  rw [if_neg]
  simp only [List.any_eq_true, beq_iff_eq, not_exists, not_and]
  exact h

theorem put_nil {V : Type} (k : String) (v : V) : put [] k v = [(k, v)] := rfl

/-- C290: `BiClassifier` passes the data on; the message has exactly the results that were asked for, each under its own key, which is the prefix and
the name of the result; there is no message if nothing was asked for. -/
theorem bi_execute {X V : Type} (label rank prob : X → V) (labels probs ranks : Ask) (x : X) :
    (biExecute label rank prob labels probs ranks x).1 = x ∧
    ∃ m : List (String × V), m = ((labels.key "labels").map fun k => (k, label x)).toList ++ ((probs.key "probs").map fun k => (k, prob x)).toList ++
        ((ranks.key "ranks").map fun k => (k, rank x)).toList ∧
      (m.map (·.1)).Nodup ∧ (biExecute label rank prob labels probs ranks x).2 = if m = [] then none else some m := by
  have d1 : ∀ {k l}, labels.key "labels" = some k → probs.key "probs" = some l → k ≠ l := by
    intro k l h1 h2 e
    have h3 := key_end labels (by decide) h1
    have h4 := key_end probs (by decide) h2
    rw [e, h4] at h3
    exact absurd h3 (by decide)
  have d2 : ∀ {k l}, labels.key "labels" = some k → ranks.key "ranks" = some l → k ≠ l := by
    intro k l h1 h2 e
    have h3 := key_end labels (by decide) h1
    have h4 := key_end ranks (by decide) h2
    rw [e, h4] at h3
    exact absurd h3 (by decide)
  have d3 : ∀ {k l}, probs.key "probs" = some k → ranks.key "ranks" = some l → k ≠ l := by
    intro k l h1 h2 e
    have h3 := key_end probs (by decide) h1
    have h4 := key_end ranks (by decide) h2
    rw [e, h4] at h3
    exact absurd h3 (by decide)
  refine ⟨rfl, _, rfl, ?_, ?_⟩
  · cases hl : labels.key "labels" <;> cases hp : probs.key "probs" <;> cases hr : ranks.key "ranks" <;> simp
    · exact d3 hp hr
    · exact d2 hl hr
    · exact d1 hl hp
    · exact ⟨⟨d1 hl hp, d2 hl hr⟩, d3 hp hr⟩
  · simp only [biExecute]
    cases hl : labels.key "labels" <;> cases hp : probs.key "probs" <;> cases hr : ranks.key "ranks" <;> simp only [Option.map_none, Option.map_some, Option.toList, List.nil_append, List.append_nil]
    all_goals try rfl
    · rw [put_nil, put_new _ _ _ (by simpa using d3 hp hr)]; rfl
    · rw [put_nil, put_new _ _ _ (by simpa using d2 hl hr)]; try rfl
    · rw [put_nil, put_new _ _ _ (by simpa using d1 hl hp)]; try rfl
    · rw [put_nil, put_new [_] _ _ (by simpa using d1 hl hp), put_new _ _ _ (by simpa using ⟨d2 hl hr, d3 hp hr⟩)]; try rfl

example : (biExecute (X := Nat) (fun x => x + 1) (fun x => x + 2) (fun x => x + 3) .yes .no (.prefix' "a->") 5) =
    (5, some [("labels", 6), ("a->ranks", 7)]) := by decide

/-! ## Labels as numbers -/

/-- `_LabelNormalizer` (mdp/nodes/svm_classifiers.py 13-63) in the modes `dual` and `multi`: the dictionaries `_mapping` and `_inverse`. In the mode `id`
both methods return their argument. -/
structure Norm (L : Type) where
  mapping : List (L × Int)
  inverse : List (Int × L)

/-- `__init__` (21-50) for the mode `dual` (`dual = true`) or `multi`. `set` is the set of the labels, in the order in which Python goes through it. The
check of `_set_label_dicts` (57-59) compares the numbers of keys. -/
def Norm.new [DecidableEq L] (dual : Bool) (set : List L) : Except Err (Norm L) :=
  if dual = true ∧ set.length > 2 then .error .node
  else
    let t : List (L × Int) := set.zip (if dual then [1, -1] else (List.range set.length).map fun (i : Nat) => (i : Int))
    let inv := t.map fun p => (p.2, p.1)
    if (t.map (·.1)).dedup.length = t.length ∧ t.length = (inv.map (·.1)).dedup.length then .ok ⟨t, inv⟩ else .error .node

/-- `normalize` (61-62); `dict.get` gives `None` for other labels. -/
def Norm.normalize [DecidableEq L] (n : Norm L) (l : List L) : List (Option Int) := l.map fun a => n.mapping.lookup a

/-- `revert` (64-65). -/
def Norm.revert (n : Norm L) (l : List (Option Int)) : List (Option L) := l.map fun a => a.bind fun i => n.inverse.lookup i

theorem lookup_of_nodup {K V : Type} [BEq K] [LawfulBEq K] (l : List (K × V)) (h : (l.map (·.1)).Nodup) {p : K × V} (hp : p ∈ l) :
    l.lookup p.1 = some p.2 := by
  induction l with
  | nil => cases hp
  | cons q l ih =>
    rw [List.map_cons, List.nodup_cons] at h
    rcases List.mem_cons.1 hp with rfl | hp
    · simp [List.lookup]
    · have : ¬p.1 = q.1 := fun e => h.1 (e ▸ List.mem_map_of_mem hp)
      have hb : (p.1 == q.1) = false := by simpa using this
      rw [List.lookup, hb]
      exact ih h.2 hp

/-- C291: two labels at most in the mode `dual`, any number in the mode `multi`: each label has a number of its own, `1` and `-1` or `0, 1, …`, and
`revert` undoes `normalize` for all the labels. Other labels become `None`. -/
theorem normalizer_round_trip [DecidableEq L] (dual : Bool) (set : List L) (hs : set.Nodup) (h : dual = true → set.length ≤ 2) :
    ∃ n, Norm.new dual set = .ok n ∧
      (∀ l : List L, (∀ a ∈ l, a ∈ set) → n.revert (n.normalize l) = l.map some ∧
        ∀ i ∈ n.normalize l, ∃ k, i = some k ∧ if dual then k = 1 ∨ k = -1 else 0 ≤ k ∧ k < set.length) ∧
      (∀ a b, a ∈ set → b ∈ set → n.normalize [a] = n.normalize [b] → a = b) ∧ ∀ a, a ∉ set → n.normalize [a] = [none] := by
  generalize hc : (if dual then [1, -1] else (List.range set.length).map fun (i : Nat) => (i : Int)) = codes
  have hcn : codes.Nodup := by
    subst hc
    split
    · decide
    · exact List.Nodup.map (fun a b e => by exact_mod_cast e) List.nodup_range
  have hcl : set.length ≤ codes.length := by
    subst hc
    split
    · next e => exact h e
    · simp
  have hcm : ∀ k ∈ codes, if dual then k = 1 ∨ k = -1 else 0 ≤ k ∧ k < set.length := by
    intro k hk
    subst hc
    split
    · next e => rw [if_pos e] at hk; simpa using hk
    · next e =>
      rw [if_neg e] at hk
      obtain ⟨i, hi, rfl⟩ := List.mem_map.1 hk
      rw [List.mem_range] at hi
      omega
  have k1 : ((set.zip codes).map (·.1)) = set := List.map_fst_zip hcl
  have k2 : (((set.zip codes).map fun p => (p.2, p.1)).map (·.1)).Nodup := by
    rw [List.map_map]
    have : ((set.zip codes).map ((fun p : Int × L => p.1) ∘ fun p : L × Int => (p.2, p.1))) = (set.zip codes).map (·.2) := rfl
    rw [this]
    refine List.Nodup.sublist ?_ hcn
    have : (set.zip codes).map (·.2) = codes.take set.length := by
      have h1 := List.map_snd_zip (l₁ := set) (l₂ := codes.take set.length) (by rw [List.length_take]; exact Nat.min_le_left _ _)
      rw [← h1]
      congr 1
      rw [List.zip_eq_zip_take_min, Nat.min_eq_left hcl, List.take_length]
    rw [this]
    exact List.take_sublist _ _
  have find : ∀ a ∈ set, ∃ k, (a, k) ∈ set.zip codes := by
    intro a ha
    rw [← k1] at ha
    obtain ⟨⟨a', k⟩, hp, rfl⟩ := List.mem_map.1 ha
    exact ⟨k, hp⟩
  have fwd : ∀ {a k}, (a, k) ∈ set.zip codes → (set.zip codes).lookup a = some k := fun {a k} hp =>
    lookup_of_nodup _ (by rw [k1]; exact hs) hp
  have bwd : ∀ {a k}, (a, k) ∈ set.zip codes → ((set.zip codes).map fun p => (p.2, p.1)).lookup k = some a := fun {a k} hp =>
    lookup_of_nodup _ k2 (List.mem_map_of_mem (f := fun p : L × Int => (p.2, p.1)) hp)
  refine ⟨⟨set.zip codes, (set.zip codes).map fun p => (p.2, p.1)⟩, ?_, ?_, ?_, ?_⟩
  · simp only [Norm.new, hc]
    rw [if_neg (fun e => by have := h e.1; omega), if_pos]
    rw [k1, List.Nodup.dedup hs, List.Nodup.dedup k2]
    simp [List.length_zip, hcl]
  · intro l hl
    refine ⟨?_, ?_⟩
    · simp only [Norm.revert, Norm.normalize, List.map_map]
      refine List.map_congr_left fun a ha => ?_
      obtain ⟨k, hk⟩ := find a (hl a ha)
      simp only [Function.comp, fwd hk, Option.bind_some, bwd hk]
    · intro i hi
      obtain ⟨a, ha, rfl⟩ := List.mem_map.1 hi
      obtain ⟨k, hk⟩ := find a (hl a ha)
      exact ⟨k, fwd hk, hcm k (List.of_mem_zip hk).2⟩
  · intro a b ha hb e
    obtain ⟨k, hk⟩ := find a ha
    obtain ⟨k', hk'⟩ := find b hb
    simp only [Norm.normalize, List.map_cons, List.map_nil, fwd hk, fwd hk', List.cons.injEq, Option.some.injEq, and_true] at e
    subst e
    have := bwd hk
    rw [bwd hk'] at this
    exact (Option.some.inj this).symm
  · intro a ha
    simp only [Norm.normalize, List.map_cons, List.map_nil, List.cons.injEq, and_true]
    cases hl : (set.zip codes).lookup a with
    | none => rfl
    | some k => 
      exfalso
      refine ha (k1 ▸ ?_)
      rw [List.lookup_eq_some_iff] at hl
      obtain ⟨l1, l2, e, -⟩ := hl
      rw [e]
      simp

/-- C291: three labels are refused in the mode `dual`. -/
theorem normalizer_refused [DecidableEq L] (set : List L) (h : set.length > 2) : Norm.new true set = .error .node := by simp [Norm.new, h]

example : ∃ n, Norm.new false ["a", "c", "b"] = .ok n ∧ n.normalize ["b", "a", "b"] = [some 2, some 0, some 2] := ⟨_, rfl, by decide⟩

end Mdp.Classifier
