import Mathlib.Data.List.Perm.Subperm
import Verif.Utils.OrderedDict

/-!
# Copies, pickles and comparison of ordered dictionaries

Models the methods of `mdp/utils/_ordered_dict.py` that are built on iteration and assignment: `items`, `update`, the
constructor, `copy`, `__reduce__`, `fromkeys`, `setdefault`, `pop`, `__eq__`.  `setdefault`, `pop`, `update` and
`iteritems` are those of `UserDict.DictMixin` (Python 2), which the class takes over (lines 74-81).
-/

namespace Mdp.ODict

variable {K V : Type} [DecidableEq K]

/-- `items()` (`DictMixin.iteritems`: `for k in self: yield (k, self[k])`), with at most `n` steps of the iteration. -/
def items (s : State K V) (n : Nat) : Option (List (K × V)) :=
  match iterate s n with
  | none => none
  | some ks => ks.mapM fun k => k.bind fun k => (s.dict.lookup k).map fun v => (k, v)

/-- `update(items)` (`DictMixin.update`). -/
def update (s : State K V) (l : List (K × V)) : State K V := l.foldl (fun s e => setItem s e.1 e.2) s

/-- `OrderedDict(items)` (lines 7-14): a new object has no `__end`, so it is cleared first. -/
def new (s0 : State K V) (l : List (K × V)) : State K V := update (clear s0) l

/-- `copy()` (lines 88-89). `s0` is the memory of the new object. -/
def copy (s0 s : State K V) (n : Nat) : Option (State K V) := (items s n).map (new s0)

/-- An instance: the dictionary and the attributes other than `__map` and `__end`. -/
structure Obj (K V A : Type) where
  st : State K V
  attrs : List (Nat × A)

/-- `__reduce__` (lines 60-68): the arguments of the constructor, and the attributes if there are any. `__map` and `__end`
are deleted for a moment and put back, the object is as before. -/
def reduce {A : Type} (o : Obj K V A) (n : Nat) : Option (List (K × V) × Option (List (Nat × A))) :=
  (items o.st n).map fun l => (l, if o.attrs = [] then none else some o.attrs)

/-- What `pickle` and `copy.copy` do with the result of `__reduce__`: call the class, update the attributes. -/
def rebuild {A : Type} (s0 : State K V) (r : List (K × V) × Option (List (Nat × A))) : Obj K V A :=
  ⟨new s0 r.1, r.2.getD []⟩

/-- `fromkeys(iterable, value)` (lines 91-96). -/
def fromKeys (s0 : State K V) (ks : List K) (v : V) : State K V := ks.foldl (fun s k => setItem s k v) (clear s0)

/-- `DictMixin.setdefault`. -/
def setDefault (s : State K V) (k : K) (v : V) : V × State K V :=
  match s.dict.lookup k with
  | some w => (w, s)
  | none => (v, setItem s k v)

/-- `DictMixin.pop`; `none`: `KeyError`. -/
def pop (s : State K V) (k : K) (dflt : Option V) : Option V × State K V :=
  match s.dict.lookup k with
  | none => (dflt, s)
  | some v => match delItem s k with
    | none => (none, s)
    | some s' => (some v, s')

/-- `__eq__` with another `OrderedDict` (lines 98-100). -/
def eqOrdered [DecidableEq V] (s t : State K V) (n : Nat) : Option Bool :=
  if s.dict.length ≠ t.dict.length then some false
  else match items s n, items t n with
    | some a, some b => some (decide (a = b))
    | _, _ => none

/-- `dict.__eq__`. -/
def dictEq [DecidableEq V] (a b : List (K × V)) : Bool :=
  decide (a.length = b.length) && a.all fun e => decide (b.lookup e.1 = some e.2)

/-- `__eq__` with a dictionary that is not an `OrderedDict` (line 101). -/
def eqDict [DecidableEq V] (s : State K V) (d : List (K × V)) : Bool := dictEq s.dict d

/-! ### Lemmas -/

theorem rep_iterate {s : State K V} {l : List (K × V)} {ids : List Nat} (h : Rep s l ids) {n : Nat} (hn : l.length < n) :
    iterate s n = some (l.map fun e => some e.1) := by
  have hs := (List.nodup_cons.1 h.nodup).1
  have hlen : ids.length = l.length := by
    have := congrArg List.length h.keys
    simpa using this
  unfold iterate
  rw [walk_next ids _ n h.linked hs (by omega), h.keys]

theorem rep_items {s : State K V} {l : List (K × V)} {ids : List Nat} (h : Rep s l ids) {n : Nat} (hn : l.length < n) :
    items s n = some l := by
  have key : ∀ l' : List (K × V), (∀ e ∈ l', e ∈ l) →
      (l'.map fun e => some e.1).mapM (fun k : Option K => k.bind fun k => (s.dict.lookup k).map fun v => (k, v)) = some l' := by
    intro l'
    induction l' with
    | nil => intro _; rfl
    | cons e r ih =>
      intro hm
      have he : s.dict.lookup e.1 = some e.2 := lookup_perm h.dict h.distinct (hm e (by simp))
      rw [List.map_cons, List.mapM_cons, ih fun e he => hm e (by simp [he])]
      simp [he]
  unfold items
  rw [rep_iterate h hn]
  exact key l fun _ h => h

theorem update_rep (l2 : List (K × V)) : ∀ {s : State K V} {l : List (K × V)}, (∃ ids, Rep s l ids) →
    ∃ ids, Rep (update s l2) (l2.foldl (fun l e => SpecSet l e.1 e.2) l) ids := by
  induction l2 with
  | nil => intro s l h; exact h
  | cons e r ih => intro s l h; exact ih (apply_rep h (.set e.1 e.2))

theorem specSet_all (r : List (K × V)) : ∀ l : List (K × V), ((l ++ r).map Prod.fst).Nodup →
    r.foldl (fun l e => SpecSet l e.1 e.2) l = l ++ r := by
  induction r with
  | nil => intro l _; simp
  | cons e r ih =>
    intro l h
    have he : e.1 ∉ l.map Prod.fst := by
      rw [List.map_append, List.nodup_append] at h
      intro hm
      exact h.2.2 e.1 hm e.1 (by simp) rfl
    rw [List.foldl_cons]
    have : SpecSet l e.1 e.2 = l ++ [e] := by
      unfold SpecSet
      rw [if_neg he]
    rw [this, ih _ (by simpa using h)]
    simp

theorem new_rep (s0 : State K V) {l : List (K × V)} (h : (l.map Prod.fst).Nodup) : ∃ ids, Rep (new s0 l) l ids := by
  obtain ⟨ids, hr⟩ := update_rep l (s := clear s0) (l := []) ⟨[], clear_rep s0⟩
  rw [specSet_all l [] (by simpa using h)] at hr
  exact ⟨ids, hr⟩

/-! ### Specification and theorems

In all theorems the dictionary is one that any sequence of assignments, deletions and clearings left. -/

/-- `items()` gives the items in the order of insertion. -/
theorem items_spec (s0 : State K V) (ops : List (Op K V)) (n : Nat)
    (hn : (ops.foldl SpecApply ([] : List (K × V))).length < n) :
    items (ops.foldl apply (clear s0)) n = some (ops.foldl SpecApply []) := by
  obtain ⟨ids, h⟩ := applyAll_rep ops ⟨[], clear_rep s0⟩
  exact rep_items h hn

/-- **A copy** has the same items in the same order, and behaves like the original ever after: any further operations on
the copy and the same ones on the original give the same items. -/
theorem copy_spec (s0 s1 : State K V) (ops : List (Op K V)) (n : Nat)
    (hn : (ops.foldl SpecApply ([] : List (K × V))).length < n) :
    ∃ c, copy s1 (ops.foldl apply (clear s0)) n = some c ∧
      ∀ (more : List (Op K V)) (n' : Nat), (more.foldl SpecApply (ops.foldl SpecApply ([] : List (K × V)))).length < n' →
        items (more.foldl apply c) n' = items (more.foldl apply (ops.foldl apply (clear s0))) n' ∧
        (items (more.foldl apply c) n').isSome := by
  obtain ⟨ids, h⟩ := applyAll_rep ops ⟨[], clear_rep s0⟩
  refine ⟨new s1 (ops.foldl SpecApply []), ?_, ?_⟩
  · unfold copy
    rw [rep_items h hn]
    rfl
  · intro more n' hn'
    obtain ⟨_, h1⟩ := applyAll_rep more (new_rep s1 h.distinct)
    obtain ⟨_, h2⟩ := applyAll_rep more ⟨ids, h⟩
    rw [rep_items h1 hn', rep_items h2 hn']
    exact ⟨rfl, rfl⟩

/-- **Pickling**: the object rebuilt from `__reduce__` has the same items in the same order and the same attributes. -/
theorem pickle_spec {A : Type} (s0 s1 : State K V) (ops : List (Op K V)) (attrs : List (Nat × A)) (n : Nat)
    (hn : (ops.foldl SpecApply ([] : List (K × V))).length < n) :
    ∃ r, reduce ⟨ops.foldl apply (clear s0), attrs⟩ n = some r ∧ (rebuild s1 r).attrs = attrs ∧
      items (rebuild s1 r).st n = some (ops.foldl SpecApply []) := by
  obtain ⟨ids, h⟩ := applyAll_rep ops ⟨[], clear_rep s0⟩
  refine ⟨_, by unfold reduce; rw [rep_items h hn]; rfl, ?_, ?_⟩
  · simp only [rebuild]
    split
    · rename_i ha; rw [ha]; rfl
    · rfl
  · obtain ⟨_, h1⟩ := new_rep s1 h.distinct
    exact rep_items h1 hn

/-- **`fromkeys`**: the distinct keys in the order of their first occurrence, all with the value. -/
theorem fromkeys_spec (s0 : State K V) (ks : List K) (v : V) (n : Nat) (hn : ks.length < n) :
    ∃ l, items (fromKeys s0 ks v) n = some l ∧ (l.map Prod.fst).Nodup ∧ (∀ e ∈ l, e.2 = v) ∧
      (∀ k, k ∈ l.map Prod.fst ↔ k ∈ ks) ∧
      (l.map Prod.fst).Pairwise (fun a b => ks.idxOf a < ks.idxOf b) := by
  have key : ∀ (r done : List K) (s : State K V) (l : List (K × V)) (ids : List Nat), Rep s l ids →
      (∀ e ∈ l, e.2 = v) → (∀ k, k ∈ l.map Prod.fst ↔ k ∈ done) → l.length ≤ done.length →
      (l.map Prod.fst).Pairwise (fun a b => done.idxOf a < done.idxOf b) →
      ∃ l' ids', Rep (r.foldl (fun s k => setItem s k v) s) l' ids' ∧ (∀ e ∈ l', e.2 = v) ∧
        (∀ k, k ∈ l'.map Prod.fst ↔ k ∈ done ++ r) ∧ l'.length ≤ (done ++ r).length ∧
        (l'.map Prod.fst).Pairwise (fun a b => (done ++ r).idxOf a < (done ++ r).idxOf b) := by
    intro r
    induction r with
    | nil =>
      intro done s l ids h h1 h2 h3 h4
      exact ⟨l, ids, h, h1, by simpa using h2, by simpa using h3, by simpa using h4⟩
    | cons k r ih =>
      intro done s l ids h h1 h2 h3 h4
      obtain ⟨ids', hr⟩ := setItem_rep h k v
      have hidx : ∀ a ∈ done, (done ++ [k]).idxOf a = done.idxOf a := fun a ha => List.idxOf_append_of_mem ha
      have := ih (done ++ [k]) (setItem s k v) (SpecSet l k v) ids' hr ?_ ?_ ?_ ?_
      · simpa using this
      · intro e he
        unfold SpecSet at he
        split at he
        · obtain ⟨e', he', rfl⟩ := List.mem_map.1 he
          split
          · rfl
          · exact h1 e' he'
        · rcases List.mem_append.1 he with he | he
          · exact h1 e he
          · simp only [List.mem_singleton] at he; rw [he]
      · intro a
        unfold SpecSet
        split
        · rename_i hk
          have : (l.map fun e => if e.1 = k then (k, v) else e).map Prod.fst = l.map Prod.fst := by
            rw [List.map_map]
            apply List.map_congr_left
            intro e _
            simp only [Function.comp]
            split
            · rename_i q; exact q.symm
            · rfl
          rw [this, h2]
          constructor
          · intro h; simp [h]
          · intro h
            rcases List.mem_append.1 h with h | h
            · exact h
            · simp only [List.mem_singleton] at h
              rw [h]
              exact (h2 k).1 hk
        · rw [List.map_append, List.mem_append, h2]
          simp
      · unfold SpecSet
        split
        · simp; omega
        · simp; exact h3
      · unfold SpecSet
        split
        · rename_i hk
          have : (l.map fun e => if e.1 = k then (k, v) else e).map Prod.fst = l.map Prod.fst := by
            rw [List.map_map]
            apply List.map_congr_left
            intro e _
            simp only [Function.comp]
            split
            · rename_i q; exact q.symm
            · rfl
          rw [this]
          refine h4.imp_of_mem ?_
          intro a b ha hb hab
          rw [hidx a ((h2 a).1 ha), hidx b ((h2 b).1 hb)]
          exact hab
        · rename_i hk
          rw [List.map_append, List.pairwise_append]
          refine ⟨?_, by simp, ?_⟩
          · refine h4.imp_of_mem ?_
            intro a b ha hb hab
            rw [hidx a ((h2 a).1 ha), hidx b ((h2 b).1 hb)]
            exact hab
          · intro a ha b hb
            simp only [List.map_cons, List.map_nil, List.mem_singleton] at hb
            subst hb
            have hka : b ∉ done := fun q => hk ((h2 b).2 q)
            rw [hidx a ((h2 a).1 ha), List.idxOf_append_of_notMem hka]
            have := List.idxOf_lt_length_of_mem ((h2 a).1 ha)
            omega
  obtain ⟨l, ids, h, h1, h2, h3, h4⟩ := key ks [] (clear s0) [] [] (clear_rep s0) (by simp) (by simp) (by simp) (by simp)
  refine ⟨l, rep_items h ?_, h.distinct, h1, by simpa using h2, by simpa using h4⟩
  have : l.length ≤ ks.length := by simpa using h3
  omega

theorem lookup_rep {s : State K V} {l : List (K × V)} {ids : List Nat} (h : Rep s l ids) (k : K) :
    s.dict.lookup k = l.lookup k := by
  cases hl : l.lookup k with
  | none =>
    rw [List.lookup_eq_none_iff] at hl ⊢
    intro p hp
    exact hl p (h.dict.mem_iff.1 hp)
  | some v =>
    refine lookup_perm h.dict h.distinct ?_
    obtain ⟨l1, l2, rfl, _⟩ := List.lookup_eq_some_iff.1 hl
    simp

/-- **`setdefault`** returns the value of a known key and changes nothing; a new key is appended with the default. -/
theorem setdefault_spec (s0 : State K V) (ops : List (Op K V)) (k : K) (v : V) :
    let s := ops.foldl apply (clear s0)
    let l := ops.foldl SpecApply ([] : List (K × V))
    (∀ w, l.lookup k = some w → setDefault s k v = (w, s)) ∧
    (l.lookup k = none → (setDefault s k v).1 = v ∧
      ∀ n, l.length + 1 < n → items (setDefault s k v).2 n = some (l ++ [(k, v)])) := by
  obtain ⟨ids, h⟩ := applyAll_rep ops ⟨[], clear_rep s0⟩
  simp only
  generalize ops.foldl apply (clear s0) = s at h ⊢
  generalize ops.foldl SpecApply ([] : List (K × V)) = l at h ⊢
  constructor
  · intro w hw
    unfold setDefault
    rw [lookup_rep h, hw]
  · intro hw
    have hk : k ∉ l.map Prod.fst := by
      rw [List.lookup_eq_none_iff] at hw
      intro hm
      obtain ⟨e, he, rfl⟩ := List.mem_map.1 hm
      have := hw e he
      simp at this
    have e : setDefault s k v = (v, setItem s k v) := by
      unfold setDefault
      rw [lookup_rep h, hw]
    rw [e]
    refine ⟨rfl, fun n hn => ?_⟩
    obtain ⟨_, hr⟩ := setItem_rep h k v
    unfold SpecSet at hr
    rw [if_neg hk] at hr
    exact rep_items hr (by simpa using hn)

/-- **`pop`** removes a known key and returns its value; for another key it returns the default, or raises without one, and
changes nothing. -/
theorem pop_spec (s0 : State K V) (ops : List (Op K V)) (k : K) (dflt : Option V) :
    let s := ops.foldl apply (clear s0)
    let l := ops.foldl SpecApply ([] : List (K × V))
    (∀ w, l.lookup k = some w → (pop s k dflt).1 = some w ∧
      ∀ n, l.length < n → items (pop s k dflt).2 n = some (l.filter fun e => e.1 ≠ k)) ∧
    (l.lookup k = none → pop s k dflt = (dflt, s)) := by
  obtain ⟨ids, h⟩ := applyAll_rep ops ⟨[], clear_rep s0⟩
  simp only
  generalize ops.foldl apply (clear s0) = s at h ⊢
  generalize ops.foldl SpecApply ([] : List (K × V)) = l at h ⊢
  constructor
  · intro w hw
    have hk : k ∈ l.map Prod.fst := by
      obtain ⟨l1, l2, rfl, _⟩ := List.lookup_eq_some_iff.1 hw
      simp
    obtain ⟨s', ids', e, hr⟩ := delItem_rep h k hk
    have : pop s k dflt = (some w, s') := by
      unfold pop
      rw [lookup_rep h, hw]
      simp only [e]
    rw [this]
    refine ⟨rfl, fun n hn => ?_⟩
    have hle : (SpecDel l k).length ≤ l.length := List.length_filter_le _ _
    exact rep_items hr (by omega)
  · intro hw
    unfold pop
    rw [lookup_rep h, hw]

/-- **Comparison with an `OrderedDict`**: equal if and only if the items are the same, in the same order. -/
theorem eq_ordered_spec [DecidableEq V] (s0 s1 : State K V) (ops ops' : List (Op K V)) (n : Nat)
    (hn : (ops.foldl SpecApply ([] : List (K × V))).length < n)
    (hn' : (ops'.foldl SpecApply ([] : List (K × V))).length < n) :
    eqOrdered (ops.foldl apply (clear s0)) (ops'.foldl apply (clear s1)) n =
      some (decide (ops.foldl SpecApply [] = ops'.foldl SpecApply ([] : List (K × V)))) := by
  obtain ⟨ids, h⟩ := applyAll_rep ops ⟨[], clear_rep s0⟩
  obtain ⟨ids', h'⟩ := applyAll_rep ops' ⟨[], clear_rep s1⟩
  unfold eqOrdered
  rw [rep_items h hn, rep_items h' hn']
  split
  · rename_i hl
    rw [h.dict.length_eq, h'.dict.length_eq] at hl
    symm
    rw [Option.some.injEq, decide_eq_false_iff_not]
    intro q
    exact hl (by rw [q])
  · rfl

theorem lookup_mem {d : List (K × V)} (hd : (d.map Prod.fst).Nodup) (k : K) (v : V) :
    d.lookup k = some v ↔ (k, v) ∈ d := by
  constructor
  · intro h
    obtain ⟨l1, l2, rfl, _⟩ := List.lookup_eq_some_iff.1 h
    simp
  · intro h
    exact lookup_perm (List.Perm.refl _) hd h

/-- **Comparison with another dictionary**: equal if and only if every key has the same value in both; the order does not
matter. -/
theorem eq_dict_spec [DecidableEq V] (s0 : State K V) (ops : List (Op K V)) (d : List (K × V))
    (hd : (d.map Prod.fst).Nodup) :
    eqDict (ops.foldl apply (clear s0)) d = true ↔
      ∀ k, (ops.foldl SpecApply ([] : List (K × V))).lookup k = d.lookup k := by
  obtain ⟨ids, h⟩ := applyAll_rep ops ⟨[], clear_rep s0⟩
  generalize ops.foldl apply (clear s0) = s at h ⊢
  generalize ops.foldl SpecApply ([] : List (K × V)) = l at h ⊢
  have hsd : (s.dict.map Prod.fst).Nodup := (h.dict.map Prod.fst).nodup_iff.2 h.distinct
  have e : eqDict s d = true ↔ s.dict.length = d.length ∧ ∀ p ∈ s.dict, p ∈ d := by
    unfold eqDict dictEq
    simp only [Bool.and_eq_true, decide_eq_true_eq, List.all_eq_true]
    refine and_congr_right fun _ => forall₂_congr fun p hp => ?_
    exact lookup_mem hd p.1 p.2
  rw [e]
  constructor
  · rintro ⟨h1, h2⟩ k
    have hp : s.dict.Perm d :=
      (List.subperm_of_subset (List.Nodup.of_map _ hsd) h2).perm_of_length_le (by omega)
    rw [← lookup_rep h]
    cases hk : d.lookup k with
    | some v => exact (lookup_mem hsd k v).2 (hp.mem_iff.2 ((lookup_mem hd k v).1 hk))
    | none =>
      cases hs : s.dict.lookup k with
      | none => rfl
      | some v => rw [(lookup_mem hd k v).2 (hp.mem_iff.1 ((lookup_mem hsd k v).1 hs))] at hk; cases hk
  · intro hk
    have hm : ∀ p : K × V, p ∈ s.dict ↔ p ∈ d := by
      intro p
      rw [← lookup_mem hsd p.1 p.2, ← lookup_mem hd p.1 p.2, lookup_rep h, hk]
    have hp : s.dict.Perm d := (List.perm_ext_iff_of_nodup (List.Nodup.of_map _ hsd) (List.Nodup.of_map _ hd)).2 hm
    exact ⟨hp.length_eq, fun p hp' => (hm p).1 hp'⟩

/-- **Equality is not transitive**: two `OrderedDict`s with the same items in different orders differ, but both are equal
to the same `dict`. -/
theorem eq_transitive_violation (s0 : State K V) [DecidableEq V] (a b : K) (hab : a ≠ b) (u v : V) :
    let s := [Op.set a u, Op.set b v].foldl apply (clear s0)
    let t := [Op.set b v, Op.set a u].foldl apply (clear s0)
    eqOrdered s t 3 = some false ∧ eqDict s [(a, u), (b, v)] = true ∧ eqDict t [(a, u), (b, v)] = true := by
  have hd : (([(a, u), (b, v)] : List (K × V)).map Prod.fst).Nodup := by simp [hab]
  have e1 : [Op.set a u, Op.set b v].foldl SpecApply ([] : List (K × V)) = [(a, u), (b, v)] := by
    simp [SpecApply, SpecSet, hab.symm]
  have e2 : [Op.set b v, Op.set a u].foldl SpecApply ([] : List (K × V)) = [(b, v), (a, u)] := by
    simp [SpecApply, SpecSet, hab]
  refine ⟨?_, ?_, ?_⟩
  · rw [eq_ordered_spec _ _ _ _ _ (by rw [e1]; simp) (by rw [e2]; simp), e1, e2]
    simp [hab]
  · rw [eq_dict_spec _ _ _ hd, e1]
    exact fun _ => rfl
  · rw [eq_dict_spec _ _ _ hd, e2]
    intro k
    by_cases ha : k = a
    · subst ha
      have : (k == b) = false := by simpa using hab
      simp [List.lookup, this]
    · by_cases hb : k = b
      · subst hb
        have : (k == a) = false := by simpa using ha
        simp [List.lookup, this]
      · have h1 : (k == a) = false := by simpa using ha
        have h2 : (k == b) = false := by simpa using hb
        simp [List.lookup, h1, h2]

/-! ### Concrete cases -/

example : items (exOps.foldl apply (clear ex0)) 4 = some [(5, 7), (9, 4), (3, 8)] := by decide

example : ((copy ex0 (exOps.foldl apply (clear ex0)) 4).bind fun c => items (setItem c 1 1) 9) =
    some [(5, 7), (9, 4), (3, 8), (1, 1)] := by decide

example : items (fromKeys ex0 [4, 2, 4, 9, 2] 1) 6 = some [(4, 1), (2, 1), (9, 1)] := by decide

example : (pop (exOps.foldl apply (clear ex0)) 9 none).1 = some 4 := by decide

example : (setDefault (exOps.foldl apply (clear ex0)) 9 100).1 = 4 ∧
    (setDefault (exOps.foldl apply (clear ex0)) 8 100).1 = 100 := by decide

example : eqOrdered (exOps.foldl apply (clear ex0)) ([.set 5 7, .set 9 4, .set 3 8].foldl apply (clear ex0)) 4 = some true := by
  decide

example : eqDict (exOps.foldl apply (clear ex0)) [(3, 8), (5, 7), (9, 4)] = true ∧
    eqDict (exOps.foldl apply (clear ex0)) [(3, 8), (5, 7)] = false := by decide

end Mdp.ODict
