import Mathlib.Data.List.Basic
import Mathlib.Data.List.Nodup
import Mathlib.Tactic.Common

/-!
# The ordered dictionary

Models `mdp/utils/_ordered_dict.py`: a dictionary whose keys are also the cells of a circular doubly
linked list with a sentinel, `[key, prev, next]`.  The cells live in a store with addresses; a new cell
takes the next free address.

The inherited `dict` is an association list without an order that matters.  Iteration
(`while curr is not end`) is modelled with a bound on the number of steps; the theorems show that the
loop ends by itself.
-/

namespace Mdp.ODict

variable {K V : Type} [DecidableEq K]

/-- The object: the cells (`key`, `prev`, `next`), the address of the sentinel (`__end`), the
dictionary `__map` from keys to cells, the inherited dictionary, the next free address. -/
structure State (K V : Type) where
  key : Nat → Option K
  prev : Nat → Nat
  next : Nat → Nat
  sentinel : Nat
  map : K → Option Nat
  dict : List (K × V)
  free : Nat

def upd {A : Type} (f : Nat → A) (i : Nat) (a : A) : Nat → A := fun j => if j = i then a else f j

/-- `clear` (lines 17-21): a new sentinel that is its own neighbour. -/
def clear (s : State K V) : State K V :=
  { s with
    key := upd s.key s.free none
    prev := upd s.prev s.free s.free
    next := upd s.next s.free s.free
    sentinel := s.free
    map := fun _ => none
    dict := []
    free := s.free + 1 }

/-- `dict.__setitem__`. -/
def dictSet (d : List (K × V)) (k : K) (v : V) : List (K × V) :=
  if k ∈ d.map Prod.fst then d.map (fun e => if e.1 = k then (k, v) else e) else (k, v) :: d

/-- `__setitem__` (lines 23-28).  The chained assignment stores the new cell in `curr[2]`, in `end[1]`
and in the map. -/
def setItem (s : State K V) (k : K) (v : V) : State K V :=
  let s :=
    if k ∉ s.dict.map Prod.fst then
      let curr := s.prev s.sentinel
      let node := s.free
      let prev1 := upd s.prev node curr
      let next1 := upd s.next node s.sentinel
      { s with
        key := upd s.key node (some k)
        next := upd next1 curr node
        prev := upd prev1 s.sentinel node
        map := fun j => if j = k then some node else s.map j
        free := s.free + 1 }
    else s
  { s with dict := dictSet s.dict k v }

/-- `__delitem__` (lines 30-34); `none`: `KeyError` (from `dict.__delitem__`, before any change). -/
def delItem (s : State K V) (k : K) : Option (State K V) :=
  if k ∈ s.dict.map Prod.fst then
    match s.map k with
    | none => none
    | some c =>
      let p := s.prev c
      let n := s.next c
      some { s with
        dict := s.dict.filter (fun e => e.1 ≠ k)
        map := fun j => if j = k then none else s.map j
        next := upd s.next p n
        prev := upd s.prev n p }
  else none

/-- The loops of `__iter__` and `__reversed__` (lines 36-48), at most `n` steps; `none`: not at the
end yet. -/
def walk (key : Nat → Option K) (step : Nat → Nat) (stop : Nat) : Nat → Nat → Option (List (Option K))
  | 0, _ => none
  | n + 1, curr =>
    if curr = stop then some []
    else (walk key step stop n (step curr)).map (key curr :: ·)

/-- `list(self)`. -/
def iterate (s : State K V) (n : Nat) : Option (List (Option K)) :=
  walk s.key s.next s.sentinel n (s.next s.sentinel)

/-- `list(reversed(self))`. -/
def iterateBack (s : State K V) (n : Nat) : Option (List (Option K)) :=
  walk s.key s.prev s.sentinel n (s.prev s.sentinel)

/-- `popitem(last)` (lines 50-58): the first key delivered by `reversed(self)` or `iter(self)`. -/
def popItem (s : State K V) (last : Bool) : Option ((K × V) × State K V) :=
  if s.dict = [] then none
  else
    let c := if last then s.prev s.sentinel else s.next s.sentinel
    if c = s.sentinel then none
    else match s.key c with
      | none => none
      | some k => match s.dict.lookup k with
        | none => none
        | some v => (delItem s k).map (fun s' => ((k, v), s'))

/-! ### Specification: a list of items in the order of insertion -/

/-- Setting a known key keeps its place, a new key comes last. -/
def SpecSet (l : List (K × V)) (k : K) (v : V) : List (K × V) :=
  if k ∈ l.map Prod.fst then l.map (fun e => if e.1 = k then (k, v) else e) else l ++ [(k, v)]

def SpecDel (l : List (K × V)) (k : K) : List (K × V) := l.filter (fun e => e.1 ≠ k)

/-! ### The linked list -/

/-- Neighbours in the list of addresses are neighbours in the store. -/
def Linked (next prev : Nat → Nat) : List Nat → Prop
  | a :: b :: r => next a = b ∧ prev b = a ∧ Linked next prev (b :: r)
  | _ => True

theorem linked_congr {next prev next' prev' : Nat → Nat} : ∀ {l : List Nat},
    Linked next prev l → (∀ a ∈ l.dropLast, next' a = next a) → (∀ b ∈ l.tail, prev' b = prev b) →
    Linked next' prev' l
  | [], _, _, _ => trivial
  | [_], _, _, _ => trivial
  | a :: b :: r, h, h1, h2 => by
    refine ⟨?_, ?_, ?_⟩
    · rw [h1 a (by simp)]; exact h.1
    · rw [h2 b (by simp)]; exact h.2.1
    · apply linked_congr h.2.2
      · intro c hc
        exact h1 c (by rw [List.dropLast_cons_cons]; exact List.mem_cons_of_mem _ hc)
      · intro c hc
        exact h2 c (by simp only [List.tail_cons] at hc ⊢; exact List.mem_cons_of_mem _ hc)

theorem linked_append {next prev : Nat → Nat} : ∀ (A : List Nat) (p : Nat) (B : List Nat),
    Linked next prev (A ++ p :: B) ↔ Linked next prev (A ++ [p]) ∧ Linked next prev (p :: B)
  | [], p, B => by simp [Linked]
  | [a], p, B => by simp [Linked, and_assoc]
  | a :: b :: A, p, B => by
    have := linked_append (next := next) (prev := prev) (b :: A) p B
    simp only [List.cons_append, Linked] at this ⊢
    rw [this]
    simp [and_assoc]

/-- The object represents the list of items `l`. -/
structure Rep (s : State K V) (l : List (K × V)) (ids : List Nat) : Prop where
  nodup : (s.sentinel :: ids).Nodup
  bound : ∀ i ∈ s.sentinel :: ids, i < s.free
  linked : Linked s.next s.prev (s.sentinel :: ids ++ [s.sentinel])
  keys : ids.map s.key = l.map (fun e => some e.1)
  distinct : (l.map Prod.fst).Nodup
  map : ∀ k i, s.map k = some i ↔ i ∈ ids ∧ s.key i = some k
  dict : s.dict.Perm l

theorem clear_rep (s : State K V) : Rep (clear s) [] [] where
  nodup := by simp
  bound := by simp [clear]
  linked := by simp [Linked, clear, upd]
  keys := rfl
  distinct := by simp
  map := by intro k i; simp [clear]
  dict := List.Perm.refl _

theorem mem_keys_perm {s : State K V} {l : List (K × V)} {ids : List Nat} (h : Rep s l ids) (k : K) :
    k ∈ s.dict.map Prod.fst ↔ k ∈ l.map Prod.fst := (h.dict.map Prod.fst).mem_iff

theorem dictSet_perm {d l : List (K × V)} (h : d.Perm l) (k : K) (v : V) :
    (dictSet d k v).Perm (SpecSet l k v) := by
  unfold dictSet SpecSet
  have hk : k ∈ d.map Prod.fst ↔ k ∈ l.map Prod.fst := (h.map Prod.fst).mem_iff
  by_cases hm : k ∈ l.map Prod.fst
  · rw [if_pos hm, if_pos (hk.2 hm)]
    exact h.map _
  · rw [if_neg hm, if_neg (fun q => hm (hk.1 q))]
    exact (List.Perm.cons _ h).trans (List.perm_append_singleton _ _).symm

theorem specSet_keys (l : List (K × V)) (k : K) (v : V) :
    (SpecSet l k v).map Prod.fst =
      if k ∈ l.map Prod.fst then l.map Prod.fst else l.map Prod.fst ++ [k] := by
  unfold SpecSet
  split
  · rw [List.map_map]
    apply List.map_congr_left
    intro e _
    by_cases h : e.1 = k <;> simp [h]
  · simp

theorem map_some_keys (l : List (K × V)) :
    l.map (fun e => some e.1) = (l.map Prod.fst).map some := by simp

theorem setItem_rep {s : State K V} {l : List (K × V)} {ids : List Nat} (h : Rep s l ids) (k : K)
    (v : V) : ∃ ids', Rep (setItem s k v) (SpecSet l k v) ids' := by
  by_cases hm : k ∈ l.map Prod.fst
  · have hd : k ∈ s.dict.map Prod.fst := (mem_keys_perm h k).2 hm
    refine ⟨ids, ?_⟩
    have e : setItem s k v = { s with dict := dictSet s.dict k v } := by
      unfold setItem
      rw [if_neg (by simpa using hd)]
    rw [e]
    exact {
      nodup := h.nodup
      bound := h.bound
      linked := h.linked
      keys := by
        rw [map_some_keys, specSet_keys, if_pos hm, ← map_some_keys]
        exact h.keys
      distinct := by rw [specSet_keys, if_pos hm]; exact h.distinct
      map := h.map
      dict := dictSet_perm h.dict k v }
  · have hd : k ∉ s.dict.map Prod.fst := fun q => hm ((mem_keys_perm h k).1 q)
    have hfree : s.free ∉ s.sentinel :: ids := fun q => absurd (h.bound _ q) (by omega)
    -- the last cell
    obtain ⟨A, p, hAp⟩ : ∃ A p, s.sentinel :: ids = A ++ [p] :=
      ⟨_, _, (List.dropLast_append_getLast (List.cons_ne_nil _ _)).symm⟩
    have hlink := h.linked
    rw [List.cons_append, ← List.cons_append, hAp, List.append_assoc] at hlink
    have hsplit := (linked_append A p [s.sentinel]).1 hlink
    have hp : s.prev s.sentinel = p := hsplit.2.2.1
    have hpm : p ∈ s.sentinel :: ids := by rw [hAp]; simp
    have hpfree : p ≠ s.free := fun q => hfree (q ▸ hpm)
    have hsfree : s.sentinel ≠ s.free := fun q => hfree (q ▸ List.mem_cons_self)
    refine ⟨ids ++ [s.free], ?_⟩
    have e : setItem s k v =
        { s with
          key := upd s.key s.free (some k)
          next := upd (upd s.next s.free s.sentinel) p s.free
          prev := upd (upd s.prev s.free p) s.sentinel s.free
          map := fun j => if j = k then some s.free else s.map j
          free := s.free + 1
          dict := dictSet s.dict k v } := by
      unfold setItem
      rw [if_pos hd]
      simp only [hp]
    rw [e]
    have hnd : (A ++ [p]).Nodup := by rw [← hAp]; exact h.nodup
    have hkeyids : ∀ i ∈ ids, upd s.key s.free (some k) i = s.key i := by
      intro i hi
      unfold upd
      have hif : i ≠ s.free := by
        intro q
        rw [q] at hi
        exact hfree (List.mem_cons_of_mem _ hi)
      rw [if_neg hif]
    exact {
      nodup := by
        rw [← List.cons_append, List.nodup_append]
        refine ⟨h.nodup, by simp, ?_⟩
        intro a ha b hb
        simp at hb
        subst hb
        intro q
        rw [q] at ha
        exact hfree ha
      bound := by
        intro i hi
        rw [← List.cons_append, List.mem_append] at hi
        rcases hi with hi | hi
        · have := h.bound i hi
          simp only
          omega
        · simp at hi
          simp only
          omega
      linked := by
        have el : s.sentinel :: (ids ++ [s.free]) ++ [s.sentinel] =
            A ++ p :: [s.free, s.sentinel] := by
          rw [← List.cons_append, hAp]
          simp
        show Linked _ _ (s.sentinel :: (ids ++ [s.free]) ++ [s.sentinel])
        rw [el, linked_append]
        refine ⟨?_, ?_, ?_, ?_, ?_, trivial⟩
        · apply linked_congr hsplit.1
          · intro a ha
            rw [List.dropLast_concat] at ha
            have hap : a ≠ p := by
              rintro rfl
              rw [List.nodup_append] at hnd
              exact hnd.2.2 a ha a (by simp) rfl
            have haf : a ≠ s.free := by
              rintro rfl
              exact hfree (by rw [hAp]; exact List.mem_append_left _ ha)
            simp [upd, hap, haf]
          · intro b hb
            rw [← hAp] at hb
            simp only [List.tail_cons] at hb
            have hbs : b ≠ s.sentinel := by
              rintro rfl
              exact (List.nodup_cons.1 h.nodup).1 hb
            have hbf : b ≠ s.free := by
              rintro rfl
              exact hfree (List.mem_cons_of_mem _ hb)
            simp [upd, hbs, hbf]
        · simp [upd]
        · simp [upd, hsfree.symm]
        · simp [upd, hpfree.symm]
        · simp [upd]
      keys := by
        rw [List.map_append, List.map_congr_left hkeyids, h.keys, map_some_keys, map_some_keys,
          specSet_keys, if_neg hm]
        simp [upd]
      distinct := by
        rw [specSet_keys, if_neg hm, List.nodup_append]
        refine ⟨h.distinct, by simp, ?_⟩
        intro a ha b hb
        simp at hb
        subst hb
        exact fun q => hm (q ▸ ha)
      map := by
        intro j i
        simp only [List.mem_append, List.mem_singleton]
        by_cases hj : j = k
        · subst hj
          simp only [if_true, Option.some.injEq]
          constructor
          · rintro rfl
            exact ⟨Or.inr rfl, by simp [upd]⟩
          · rintro ⟨hi | hi, hkey⟩
            · rw [hkeyids i hi] at hkey
              have : some j ∈ ids.map s.key := List.mem_map.2 ⟨i, hi, hkey⟩
              rw [h.keys, map_some_keys] at this
              simp only [List.mem_map, Option.some.injEq, exists_eq_right] at this
              exact absurd (List.mem_map.2 this) hm
            · exact hi.symm
        · simp only [if_neg hj, h.map j i]
          constructor
          · rintro ⟨hi, hkey⟩
            exact ⟨Or.inl hi, by rw [hkeyids i hi]; exact hkey⟩
          · rintro ⟨hi | hi, hkey⟩
            · exact ⟨hi, by rw [← hkeyids i hi]; exact hkey⟩
            · subst hi
              simp [upd] at hkey
              exact absurd hkey.symm hj
      dict := dictSet_perm h.dict k v }

theorem filter_ne_of_split {A B : List (K × V)} {k : K} {v : V}
    (hn : ((A ++ (k, v) :: B).map Prod.fst).Nodup) :
    (A ++ (k, v) :: B).filter (fun e => e.1 ≠ k) = A ++ B := by
  rw [List.map_append, List.map_cons, List.nodup_append, List.nodup_cons] at hn
  rw [List.filter_append, List.filter_cons_of_neg (by simp)]
  congr 1
  · rw [List.filter_eq_self]
    intro e he
    have := hn.2.2 e.1 (List.mem_map.2 ⟨e, he, rfl⟩) k (by simp)
    simpa using this
  · rw [List.filter_eq_self]
    intro e he
    have : e.1 ≠ k := fun q => hn.2.1.1 (List.mem_map.2 ⟨e, he, q⟩)
    simpa using this

theorem delItem_rep {s : State K V} {l : List (K × V)} {ids : List Nat} (h : Rep s l ids) (k : K)
    (hm : k ∈ l.map Prod.fst) :
    ∃ s' ids', delItem s k = some s' ∧ Rep s' (SpecDel l k) ids' := by
  have hd : k ∈ s.dict.map Prod.fst := (mem_keys_perm h k).2 hm
  obtain ⟨⟨k', v⟩, hkv, rfl⟩ := List.mem_map.1 hm
  simp only at hm hd ⊢
  obtain ⟨L1, L2, rfl⟩ := List.append_of_mem hkv
  have hkeys := h.keys
  rw [List.map_append, List.map_cons] at hkeys
  obtain ⟨X, Y', rfl, hX, hY'⟩ := List.map_eq_append_iff.1 hkeys
  obtain ⟨c, Y, rfl, hc, hY⟩ := List.map_eq_cons_iff.1 hY'
  have hmap : s.map k' = some c := (h.map k' c).2 ⟨by simp, hc⟩
  -- neighbours
  obtain ⟨A, p, hAp⟩ : ∃ A p, s.sentinel :: X = A ++ [p] :=
    ⟨_, _, (List.dropLast_append_getLast (List.cons_ne_nil _ _)).symm⟩
  obtain ⟨n, B, hnB⟩ : ∃ n B, Y ++ [s.sentinel] = n :: B := by
    cases Y with
    | nil => exact ⟨_, _, rfl⟩
    | cons y Y => exact ⟨_, _, rfl⟩
  have el : s.sentinel :: (X ++ c :: Y) ++ [s.sentinel] = A ++ p :: (c :: n :: B) := by
    have : s.sentinel :: (X ++ c :: Y) ++ [s.sentinel] = (s.sentinel :: X) ++ c :: (Y ++ [s.sentinel]) := by
      simp
    rw [this, hAp, hnB]
    simp
  have hlink := h.linked
  rw [el] at hlink
  obtain ⟨hA, hpc, hcp, hcn, hnc, hB⟩ := (linked_append A p (c :: n :: B)).1 hlink
  refine ⟨_, X ++ Y, by
    unfold delItem
    rw [if_pos hd, hmap], ?_⟩
  have hnodup := h.nodup
  have hspec : SpecDel (L1 ++ (k', v) :: L2) k' = L1 ++ L2 := filter_ne_of_split h.distinct
  have hsub : (X ++ Y).Sublist (X ++ c :: Y) :=
    List.Sublist.append (List.Sublist.refl _) (List.sublist_cons_self _ _)
  -- disjointness facts
  rw [List.nodup_cons, List.nodup_append] at hnodup
  obtain ⟨hs1, hXn, hcYn, hdis⟩ := hnodup
  rw [List.nodup_cons] at hcYn
  have hsX : s.sentinel ∉ X := fun q => hs1 (List.mem_append_left _ q)
  have hsY : s.sentinel ∉ Y := fun q => hs1 (List.mem_append_right _ (List.mem_cons_of_mem _ q))
  have hXY : ∀ a ∈ X, a ∉ Y := fun a ha hb => hdis a ha a (List.mem_cons_of_mem _ hb) rfl
  have hpA : p ∉ A := by
    have : (A ++ [p]).Nodup := by rw [← hAp]; exact List.nodup_cons.2 ⟨hsX, hXn⟩
    rw [List.nodup_append] at this
    exact fun q => this.2.2 p q p (by simp) rfl
  have hpmem : p ∈ s.sentinel :: X := by rw [hAp]; simp
  have hnmem : n ∈ Y ++ [s.sentinel] := by rw [hnB]; simp
  have hnB' : n ∉ B := by
    intro hq
    have : (Y ++ [s.sentinel]).Nodup := by
      rw [List.nodup_append]
      refine ⟨hcYn.2, by simp, ?_⟩
      intro a ha b hb
      simp at hb
      subst hb
      exact fun q => hsY (q ▸ ha)
    rw [hnB, List.nodup_cons] at this
    exact this.1 hq
  exact {
    nodup := List.nodup_cons.2 ⟨fun q => hs1 (hsub.subset q),
      List.Nodup.sublist hsub ((List.nodup_cons.1 h.nodup).2)⟩
    bound := by
      intro i hi
      apply h.bound
      rcases List.mem_cons.1 hi with rfl | hi
      · exact List.mem_cons_self
      · exact List.mem_cons_of_mem _ (hsub.subset hi)
    linked := by
      have el' : s.sentinel :: (X ++ Y) ++ [s.sentinel] = A ++ p :: (n :: B) := by
        have : s.sentinel :: (X ++ Y) ++ [s.sentinel] = (s.sentinel :: X) ++ (Y ++ [s.sentinel]) := by
          simp
        rw [this, hAp, hnB]
        simp
      show Linked _ _ (s.sentinel :: (X ++ Y) ++ [s.sentinel])
      rw [el', linked_append]
      refine ⟨?_, ?_, ?_, ?_⟩
      · apply linked_congr hA
        · intro a ha
          rw [List.dropLast_concat] at ha
          have hap : a ≠ p := fun q => hpA (q ▸ ha)
          simp [upd, hcp, hap]
        · intro b hb
          rw [← hAp] at hb
          simp only [List.tail_cons] at hb
          have hbn : b ≠ n := by
            rintro rfl
            rcases List.mem_append.1 hnmem with hq | hq
            · exact hXY _ hb hq
            · simp at hq
              exact hsX (hq ▸ hb)
          simp [upd, hcn, hbn]
      · simp [upd, hcp, hcn]
      · simp [upd, hcp, hcn]
      · apply linked_congr hB
        · intro a ha
          have haY : a ∈ Y := by
            rw [← hnB, List.dropLast_concat] at ha
            exact ha
          have hap : a ≠ p := by
            rintro rfl
            rcases List.mem_cons.1 hpmem with hq | hq
            · exact hsY (hq ▸ haY)
            · exact hXY _ hq haY
          simp [upd, hcp, hap]
        · intro b hb
          simp only [List.tail_cons] at hb
          have hbn : b ≠ n := fun q => hnB' (q ▸ hb)
          simp [upd, hcn, hbn]
    keys := by
      rw [hspec, List.map_append, List.map_append, hX, hY]
    distinct := by
      rw [hspec]
      exact List.Nodup.sublist (List.Sublist.map _ (List.Sublist.append (List.Sublist.refl _)
        (List.sublist_cons_self _ _))) h.distinct
    map := by
      intro j i
      have hk'X : ∀ i ∈ X ++ Y, s.key i ≠ some k' := by
        intro i hi hq
        have hmem : s.key i ∈ (X ++ Y).map s.key := List.mem_map.2 ⟨i, hi, rfl⟩
        rw [List.map_append, hX, hY, hq, ← List.map_append] at hmem
        obtain ⟨e, he, he2⟩ := List.mem_map.1 hmem
        have hdd := h.distinct
        rw [List.map_append, List.map_cons, List.nodup_append, List.nodup_cons] at hdd
        simp only [Option.some.injEq] at he2
        rcases List.mem_append.1 he with he | he
        · exact hdd.2.2 e.1 (List.mem_map.2 ⟨e, he, rfl⟩) k' (by simp) he2
        · exact hdd.2.1.1 (List.mem_map.2 ⟨e, he, he2⟩)
      by_cases hj : j = k'
      · subst hj
        simp only [if_true, reduceCtorEq, false_iff, not_and]
        intro hi
        exact hk'X i hi
      · simp only [if_neg hj, h.map j i]
        constructor
        · rintro ⟨hi, hkey⟩
          refine ⟨?_, hkey⟩
          rcases List.mem_append.1 hi with hi | hi
          · exact List.mem_append_left _ hi
          · rcases List.mem_cons.1 hi with rfl | hi
            · rw [hc] at hkey
              simp at hkey
              exact absurd hkey.symm hj
            · exact List.mem_append_right _ hi
        · rintro ⟨hi, hkey⟩
          exact ⟨hsub.subset hi, hkey⟩
    dict := by
      show (s.dict.filter (fun e => e.1 ≠ k')).Perm _
      exact h.dict.filter _ }

theorem delItem_missing {s : State K V} {l : List (K × V)} {ids : List Nat} (h : Rep s l ids) (k : K)
    (hm : k ∉ l.map Prod.fst) : delItem s k = none := by
  unfold delItem
  rw [if_neg (fun q => hm ((mem_keys_perm h k).1 q))]

/-! ### Iteration -/

theorem walk_next {s : State K V} (ids : List Nat) : ∀ (a : Nat) (n : Nat),
    Linked s.next s.prev (a :: ids ++ [s.sentinel]) → s.sentinel ∉ ids → ids.length < n →
    walk s.key s.next s.sentinel n (s.next a) = some (ids.map s.key) := by
  induction ids with
  | nil =>
    intro a n hl _ hn
    cases n with
    | zero => omega
    | succ n =>
      have : s.next a = s.sentinel := hl.1
      rw [this]
      simp [walk]
  | cons b r ih =>
    intro a n hl hs hn
    cases n with
    | zero => omega
    | succ n =>
      have hb : s.next a = b := hl.1
      rw [List.mem_cons, not_or] at hs
      rw [hb, walk, if_neg (fun q => hs.1 q.symm),
        ih b n hl.2.2 hs.2 (by simp only [List.length_cons] at hn; omega)]
      rfl

theorem walk_prev {s : State K V} (ids : List Nat) : ∀ (a : Nat) (n : Nat),
    Linked s.next s.prev (s.sentinel :: ids.reverse ++ [a]) → s.sentinel ∉ ids → ids.length < n →
    walk s.key s.prev s.sentinel n (s.prev a) = some (ids.map s.key) := by
  induction ids with
  | nil =>
    intro a n hl _ hn
    cases n with
    | zero => omega
    | succ n =>
      have : s.prev a = s.sentinel := hl.2.1
      rw [this]
      simp [walk]
  | cons b r ih =>
    intro a n hl hs hn
    cases n with
    | zero => omega
    | succ n =>
      have e : s.sentinel :: (b :: r).reverse ++ [a] = (s.sentinel :: r.reverse) ++ b :: [a] := by simp
      rw [e, linked_append] at hl
      have hb : s.prev a = b := hl.2.2.1
      rw [List.mem_cons, not_or] at hs
      rw [hb, walk, if_neg (fun q => hs.1 q.symm),
        ih b n hl.1 hs.2 (by simp only [List.length_cons] at hn; omega)]
      rfl

/-- What a user can do to the dictionary. -/
inductive Op (K V : Type) where
  | set (k : K) (v : V)
  | del (k : K)
  | clear

/-- The code: a `KeyError` leaves the object as it was. -/
def apply (s : State K V) : Op K V → State K V
  | .set k v => setItem s k v
  | .del k => (delItem s k).getD s
  | .clear => clear s

/-- The specification. -/
def SpecApply (l : List (K × V)) : Op K V → List (K × V)
  | .set k v => SpecSet l k v
  | .del k => SpecDel l k
  | .clear => []

theorem specDel_missing (l : List (K × V)) (k : K) (h : k ∉ l.map Prod.fst) : SpecDel l k = l := by
  unfold SpecDel
  rw [List.filter_eq_self]
  intro e he
  have : e.1 ≠ k := fun q => h (List.mem_map.2 ⟨e, he, q⟩)
  simpa using this

theorem apply_rep {s : State K V} {l : List (K × V)} (h : ∃ ids, Rep s l ids) (o : Op K V) :
    ∃ ids, Rep (apply s o) (SpecApply l o) ids := by
  obtain ⟨ids, h⟩ := h
  cases o with
  | set k v => exact setItem_rep h k v
  | clear => exact ⟨[], clear_rep s⟩
  | del k =>
    by_cases hm : k ∈ l.map Prod.fst
    · obtain ⟨s', ids', e, hr⟩ := delItem_rep h k hm
      exact ⟨ids', by simp only [apply, e, Option.getD_some]; exact hr⟩
    · refine ⟨ids, ?_⟩
      simp only [apply, delItem_missing h k hm, Option.getD_none, SpecApply, specDel_missing l k hm]
      exact h

theorem applyAll_rep (ops : List (Op K V)) : ∀ {s : State K V} {l : List (K × V)},
    (∃ ids, Rep s l ids) → ∃ ids, Rep (ops.foldl apply s) (ops.foldl SpecApply l) ids := by
  induction ops with
  | nil => intro s l h; exact h
  | cons o r ih => intro s l h; exact ih (apply_rep h o)

/-- **Order of insertion.**  After any sequence of assignments, deletions and clearings, whatever the
object was before it was initialised: iterating ends by itself and gives the keys in the order of
insertion (an assignment to a known key keeps its place, a deleted key that is set again comes last),
iterating backwards gives the reverse, and the items are those of the last assignments. -/
theorem ordered_dict (s0 : State K V) (ops : List (Op K V)) :
    let s := ops.foldl apply (clear s0)
    let l := ops.foldl SpecApply ([] : List (K × V))
    (∀ n, l.length < n → iterate s n = some (l.map (fun e => some e.1))) ∧
    (∀ n, l.length < n → iterateBack s n = some (l.map (fun e => some e.1)).reverse) ∧
    s.dict.Perm l ∧ (l.map Prod.fst).Nodup := by
  obtain ⟨ids, h⟩ := applyAll_rep ops ⟨[], clear_rep s0⟩
  have hs := (List.nodup_cons.1 h.nodup).1
  have hlen : ids.length = (ops.foldl SpecApply ([] : List (K × V))).length := by
    have := congrArg List.length h.keys
    simpa using this
  refine ⟨?_, ?_, h.dict, h.distinct⟩
  · intro n hn
    unfold iterate
    rw [walk_next ids _ n h.linked hs (by omega), h.keys]
  · intro n hn
    unfold iterateBack
    rw [walk_prev ids.reverse _ n (by rw [List.reverse_reverse]; exact h.linked)
      (by simpa using hs) (by simpa using by omega), List.map_reverse, h.keys]

theorem lookup_perm {d l : List (K × V)} (h : d.Perm l) (hn : (l.map Prod.fst).Nodup) {k : K} {v : V}
    (hm : (k, v) ∈ l) : d.lookup k = some v := by
  have hd : (d.map Prod.fst).Nodup := (h.map Prod.fst).nodup_iff.2 hn
  have hmd : (k, v) ∈ d := h.mem_iff.2 hm
  clear h hn hm
  induction d with
  | nil => simp at hmd
  | cons e r ih =>
    obtain ⟨a, b⟩ := e
    rw [List.map_cons, List.nodup_cons] at hd
    rcases List.mem_cons.1 hmd with hq | hq
    · simp only [Prod.mk.injEq] at hq
      obtain ⟨rfl, rfl⟩ := hq
      simp [List.lookup]
    · have hne : k ≠ a := by
        rintro rfl
        exact hd.1 (List.mem_map.2 ⟨(k, v), hq, rfl⟩)
      have h' : (k == a) = false := by simpa using hne
      rw [List.lookup_cons, h']
      exact ih hd.2 hq

/-- **`popitem`** removes and returns the last item (or the first, with `last=False`); on an empty
dictionary it is a `KeyError`. -/
theorem popitem_spec (s0 : State K V) (ops : List (Op K V)) (last : Bool) :
    let s := ops.foldl apply (clear s0)
    let l := ops.foldl SpecApply ([] : List (K × V))
    (l = [] → popItem s last = none) ∧
    (∀ r k v, l = (if last then r ++ [(k, v)] else (k, v) :: r) →
      ∃ s' ids, popItem s last = some ((k, v), s') ∧ Rep s' r ids) := by
  obtain ⟨ids, h⟩ := applyAll_rep ops ⟨[], clear_rep s0⟩
  simp only
  generalize ops.foldl apply (clear s0) = s at h ⊢
  generalize ops.foldl SpecApply ([] : List (K × V)) = l at h ⊢
  have hs := (List.nodup_cons.1 h.nodup).1
  constructor
  · rintro rfl
    unfold popItem
    have : s.dict = [] := by simpa using h.dict
    rw [if_pos this]
  · intro r k v hl
    have hmem : (k, v) ∈ l := by rw [hl]; cases last <;> simp
    have hne : s.dict ≠ [] := by
      intro q
      have := h.dict
      rw [q] at this
      have := this.symm.eq_nil
      rw [this] at hmem
      simp at hmem
    have hlk : s.dict.lookup k = some v := lookup_perm h.dict h.distinct hmem
    have hmk : k ∈ l.map Prod.fst := List.mem_map.2 ⟨(k, v), hmem, rfl⟩
    obtain ⟨s', ids', e, hr⟩ := delItem_rep h k hmk
    have hrest : SpecDel l k = r := by
      cases last with
      | true =>
        simp only [if_true] at hl
        have := h.distinct
        rw [hl] at this ⊢
        have := filter_ne_of_split (A := r) (B := []) (k := k) (v := v) this
        simpa [SpecDel] using this
      | false =>
        simp only [Bool.false_eq_true, if_false] at hl
        have := h.distinct
        rw [hl] at this ⊢
        have := filter_ne_of_split (A := []) (B := r) (k := k) (v := v) (by simpa using this)
        simpa [SpecDel] using this
    rw [hrest] at hr
    refine ⟨s', ids', ?_, hr⟩
    have hcell : (if last then s.prev s.sentinel else s.next s.sentinel) ≠ s.sentinel ∧
        s.key (if last then s.prev s.sentinel else s.next s.sentinel) = some k := by
      have hk := h.keys
      cases last with
      | true =>
        simp only [if_true] at hl ⊢
        rw [hl, List.map_append] at hk
        obtain ⟨X, Y, rfl, hX, hY⟩ := List.map_eq_append_iff.1 hk
        simp only [List.map_cons, List.map_nil] at hY
        obtain ⟨c, Y, rfl, hc, hY⟩ := List.map_eq_cons_iff.1 hY
        have hY : Y = [] := by simpa using hY
        subst hY
        have hlk := h.linked
        have el : s.sentinel :: (X ++ [c]) ++ [s.sentinel] = (s.sentinel :: X) ++ c :: [s.sentinel] := by
          simp
        rw [el, linked_append] at hlk
        have hpc : s.prev s.sentinel = c := hlk.2.2.1
        rw [hpc]
        refine ⟨?_, hc⟩
        rintro rfl
        exact hs (by simp)
      | false =>
        simp only [Bool.false_eq_true, if_false] at hl ⊢
        rw [hl, List.map_cons] at hk
        obtain ⟨c, Y, rfl, hc, hY⟩ := List.map_eq_cons_iff.1 hk
        have hnc : s.next s.sentinel = c := h.linked.1
        rw [hnc]
        refine ⟨?_, hc⟩
        rintro rfl
        exact hs (by simp)
    unfold popItem
    rw [if_neg hne]
    simp only
    rw [if_neg hcell.1, hcell.2]
    simp only [hlk, e, Option.map_some]

/-! ### Concrete cases -/

def ex0 : State Nat Nat :=
  { key := fun _ => none, prev := fun _ => 0, next := fun _ => 0, sentinel := 0, map := fun _ => none,
    dict := [], free := 0 }

def exOps : List (Op Nat Nat) := [.set 5 1, .set 3 2, .set 9 4, .set 5 7, .del 3, .set 3 8, .del 100]

example : iterate (exOps.foldl apply (clear ex0)) 4 = some [some 5, some 9, some 3] := by decide

example : exOps.foldl SpecApply [] = [(5, 7), (9, 4), (3, 8)] := by decide

example : iterateBack (exOps.foldl apply (clear ex0)) 4 = some [some 3, some 9, some 5] := by decide

example : (popItem (exOps.foldl apply (clear ex0)) true).map Prod.fst = some (3, 8) := by decide

end Mdp.ODict
