import Mathlib.Data.List.Sort
import Mathlib.Data.List.Perm.Basic
import Mathlib.Data.List.Nodup
import Mathlib.Data.List.Induction
import Verif.Py.Dict

/-!
# Model of `mdp.config` (mdp/configuration.py 36-169), C299

Texts are lists of characters. The attributes `has_…` of the class are a dictionary. `dir` gives the attributes in some order (here that of the first
registration; in Python that of the alphabet); the result does not depend on it, see `config_info`. -/

namespace Mdp.Config

open Py

abbrev Str := List Char

/-- `_ExternalDep` (90-110). -/
structure Dep where
  order : Nat
  version : Str
  failmsg : Option Str
deriving DecidableEq

/-- The class: `_HAS_NUMBER` and the attributes `has_<name>`. -/
structure State where
  number : Nat
  has : Dict Str Dep

/-- A call of `ExternalDepFound(name, text)` or `ExternalDepFailed(name, text)` (112-147). -/
structure Call where
  name : Str
  found : Bool
  text : Str
deriving DecidableEq

/-- `str(None)` -/
def strNone : Str := ['N', 'o', 'n', 'e']

/-- `_ExternalDep.__init__` (91-100); the assertion holds for texts that are not `None`. -/
def State.register (s : State) (c : Call) : State :=
  ⟨s.number + 1, Dict.set s.has c.name (if c.found then ⟨s.number, c.text, none⟩ else ⟨s.number, strNone, some c.text⟩)⟩

/-- `bool(dep)` (102-103). -/
def Dep.ok (d : Dep) : Bool := d.failmsg.isNone

/-- `"NOT AVAILABLE: "` -/
def notAvailable : Str := ['N', 'O', 'T', ' ', 'A', 'V', 'A', 'I', 'L', 'A', 'B', 'L', 'E', ':', ' ']

/-- `repr(dep)` (105-109). -/
def Dep.repr (d : Dep) : Str :=
  match d.failmsg with
  | none => d.version
  | some m => notAvailable ++ m

/-- `f.replace('_', ' ')` -/
def pretty (n : Str) : Str := n.map fun c => if c = '_' then ' ' else c

/-- `'%*s: %r'` (169). -/
def line (width : Nat) (n : Str) (d : Dep) : Str := List.replicate (width - n.length) ' ' ++ n ++ [':', ' '] ++ d.repr

/-- `info` (149-169): `none` is the ValueError of `max` of nothing; the lines otherwise. -/
def State.info (s : State) : Option (List Str) :=
  let fs := s.has.map fun e => (pretty e.1, e.2)
  match (fs.map fun f => f.1.length).max? with
  | none => none
  | some maxlen => some ((fs.insertionSort fun a b => a.2.order ≤ b.2.order).map fun f => line (maxlen + 1) f.1 f.2)

/-- A history of registrations. -/
def run (cs : List Call) : State := cs.foldl State.register ⟨0, []⟩

/-! ## Specification -/

/-- The last registrations: those that no later one has replaced. -/
def lasts : List Call → List Call
  | [] => []
  | c :: r => if c.name ∈ r.map (·.name) then lasts r else c :: lasts r

/-- What is displayed for a registration. -/
def Call.shown (c : Call) : Str := if c.found then c.text else notAvailable ++ c.text

theorem set_perm (d : Dict Str Dep) (hd : Dict.Ok d) (k : Str) (v : Dep) : (Dict.set d k v).Perm (d.filter (fun e => e.1 ≠ k) ++ [(k, v)]) := by
  induction d with
  | nil => simp [Dict.set]
  | cons p d ih =>
    obtain ⟨a, b⟩ := p
    have h1 : a ∉ Dict.keys d ∧ Dict.Ok d := List.nodup_cons.1 hd
    by_cases h : a = k
    · subst h
      simp only [Dict.set, if_true]
      have e : d.filter (fun e => e.1 ≠ a) = d := by
        refine List.filter_eq_self.2 fun e he => ?_
        have : e.1 ≠ a := fun h' => h1.1 (h' ▸ List.mem_map_of_mem he)
        simpa using this
      rw [List.filter_cons_of_neg (by simp), e]
      exact (List.perm_append_singleton (a, v) d).symm
    · simp only [Dict.set, if_neg h]
      rw [List.filter_cons_of_pos (by simpa using h)]
      exact (ih h1.2).cons _

theorem ok_set (d : Dict Str Dep) (hd : Dict.Ok d) (k : Str) (v : Dep) : Dict.Ok (Dict.set d k v) := by
  have h := (set_perm d hd k v).map Prod.fst
  unfold Dict.Ok Dict.keys
  rw [h.nodup_iff]
  simp only [List.map_append, List.map_cons, List.map_nil]
  refine List.Nodup.append ?_ (List.nodup_singleton _) ?_
  · exact List.Nodup.sublist (List.filter_sublist.map _) hd
  · intro a ha hb
    obtain ⟨e, he, rfl⟩ := List.mem_map.1 ha
    have := (List.mem_filter.1 he).2
    rw [List.mem_singleton] at hb
    simp [hb] at this

/-- The entry a registration makes when it is the `i`-th. -/
def made (i : Nat) (c : Call) : Str × Dep := (c.name, if c.found then ⟨i, c.text, none⟩ else ⟨i, strNone, some c.text⟩)

/-- Last registrations with their numbers. -/
def lastsFrom : Nat → List Call → List (Str × Dep)
  | _, [] => []
  | i, c :: r => if c.name ∈ r.map (·.name) then lastsFrom (i + 1) r else made i c :: lastsFrom (i + 1) r

theorem lastsFrom_snoc (i : Nat) (cs : List Call) (c : Call) :
    lastsFrom i (cs ++ [c]) = (lastsFrom i cs).filter (fun e => e.1 ≠ c.name) ++ [made (i + cs.length) c] := by
  induction cs generalizing i with
  | nil => simp [lastsFrom]
  | cons a r ih =>
    simp only [List.cons_append, lastsFrom, List.map_append, List.map_cons, List.map_nil, List.mem_append, List.mem_singleton, List.length_cons, ih]
    have e : i + 1 + r.length = i + (r.length + 1) := by omega
    by_cases h1 : a.name ∈ r.map (·.name)
    · rw [if_pos (.inl h1), if_pos h1, e]
    · rw [if_neg h1]
      by_cases h2 : a.name = c.name
      · rw [if_pos (.inr h2), List.filter_cons_of_neg (by simp [made, h2]), e]
      · rw [if_neg (by rintro (h | h); exacts [h1 h, h2 h]), List.filter_cons_of_pos (by simp only [made, ne_eq]; exact decide_eq_true h2), e]
        rfl

theorem run_inv (cs : List Call) : (run cs).number = cs.length ∧ Dict.Ok (run cs).has ∧ (run cs).has.Perm (lastsFrom 0 cs) := by
  induction cs using List.reverseRecOn with
  | nil => exact ⟨rfl, List.nodup_nil, List.Perm.refl _⟩
  | append_singleton cs c ih =>
    obtain ⟨h1, h2, h3⟩ := ih
    have e : run (cs ++ [c]) = (run cs).register c := by simp [run, List.foldl_append]
    rw [e]
    refine ⟨by simp [State.register, h1], ok_set _ h2 _ _, ?_⟩
    rw [lastsFrom_snoc, Nat.zero_add]
    refine (set_perm _ h2 _ _).trans ?_
    rw [h1]
    exact (h3.filter _).append_right _

theorem lastsFrom_order (i : Nat) (cs : List Call) : (∀ e ∈ lastsFrom i cs, i ≤ e.2.order) ∧ (lastsFrom i cs).Pairwise fun a b => a.2.order < b.2.order := by
  induction cs generalizing i with
  | nil => simp [lastsFrom]
  | cons c r ih =>
    obtain ⟨h1, h2⟩ := ih (i + 1)
    have hm : (made i c).2.order = i := by unfold made; split <;> rfl
    simp only [lastsFrom]
    split
    · exact ⟨fun e he => by have := h1 e he; omega, h2⟩
    · refine ⟨?_, List.pairwise_cons.2 ⟨fun e he => by rw [hm]; have := h1 e he; omega, h2⟩⟩
      intro e he
      rcases List.mem_cons.1 he with rfl | he
      · omega
      · have := h1 e he; omega

theorem lastsFrom_lasts (i : Nat) (cs : List Call) : (lastsFrom i cs).map (fun e => (e.1, e.2.repr)) = (lasts cs).map fun c => (c.name, c.shown) := by
  induction cs generalizing i with
  | nil => rfl
  | cons c r ih =>
    simp only [lastsFrom, lasts]
    split
    · exact ih _
    · simp only [List.map_cons, ih]
      congr 1
      unfold made Call.shown
      cases c.found <;> rfl

/-- The longest name. -/
def IsMax (l : List Nat) (m : Nat) : Prop := m ∈ l ∧ ∀ k ∈ l, k ≤ m

/-- C299: `info` has one line for each name, in the order of the last registrations; the line is the name (with blanks for underscores), filled up on the left to one more than the
longest name, a colon, and the version, or the message of the failure. -/
theorem config_info (cs : List Call) (h : cs ≠ []) : ∃ m, IsMax ((lasts cs).map fun c => c.name.length) m ∧
    (run cs).info = some ((lasts cs).map fun c =>
      List.replicate (m + 1 - c.name.length) ' ' ++ c.name.map (fun ch => if ch = '_' then ' ' else ch) ++ [':', ' '] ++ c.shown) := by
  obtain ⟨_, _, hp⟩ := run_inv cs
  obtain ⟨_, hs⟩ := lastsFrom_order 0 cs
  have hne : lasts cs ≠ [] := by
    clear hp hs
    rename_i hA hB hC; clear hA hB hC
    induction cs with
    | nil => exact absurd rfl h
    | cons c r ih =>
      simp only [lasts]
      split
      · next hc =>
        refine ih ?_
        rintro rfl
        simp at hc
      · simp
  have hlen : ((run cs).has.map fun e => e.1.length).Perm ((lasts cs).map fun c => c.name.length) := by
    have h1 := hp.map fun e => e.1.length
    have h2 : (lastsFrom 0 cs).map (fun e => e.1.length) = (lasts cs).map fun c => c.name.length := by
      have := congrArg (List.map fun p : Str × Str => p.1.length) (lastsFrom_lasts 0 cs)
      simpa [List.map_map, Function.comp_def] using this
    rwa [h2] at h1
  have hfl : (((run cs).has.map fun e => (pretty e.1, e.2)).map fun f => f.1.length) = (run cs).has.map fun e => e.1.length := by
    simp [List.map_map, Function.comp_def, pretty]
  simp only [State.info]
  rw [hfl]
  rcases hm : ((run cs).has.map fun e => e.1.length).max? with _ | m
  · rw [List.max?_eq_none_iff] at hm
    rw [hm] at hlen
    have := hlen.symm.eq_nil
    exact absurd (List.map_eq_nil_iff.1 this) hne
  · have hmax := List.max?_eq_some_iff.1 hm
    refine ⟨m, ⟨hlen.mem_iff.1 hmax.1, fun k hk => hmax.2 k (hlen.mem_iff.2 hk)⟩, ?_⟩
    rw [hm]
    refine congrArg some ?_
    have hsort : (((run cs).has.map fun e => (pretty e.1, e.2)).insertionSort fun a b => a.2.order ≤ b.2.order) =
        (lastsFrom 0 cs).map fun e => (pretty e.1, e.2) := by
      have hs' : ((lastsFrom 0 cs).map fun e => (pretty e.1, e.2)).Pairwise fun a b => a.2.order < b.2.order := by
        rw [List.pairwise_map]; exact hs
      have hperm := (List.perm_insertionSort (fun a b : Str × Dep => a.2.order ≤ b.2.order) ((run cs).has.map fun e => (pretty e.1, e.2))).trans (hp.map _)
      refine List.Perm.eq_of_pairwise (le := fun a b : Str × Dep => a.2.order ≤ b.2.order) ?_ ?_ (hs'.imp fun h => Nat.le_of_lt h) hperm
      · intro a b ha hb hab hba
        have ha' := hperm.mem_iff.1 ha
        obtain ⟨i, hi, ei⟩ := List.getElem_of_mem ha'
        obtain ⟨j, hj, ej⟩ := List.getElem_of_mem hb
        rcases Nat.lt_trichotomy i j with hij | hij | hij
        · have := List.pairwise_iff_getElem.1 hs' i j hi hj hij
          rw [ei, ej] at this; omega
        · subst hij; rw [← ei, ← ej]
        · have := List.pairwise_iff_getElem.1 hs' j i hj hi hij
          rw [ei, ej] at this; omega
      · haveI : Std.Total fun a b : Str × Dep => a.2.order ≤ b.2.order := ⟨fun a b => Nat.le_total _ _⟩
        haveI : IsTrans (Str × Dep) fun a b => a.2.order ≤ b.2.order := ⟨fun a b c => Nat.le_trans⟩
        exact List.pairwise_insertionSort (fun a b : Str × Dep => a.2.order ≤ b.2.order) _
    rw [hsort, List.map_map]
    have h2 := congrArg (List.map fun p : Str × Str => List.replicate (m + 1 - p.1.length) ' ' ++ pretty p.1 ++ [':', ' '] ++ p.2) (lastsFrom_lasts 0 cs)
    simp only [List.map_map, Function.comp_def] at h2 ⊢
    simp only [line, pretty, List.length_map] at h2 ⊢
    exact h2

/-- C299: all colons are in the same column. -/
theorem config_aligned (cs : List Call) (m : Nat) (h : IsMax ((lasts cs).map fun c => c.name.length) m) : ∀ c ∈ lasts cs,
    (List.replicate (m + 1 - c.name.length) ' ' ++ c.name.map (fun ch => if ch = '_' then ' ' else ch)).length = m + 1 := by
  intro c hc
  have := h.2 _ (List.mem_map_of_mem (f := fun c : Call => c.name.length) hc)
  simp only [List.length_append, List.length_replicate, List.length_map]
  omega

/-- C299: a name counts as available exactly if its last registration found it. -/
theorem config_bool (cs : List Call) (c : Call) : ∃ d, Dict.get (run (cs ++ [c])).has c.name = some d ∧ d.ok = c.found ∧
    ∀ n, n ≠ c.name → Dict.get (run (cs ++ [c])).has n = Dict.get (run cs).has n := by
  have e : run (cs ++ [c]) = (run cs).register c := by simp [run, List.foldl_append]
  rw [e]
  simp only [State.register]
  refine ⟨_, by rw [Dict.get_set, if_pos rfl], by cases c.found <;> rfl, ?_⟩
  intro n hn
  rw [Dict.get_set, if_neg (Ne.symm hn)]

/-- C299, false before anything is registered: ValueError. -/
theorem config_empty_violation : (run []).info = none := rfl

example : (run [⟨['a'], true, ['1']⟩, ⟨['b', '_', 'c'], true, ['2']⟩, ⟨['a'], true, ['3']⟩]).info =
    some [[' ', 'b', ' ', 'c', ':', ' ', '2'], [' ', ' ', ' ', 'a', ':', ' ', '3']] := by decide +kernel

end Mdp.Config
