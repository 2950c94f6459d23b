import Mathlib.Data.List.Nodup
import Mathlib.Data.List.Basic
import Mathlib.Data.Char
import Mathlib.Data.List.Lex
import Mathlib.Tactic.Linarith

/-!
# The text of `dig_node`: `_format_dig` (`mdp/utils/introspection.py`), C369

The dictionary is a list of names and sizes, in the order of insertion; names are lists of characters. -/

namespace Mdp.DigText

abbrev Text := List Char

/-! ## Model -/

/-- `<=` of strings, as used by `sorted` (introspection.py:69). -/
def nameLe : Text → Text → Bool
  | [], _ => true
  | _ :: _, [] => false
  | a :: l, b :: m => if a < b then true else if b < a then false else nameLe l m

/-- A step of `sorted` (introspection.py:69); the sorting method of Python is replaced by insertion. -/
def insert (a : Text) : List Text → List Text
  | [] => [a]
  | b :: l => if nameLe a b then a :: b :: l else b :: insert a l

/-- `sorted(dict_.keys())` (introspection.py:69). -/
def sorted : List Text → List Text
  | [] => []
  | a :: l => insert a (sorted l)

/-- `max` of a list that is not empty (introspection.py:65-66). -/
def maxOf (l : List Nat) : Nat := l.foldr max 0

/-- `'%d' % n` (introspection.py:66, 73, 76). -/
def digits (n : Nat) : Text := Nat.toDigits 10 n

/-- `s.ljust(w)` (introspection.py:72). -/
def ljust (s : Text) (w : Nat) : Text := s ++ List.replicate (w - s.length) ' '

/-- `s.rjust(w)` (introspection.py:73). -/
def rjust (s : Text) (w : Nat) : Text := List.replicate (w - s.length) ' ' ++ s

/-- `dict_[name][0]` (introspection.py:70). -/
def sizeOf (d : List (Text × Nat)) (n : Text) : Nat := ((d.find? fun e => e.1 == n).map (·.2)).getD 0

/-- One line (introspection.py:72-74). -/
def line (ln ls : Nat) (n : Text) (size : Nat) : Text :=
  ljust (n ++ [':']) (ln + 1) ++ [' '] ++ rjust (digits size ++ " bytes".toList) (ls + 6)

/-- The last line (introspection.py:76). -/
def total (k bytes : Nat) : Text := "Total ".toList ++ digits k ++ " arrays (".toList ++ digits bytes ++ " bytes)".toList

/-- The loop (introspection.py:69-75): the lines and the sum of the sizes. -/
def rows (d : List (Text × Nat)) (ln ls : Nat) : List Text → List Text × Nat → List Text × Nat
  | [], acc => acc
  | n :: l, acc => rows d ln ls l (acc.1 ++ [line ln ls n (sizeOf d n)], acc.2 + sizeOf d n)

/-- `_format_dig` (introspection.py:64-78), as lines; the newlines between them are left out. `none`: the ValueError of `max`. -/
def formatDig (d : List (Text × Nat)) : Option (List Text) :=
  if d = [] then none
  else
    let ln := maxOf (d.map (·.1.length))
    let ls := maxOf (d.map fun e => (digits e.2).length)
    let r := rows d ln ls (sorted (d.map (·.1))) ([], 0)
    some (r.1 ++ [total d.length r.2])

/-! ## Proof -/

theorem nameLe_iff (a b : Text) : nameLe a b = true ↔ a = b ∨ a < b := by
  induction a generalizing b with
  | nil => cases b <;> simp [nameLe]
  | cons x a ih =>
    cases b with
    | nil => simp [nameLe]
    | cons y b =>
      simp only [nameLe, List.cons_lt_cons_iff, List.cons.injEq]
      by_cases h1 : x < y
      · simp [h1]
      · by_cases h2 : y < x
        · have : x ≠ y := fun e => h1 (e ▸ h2)
          simp [h1, h2, this]
        · have : x = y := le_antisymm (not_lt.1 h2) (not_lt.1 h1)
          subst this
          simp [ih]

theorem insert_perm (a : Text) (l : List Text) : (insert a l).Perm (a :: l) := by
  induction l with
  | nil => exact .refl _
  | cons b l ih =>
    simp only [insert]
    split
    · exact .refl _
    · exact (ih.cons b).trans (.swap a b l)

theorem sorted_perm (l : List Text) : (sorted l).Perm l := by
  induction l with
  | nil => exact .refl _
  | cons a l ih => exact (insert_perm a _).trans (ih.cons a)

theorem insert_lt (a : Text) (l : List Text) (h : l.Pairwise (· < ·)) (ha : a ∉ l) : (insert a l).Pairwise (· < ·) := by
  induction l with
  | nil => simp [insert]
  | cons b l ih =>
    rw [List.pairwise_cons] at h
    simp only [List.mem_cons, not_or] at ha
    simp only [insert]
    split
    · next hle =>
      have hab : a < b := ((nameLe_iff a b).1 hle).resolve_left ha.1
      rw [List.pairwise_cons, List.pairwise_cons]
      refine ⟨fun c hc => ?_, h⟩
      rcases List.mem_cons.1 hc with rfl | hc
      · exact hab
      · exact lt_trans hab (h.1 c hc)
    · next hle =>
      rw [List.pairwise_cons]
      refine ⟨fun c hc => ?_, ih h.2 ha.2⟩
      rcases List.mem_cons.1 ((insert_perm a l).mem_iff.1 hc) with rfl | hc
      · rcases lt_trichotomy b c with hlt | rfl | hlt
        · exact hlt
        · exact absurd rfl ha.1
        · exact absurd ((nameLe_iff c b).2 (.inr hlt)) hle
      · exact h.1 c hc

theorem sorted_lt (l : List Text) (h : l.Nodup) : (sorted l).Pairwise (· < ·) := by
  induction l with
  | nil => exact .nil
  | cons a l ih =>
    rw [List.nodup_cons] at h
    exact insert_lt a _ (ih h.2) fun hc => h.1 ((sorted_perm l).mem_iff.1 hc)

theorem sizeOf_mem {d : List (Text × Nat)} (hn : (d.map (·.1)).Nodup) {e : Text × Nat} (he : e ∈ d) : sizeOf d e.1 = e.2 := by
  induction d with
  | nil => simp at he
  | cons x d ih =>
    rw [List.map_cons, List.nodup_cons] at hn
    rcases List.mem_cons.1 he with rfl | he
    · simp [sizeOf]
    · have hx : x.1 ≠ e.1 := fun h => hn.1 (h ▸ List.mem_map.2 ⟨e, he, rfl⟩)
      rw [← ih hn.2 he]
      simp [sizeOf, hx]

theorem le_maxOf {l : List Nat} {a : Nat} (h : a ∈ l) : a ≤ maxOf l := by
  induction l with
  | nil => simp at h
  | cons b l ih =>
    simp only [maxOf, List.foldr_cons]
    rcases List.mem_cons.1 h with rfl | h
    · exact le_max_left _ _
    · exact le_trans (ih h) (le_max_right _ _)

theorem rows_eq (d : List (Text × Nat)) (ln ls : Nat) (l : List Text) (acc : List Text × Nat) :
    rows d ln ls l acc = (acc.1 ++ l.map (fun n => line ln ls n (sizeOf d n)), acc.2 + (l.map (sizeOf d)).sum) := by
  induction l generalizing acc with
  | nil => simp [rows]
  | cons n l ih => simp [rows, ih, Nat.add_assoc]

theorem perm_sum {a b : List Nat} (h : a.Perm b) : a.sum = b.sum := by
  induction h with
  | nil => rfl
  | cons x _ ih => simp [ih]
  | swap x y l => simp only [List.sum_cons]; omega
  | trans _ _ h1 h2 => exact h1.trans h2

theorem formatDig_eq (d : List (Text × Nat)) (h0 : d ≠ []) :
    formatDig d = some ((sorted (d.map (·.1))).map (fun n => line (maxOf (d.map (·.1.length))) (maxOf (d.map fun e => (digits e.2).length)) n
      (sizeOf d n)) ++ [total d.length ((sorted (d.map (·.1))).map (sizeOf d)).sum]) := by
  rw [formatDig, if_neg h0]
  simp only [rows_eq, List.nil_append, Nat.zero_add]

/-- C369. The text of a dictionary of arrays: the names in ascending order, each on a line with its size, all these lines of the same length,
with the names at their beginning and the sizes at their end and at least one blank between; then the number of arrays and the sum of the
sizes. -/
theorem dig_text (d : List (Text × Nat)) (h0 : d ≠ []) (hn : (d.map (·.1)).Nodup) :
    ∃ (e : List (Text × Nat)) (lines : List Text) (width : Nat), e.Perm d ∧ (e.map (·.1)).Pairwise (· < ·) ∧
      formatDig d = some (lines ++ ["Total ".toList ++ Nat.toDigits 10 d.length ++ " arrays (".toList ++ Nat.toDigits 10 (d.map (·.2)).sum ++
        " bytes)".toList]) ∧
      List.Forall₂ (fun (a : Text × Nat) (l : Text) => l.length = width ∧
        ∃ k, 1 ≤ k ∧ l = a.1 ++ ":".toList ++ List.replicate k ' ' ++ Nat.toDigits 10 a.2 ++ " bytes".toList) e lines := by
  have hs := sorted_perm (d.map (·.1))
  set ln := maxOf (d.map (·.1.length)) with hln
  set ls := maxOf (d.map fun e => (digits e.2).length) with hls
  set e := (sorted (d.map (·.1))).map fun n => (n, sizeOf d n) with he
  have hfst : e.map (·.1) = sorted (d.map (·.1)) := by simp [he, Function.comp_def]
  have hperm : e.Perm d := by
    have h1 := hs.map fun n => (n, sizeOf d n)
    rw [List.map_map] at h1
    have h2 : d.map ((fun n => (n, sizeOf d n)) ∘ fun x => x.1) = d := by
      conv_rhs => rw [← List.map_id d]
      refine List.map_congr_left fun x hx => ?_
      simp [sizeOf_mem hn hx]
    rw [h2] at h1
    exact h1
  refine ⟨e, e.map fun a => line ln ls a.1 a.2, ln + ls + 8, hperm, ?_, ?_, ?_⟩
  · rw [hfst]
    exact sorted_lt _ hn
  · have hsum : ((sorted (d.map (·.1))).map (sizeOf d)).sum = (d.map (·.2)).sum := by
      have h1 := perm_sum (hperm.map Prod.snd)
      rw [he, List.map_map] at h1
      exact h1
    rw [formatDig_eq d h0, hsum, he, List.map_map]
    rfl
  · rw [List.forall₂_map_right_iff, List.forall₂_same]
    intro a ha
    have had : a ∈ d := hperm.mem_iff.1 ha
    have h1 : a.1.length ≤ ln := le_maxOf (List.mem_map.2 ⟨a, had, rfl⟩)
    have h2 : (digits a.2).length ≤ ls := le_maxOf (List.mem_map.2 ⟨a, had, rfl⟩)
    have h3 : " bytes".toList.length = 6 := rfl
    refine ⟨?_, (ln - a.1.length) + 1 + (ls - (digits a.2).length), by omega, ?_⟩
    · simp only [line, ljust, rjust, List.length_append, List.length_replicate, List.length_cons, List.length_nil, h3]
      omega
    · have e1 : ln + 1 - (a.1 ++ [':']).length = ln - a.1.length := by simp
      have e2 : ls + 6 - (digits a.2 ++ " bytes".toList).length = ls - (digits a.2).length := by
        simp only [List.length_append, h3]
        omega
      have e3 : List.replicate (ln - a.1.length + 1 + (ls - (digits a.2).length)) ' ' =
          List.replicate (ln - a.1.length) ' ' ++ [' '] ++ List.replicate (ls - (digits a.2).length) ' ' := by
        rw [List.replicate_add, List.replicate_add]; rfl
      rw [line, ljust, rjust, e1, e2, e3]
      simp [digits]

/-- C369. Without arrays there is no text but an exception. -/
theorem dig_text_empty_violation : formatDig [] = none := rfl

example : formatDig [("cov.x".toList, 80), ("avg".toList, 8)] =
    some ["avg:    8 bytes".toList, "cov.x: 80 bytes".toList, "Total 2 arrays (88 bytes)".toList] := by decide +kernel

example : ∃ (e : List (Text × Nat)) (lines : List Text) (width : Nat), e.Perm [("cov.x".toList, 80), ("avg".toList, 8)] ∧
    (e.map (·.1)).Pairwise (· < ·) ∧ formatDig [("cov.x".toList, 80), ("avg".toList, 8)] = some (lines ++ ["Total ".toList ++ Nat.toDigits 10 2 ++
      " arrays (".toList ++ Nat.toDigits 10 88 ++ " bytes)".toList]) ∧
    List.Forall₂ (fun (a : Text × Nat) (l : Text) => l.length = width ∧
      ∃ k, 1 ≤ k ∧ l = a.1 ++ ":".toList ++ List.replicate k ' ' ++ Nat.toDigits 10 a.2 ++ " bytes".toList) e lines :=
  dig_text [("cov.x".toList, 80), ("avg".toList, 8)] (by simp) (by decide +kernel)

end Mdp.DigText
