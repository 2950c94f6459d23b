import Mathlib.Logic.Function.Basic
import Mathlib.Data.List.Basic

/-!
# Saving: `Node.save` (mdp/signal_node.py:715-727), `Flow.save` (mdp/linear_flows.py:432-444), `CheckpointSaveFunction` (mdp/linear_flows.py:661-687),
`robust_pickle` (bimdp/inspection/utils.py:13-28), `robust_write_file` (30-46); C352

The pickle module is a parameter. It writes a file in pieces and may fail after some of them (a node with a lambda or an open file). Python is Python 3:
a file opened in text mode refuses bytes. What an interrupted process leaves behind is not modelled.
-/

namespace Mdp.Saving

inductive Err where
  /-- TypeError: `write() argument must be str, not bytes` -/
  | type
  /-- what pickle raises -/
  | pickle
  /-- OSError with its number -/
  | os (errno : Nat)
deriving DecidableEq, Repr

/-- The pickle module: the pieces that are written for a protocol and an object and the error after them; reading. -/
structure Pickle (O B : Type) where
  pieces : Int → O → List (List B) × Bool
  loads : List B → Except Err O

variable {O B P : Type} [DecidableEq P]

/-- `pickle.dumps` -/
def Pickle.dumps (K : Pickle O B) (proto : Int) (o : O) : Except Err (List B) :=
  if (K.pieces proto o).2 then .error .pickle else .ok (K.pieces proto o).1.flatten

/-- The files: their contents. -/
abbrev Fs (P B : Type) := P → Option (List B)

/-- `pickle.dump` into a file that has just been opened for writing (it is empty then): the error and the contents. -/
def Pickle.dump (K : Pickle O B) (binary : Bool) (proto : Int) (o : O) : Option Err × List B :=
  match K.pieces proto o with
  | (ps, bad) =>
    if !binary && !ps.isEmpty then (some .type, [])
    else (if bad then some .pickle else none, ps.flatten)

/-- `with open(filename, mode) as flh: dump(…)`; `opens` says which files cannot be opened for writing. -/
def dumpTo (K : Pickle O B) (opens : P → Option Nat) (binary : Bool) (proto : Int) (f : P) (o : O) (fs : Fs P B) : Except Err Unit × Fs P B :=
  match opens f with
  | some e => (.error (.os e), fs)
  | none => match K.dump binary proto o with
    | (some e, c) => (.error e, Function.update fs f (some c))
    | (none, c) => (.ok (), Function.update fs f (some c))

/-- `Node.save` (715-727) and `Flow.save` (432-444). -/
def save (K : Pickle O B) (opens : P → Option Nat) (f : Option P) (proto : Int) (o : O) (fs : Fs P B) : Except Err (Option (List B)) × Fs P B :=
  match f with
  | none => match K.dumps proto o with
    | .error e => (.error e, fs)
    | .ok s => (.ok (some s), fs)
  | some f => match dumpTo K opens (decide (proto ≠ 0)) proto f o fs with
    | (.error e, fs) => (.error e, fs)
    | (.ok (), fs) => (.ok none, fs)

/-- `CheckpointSaveFunction` (661-687) with `stop_training=0`: the mode is binary if asked for or if the protocol is greater than zero. -/
def checkpoint (K : Pickle O B) (opens : P → Option Nat) (f : P) (binary : Bool) (proto : Int) (o : O) (fs : Fs P B) : Except Err Unit × Fs P B :=
  dumpTo K opens (binary || decide (0 < proto)) proto f o fs

/-! ## Files in directories -/

/-- Directories that exist, and files. -/
structure Disk (D N B : Type) where
  dirs : D → Bool
  files : D × N → Option (List B)

variable {D N : Type} [DecidableEq D] [DecidableEq N]

/-- `open(os.path.join(path, filename), "w…")`: the number 2 (no such file or directory) if the directory does not exist; `opens` says which other errors
there are for a file in an existing directory. -/
def openW (opens : D × N → Option Nat) (f : D × N) (s : Disk D N B) : Except Nat (Disk D N B) :=
  if s.dirs f.1 = false then .error 2
  else match opens f with
    | some e => .error e
    | none => .ok { s with files := Function.update s.files f (some []) }

/-- The opening in `robust_pickle` (16-24) and `robust_write_file` (36-44); `mkdirs` is what `makedirs` says. -/
def robustOpen (opens : D × N → Option Nat) (mkdirs : D → Option Nat) (f : D × N) (s : Disk D N B) : Except Nat Unit × Disk D N B :=
  match openW opens f s with
  | .ok s => (.ok (), s)
  | .error e =>
    if e = 2 then
      match mkdirs f.1 with
      | some e => (.error e, s)
      | none =>
        let s := { s with dirs := Function.update s.dirs f.1 true }
        match openW opens f s with
        | .ok s => (.ok (), s)
        | .error e => (.error e, s)
    else (.error e, s)

/-- `robust_pickle` (13-28), always with protocol -1 and in binary mode. -/
def robustPickle (K : Pickle O B) (opens : D × N → Option Nat) (mkdirs : D → Option Nat) (f : D × N) (o : O) (s : Disk D N B) :
    Except Err Unit × Disk D N B :=
  match robustOpen opens mkdirs f s with
  | (.error e, s) => (.error (.os e), s)
  | (.ok (), s) => match K.dump true (-1) o with
    | (some e, c) => (.error e, { s with files := Function.update s.files f (some c) })
    | (none, c) => (.ok (), { s with files := Function.update s.files f (some c) })

/-- `robust_write_file` (30-46): the name of the file. -/
def robustWrite (opens : D × N → Option Nat) (mkdirs : D → Option Nat) (f : D × N) (c : List B) (s : Disk D N B) : Except Err N × Disk D N B :=
  match robustOpen opens mkdirs f s with
  | (.error e, s) => (.error (.os e), s)
  | (.ok (), s) => (.ok f.2, { s with files := Function.update s.files f (some c) })

/-! ## Theorems -/

/-- C352: with the file name None the pickle string is returned and no file changes. -/
theorem save_string (K : Pickle O B) (opens : P → Option Nat) (proto : Int) (o : O) (fs : Fs P B) :
    (save K opens none proto o fs).2 = fs ∧ ∀ s, (save K opens none proto o fs).1 = .ok s ↔ ∃ b, s = some b ∧ K.dumps proto o = .ok b := by
  unfold save
  cases h : K.dumps proto o with
  | error e => simp
  | ok b => simp [eq_comm]

/-- C352: with a protocol other than zero, a file that can be opened and an object that can be pickled, the file contains afterwards what `save(None)`
returns, whatever was in it before, and loading it gives the object if the pickle module can read what it has written. No other file changes. -/
theorem save_load (K : Pickle O B) (opens : P → Option Nat) (f : P) (proto : Int) (hp : proto ≠ 0) (ho : opens f = none) (o : O) (b : List B)
    (hb : K.dumps proto o = .ok b) (fs : Fs P B) :
    ∃ fs', save K opens (some f) proto o fs = (.ok none, fs') ∧ fs' f = some b ∧ (∀ g, g ≠ f → fs' g = fs g) ∧
      (K.loads b = .ok o → (fs' f).map K.loads = some (.ok o)) := by
  obtain ⟨h1, h2⟩ : (K.pieces proto o).2 = false ∧ (K.pieces proto o).1.flatten = b := by
    unfold Pickle.dumps at hb
    split at hb
    · cases hb
    · rename_i h; exact ⟨by simpa using h, by injection hb⟩
  refine ⟨Function.update fs f (some b), ?_, by simp, fun g hg => by simp [hg], fun hl => by simp [hl]⟩
  have e : K.dump true proto o = (none, b) := by simp [Pickle.dump, h1, h2]
  simp [save, dumpTo, ho, hp, e]

/-- C352: a file that cannot be opened is reported and nothing changes. -/
theorem save_not_opened (K : Pickle O B) (opens : P → Option Nat) (f : P) (proto : Int) (e : Nat) (ho : opens f = some e) (o : O) (fs : Fs P B) :
    save K opens (some f) proto o fs = (.error (.os e), fs) := by simp [save, dumpTo, ho]

/-- C352, false for protocol 0: the file is opened in text mode, so that every attempt to save an object fails with a TypeError and leaves an empty file,
although the pickle string of the same protocol can be had. -/
theorem save_ascii_violation (K : Pickle O B) (opens : P → Option Nat) (f : P) (ho : opens f = none) (o : O) (b : List B) (hb : K.dumps 0 o = .ok b)
    (hne : b ≠ []) (fs : Fs P B) :
    (save K opens (some f) 0 o fs).1 = .error .type ∧ (save K opens (some f) 0 o fs).2 f = some [] ∧ (save K opens none 0 o fs).1 = .ok (some b) := by
  have h2 : (K.pieces 0 o).1.flatten = b := by
    unfold Pickle.dumps at hb
    split at hb
    · cases hb
    · injection hb
  have h3 : (K.pieces 0 o).1.isEmpty = false := by
    cases h : (K.pieces 0 o).1 with
    | nil => rw [h] at h2; simp at h2; exact absurd h2 hne
    | cons a l => rfl
  have e : K.dump false 0 o = (some .type, []) := by simp [Pickle.dump, h3]
  refine ⟨by simp [save, dumpTo, ho, e], by simp [save, dumpTo, ho, e], by simp [save, hb]⟩

/-- C352, false: a save that fails loses what was in the file; of the new contents only the pieces written before the failure remain. -/
theorem save_failed_violation (K : Pickle O B) (opens : P → Option Nat) (f : P) (proto : Int) (hp : proto ≠ 0) (ho : opens f = none) (o : O)
    (hb : K.dumps proto o = .error .pickle) (fs : Fs P B) :
    (save K opens (some f) proto o fs).1 = .error .pickle ∧ (save K opens (some f) proto o fs).2 f = some (K.pieces proto o).1.flatten := by
  have h1 : (K.pieces proto o).2 = true := by
    unfold Pickle.dumps at hb
    split at hb
    · assumption
    · cases hb
  have e : K.dump true proto o = (some .pickle, (K.pieces proto o).1.flatten) := by simp [Pickle.dump, h1]
  constructor <;> simp [save, dumpTo, ho, hp, e]

/-- C352: the checkpoint function saves in exactly the cases in which the file is opened in binary mode: `binary` set, or a protocol greater than zero.
Otherwise it raises a TypeError and leaves an empty file. -/
theorem checkpoint_modes (K : Pickle O B) (opens : P → Option Nat) (f : P) (ho : opens f = none) (binary : Bool) (proto : Int) (o : O) (b : List B)
    (hb : K.dumps proto o = .ok b) (hne : b ≠ []) (fs : Fs P B) :
    (checkpoint K opens f binary proto o fs).1 = (if binary = true ∨ 0 < proto then .ok () else .error .type) ∧
      (checkpoint K opens f binary proto o fs).2 f = some (if binary = true ∨ 0 < proto then b else []) := by
  obtain ⟨h1, h2⟩ : (K.pieces proto o).2 = false ∧ (K.pieces proto o).1.flatten = b := by
    unfold Pickle.dumps at hb
    split at hb
    · cases hb
    · rename_i h; exact ⟨by simpa using h, by injection hb⟩
  have h3 : (K.pieces proto o).1.isEmpty = false := by
    cases h : (K.pieces proto o).1 with
    | nil => rw [h] at h2; simp at h2; exact absurd h2 hne
    | cons a l => rfl
  have e1 : K.dump true proto o = (none, b) := by simp [Pickle.dump, h1, h2]
  have e2 : K.dump false proto o = (some .type, []) := by simp [Pickle.dump, h3]
  by_cases h : binary = true ∨ 0 < proto
  · have hm : (binary || decide (0 < proto)) = true := by rcases h with h | h <;> simp [h]
    simp [checkpoint, dumpTo, ho, hm, e1, h]
  · have hm : (binary || decide (0 < proto)) = false := by
      rw [not_or] at h
      simp [h.1, h.2]
    simp [checkpoint, dumpTo, ho, hm, e2, h]

theorem robustOpen_ok (opens : D × N → Option Nat) (mkdirs : D → Option Nat) (f : D × N) (ho : opens f = none) (s : Disk D N B)
    (hm : s.dirs f.1 = true ∨ mkdirs f.1 = none) :
    robustOpen opens mkdirs f s = (.ok (), ⟨Function.update s.dirs f.1 true, Function.update s.files f (some [])⟩) := by
  cases hd : s.dirs f.1 with
  | true =>
    have : Function.update s.dirs f.1 true = s.dirs := by rw [← hd]; exact Function.update_eq_self _ _
    simp [robustOpen, openW, hd, ho, this]
  | false =>
    have hm : mkdirs f.1 = none := by simpa [hd] using hm
    simp [robustOpen, openW, hd, ho, hm]

/-- C352 (snapshots): if the directory exists or can be made and the file can be opened in it, the directory exists afterwards, the file contains the pickle
of the object, and all else is as before. -/
theorem robust_pickle (K : Pickle O B) (opens : D × N → Option Nat) (mkdirs : D → Option Nat) (f : D × N) (ho : opens f = none) (s : Disk D N B)
    (hm : s.dirs f.1 = true ∨ mkdirs f.1 = none) (o : O) (b : List B) (hb : K.dumps (-1) o = .ok b) :
    ∃ s', robustPickle K opens mkdirs f o s = (.ok (), s') ∧ s'.files f = some b ∧ s'.dirs f.1 = true ∧ (∀ g, g ≠ f → s'.files g = s.files g) ∧
      ∀ d, d ≠ f.1 → s'.dirs d = s.dirs d := by
  obtain ⟨h1, h2⟩ : (K.pieces (-1) o).2 = false ∧ (K.pieces (-1) o).1.flatten = b := by
    unfold Pickle.dumps at hb
    split at hb
    · cases hb
    · rename_i h; exact ⟨by simpa using h, by injection hb⟩
  have e : K.dump true (-1) o = (none, b) := by simp [Pickle.dump, h1, h2]
  refine ⟨⟨Function.update s.dirs f.1 true, Function.update s.files f (some b)⟩, ?_, by simp, by simp, fun g hg => by simp [hg], fun d hd => by simp [hd]⟩
  simp [robustPickle, robustOpen_ok opens mkdirs f ho s hm, e]

/-- C352: the same for text; the name of the file is returned. -/
theorem robust_write (opens : D × N → Option Nat) (mkdirs : D → Option Nat) (f : D × N) (ho : opens f = none) (s : Disk D N B)
    (hm : s.dirs f.1 = true ∨ mkdirs f.1 = none) (c : List B) :
    ∃ s', robustWrite opens mkdirs f c s = (.ok f.2, s') ∧ s'.files f = some c ∧ s'.dirs f.1 = true ∧ (∀ g, g ≠ f → s'.files g = s.files g) ∧
      ∀ d, d ≠ f.1 → s'.dirs d = s.dirs d := by
  refine ⟨⟨Function.update s.dirs f.1 true, Function.update s.files f (some c)⟩, ?_, by simp, by simp, fun g hg => by simp [hg], fun d hd => by simp [hd]⟩
  simp [robustWrite, robustOpen_ok opens mkdirs f ho s hm]

/-- C352: any other error in opening is passed on, nothing is written and no directory is made. -/
theorem robust_refused (K : Pickle O B) (opens : D × N → Option Nat) (mkdirs : D → Option Nat) (f : D × N) (e : Nat) (he : e ≠ 2) (ho : opens f = some e)
    (s : Disk D N B) (hd : s.dirs f.1 = true) (o : O) (c : List B) :
    robustPickle K opens mkdirs f o s = (.error (.os e), s) ∧ robustWrite opens mkdirs f c s = (.error (.os e), s) := by
  constructor <;> simp [robustPickle, robustWrite, robustOpen, openW, hd, ho, he]

/-! ## Examples -/

/-- Objects are numbers; odd ones cannot be pickled to the end. -/
def exK : Pickle Nat Nat := ⟨fun _ n => if n % 2 = 1 then ([[0]], true) else ([[0], [n]], false), fun b => match b with | [0, n] => .ok n | _ => .error .pickle⟩

example : exK.dumps 2 4 = .ok [0, 4] ∧ exK.dumps 0 4 = .ok [0, 4] ∧ exK.dumps 2 5 = .error .pickle ∧ exK.loads [0, 4] = .ok 4 ∧ [0, 4] ≠ ([] : List Nat) :=
  ⟨rfl, rfl, rfl, rfl, by decide⟩

/-- Saving 4 and then trying to save 5 to the same file: the first is lost. -/
example : ((save exK (fun _ : Nat => none) (some 7) (-1) 5 (save exK (fun _ => none) (some 7) (-1) 4 fun _ => none).2).2 7).map exK.loads = some (.error .pickle) := rfl

example : (save exK (fun _ : Nat => none) (some 7) (-1) 5 (save exK (fun _ => none) (some 7) (-1) 4 fun _ => none).2).1 = .error .pickle := rfl

example : robustPickle exK (fun _ : Nat × Nat => none) (fun _ => none) (1, 2) 4 ⟨fun _ => false, fun _ => none⟩ =
    (.ok (), ⟨Function.update (fun _ => false) 1 true, Function.update (fun _ => none) (1, 2) (some [0, 4])⟩) := by
  simp [robustPickle, robustOpen, openW, exK, Pickle.dump]

end Mdp.Saving
