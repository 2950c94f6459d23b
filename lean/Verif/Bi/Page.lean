import Mathlib.Data.List.Basic
import Mathlib.Tactic.Linarith

/-!
# The pages of inspections and slideshows: `show_training`, `show_execution`, `show_image_slideshow`, C370

Models the last part of `show_training` (`bimdp/inspection/facade.py:228-240`), `show_execution` (`facade.py:365-378`),
`_open_custom_brower` (`facade.py:33-45`) and `show_image_slideshow` (`mdp/utils/slideshow.py:744-773`).

Only the file of the page is modelled. Files are buffered: which part of the text not yet on disk a `write` passes on is decided by a
parameter `keep`, so that theorems for all `keep` hold for all buffers. What is written are the pieces of the text of the page. -/

namespace Bi.Page

abbrev Text := List Char

/-! ## Model -/

/-- The argument `open_browser` (facade.py:152-155). -/
inductive Arg
  | no
  | yes
  | named (name : Text)
deriving DecidableEq

/-- The file on disk; the browsers opened (`none` is the default one), each with the text it found in the file; the number of warnings. -/
structure World where
  disk : Text
  shown : List (Option Text × Text)
  warnings : Nat
deriving DecidableEq

/-- A file object: its position and what has not been written to disk. -/
structure Handle where
  pos : Nat
  pending : Text
deriving DecidableEq

/-- `open(filename, 'w')` (facade.py:230, 366, 367; slideshow.py:747). -/
def openW (w : World) : World × Handle := ({ w with disk := [] }, ⟨0, []⟩)

/-- Writing to the disk at a position. -/
def writeAt (disk : Text) (pos : Nat) (s : Text) : Text := disk.take pos ++ s ++ disk.drop (pos + s.length)

/-- `html_file.write` (facade.py:231-237, 368-374; slideshow.py:748-757). -/
def write (keep : Text → Nat) (w : World) (h : Handle) (s : Text) : World × Handle :=
  let t := h.pending ++ s
  ({ w with disk := writeAt w.disk h.pos (t.take (keep t)) }, ⟨h.pos + (t.take (keep t)).length, t.drop (keep t)⟩)

/-- `html_file.flush()` (slideshow.py:758), also done by closing and by the destruction of the file object. -/
def flush (w : World) (h : Handle) : World × Handle :=
  ({ w with disk := writeAt w.disk h.pos h.pending }, ⟨h.pos + h.pending.length, []⟩)

/-- The writes one after the other; writing `None` is a TypeError (`false`). -/
def writeAll (keep : Text → Nat) : List (Option Text) → World → Handle → World × Handle × Bool
  | [], w, h => (w, h, true)
  | none :: _, w, h => (w, h, false)
  | some s :: l, w, h => writeAll keep l (write keep w h s).1 (write keep w h s).2

/-- `if open_browser` and `_open_custom_brower` (facade.py:33-45, 238-239, 375-376; slideshow.py:760-771); `known` are the names
`webbrowser.get` finds. -/
def openBrowser (known : Text → Bool) (a : Arg) (w : World) : World :=
  match a with
  | .no => w
  | .yes => { w with shown := w.shown ++ [(none, w.disk)] }
  | .named n =>
    if n = [] then w
    else if known n then { w with shown := w.shown ++ [(some n, w.disk)] }
    else { w with shown := w.shown ++ [(none, w.disk)], warnings := w.warnings + 1 }

/-- The end of `show_training` (facade.py:228-240): the file is closed before the browser is opened. `false`: an exception. -/
def showTraining (keep : Text → Nat) (known : Text → Bool) (a : Arg) (pieces : List (Option Text)) (w : World) : World × Bool :=
  let r := writeAll keep pieces (openW w).1 (openW w).2
  let c := (flush r.1 r.2.1).1
  if r.2.2 then (openBrowser known a c, true) else (c, false)

/-- The end of `show_execution` (facade.py:365-378): the file is opened twice (366, 367); the `with` statement closes the first file
object, the second one is written to and destroyed when the function returns (reference counting). -/
def showExecution (keep : Text → Nat) (known : Text → Bool) (a : Arg) (pieces : List Text) (w : World) : World :=
  let f1 := openW w
  let f2 := openW f1.1
  let r := writeAll keep (pieces.map some) f2.1 f2.2
  let c := (flush r.1 f1.2).1
  let b := openBrowser known a c
  (flush b r.2.1).1

/-- `show_image_slideshow` (slideshow.py:744-773) on Python 3. Without a file name the file is binary and the first write a TypeError. `body`
is the result of `image_slideshow`, `none` if it raises; the file object is destroyed then. -/
def showImages (keep : Text → Nat) (known : Text → Bool) (a : Arg) (filename : Bool) (head : List Text) (body : Option Text) (tail : Text)
    (w : World) : World × Bool :=
  if filename then
    let r := writeAll keep (head.map some) (openW w).1 (openW w).2
    match body with
    | none => ((flush r.1 r.2.1).1, false)
    | some b =>
      let q := writeAll keep [some b, some tail] r.1 r.2.1
      (openBrowser known a (flush q.1 q.2.1).1, true)
  else (w, false)

/-! ## Specification -/

/-- `w'` is `w` after a page has been written and a browser been opened as asked for, which found the text `seen`. -/
def Opened (known : Text → Bool) (a : Arg) (seen : Text) (w w' : World) : Prop :=
  match a with
  | .no => w'.shown = w.shown ∧ w'.warnings = w.warnings
  | .yes => w'.shown = w.shown ++ [(none, seen)] ∧ w'.warnings = w.warnings
  | .named n =>
    (n = [] → w'.shown = w.shown ∧ w'.warnings = w.warnings) ∧
    (n ≠ [] → known n = true → w'.shown = w.shown ++ [(some n, seen)] ∧ w'.warnings = w.warnings) ∧
    (n ≠ [] → known n = false → w'.shown = w.shown ++ [(none, seen)] ∧ w'.warnings = w.warnings + 1)

/-! ## Proof -/

theorem opened (known : Text → Bool) (a : Arg) (w : World) : Opened known a w.disk w (openBrowser known a w) := by
  cases a with
  | no => exact ⟨rfl, rfl⟩
  | yes => exact ⟨rfl, rfl⟩
  | named n =>
    refine ⟨fun h => ?_, fun h h2 => ?_, fun h h2 => ?_⟩
    · simp [openBrowser, h]
    · simp [openBrowser, h, h2]
    · simp [openBrowser, h, h2]

theorem openBrowser_disk (known : Text → Bool) (a : Arg) (w : World) : (openBrowser known a w).disk = w.disk := by
  cases a with
  | no => rfl
  | yes => rfl
  | named n => simp only [openBrowser]; split_ifs <;> rfl

theorem writeAt_end (d s : Text) : writeAt d d.length s = d ++ s := by simp [writeAt]

/-- What is on disk and what is not, when the position is the end of the file. -/
def At (w0 : World) (w : World) (h : Handle) (t : Text) : Prop :=
  h.pos = w.disk.length ∧ w.disk ++ h.pending = t ∧ w.shown = w0.shown ∧ w.warnings = w0.warnings

theorem write_at (keep : Text → Nat) {w0 w : World} {h : Handle} {t : Text} (s : Text) (ha : At w0 w h t) :
    At w0 (write keep w h s).1 (write keep w h s).2 (t ++ s) := by
  obtain ⟨h1, h2, h3, h4⟩ := ha
  simp only [write, h1, writeAt_end, At]
  refine ⟨by simp, ?_, h3, h4⟩
  rw [List.append_assoc, List.take_append_drop, ← h2, List.append_assoc]

theorem writeAll_at (keep : Text → Nat) {w0 w : World} {h : Handle} {t : Text} (l : List Text) (ha : At w0 w h t) :
    At w0 (writeAll keep (l.map some) w h).1 (writeAll keep (l.map some) w h).2.1 (t ++ l.flatten) ∧
      (writeAll keep (l.map some) w h).2.2 = true := by
  induction l generalizing w h t with
  | nil => simpa [writeAll] using ha
  | cons s l ih =>
    have := ih (write_at keep s ha)
    simpa [writeAll, List.append_assoc] using this

theorem flush_at {w0 w : World} {h : Handle} {t : Text} (ha : At w0 w h t) :
    (flush w h).1.disk = t ∧ (flush w h).1.shown = w0.shown ∧ (flush w h).1.warnings = w0.warnings := by
  obtain ⟨h1, h2, h3, h4⟩ := ha
  simp only [flush, h1, writeAt_end]
  exact ⟨h2, h3, h4⟩

theorem open_at (w : World) : At w (openW w).1 (openW w).2 [] := ⟨rfl, rfl, rfl, rfl⟩

theorem Opened.of_eq {known : Text → Bool} {a : Arg} {s : Text} {w v w' : World} (h : Opened known a s v w') (h1 : v.shown = w.shown)
    (h2 : v.warnings = w.warnings) : Opened known a s w w' := by
  unfold Opened at *
  rw [h1, h2] at h
  exact h

/-- C370. `show_training`: the page is complete, already when the browser is opened, which is the one asked for or, if there is none of this
name, the default one with a warning. -/
theorem training_page (keep : Text → Nat) (known : Text → Bool) (a : Arg) (pieces : List Text) (w : World) :
    (showTraining keep known a (pieces.map some) w).2 = true ∧ (showTraining keep known a (pieces.map some) w).1.disk = pieces.flatten ∧
      Opened known a pieces.flatten w (showTraining keep known a (pieces.map some) w).1 := by
  obtain ⟨h1, h2⟩ := writeAll_at keep pieces (open_at w)
  obtain ⟨h3, h4, h5⟩ := flush_at h1
  simp only [showTraining, h2, if_true]
  rw [List.nil_append] at h3
  refine ⟨trivial, by rw [openBrowser_disk, h3], ?_⟩
  have := opened known a (flush (writeAll keep (pieces.map some) (openW w).1 (openW w).2).1
    (writeAll keep (pieces.map some) (openW w).1 (openW w).2).2.1).1
  rw [h3] at this
  exact this.of_eq h4 h5

/-- C370. `show_image_slideshow` with a file name: likewise, if there is a slideshow. -/
theorem images_page (keep : Text → Nat) (known : Text → Bool) (a : Arg) (head : List Text) (body tail : Text) (w : World) :
    (showImages keep known a true head (some body) tail w).2 = true ∧
      (showImages keep known a true head (some body) tail w).1.disk = head.flatten ++ body ++ tail ∧
      Opened known a (head.flatten ++ body ++ tail) w (showImages keep known a true head (some body) tail w).1 := by
  obtain ⟨h1, -⟩ := writeAll_at keep head (open_at w)
  obtain ⟨h2, -⟩ := writeAll_at keep [body, tail] h1
  obtain ⟨h3, h4, h5⟩ := flush_at h2
  simp only [showImages, if_true]
  have e : ([] : Text) ++ head.flatten ++ [body, tail].flatten = head.flatten ++ body ++ tail := by simp
  rw [e] at h3
  simp only [List.map_cons, List.map_nil] at h3 h4 h5
  refine ⟨trivial, by rw [openBrowser_disk, h3], ?_⟩
  have := opened known a (flush (writeAll keep [some body, some tail] (writeAll keep (head.map some) (openW w).1 (openW w).2).1
    (writeAll keep (head.map some) (openW w).1 (openW w).2).2.1).1 (writeAll keep [some body, some tail]
    (writeAll keep (head.map some) (openW w).1 (openW w).2).1 (writeAll keep (head.map some) (openW w).1 (openW w).2).2.1).2.1).1
  rw [h3] at this
  exact this.of_eq h4 h5

theorem flush_nil (w : World) : (flush w ⟨0, []⟩).1 = w := by
  simp [flush, writeAt]

theorem execution_eq (keep : Text → Nat) (known : Text → Bool) (a : Arg) (pieces : List Text) (w : World) :
    showExecution keep known a pieces w = (flush (openBrowser known a (writeAll keep (pieces.map some) (openW w).1 (openW w).2).1)
      (writeAll keep (pieces.map some) (openW w).1 (openW w).2).2.1).1 := by
  have e : openW (openW w).1 = openW w := rfl
  have e2 : (openW w).2 = ⟨0, []⟩ := rfl
  simp only [showExecution, e]
  rw [e2, flush_nil]

/-- C370. `show_execution`: the page is complete after the return. The browser asked for is opened with a beginning of the page. -/
theorem execution_page (keep : Text → Nat) (known : Text → Bool) (a : Arg) (pieces : List Text) (w : World) :
    (showExecution keep known a pieces w).disk = pieces.flatten ∧
      ∃ seen, seen <+: pieces.flatten ∧ Opened known a seen w (showExecution keep known a pieces w) := by
  obtain ⟨h1, h2, h3, h4⟩ := (writeAll_at keep pieces (open_at w)).1
  rw [execution_eq]
  generalize writeAll keep (pieces.map some) (openW w).1 (openW w).2 = r at *
  rw [List.nil_append] at h2
  refine ⟨?_, r.1.disk, ⟨r.2.1.pending, h2⟩, ?_⟩
  · simp only [flush, openBrowser_disk, h1, writeAt_end, h2]
  · have := (opened known a r.1).of_eq h3 h4
    unfold Opened at *
    exact this

/-- With a buffer that keeps texts of at most `size` characters back nothing of a shorter page is on disk. -/
theorem writeAll_short (keep : Text → Nat) (size : Nat) (hk : ∀ t : Text, t.length ≤ size → keep t = 0) (l : List Text) (w : World) (h : Handle)
    (hl : h.pending.length + l.flatten.length ≤ size) (hp : h.pos = w.disk.length) :
    (writeAll keep (l.map some) w h).1.disk = w.disk := by
  induction l generalizing w h with
  | nil => rfl
  | cons s l ih =>
    simp only [List.flatten_cons, List.length_append] at hl
    have e : keep (h.pending ++ s) = 0 := hk _ (by simp only [List.length_append]; omega)
    simp only [List.map_cons, writeAll]
    have h1 : (write keep w h s).1.disk = w.disk := by
      simp only [write, e, List.take_zero, hp, writeAt_end, List.append_nil]
    rw [ih, h1]
    · simp only [write, e, List.drop_zero, List.length_append]; omega
    · rw [h1, ← hp]; simp [write, e]

/-- C370. False for `show_execution`: if the page is not larger than the buffer the browser finds an empty file, whatever the page is. -/
theorem execution_browser_empty_violation (keep : Text → Nat) (size : Nat) (hk : ∀ t : Text, t.length ≤ size → keep t = 0)
    (known : Text → Bool) (a : Arg) (pieces : List Text) (hs : pieces.flatten.length ≤ size) (w : World) :
    Opened known a [] w (showExecution keep known a pieces w) := by
  obtain ⟨h1, h2, h3, h4⟩ := (writeAll_at keep pieces (open_at w)).1
  have h5 := writeAll_short keep size hk pieces (openW w).1 (openW w).2 (by simpa [openW] using hs) rfl
  rw [execution_eq]
  generalize writeAll keep (pieces.map some) (openW w).1 (openW w).2 = r at *
  have := (opened known a r.1).of_eq h3 h4
  rw [h5] at this
  unfold Opened at *
  exact this

theorem writeAll_blocks (size : Nat) (hs : 0 < size) (l : List Text) (w : World) (h : Handle) (hp : h.pos = w.disk.length)
    (hd : size ∣ w.disk.length) (hl : h.pending.length < size) :
    size ∣ (writeAll (fun t => t.length / size * size) (l.map some) w h).1.disk.length ∧
      (writeAll (fun t => t.length / size * size) (l.map some) w h).2.1.pending.length < size := by
  induction l generalizing w h with
  | nil => exact ⟨hd, hl⟩
  | cons s l ih =>
    simp only [List.map_cons, writeAll]
    have hle := Nat.div_mul_le_self (h.pending ++ s).length size
    have hmod := Nat.mod_lt (h.pending ++ s).length hs
    have hdm := Nat.div_add_mod' (h.pending ++ s).length size
    apply ih
    · simp [write, hp, writeAt_end]
    · simp only [write, hp, writeAt_end]
      rw [List.length_append, List.length_take, Nat.min_eq_left hle]
      exact (Nat.dvd_add_right hd).2 ⟨_, Nat.mul_comm _ _⟩
    · simp only [write, List.length_drop]
      omega

/-- C370. False for `show_execution`: with a buffer that passes on whole blocks the browser finds the whole blocks of the page, so that the
page ends too early for it unless its length is a multiple of the size of a block. -/
theorem execution_browser_blocks_violation (size : Nat) (hs : 0 < size) (known : Text → Bool) (a : Arg) (pieces : List Text) (w : World) :
    Opened known a (pieces.flatten.take (pieces.flatten.length / size * size)) w
      (showExecution (fun t => t.length / size * size) known a pieces w) := by
  obtain ⟨h1, h2, h3, h4⟩ := (writeAll_at (fun t => t.length / size * size) pieces (open_at w)).1
  obtain ⟨h5, h6⟩ := writeAll_blocks size hs pieces (openW w).1 (openW w).2 rfl (by simp [openW]) (by simpa [openW] using hs)
  rw [execution_eq]
  generalize writeAll (fun t : Text => t.length / size * size) (pieces.map some) (openW w).1 (openW w).2 = r at *
  rw [List.nil_append] at h2
  have e : pieces.flatten.take (pieces.flatten.length / size * size) = r.1.disk := by
    obtain ⟨k, hk⟩ := h5
    have : pieces.flatten.length / size * size = r.1.disk.length := by
      rw [← h2, List.length_append, hk, Nat.mul_add_div hs, Nat.div_eq_of_lt h6, Nat.add_zero, Nat.mul_comm]
    rw [this, ← h2, List.take_left]
  rw [e]
  have := (opened known a r.1).of_eq h3 h4
  unfold Opened at *
  exact this

theorem writeAll_none (keep : Text → Nat) (l : List Text) (m : List (Option Text)) (w : World) (h : Handle) :
    writeAll keep (l.map some ++ none :: m) w h =
      ((writeAll keep (l.map some) w h).1, (writeAll keep (l.map some) w h).2.1, false) := by
  induction l generalizing w h with
  | nil => rfl
  | cons s l ih => simp [writeAll, ih]

/-- C370. False without snapshots (the slideshow is None then): an exception, the page ends where the slideshow should begin, no browser. -/
theorem training_none_violation (keep : Text → Nat) (known : Text → Bool) (a : Arg) (head : List Text) (rest : List (Option Text)) (w : World) :
    showTraining keep known a (head.map some ++ none :: rest) w = (⟨head.flatten, w.shown, w.warnings⟩, false) := by
  obtain ⟨h1, -⟩ := writeAll_at keep head (open_at w)
  obtain ⟨h3, h4, h5⟩ := flush_at h1
  simp only [showTraining, writeAll_none, Bool.false_eq_true, if_false]
  rw [Prod.mk.injEq]
  refine ⟨?_, rfl⟩
  rw [List.nil_append] at h3
  rw [← h3, ← h4, ← h5]

/-- C370. False for `show_image_slideshow` without a file name: always an exception. -/
theorem images_temporary_violation (keep : Text → Nat) (known : Text → Bool) (a : Arg) (head : List Text) (body : Option Text) (tail : Text)
    (w : World) : showImages keep known a false head body tail w = (w, false) := rfl

/-- C370. False for a slideshow that is refused: the page there was before is replaced by the beginning of a page. -/
theorem images_refused_violation (keep : Text → Nat) (known : Text → Bool) (a : Arg) (head : List Text) (tail : Text) (w : World) :
    showImages keep known a true head none tail w = (⟨head.flatten, w.shown, w.warnings⟩, false) := by
  obtain ⟨h1, -⟩ := writeAll_at keep head (open_at w)
  obtain ⟨h3, h4, h5⟩ := flush_at h1
  simp only [showImages, if_true]
  rw [Prod.mk.injEq]
  refine ⟨?_, rfl⟩
  rw [List.nil_append] at h3
  rw [← h3, ← h4, ← h5]

/-! ## Examples -/

/-- Nothing known but "firefox", an old page, blocks of four characters. -/
example : showExecution (fun t => t.length / 4 * 4) (· == "firefox".toList) (.named "firefox".toList) ["abc".toList, "defghi".toList]
    ⟨"old page".toList, [], 0⟩ = ⟨"abcdefghi".toList, [(some "firefox".toList, "abcdefgh".toList)], 0⟩ := by decide +kernel

example : showExecution (fun t => if t.length ≤ 8192 then 0 else t.length) (fun _ => false) .yes ["abc".toList, "defghi".toList]
    ⟨"old page".toList, [], 0⟩ = ⟨"abcdefghi".toList, [(none, [])], 0⟩ := by decide +kernel

example : Opened (fun _ => false) .yes [] ⟨[], [], 0⟩ (showExecution (fun t => if t.length ≤ 8192 then 0 else t.length) (fun _ => false) .yes
    ["abc".toList, "defghi".toList] ⟨[], [], 0⟩) :=
  execution_browser_empty_violation _ 8192 (fun _ h => if_pos h) _ _ _ (by decide +kernel) _

example : Opened (fun _ => false) .yes "abcdefgh".toList ⟨[], [], 0⟩ (showExecution (fun t => t.length / 4 * 4) (fun _ => false) .yes
    ["abc".toList, "defghi".toList] ⟨[], [], 0⟩) :=
  execution_browser_blocks_violation 4 (by decide) _ _ ["abc".toList, "defghi".toList] _

example : showTraining (fun t => t.length / 4 * 4) (· == "firefox".toList) (.named "lynx".toList) [some "abc".toList, some "defghi".toList]
    ⟨"old page".toList, [], 0⟩ = (⟨"abcdefghi".toList, [(none, "abcdefghi".toList)], 1⟩, true) := by decide +kernel

example : showImages (fun t => t.length / 4 * 4) (fun _ => false) .yes true ["abc".toList] (some "defgh".toList) "i".toList
    ⟨"old page".toList, [], 0⟩ = (⟨"abcdefghi".toList, [(none, "abcdefghi".toList)], 0⟩, true) := by decide +kernel

example : showImages (fun t => t.length / 4 * 4) (fun _ => false) .yes true ["abc".toList] none "i".toList
    ⟨"old page".toList, [], 0⟩ = (⟨"abc".toList, [], 0⟩, false) := by decide +kernel

end Bi.Page
