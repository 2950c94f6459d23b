import Mathlib.Algebra.Order.Round
import Mathlib.Algebra.Order.Field.Rat
import Mathlib.Data.Rat.Floor
import Mathlib.Tactic.Linarith
import Mathlib.Tactic.FieldSimp
import Mathlib.Tactic.Positivity

/-!
# Model of `progressinfo` (mdp/utils/progress_bar.py 35-263), C292, C293

Numbers are rational. Time is a parameter: the function `now` gives the time of the `n`-th call of `time.time`. What is written to the terminal is a
list of strings of characters; the layout of the timer is modelled as far as it can fail. The attributes `last_percent` and `last_time` of the
function `_progress` are global: they survive from earlier loops.
-/

namespace Mdp.Progress

inductive Err where
  /-- Exception: length must be specified -/
  | noLength
  /-- ValueError: unknown style -/
  | value
  | zeroDivision
  /-- AttributeError: `_progress.last_percent` -/
  | attribute
  /-- UnboundLocalError: `count` -/
  | unbound
deriving DecidableEq

/-- Python's `round` (half to even). -/
def pyRound (x : ℚ) : Int :=
  let f := ⌊x⌋
  if x - f < 1 / 2 then f else if 1 / 2 < x - f then f + 1 else if f % 2 = 0 then f else f + 1

/-- Where the percentage is written. -/
inductive Pos where
  | left | right | middle
deriving DecidableEq

/-- The layout of the bar: `width` is the width of the terminal minus the fixed lengths (219-231). -/
structure Bar where
  indent : List Char
  width : Int
  pos : Pos
  d0 : Char
  d1 : Char
  c1 : Char
  c2 : Char
  c3 : Char

/-- The layout for a terminal of `w` columns (219-231); delimiters and characters are one character each. -/
def Bar.mk' (indent : List Char) (w : Nat) (pos : Pos) (d0 d1 c1 c2 c3 : Char) : Bar :=
  ⟨indent, (w : Int) - (indent.length + 4 + if pos = .middle then 0 else 4), pos, d0, d1, c1, c2, c3⟩

/-- The decimal digits of a number that is not negative, with sign for the others. -/
def dec (n : Int) : List Char := if n < 0 then '-' :: Nat.toDigits 10 (-n).toNat else Nat.toDigits 10 n.toNat

/-- `"%3d%%"` (37): filled up with blanks on the left to three characters. -/
def fmt3 (n : Int) : List Char :=
  let s := dec n
  List.replicate (3 - s.length) ' ' ++ s ++ ['%']

/-- The percentage as text (37). -/
def percentS (p : ℚ) : List Char := fmt3 (pyRound (p * 100))

/-- `s.lstrip()` for blanks (57). -/
def lstrip (s : List Char) : List Char := s.dropWhile (· = ' ')

/-- `box[0:i]` and `box[i:]`, an index below zero counts from the end. -/
def upto (l : List Char) (i : Int) : List Char := if 0 ≤ i then l.take i.toNat else l.take (l.length - (-i).toNat)
def frm (l : List Char) (i : Int) : List Char := if 0 ≤ i then l.drop i.toNat else l.drop (l.length - (-i).toNat)

/-- The text of the bar (37-62), after the carriage return. -/
def Bar.box (b : Bar) (p : ℚ) : List Char :=
  let ps := percentS p
  let symbols := pyRound (p * b.width)
  let box := [b.d0] ++ List.replicate symbols.toNat b.c1 ++ [b.c2] ++ List.replicate (b.width - symbols).toNat b.c3 ++ [b.d1]
  match b.pos with
  | .left => b.indent ++ ps ++ box
  | .right => b.indent ++ box ++ ps
  | .middle =>
    let ps := lstrip ps
    let i : Int := (box.length / 2 : Nat) - ps.length + 2
    b.indent ++ upto box i ++ ps ++ frm box (i + ps.length)

/-- The argument `style` with the part of the layout that matters. -/
inductive Style where
  | bar (b : Bar)
  /-- `last`: the speed of the last step -/
  | timer (last : Bool)
  | other

/-- `_progress` (35-102): an exception, or the new value of the attribute `last_percent`. In the timer only the estimate for the speed of the last step
reads it (80-83). `elapsed / percent` (77) is not reached for zero. -/
def progress (style : Style) (last : Option ℚ) (p : ℚ) : Except Err (Option ℚ) :=
  match style with
  | .bar _ => .ok last
  | .other => .ok last
  | .timer speedLast =>
    if p = 0 then .ok (some p)
    else if speedLast = false then .ok (some p)
    else match last with
      | none => .error .attribute
      | some q => if p - q = 0 then .error .zeroDivision else .ok (some p)

/-- The argument `length` after 205-215: the sequence has a length of its own, or the argument counts. -/
def total (sized : Option Nat) (length : Option Int) : Except Err (Bool × ℚ) :=
  match sized with
  | some n => .ok (false, n)
  | none => match length with
    | none => .error .noLength
    | some k => .ok (decide (k < 0), if k < 0 then -k else k)

/-- The fraction that is displayed (250-253): of the value or of the count. -/
def fraction {α : Type} (val : α → ℚ) (items : Bool) (len : ℚ) (count : Nat) (v : α) : Except Err ℚ :=
  if len = 0 then .error .zeroDivision else .ok (if items then val v / len else count / len)

/-- The loop (247-261): what is yielded, and the exception if there is one. -/
def loop {α : Type} (val : α → ℚ) (style : Style) (items : Bool) (len : ℚ) : Option ℚ → Nat → List α → List α × Option Err
  | last, count, [] =>
    -- the `else` of the loop: `count` has no value if nothing was yielded
    if items then ([], match progress style last 1 with | .error e => some e | .ok _ => none)
    else if count = 0 then ([], some .unbound)
    else if len = 0 then ([], some .zeroDivision)
    else ([], match progress style last (count / len) with | .error e => some e | .ok _ => none)
  | last, count, v :: r =>
    match fraction val items len count v with
    | .error e => ([], some e)
    | .ok p => match progress style last p with
      | .error e => ([], some e)
      | .ok last => let t := loop val style items len last (count + 1) r; (v :: t.1, t.2)

/-- `progressinfo` (104-263), run to its end. -/
def run {α : Type} (val : α → ℚ) (style : Style) (last : Option ℚ) (sized : Bool) (length : Option Int) (s : List α) : List α × Option Err :=
  match total (if sized then some s.length else none) length with
  | .error e => ([], some e)
  | .ok (items, len) => match style with
    | .other => ([], some .value)
    | _ => loop val style items len last 0 s

/-! ## The loop is transparent -/

theorem progress_mean {style : Style} (h : style ≠ .timer true) (last : Option ℚ) (p : ℚ) : ∃ l, progress style last p = .ok l := by
  cases style with
  | bar b => exact ⟨_, rfl⟩
  | other => exact ⟨_, rfl⟩
  | timer s =>
    cases s with
    | true => exact absurd rfl h
    | false =>
      simp only [progress]
      split
      · exact ⟨_, rfl⟩
      · exact ⟨_, rfl⟩

theorem loop_mean {α : Type} (val : α → ℚ) {style : Style} (h : style ≠ .timer true) {items : Bool} {len : ℚ} (hl : len ≠ 0) (last : Option ℚ) (count : Nat)
    (s : List α) (hs : s ≠ [] ∨ 0 < count ∨ items = true) : loop val style items len last count s = (s, none) := by
  induction s generalizing last count with
  | nil =>
    simp only [loop]
    split
    · obtain ⟨l, e⟩ := progress_mean h last 1
      rw [e]
    · next hi =>
      have hc : count ≠ 0 := by
        rcases hs with hs | hs | hs
        exacts [absurd rfl hs, by omega, absurd hs hi]
      simp only [if_neg hc]
      obtain ⟨l, e⟩ := progress_mean h last (count / len)
      rw [e]
  | cons v r ih =>
    simp only [loop, fraction, if_neg hl]
    obtain ⟨l, e⟩ := progress_mean h last (if items then val v / len else count / len)
    rw [e]
    simp only
    rw [ih l (count + 1) (.inr (.inl (by omega)))]

/-- C292: for a sequence that has a length, and is not empty, the loop over `progressinfo` sees its elements, all and in order, in both styles (with the mean
speed). -/
theorem transparent_partial {α : Type} (val : α → ℚ) {style : Style} (h : style ≠ .timer true) (h' : style ≠ .other) (last : Option ℚ) (length : Option Int)
    {s : List α} (hs : s ≠ []) : run val style last true length s = (s, none) := by
  have hl : ((s.length : Nat) : ℚ) ≠ 0 := by
    have := List.length_pos_of_ne_nil hs
    exact_mod_cast this.ne'
  simp only [run, if_true, total]
  cases style with
  | other => exact absurd rfl h'
  | bar b => exact loop_mean val h hl _ _ _ (.inl hs)
  | timer k => exact loop_mean val h hl _ _ _ (.inl hs)

/-- C292: the same for an iterator, if a length other than zero is given, right or wrong. -/
theorem transparent_iterator_partial {α : Type} (val : α → ℚ) {style : Style} (h : style ≠ .timer true) (h' : style ≠ .other) (last : Option ℚ) {k : Int}
    (hk : k ≠ 0) {s : List α} (hs : s ≠ [] ∨ k < 0) : run val style last false (some k) s = (s, none) := by
  simp only [run, Bool.false_eq_true, if_false, total]
  have hl : (if k < 0 then (-k : ℚ) else (k : ℚ)) ≠ 0 := by
    have : (k : ℚ) ≠ 0 := by exact_mod_cast hk
    split <;> simpa using this
  have hc : s ≠ [] ∨ 0 < 0 ∨ decide (k < 0) = true := by
    rcases hs with hs | hs
    · exact .inl hs
    · exact .inr (.inr (decide_eq_true hs))
  cases style with
  | other => exact absurd rfl h'
  | bar b => exact loop_mean val h hl _ _ _ hc
  | timer k => exact loop_mean val h hl _ _ _ hc

theorem loop_last {α : Type} (val : α → ℚ) {len : ℚ} (hl : len ≠ 0) (count : Nat) (s : List α) (hc : 0 < count) :
    loop val (.timer true) false len (some (((count - 1 : Nat) : ℚ) / len)) count s = (s, none) := by
  induction s generalizing count with
  | nil =>
    simp only [loop]
    rw [if_neg (by simp), if_neg (by omega), if_neg hl]
    have h1 : (count : ℚ) / len ≠ 0 := div_ne_zero (by exact_mod_cast hc.ne') hl
    have h2 : (count : ℚ) / len - ((count - 1 : Nat) : ℚ) / len ≠ 0 := by
      rw [← sub_div]
      refine div_ne_zero ?_ hl
      rw [Nat.cast_sub (by omega)]
      simp
    simp only [progress, if_neg h1, if_neg h2]
    simp
  | cons v r ih =>
    have h1 : (count : ℚ) / len ≠ 0 := div_ne_zero (by exact_mod_cast hc.ne') hl
    have h2 : (count : ℚ) / len - ((count - 1 : Nat) : ℚ) / len ≠ 0 := by
      rw [← sub_div]
      refine div_ne_zero ?_ hl
      rw [Nat.cast_sub (by omega)]
      simp
    simp only [loop, fraction, if_neg hl, Bool.false_eq_true, if_false, progress, if_neg h1, if_neg h2, Bool.true_eq_false]
    have := ih (count + 1) (by omega)
    rw [Nat.add_sub_cancel] at this
    rw [this]

/-- C292: with the speed of the last step too, if the elements are counted. -/
theorem transparent_last_partial {α : Type} (val : α → ℚ) (last : Option ℚ) (length : Option Int) {s : List α} (hs : s ≠ []) :
    run val (.timer true) last true length s = (s, none) := by
  have hl : ((s.length : Nat) : ℚ) ≠ 0 := by
    have := List.length_pos_of_ne_nil hs
    exact_mod_cast this.ne'
  simp only [run, if_true, total]
  cases s with
  | nil => exact absurd rfl hs
  | cons v r =>
    simp only [loop, fraction, if_neg hl, Bool.false_eq_true, if_false, Nat.cast_zero, zero_div, progress, if_true]
    have := loop_last val hl 1 r Nat.one_pos
    rw [Nat.sub_self, Nat.cast_zero, zero_div] at this
    rw [Nat.zero_add, this]

/-- C292, false: a loop over an empty sequence ends in an UnboundLocalError. -/
theorem empty_violation {α : Type} (val : α → ℚ) {style : Style} (h' : style ≠ .other) (last : Option ℚ) (length : Option Int) :
    run val style last true length ([] : List α) = ([], some .unbound) := by
  cases style <;> simp_all [run, total, loop]

/-- C292, false: with the speed of the last step, iterating on items, two equal items one after the other end in a ZeroDivisionError, and the loop sees only the
elements before. -/
theorem items_violation : run (α := ℚ) id (.timer true) (some 0) false (some (-10)) [1, 2, 2, 3] = ([1, 2], some .zeroDivision) := by
  decide +kernel

/-- C292, false: in a fresh interpreter iterating on items that do not begin with zero ends in an AttributeError. -/
theorem items_first_violation {v : ℚ} (hv : v ≠ 0) (r : List ℚ) {k : Int} (hk : k < 0) :
    run id (.timer true) none false (some k) (v :: r) = ([], some .attribute) := by
  have hq : ((-k : ℚ)) ≠ 0 := by
    have : (k : ℚ) ≠ 0 := by exact_mod_cast hk.ne
    simpa using this
  simp only [run, Bool.false_eq_true, if_false, total, if_pos hk, decide_eq_true hk, loop, fraction, if_neg hq, if_true, id]
  rw [show progress (.timer true) none (v / (-k : ℚ)) = .error .attribute by
    simp only [progress, if_neg (div_ne_zero hv hq)]
    simp]

example : run (α := Nat) (fun n => n) (.timer false) none true none [3, 1, 2] = ([3, 1, 2], none) := by decide +kernel

/-! ## The length of the bar -/

theorem pyRound_near (x : ℚ) : ⌊x⌋ ≤ pyRound x ∧ pyRound x ≤ ⌊x⌋ + 1 := by
  simp only [pyRound]
  split
  · omega
  · split
    · omega
    · split <;> omega

theorem pyRound_int (n : Int) : pyRound n = n := by
  simp only [pyRound, Int.floor_intCast, sub_self]
  rw [if_pos (by norm_num)]

theorem pyRound_mono {x y : ℚ} (h : x ≤ y) : pyRound x ≤ pyRound y := by
  have hf := Int.floor_mono h
  rcases Int.lt_or_eq_of_le hf with hl | he
  · have := (pyRound_near x).2
    have := (pyRound_near y).1
    omega
  · simp only [pyRound, ← he]
    generalize ⌊x⌋ = k
    by_cases h1 : x - k < 1 / 2
    · rw [if_pos h1]
      split
      · exact le_refl _
      · split
        · omega
        · split <;> omega
    · rw [if_neg h1, if_neg (show ¬ y - k < 1 / 2 by linarith)]
      by_cases h2 : 1 / 2 < x - k
      · rw [if_pos h2, if_pos (show 1 / 2 < y - k by linarith)]
      · rw [if_neg h2]
        split
        · split <;> omega
        · split <;> omega

theorem pyRound_range {p : ℚ} (h0 : 0 ≤ p) (h1 : p ≤ 1) {n : Int} (hn : 0 ≤ n) : 0 ≤ pyRound (p * n) ∧ pyRound (p * n) ≤ n := by
  have hq : (0 : ℚ) ≤ n := by exact_mod_cast hn
  refine ⟨?_, ?_⟩
  · have := pyRound_mono (x := ((0 : Int) : ℚ)) (y := p * n) (by simpa using mul_nonneg h0 hq)
    rwa [pyRound_int] at this
  · have := pyRound_mono (x := p * n) (y := n) (by nlinarith)
    rwa [pyRound_int] at this

theorem fmt3_length : ∀ n : Fin 101, (fmt3 (n : Nat)).length = 4 ∧ 2 ≤ (lstrip (fmt3 (n : Nat))).length ∧ (lstrip (fmt3 (n : Nat))).length ≤ 4 := by
  decide +kernel

theorem percent_length {p : ℚ} (h0 : 0 ≤ p) (h1 : p ≤ 1) :
    (percentS p).length = 4 ∧ 2 ≤ (lstrip (percentS p)).length ∧ (lstrip (percentS p)).length ≤ 4 := by
  have h := pyRound_range h0 h1 (n := 100) (by norm_num)
  rw [Int.cast_ofNat] at h
  have := fmt3_length ⟨(pyRound (p * 100)).toNat, by omega⟩
  simp only at this
  rw [Int.toNat_of_nonneg h.1] at this
  exact this

/-- C293: in a terminal that is not too narrow the bar is one column narrower than the terminal, whatever fraction is displayed. -/
theorem bar_length (indent : List Char) {w : Nat} (pos : Pos) (d0 d1 c1 c2 c3 : Char) (hw : indent.length + 8 ≤ w) {p : ℚ} (h0 : 0 ≤ p) (h1 : p ≤ 1) :
    ((Bar.mk' indent w pos d0 d1 c1 c2 c3).box p).length + 1 = w := by
  obtain ⟨e, e2, e4⟩ := percent_length h0 h1
  have hn : 0 ≤ (Bar.mk' indent w pos d0 d1 c1 c2 c3).width := by
    simp only [Bar.mk']
    split <;> omega
  have hr := pyRound_range h0 h1 hn
  generalize hb : Bar.mk' indent w pos d0 d1 c1 c2 c3 = b at *
  have hi : b.indent = indent := by rw [← hb]; rfl
  have hp : b.pos = pos := by rw [← hb]; rfl
  have hwd : b.width = (w : Int) - (indent.length + 4 + if pos = .middle then 0 else 4) := by rw [← hb]; rfl
  simp only [Bar.box, hi, hp]
  generalize pyRound (p * b.width) = k at *
  generalize hx : [b.d0] ++ List.replicate k.toNat b.c1 ++ [b.c2] ++ List.replicate (b.width - k).toNat b.c3 ++ [b.d1] = box
  have hl : (box.length : Int) = b.width + 3 := by
    rw [← hx]
    simp only [List.length_append, List.length_replicate, List.length_singleton]
    omega
  cases pos with
  | left =>
    simp only [List.length_append, e, reduceCtorEq, if_false] at hwd ⊢
    omega
  | right =>
    simp only [List.length_append, e, reduceCtorEq, if_false] at hwd ⊢
    omega
  | middle =>
    simp only [if_true] at hwd
    simp only
    generalize lstrip (percentS p) = s at *
    have hi0 : (0 : Int) ≤ ((box.length / 2 : Nat) : Int) - s.length + 2 := by omega
    simp only [upto, frm, if_pos hi0, if_pos (show (0 : Int) ≤ ((box.length / 2 : Nat) : Int) - s.length + 2 + s.length by omega), List.length_append,
      List.length_take, List.length_drop]
    omega

/-- C293: the arrow never goes back: with a larger fraction there are at least as many characters before it, and the percentage is at least as large. -/
theorem bar_monotone {w : Int} (hw : 0 ≤ w) {p q : ℚ} (h : p ≤ q) : pyRound (p * w) ≤ pyRound (q * w) ∧ pyRound (p * 100) ≤ pyRound (q * 100) :=
  ⟨pyRound_mono (mul_le_mul_of_nonneg_right h (by exact_mod_cast hw)), pyRound_mono (mul_le_mul_of_nonneg_right h (by norm_num))⟩

/-- C293: at the left the text is the indentation, the percentage, and the bar: characters `char1`, as many as the fraction of the width, the arrow, and the rest. -/
theorem bar_left (b : Bar) (hp : b.pos = .left) (hw : 0 ≤ b.width) {p : ℚ} (h0 : 0 ≤ p) (h1 : p ≤ 1) : ∃ k : Nat, (k : Int) = pyRound (p * b.width) ∧ (k : Int) ≤ b.width ∧
    b.box p = b.indent ++ percentS p ++ (b.d0 :: List.replicate k b.c1 ++ [b.c2] ++ List.replicate (b.width.toNat - k) b.c3 ++ [b.d1]) := by
  have hr := pyRound_range h0 h1 hw
  refine ⟨(pyRound (p * b.width)).toNat, by omega, by omega, ?_⟩
  simp only [Bar.box, hp]
  rw [show (b.width - pyRound (p * b.width)).toNat = b.width.toNat - (pyRound (p * b.width)).toNat by omega]
  simp

/-- C293, false: for an iterator with more elements than announced the bar grows beyond the terminal. -/
theorem bar_overflow_violation : ((Bar.mk' [] 20 .left '[' ']' '=' '>' '.').box 2).length = 31 := by decide +kernel

/-- C293, false: in a narrow terminal the percentage in the middle destroys the bar. -/
theorem bar_narrow_violation : ((Bar.mk' [] 4 .middle '[' ']' '=' '>' '.').box 1).length = 6 := by decide +kernel

example : (Bar.mk' [] 20 .middle '[' ']' '=' '>' '.').box (1 / 2) = '[' :: List.replicate 7 '=' ++ ['5', '0', '%'] ++ List.replicate 7 '.' ++ [']'] := by
  decide +kernel
example : (Bar.mk' [' '] 20 .left '[' ']' '=' '>' '.').box (1 / 4) =
    [' ', ' ', '2', '5', '%', '[', '=', '=', '=', '>'] ++ List.replicate 8 '.' ++ [']'] := by decide +kernel

end Mdp.Progress
