import Mathlib.Data.List.Basic

/-!
# Model of TimeFramesNode, TimeDelayNode and TimeDelaySlidingWindowNode (nodes/misc_nodes.py 261-521)

The columns of an array come in blocks of `input_dim` columns; one block of one row is an element of `A` (with the
block of zeros `0`), a row of an input is one block, a row of an output the list of its `time_frames` blocks. The number
of frames and the gap are natural numbers.
-/

namespace Mdp.TimeFrames

variable {A : Type} [Zero A]

/-- `y[r:r+t, block f] = v`, where `t` rows of `y` are selected from row `r`: the number of rows must agree, a single
row is repeated. `none`: `ValueError`. -/
def assign (y : List (List A)) (r f : Nat) (v : List A) : Option (List (List A)) :=
  let rows := y.drop r
  if rows.length = v.length then some (y.take r ++ List.zipWith (fun row b => row.set f b) rows v)
  else match v with
    | [b] => some (y.take r ++ rows.map fun row => row.set f b)
    | _ => none

/-- numpy's `x[:e]`. -/
def upTo {B : Type} (x : List B) (e : Int) : List B :=
  if 0 ≤ e then x.take e.toNat else x.take ((x.length : Int) + e).toNat

/-- `TimeFramesNode._execute` (329-337). -/
def framesExecute (frames gap : Nat) (x : List A) : Option (List (List A)) :=
  let tf : Int := x.length - ((frames : Int) - 1) * gap
  -- numx.zeros
  if tf < 0 then none
  else
    let y := List.replicate tf.toNat (List.replicate frames (0 : A))
    (List.range frames).foldlM (fun y f => assign y 0 f ((x.drop (gap * f)).take tf.toNat)) y

/-- `x[row:row+len(v)] = v` for `row` and `len(v)` within `x`, or a single row repeated. -/
def assignRows (x : List A) (row bs : Nat) (v : List A) : Option (List A) :=
  let t := ((x.drop row).take bs).length
  if t = v.length then some (x.take row ++ v ++ x.drop (row + t))
  else match v with
    | [b] => some (x.take row ++ List.replicate t b ++ x.drop (row + t))
    | _ => none

/-- `TimeFramesNode.pseudo_inverse` (369-382) for an array of the right width; `y[-b:]` with `b = 0` is all of `y`;
a step of zero in `range` raises. Block `count` of a row does not exist if `count ≥ time_frames`: an empty slice of
columns, which cannot be assigned. -/
def pseudoInverse (frames gap : Nat) (y : List (List A)) : Option (List A) := do
  let exp := y.length
  let rest : Int := ((frames : Int) - 1) * gap
  let rows : Int := exp + rest
  if rows < 0 then none
  else
    let first ← y.mapM fun row => row[0]?
    let x ← assignRows (List.replicate rows.toNat (0 : A)) 0 exp first
    if gap = 0 then none
    else
      let bs := min gap exp
      let start := max exp gap
      -- range(start, rows, gap)
      let steps := (rows.toNat - start + gap - 1) / gap
      (List.range steps).foldlM (fun x i => do
        let v ← (if bs = 0 then y else y.drop (exp - bs)).mapM fun row => row[i + 1]?
        assignRows x (start + i * gap) bs v) x

/-- `TimeDelayNode._execute` (428-439). -/
def delayExecute (frames gap : Nat) (x : List A) : Option (List (List A)) :=
  let y := List.replicate x.length (List.replicate frames (0 : A))
  (List.range frames).foldlM (fun y f => assign y (gap * f) f (upTo x ((x.length : Int) - gap * f))) y

/-- `sliding_wnd`, `cur_idx`, `slide` of a TimeDelaySlidingWindowNode. -/
structure Win (A : Type) where
  wnd : Option (List (List A))
  cur : Nat
  slide : Bool

/-- `__init__` (478-484). -/
def Win.new (A : Type) : Win A := ⟨none, 0, false⟩

/-- The older blocks of the new row are those of the row `gap` steps before (509-511). -/
def fillRow (gap : Nat) (wnd : List (List A)) (cur : Nat) (newRow : List A) : Option (List A) :=
  if gap ≤ cur then wnd[cur - gap]?.bind fun old => some (newRow.take 1 ++ old.dropLast) else some newRow

/-- `_execute` (491-521) on one row. `none`: an exception. -/
def Win.execute (frames gap : Nat) (s : Win A) (x : A) : Option (List A × Win A) := do
  let wnd := s.wnd.getD (List.replicate (gap + 1) (List.replicate frames (0 : A)))
  let rows := wnd.length
  let newRow := (List.replicate frames (0 : A)).set 0 x
  let wnd := if s.slide then wnd.drop 1 ++ wnd.drop (rows - 1) else wnd
  let newRow ← fillRow gap wnd s.cur newRow
  let wnd := wnd.set s.cur newRow
  some (newRow, if s.cur < rows - 1 then ⟨some wnd, s.cur + 1, s.slide⟩ else ⟨some wnd, s.cur, true⟩)

/-- Execute one row after the other; the rows returned. -/
def Win.run (frames gap : Nat) (s : Win A) : List A → Option (List (List A))
  | [] => some []
  | a :: x => do
    let r ← s.execute frames gap a
    let t ← r.2.run frames gap x
    some (r.1 :: t)

end Mdp.TimeFrames
