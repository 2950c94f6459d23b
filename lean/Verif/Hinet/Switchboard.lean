import Verif.Py.Slice
import Mathlib.Data.List.Dedup
import Mathlib.Algebra.Field.Defs
import Mathlib.Algebra.BigOperators.Group.List.Basic

/-!
# Model of `mdp/hinet/switchboard.py`

Rows of the data are lists; the checks that `Node.execute` and `Node.inverse` make on the shape of the data
are in `Verif.Node.Model`. Sizes are natural numbers; connection indices are integers, because numpy accepts
negative ones.
-/

namespace Mdp.Switchboard

open Py

/-- Exceptions. -/
inductive Err where
  /-- SwitchboardException and subclasses -/
  | switchboard
  | index
  | value
  | zeroDivision
  /-- `Exception("... is outside the valid range")` of CoordinateTranslator -/
  | range
deriving DecidableEq

/-- A constructed switchboard (60-69). -/
structure SB where
  inputDim : Nat
  connections : List Int
  inverseConnections : Option (List Nat)

/-- `numx.argsort`, as a stable sort of the positions by value. -/
def argsort (c : List Int) : List Nat :=
  (List.range c.length).mergeSort fun i j => decide (c.getD i 0 ≤ c.getD j 0)

/-- `Switchboard.__init__` (39-69). `nanmax(connections) >= input_dim` (55) says that some entry is too
large; `len(unique(c))` is the number of different entries. -/
def Switchboard.new (inputDim : Nat) (c : List Int) : Except Err SB :=
  if c.length = 0 then .error .switchboard
  else if c.any fun i => decide (i ≥ inputDim) then .error .switchboard
  else .ok {
    inputDim := inputDim
    connections := c
    inverseConnections :=
      if inputDim = c.length ∧ c.dedup.length = inputDim then some (argsort c) else none }

/-- numpy fancy indexing of one row, `x[:, c]`: negative indices count from the end. -/
def fancy {α : Type} (row : List α) : List Int → Except Err (List α)
  | [] => .ok []
  | i :: r =>
    match normIdx row.length i with
    | none => .error .index
    | some k =>
      match row[k]? with
      | none => .error .index
      | some a =>
        match fancy row r with
        | .error e => .error e
        | .ok l => .ok (a :: l)

/-- `_execute` (71-72) on a row. -/
def SB.execute {α : Type} (s : SB) (row : List α) : Except Err (List α) := fancy row s.connections

/-- `is_invertible` (78-82). -/
def SB.isInvertible (s : SB) : Bool := s.inverseConnections.isSome

/-- `_inverse` (84-88) on a row. -/
def SB.inverse {α : Type} (s : SB) (row : List α) : Except Err (List α) :=
  match s.inverseConnections with
  | none => .error .switchboard
  | some p => fancy row (p.map fun (k : Nat) => (k : Int))

/-! ### MeanInverseSwitchboard -/

/-- `numx.bincount` (108): ValueError for negative entries. -/
def bincount (c : List Int) : Except Err (List Nat) :=
  if c.any fun i => decide (i < 0) then .error .value
  else .ok ((List.range ((c.map Int.toNat).foldr max 0 + 1)).map fun (j : Nat) => c.count (j : Int))

/-- The loop of `MeanInverseSwitchboard._inverse` (113-122): `ns` is `n_y_cons[i_y:]`, `p` is `y_cons`.
The entries of `p` are positions in the row, so `row[i]` never fails. -/
def meanLoop {α : Type} [Field α] (row : List α) (p : List Nat) (outputDim : Nat) :
    List Nat → Nat → Nat → List α → Except Err (List α)
  | [], _, _, _ => .error .index
  | n :: ns, iy, ix, y =>
    if n > 0 then
      let y' := y.set iy ((((p.drop ix).take n).map fun i => row.getD i 0).sum / (n : α))
      let ix' := ix + n
      if ix' ≥ outputDim then .ok y'
      else meanLoop row p outputDim ns (iy + 1) ix' y'
    else meanLoop row p outputDim ns (iy + 1) ix y

/-- `MeanInverseSwitchboard._inverse` (106-123) on a row. numpy's default argsort is not stable: `p` is the
result it happens to give. Floats are idealised as a field. -/
def SB.meanInverse {α : Type} [Field α] (s : SB) (p : List Nat) (row : List α) : Except Err (List α) :=
  match bincount s.connections with
  | .error e => .error e
  | .ok ns => meanLoop row p s.connections.length ns 0 0 (List.replicate s.inputDim 0)

/-! ### ChannelSwitchboard -/

/-- A `ChannelSwitchboard` (130-205). -/
structure CSB extends SB where
  outChannelDim : Nat
  inChannelDim : Nat

/-- `ChannelSwitchboard.__init__` (141-168). -/
def Channel.new (inputDim : Nat) (c : List Int) (outChannelDim inChannelDim : Nat) : Except Err CSB :=
  match Switchboard.new inputDim c with
  | .error e => .error e
  | .ok s =>
    if outChannelDim = 0 then .error .zeroDivision
    else if c.length % outChannelDim ≠ 0 then .error .switchboard
    else if inChannelDim = 0 then .error .zeroDivision
    else if inputDim % inChannelDim ≠ 0 then .error .switchboard
    else .ok { s with outChannelDim := outChannelDim, inChannelDim := inChannelDim }

/-- `output_channels` (167). -/
def CSB.outputChannels (s : CSB) : Nat := s.connections.length / s.outChannelDim

/-- `input_channels` (168). -/
def CSB.inputChannels (s : CSB) : Nat := s.inputDim / s.inChannelDim

/-- `get_out_channel_input` (170-176) for a channel number that is not negative. -/
def CSB.outChannelInput (s : CSB) (channel : Nat) : List Int :=
  (s.connections.drop (channel * s.outChannelDim)).take s.outChannelDim

/-- `get_out_channel_node` (178-184). -/
def CSB.outChannelNode (s : CSB) (channel : Nat) : Except Err SB :=
  Switchboard.new s.inputDim (s.outChannelInput channel)

/-- `get_out_channels_input_channels` (186-205) for a list of channel numbers that are not negative: the
boolean array `covered` (200-201), summed over each input channel (203-204). Too large channel numbers
raise IndexError (199). -/
def CSB.inputChannelsOf (s : CSB) (channels : List Nat) : Except Err (List Nat) :=
  if channels.any fun ch => decide (ch ≥ s.outputChannels) then .error .index
  else
    let inp := channels.flatMap s.outChannelInput
    let covered := (List.range s.inputDim).map fun i => inp.any fun c => normIdx s.inputDim c == some i
    .ok ((List.range s.inputChannels).filter fun ch =>
      ((covered.drop (ch * s.inChannelDim)).take s.inChannelDim).any id)

/-! ### CoordinateTranslator -/

/-- `CoordinateTranslator` (638-690). -/
structure Trans where
  xDim : Int
  yDim : Int

/-- `image_to_index` (662-667). -/
def Trans.imageToIndex (t : Trans) (x y : Int) : Except Err Int :=
  if ¬ (0 ≤ x ∧ x < t.xDim) then .error .range
  else if ¬ (0 ≤ y ∧ y < t.yDim) then .error .range
  else .ok (y * t.xDim + x)

/-- `array_to_index` (672-678). -/
def Trans.arrayToIndex (t : Trans) (row col : Int) : Except Err Int :=
  if ¬ (0 ≤ row ∧ row < t.yDim) then .error .range
  else if ¬ (0 ≤ col ∧ col < t.xDim) then .error .range
  else .ok (row * t.xDim + col)

/-- `index_to_array` (680-684), with `_max_index = xDim*yDim - 1` (657). Python's `//` and `%` are floor
division; for the indices that pass the check (they exist only for a positive product, and if both
dimensions are negative the modulus is negative) they are modelled by `Int.fdiv` and `Int.fmod`. -/
def Trans.indexToArray (t : Trans) (i : Int) : Except Err (Int × Int) :=
  if ¬ (0 ≤ i ∧ i ≤ t.xDim * t.yDim - 1) then .error .range
  else .ok (Int.fdiv i t.xDim, Int.fmod i t.xDim)

/-- `index_to_image` (686-690). -/
def Trans.indexToImage (t : Trans) (i : Int) : Except Err (Int × Int) :=
  if ¬ (0 ≤ i ∧ i ≤ t.xDim * t.yDim - 1) then .error .range
  else .ok (Int.fmod i t.xDim, Int.fdiv i t.xDim)

/-- `image_to_array` (659-660) and `array_to_image` (669-670). -/
def imageToArray (x y : Int) : Int × Int := (y, x)
def arrayToImage (row col : Int) : Int × Int := (col, row)

/-! ### The two-dimensional switchboards -/

/-- `for i in range(a, a + n): connections += f(i)`. The code writes the entries one after the other into
a zero array of the final size; the model appends them. -/
def forRange (f : Int → Except Err (List Int)) (a : Int) : Nat → Except Err (List Int)
  | 0 => .ok []
  | n + 1 =>
    match f a with
    | .error e => .error e
    | .ok l =>
      match forRange f (a + 1) n with
      | .error e => .error e
      | .ok r => .ok (l ++ r)

/-- The connections of one input channel: `range(first_in_con, first_in_con + in_channel_dim)` (321-327). -/
def chanCons (t : Trans) (d : Nat) (x y : Int) : Except Err (List Int) :=
  match t.imageToIndex x y with
  | .error e => .error e
  | .ok i => .ok ((List.range d).map fun (k : Nat) => i * (d : Int) + (k : Int))

/-- The inner loops over one rectangular field (317-327). -/
def fieldCons (t : Trans) (d fx fy : Nat) (xs ys : Int) : Except Err (List Int) :=
  forRange (fun y => forRange (fun x => chanCons t d x y) xs fx) ys fy

/-- A geometry: sizes in x- and y-direction. -/
structure XY where
  x : Nat
  y : Nat

/-- `Rectangular2dSwitchboard.__init__` (242-333). -/
def Rect2d.new (inc field spacing : XY) (d : Nat) (ignoreCover : Bool) : Except Err CSB :=
  if field.x > inc.x then .error .switchboard
  else if field.y > inc.y then .error .switchboard
  else if spacing.x = 0 then .error .zeroDivision
  -- 280-282: `%` is applied only if the difference is positive, otherwise it is 0
  else if spacing.y = 0 then .error .zeroDivision
  else if (inc.x - field.x) % spacing.x ≠ 0 ∧ ignoreCover = false then .error .switchboard
  else if (inc.y - field.y) % spacing.y ≠ 0 ∧ ignoreCover = false then .error .switchboard
  else
    let xOut := (inc.x - field.x) / spacing.x + 1
    let yOut := (inc.y - field.y) / spacing.y + 1
    let t : Trans := ⟨inc.x, inc.y⟩
    match forRange (fun yo => forRange (fun xo =>
        fieldCons t d field.x field.y (xo * spacing.x) (yo * spacing.y)) 0 xOut) 0 yOut with
    | .error e => .error e
    | .ok cons => Channel.new (d * inc.x * inc.y) cons (d * field.x * field.y) d

/-- `DoubleRect2dSwitchboard.__init__` (381-503). The long fields come first, then the short ones. -/
def DoubleRect2d.new (inc field : XY) (d : Nat) (ignoreCover : Bool) : Except Err CSB :=
  if field.x % 2 ≠ 0 then .error .switchboard
  else if field.y % 2 ≠ 0 then .error .switchboard
  else
    let hx := field.x / 2
    let hy := field.y / 2
    if field.x > inc.x then .error .switchboard
    else if field.y > inc.y then .error .switchboard
    else if field.x = 0 then .error .zeroDivision
    else if (inc.x - field.x) % hx ≠ 0 ∧ ignoreCover = false then .error .switchboard
    else if inc.x - inc.x / field.x * field.x ≥ hx then .error .switchboard
    else if field.y = 0 then .error .zeroDivision
    else if (inc.y - field.y) % hy ≠ 0 ∧ ignoreCover = false then .error .switchboard
    else if inc.y - inc.y / field.y * field.y ≥ hy then .error .switchboard
    else
      let nx := inc.x / (2 * hx)
      let ny := inc.y / (2 * hy)
      let t : Trans := ⟨inc.x, inc.y⟩
      match forRange (fun yo => forRange (fun xo =>
          fieldCons t d field.x field.y (xo * (2 * hx)) (yo * (2 * hy))) 0 nx) 0 ny with
      | .error e => .error e
      | .ok even =>
        match forRange (fun yo => forRange (fun xo =>
            fieldCons t d field.x field.y (xo * (2 * hx) + hx) (yo * (2 * hy) + hy)) 0 (nx - 1)) 0 (ny - 1) with
        | .error e => .error e
        | .ok odd => Channel.new (d * inc.x * inc.y) (even ++ odd) (d * field.x * field.y) d

/-- One row of a rotated field (602-628): row `iy` of the field, in line `y` of the rhombic grid. -/
def rhombRow (tl ts : Trans) (offset : Int) (d D : Nat) (short : Int) (xs : Int) (iy : Nat) (y : Int) :
    Except Err (List Int) :=
  let w : Nat := if iy ≤ D - 1 then iy + 1 else D - 1 - iy % D
  forRange (fun x =>
    if Int.fmod y 2 = 0 then
      -- 613-618
      match tl.imageToIndex (x + short) (Int.fdiv y 2) with
      | .error e => .error e
      | .ok i => .ok ((List.range d).map fun (k : Nat) => i * (d : Int) + (k : Int))
    else
      -- 620-623
      match ts.imageToIndex x (Int.fdiv y 2) with
      | .error e => .error e
      | .ok i => .ok ((List.range d).map fun (k : Nat) => (i + offset) * (d : Int) + (k : Int)))
    (xs - ((w / 2 : Nat) : Int)) (w / 2 + (w / 2 + w % 2))

/-- `DoubleRhomb2dSwitchboard.__init__` (534-633). -/
def DoubleRhomb2d.new (long : XY) (D : Nat) (d : Nat) : Except Err CSB :=
  let short : Int := if long.x < long.y then 1 else 0
  if D % 2 ≠ 0 then .error .switchboard
  else
    let xr : Int := long.x - (1 - short) - D
    let yr : Int := long.y - short - D
    let h := D / 2
    if h = 0 then .error .zeroDivision
    else if Int.fmod xr h ≠ 0 ∨ xr < 0 then .error .switchboard
    else if Int.fmod yr h ≠ 0 ∨ yr < 0 then .error .switchboard
    else
      let inputDim : Int := (2 * long.x * long.y - long.x - long.y + 1) * d
      let xOut : Int := Int.fdiv (2 * xr) D + 1
      let yOut : Int := Int.fdiv (2 * yr) D + 1
      let tl : Trans := ⟨long.x, long.y⟩
      let ts : Trans := ⟨long.x - 1, long.y - 1⟩
      let offset : Int := long.x * long.y
      match forRange (fun yo => forRange (fun xo =>
          let xs := Int.fdiv ((1 + xo) * D) 2 - short
          let ys := yo * D + short
          forRange (fun iy => rhombRow tl ts offset d D short xs iy.toNat (ys + iy)) 0 (2 * D - 1))
          0 xOut.toNat) 0 yOut.toNat with
      | .error e => .error e
      | .ok cons => Channel.new inputDim.toNat cons (d * D ^ 2) d

end Mdp.Switchboard
