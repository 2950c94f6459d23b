/-!
# Python list indexing and slicing

Executable semantics of `l[key]`, `l[key] = v`, `del l[key]` for Python lists (CPython
`Objects/listobject.c`, `Objects/sliceobject.c`: `PySlice_Unpack`, `PySlice_AdjustIndices`).
-/

namespace Py

/-- A subscript. -/
inductive Key where
  | idx (i : Int)
  | slice (start stop step : Option Int)

/-- Position denoted by an integer index, `none` for IndexError. -/
def normIdx (len : Nat) (i : Int) : Option Nat :=
  let j := if i < 0 then i + len else i
  if 0 ≤ j ∧ j < len then some j.toNat else none

/-- `PySlice_AdjustIndices` for one bound. -/
def clampBound (len : Nat) (neg : Bool) (i : Int) : Int :=
  if i < 0 then
    let j := i + len
    if j < 0 then (if neg then -1 else 0) else j
  else if i ≥ len then (if neg then (len : Int) - 1 else len)
  else i

/-- Start and stop of a slice after defaults and clamping (`step ≠ 0`). -/
def sliceBounds (len : Nat) (start stop : Option Int) (step : Int) : Int × Int :=
  let neg := decide (step < 0)
  let a := match start with
    | none => if neg then (len : Int) - 1 else 0
    | some i => clampBound len neg i
  let b := match stop with
    | none => if neg then -1 else len
    | some i => clampBound len neg i
  (a, b)

/-- Number of elements of a slice. -/
def sliceLen (a b step : Int) : Nat :=
  if step < 0 then (if b < a then ((a - b - 1) / (-step) + 1).toNat else 0)
  else (if a < b then ((b - a - 1) / step + 1).toNat else 0)

/-- The positions a slice selects, in slice order. -/
def sliceIdx (len : Nat) (start stop : Option Int) (step : Int) : List Nat :=
  let (a, b) := sliceBounds len start stop step
  (List.range (sliceLen a b step)).map fun (k : Nat) => (a + (k : Int) * step).toNat

variable {α : Type}

/-- `l[start:stop:step]`; `none` is ValueError (step zero). -/
def getSlice (l : List α) (start stop step : Option Int) : Option (List α) :=
  let st := step.getD 1
  if st = 0 then none
  else some ((sliceIdx l.length start stop st).filterMap fun i => l[i]?)

/-- Remove the positions in `is`. -/
def eraseAll (l : List α) (is : List Nat) : List α :=
  (l.zipIdx.filter fun p => !is.contains p.2).map (·.1)

/-- `del l[start:stop:step]`; `none` is ValueError. -/
def delSlice (l : List α) (start stop step : Option Int) : Option (List α) :=
  let st := step.getD 1
  if st = 0 then none
  else some (eraseAll l (sliceIdx l.length start stop st))

/-- Overwrite positions one after the other. -/
def setAll (l : List α) : List (Nat × α) → List α
  | [] => l
  | (i, v) :: r => setAll (l.set i v) r

/-- `l[start:stop:step] = vs`; `none` is ValueError. -/
def setSlice (l : List α) (start stop step : Option Int) (vs : List α) : Option (List α) :=
  let st := step.getD 1
  if st = 0 then none
  else
    let (a, b) := sliceBounds l.length start stop st
    if st = 1 then
      let b' := if b < a then a else b
      some (l.take a.toNat ++ vs ++ l.drop b'.toNat)
    else
      let is := sliceIdx l.length start stop st
      if vs.length ≠ is.length then none
      else some (setAll l (is.zip vs))

end Py
