import Verif.Py.Slice
import Mathlib.Data.List.Sort
import Mathlib.Data.List.FinRange
import Mathlib.Data.Rat.Floor
import Mathlib.Order.Defs.LinearOrder

/-!
# Model of CutoffNode, HistogramNode and AdaptiveCutoffNode (nodes/misc_nodes.py 778-1010)

Values come from a linear order, data is a list of rows, fractions are rational numbers (no rounding of the products).
The random choice of the rows to store is an arbitrary list of booleans.
-/

namespace Mdp.Cutoff

variable {V : Type} [LinearOrder V] {c : Nat}

/-- The two `where` statements for one value (834-838 and 1006-1009). -/
def clip (lower upper : Option V) (x : V) : V :=
  let x := match lower with
    | some b => if x ≥ b then x else b
    | none => x
  match upper with
    | some b => if x ≤ b then x else b
    | none => x

/-- `CutoffNode._execute` (825-839). -/
def cutoffExecute (lower upper : Option V) (x : List (Fin c → V)) : List (Fin c → V) :=
  x.map fun r j => clip lower upper (r j)

/-- Attributes of an AdaptiveCutoffNode. -/
structure Adaptive (V : Type) (c : Nat) where
  hist : Option (List (Fin c → V))
  lower : Option (Fin c → V)
  upper : Option (Fin c → V)

def Adaptive.new (V : Type) (c : Nat) : Adaptive V c := ⟨none, none, none⟩

/-- `HistogramNode._train` (890-901); `keep` tells which rows have a random number below `hist_fraction`. -/
def Adaptive.train (fraction : Rat) (keep : List Bool) (s : Adaptive V c) (x : List (Fin c → V)) : Adaptive V c :=
  let x := if fraction < 1 then ((x.zip keep).filter fun p => p.2).map fun p => p.1 else x
  match s.hist with
  | some h => { s with hist := some (h ++ x) }
  | none => { s with hist := some x }

/-- `int(q)`: rounds towards zero. -/
def pyInt (q : Rat) : Int := if 0 ≤ q then ⌊q⌋ else ⌈q⌉

/-- `data.sort(axis=0)`, column `j`. -/
def sortedColumn (x : List (Fin c → V)) (j : Fin c) : List V := (x.map fun r => r j).insertionSort (· ≤ ·)

/-- `sorted_data[i]`; `none`: `IndexError`. -/
def sortedRow (x : List (Fin c → V)) (i : Int) : Option (Fin c → V) :=
  (Py.normIdx x.length i).bind fun k =>
    if h : k < x.length then
      some fun j => (sortedColumn x j)[k]'(by rw [sortedColumn, List.length_insertionSort, List.length_map]; exact h)
    else none

/-- `AdaptiveCutoffNode._stop_training` (983-995); a fraction of zero counts as none. Result: exception or not. The
history is pickled and cleared if there is a filename (`HistogramNode._stop_training` 903-914). -/
def Adaptive.stop (lowerFraction upperFraction : Rat) (toFile : Bool) (s : Adaptive V c) : Bool × Adaptive V c :=
  let x := s.hist.getD []
  let n : Rat := x.length
  let finish (s : Adaptive V c) := if toFile then { s with hist := none } else s
  let up (s : Adaptive V c) : Bool × Adaptive V c :=
    if upperFraction ≠ 0 then
      match sortedRow x (pyInt (n - upperFraction * n)) with
      | none => (false, s)
      | some b => (true, finish { s with upper := some b })
    else (true, finish s)
  if lowerFraction ≠ 0 then
    match sortedRow x (pyInt (lowerFraction * n)) with
    | none => (false, s)
    | some b => up { s with lower := some b }
  else up s

/-- `AdaptiveCutoffNode._execute` (997-1010). -/
def Adaptive.execute (s : Adaptive V c) (x : List (Fin c → V)) : List (Fin c → V) :=
  x.map fun r j => clip (s.lower.map fun b => b j) (s.upper.map fun b => b j) (r j)

end Mdp.Cutoff
