import Verif.Num.Cov

/-!
# Model of `OnlineCenteringNode` and `OnlineTimeDiffNode` (mdp/nodes/stats_nodes_online.py)

Numbers are elements of a field, an array is the list of its rows. Dimension and dtype checks are not part of this model
(C05); the loops over samples are those of `OnlineNode.train` (mdp/signal_node_online.py:240-286, C63).
-/

namespace Mdp.OnlineStats

open Mdp.Cov

variable {F : Type} [Field F] {d : Nat}

/-! ## OnlineCenteringNode (4-111) -/

/-- `avg_n`, `avg`, the training iteration, `_train_phase_started`, and whether training has been stopped. -/
structure CSt (F : Type) (d : Nat) where
  avgN : Option Nat
  avg : Option (Row F d) := none
  iter : Nat := 0
  started : Bool := false
  stopped : Bool := false

/-- `_check_params` (50-52). -/
def CSt.check (s : CSt F d) : CSt F d := { s with avg := some (s.avg.getD 0) }

/-- The weight of the next sample (59-62). -/
def CSt.alpha (s : CSt F d) : F := match s.avgN with
  | none => 1 / ((s.iter : F) + 1)
  | some n => if s.iter > 0 then 2 / ((n : F) + 1) else 1

/-- `_train` with one sample (57-64), and the next iteration. -/
def CSt.row (s : CSt F d) (x : Row F d) : CSt F d :=
  { s with avg := some ((1 - s.alpha) • s.avg.getD 0 + s.alpha • x), iter := s.iter + 1 }

/-- `train` with a chunk; the only training type is 'incremental'. Raises if training has been stopped. -/
def CSt.train (s : CSt F d) (x : List (Row F d)) : Option (CSt F d) :=
  if s.stopped then none else some (x.foldl CSt.row { s.check with started := true })

/-- `stop_training`. -/
def CSt.stop (s : CSt F d) : Option (CSt F d) :=
  if s.stopped || !s.started then none else some { s with stopped := true, started := false }

/-- `execute` (66-77): a node that has not been trained is trained with the data first (signal_node_online.py:177-193). -/
def CSt.execute (s : CSt F d) (x : List (Row F d)) : List (Row F d) × CSt F d :=
  let s := if !s.stopped && !s.started then x.foldl CSt.row { s.check with started := true } else s
  let s := s.check
  (if s.iter ≤ 1 then x else x.map fun r => r - s.avg.getD 0, s)

/-- `inverse` (79-91) of a node whose dimensions are known. -/
def CSt.inverse (s : CSt F d) (y : List (Row F d)) : List (Row F d) :=
  if s.iter ≤ 1 then y else y.map fun r => r + s.avg.getD 0

/-! ## OnlineTimeDiffNode (114-194) -/

/-- `x_prev`, `x_cur`: arrays, `none` before the first call; whether the training type is 'incremental'. -/
structure DSt (F : Type) (d : Nat) where
  bufs : Option (List (Row F d) × List (Row F d)) := none
  incremental : Bool := true
  started : Bool := false

/-- `_check_params` (165-168): arrays of zeros with the shape of the chunk. -/
def DSt.check (s : DSt F d) (x : List (Row F d)) : DSt F d :=
  { s with bufs := some (s.bufs.getD (x.map fun _ => 0, x.map fun _ => 0)) }

/-- `_train` (170-173); `x[-1:]` has at most one row. -/
def DSt.step (s : DSt F d) (x : List (Row F d)) : DSt F d :=
  { s with bufs := some ((s.bufs.getD ([], [])).2, x.drop (x.length - 1)) }

/-- `train` with a chunk: sample by sample or at once. -/
def DSt.train (s : DSt F d) (x : List (Row F d)) : DSt F d :=
  let s := { s.check x with started := true }
  if s.incremental then x.foldl (fun s r => s.step [r]) s else s.step x

/-- `_execute` (179-194): `x[1:] - x[:-1]` of the rows of `x_prev` and `x`; a node that has not been trained is trained
with the data first. -/
def DSt.execute (s : DSt F d) (x : List (Row F d)) : List (Row F d) × DSt F d :=
  let s := if !s.started then s.train x else s
  let s := s.check x
  let z := (s.bufs.getD ([], [])).1 ++ x
  (List.zipWith (fun a b => a - b) (z.drop 1) (z.take (z.length - 1)), s)

end Mdp.OnlineStats
