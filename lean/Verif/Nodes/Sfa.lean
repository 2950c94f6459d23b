import Verif.Parallel.NodeJoin
import Mathlib.Algebra.Order.Field.Basic

/-!
# Model of `SFANode`: the end of training and execution (mdp/nodes/sfa_nodes.py)

The statistics during training are `Join.SfaSt` (Verif/Parallel/NodeJoin.lean). Numbers are elements of an ordered field.
The solver of the generalised eigenvalue problem is a parameter, as is the pseudo-inverse; the solver leaves the matrices
it is given as they are. The checks of `Node.train`, `Node.stop_training` and `Node.execute` are not part of this model.
-/

namespace Mdp.Sfa

open Mdp.Cov Mdp.Join

variable {F : Type} [Field F] [LinearOrder F] {d : Nat}

inductive Err where
  /-- TrainingException: fewer than two samples -/
  | short
  /-- AttributeError: the accumulators have been deleted -/
  | attribute
  /-- `fix` without data -/
  | noneType
  /-- InconsistentDimException -/
  | dim
  /-- NodeException because of a SymeigException -/
  | symeig
  /-- NodeException: 'Got negative eigenvalues' -/
  | negative
  /-- execution of a node without filters -/
  | untrained
deriving DecidableEq

/-- A solver of the generalised eigenvalue problem for two matrices (mdp/utils/_symeig.py,
mdp/utils/symeig_semidefinite.py): eigenvalues in ascending order with their eigenvectors; the third argument is the range
of indices, from 1 on, both ends included. -/
abbrev Solver (F : Type) (d : Nat) := Mat F d d → Mat F d d → Option (Nat × Nat) → Option (List (F × Row F d))

/-- The attributes `cov_mtx`, `avg`, `dcov_mtx` (266-275). -/
structure Fixed (F : Type) (d : Nat) where
  cov : Mat F d d
  avg : Row F d
  dcov : Mat F d d

/-- `d`, `sf` (as list of columns), `_bias`, `avg` (295-318). -/
structure Res (F : Type) (d : Nat) where
  ds : List F
  sf : List (Row F d)
  bias : List F
  avg : Row F d

/-- The node (158-174). `acc` is `none` once the accumulators have been deleted. -/
structure St (F : Type) (d : Nat) where
  acc : Option (SfaSt F d)
  fixed : Option (Fixed F d) := none
  outDim : Option Nat := none
  res : Option (Res F d) := none

/-- `_check_train_args` and `_train` (228-261). -/
def St.train (s : St F d) (x : List (Row F d)) (incl : Option Bool) : Except Err Unit × St F d :=
  if x.length < 2 then (.error .short, s)
  else match s.acc with
    | none => (.error .attribute, s)
    | some a => match sfaTrain a x incl with
      | .error _ => (.error .short, s)
      | .ok a => (.ok (), { s with acc := some a })

/-- `_set_range` (218-226): the range and the output dimension. -/
def setRange (d : Nat) (out : Option Nat) : Except Err (Option (Nat × Nat) × Nat) :=
  match out with
  | none => .ok (none, d)
  | some k => if k ≤ d then .ok (some (1, k), k) else .error .dim

/-- `mult(x, w)` for a row. -/
def dotL (x w : Row F d) : F := ((List.finRange d).map fun k => x k * w k).sum

/-- The part of `_stop_training` after the matrices are known (277-318). -/
def St.solve (solver : Solver F d) (s : St F d) (f : Fixed F d) : Except Err Unit × St F d :=
  match setRange d s.outDim with
  | .error e => (.error e, s)
  | .ok (rng, k) =>
    let s := { s with outDim := some k }
    match solver f.dcov f.cov rng with
    | none => (.error .symeig, s)
    | some l =>
      if l.any (fun p => p.1 < 0) then (.error .negative, s)
      else (.ok (), { s with
        fixed := none
        res := some ⟨l.map (·.1), l.map (·.2), l.map (fun p => dotL f.avg p.2), f.avg⟩ })

/-- `_stop_training` (263-318), `debug=False`. -/
def St.stop (solver : Solver F d) (s : St F d) : Except Err Unit × St F d :=
  match s.acc with
  | none => match s.fixed with
    | none => (.error .attribute, s)
    | some f => s.solve solver f
  | some a => match a.cov.fix true with
    | .error _ => (.error .noneType, s)
    | .ok ((cov, avg, _), _) => match a.dcov.fix false with
      | .error _ => (.error .noneType, s)
      | .ok ((dcov, _, _), _) =>
        { s with acc := none, fixed := some ⟨cov, avg, dcov⟩ : St F d }.solve solver ⟨cov, avg, dcov⟩

/-- `_execute` (320-339) for a row: `if n` takes `0` for no number. -/
def St.execute (s : St F d) (n : Option Nat) (x : Row F d) : Except Err (List F) :=
  match s.res with
  | none => .error .untrained
  | some r => match n with
    | none | some 0 => .ok (List.zipWith (fun w b => dotL x w - b) r.sf r.bias)
    | some n => .ok (List.zipWith (fun w b => dotL x w - b) (r.sf.take n) (r.bias.take n))

/-- `_inverse` (341-342) for a row; `pinv` gives the rows of the pseudo-inverse. -/
def St.inverse (pinv : List (Row F d) → List (Row F d)) (s : St F d) (y : List F) : Except Err (Row F d) :=
  match s.res with
  | none => .error .untrained
  | some r => .ok fun k => (List.zipWith (fun a w => a * w k) y (pinv r.sf)).sum + r.avg k

end Mdp.Sfa
