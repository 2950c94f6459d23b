import Verif.Parallel.NodeJoin
import Verif.Nodes.Sfa

/-!
# Model of `FDANode`: the end of training and execution (mdp/nodes/fda_nodes.py)

The statistics during training are `Join.FdaSt` (Verif/Parallel/NodeJoin.lean), with the class means of the first phase. The
solver of the generalised eigenvalue problem and the pseudo-inverse are parameters. Numbers are elements of an ordered field.
The checks of `Node.train`, `Node.stop_training` and `Node.execute` are not part of this model.
-/

namespace Mdp.Fda

open Mdp.Cov Mdp.Join Mdp.Sfa

variable {F : Type} [Field F] [LinearOrder F] {d : Nat} {L : Type} [DecidableEq L]

inductive Err where
  /-- AttributeError: `_allcov` and `_S_W` have been deleted -/
  | attribute
  /-- `fix` without data, or no matrix `_S_W` -/
  | noneType
  /-- SymeigException -/
  | symeig
  /-- exceptions of `_train_fda` -/
  | train (e : Join.Err)
  /-- execution of a node without projection -/
  | untrained
deriving DecidableEq

/-- The node in the second phase (41-64): `acc` is `none` once `_allcov` and `_S_W` have been deleted; `v` as list of
columns. -/
structure St (F : Type) (d : Nat) (L : Type) where
  acc : Option (FdaSt F d L)
  outDim : Option Nat := none
  avg : Option (Row F d) := none
  v : Option (List (Row F d)) := none

/-- `_check_train_args` and `_train_fda` (66-71, 116-139). -/
def St.train (s : St F d L) (x : List (Row F d)) (labels : Labels L) : Except Err Unit × St F d L :=
  match s.acc with
  | none => if labelsOk x labels then (.error .attribute, s) else (.error (.train .labels), s)
  | some a => match fdaTrain a x labels with
    | (.error e, a) => (.error (.train e), { s with acc := some a })
    | (.ok _, a) => (.ok (), { s with acc := some a })

/-- `_stop_fda` (141-154). -/
def St.stop (solver : Solver F d) (s : St F d L) : Except Err Unit × St F d L :=
  match s.acc with
  | none => (.error .attribute, s)
  | some a => match a.allcov.fix true with
    | .error _ => (.error .noneType, s)
    | .ok ((st, avg, _), _) =>
      let rng := match s.outDim with
        | none => none
        | some k => some (1, k)
      let s := { s with acc := none, avg := some avg, outDim := some (s.outDim.getD d) }
      match a.sw with
      | none => (.error .noneType, s)
      | some sw => match solver sw st rng with
        | none => (.error .symeig, s)
        | some l => (.ok (), { s with v := some (l.map (·.2)) })

/-- `_execute` (187-202) for a row: `if n` takes `0` for no number. -/
def St.execute (s : St F d L) (n : Option Nat) (x : Row F d) : Except Err (List F) :=
  match s.v, s.avg with
  | some v, some avg =>
    let v := match n with
      | none | some 0 => v
      | some n => v.take n
    .ok (v.map fun w => dotL (x - avg) w)
  | _, _ => .error .untrained

/-- `_inverse` (204-205) for a row; `pinv` gives the rows of the pseudo-inverse. -/
def St.inverse (pinv : List (Row F d) → List (Row F d)) (s : St F d L) (y : List F) : Except Err (Row F d) :=
  match s.v, s.avg with
  | some v, some avg => .ok fun k => (List.zipWith (fun a w => a * w k) y (pinv v)).sum + avg k
  | _, _ => .error .untrained

end Mdp.Fda
