import Verif.Num.Cov
import Mathlib.Data.Fin.Tuple.Basic

/-!
# Model of `LinearRegressionNode` (mdp/nodes/regression_nodes.py)

Numbers are elements of a field, matrices are functions of the indices, a chunk is the list of its rows. The checks of
`Node.train` that come before are not part of this model (C03, C05). The matrix inverse of the numerical library is a
parameter: a function that returns a matrix or raises `LinAlgError`.
-/

namespace Mdp.Regression

open Mdp.Cov

variable {F : Type} [Field F] {d e : Nat}

inductive Err where
  /-- TrainingException, NodeException of `_check_output` -/
  | training
  /-- NodeException: 'Input data may be redundant' -/
  | singular
  /-- arithmetic with `None` -/
  | noneType
deriving DecidableEq

/-- The number of columns after `_add_constant` if there is a bias (102-106). -/
def size (bias : Bool) (d : Nat) : Nat := match bias with
  | true => d + 1
  | false => d

/-- `_add_constant` (135-146) if there is a bias. -/
def addConstant : (bias : Bool) → Row F d → Row F (size bias d)
  | true, x => Fin.cons (1 : F) x
  | false, x => x

/-- `_xTx` and `_xTy` (set together), `_tlen`, `beta` (52-69). -/
structure RSt (F : Type) (bias : Bool) (d e : Nat) where
  acc : Option (Mat F (size bias d) (size bias d) × Mat F (size bias d) e) := none
  tlen : Nat := 0
  beta : Option (Mat F (size bias d) e) := none

/-- `train`: `_check_train_args` (75-84) and `_train` (86-114). The columns of `y` agree with `output_dim`. -/
def train (bias : Bool) (s : RSt F bias d e) (x : List (Row F d)) (y : List (Row F e)) :
    Except Err Unit × RSt F bias d e :=
  if y.length ≠ x.length then (.error .training, s)
  else
    let a := s.acc.getD (0, 0)
    let x' := x.map (addConstant bias)
    (.ok (), { s with acc := some (a.1 + multT x' x', a.2 + multT x' y), tlen := s.tlen + x'.length })

/-- `mult(a, b)`. -/
def mul {l m n : Nat} (a : Mat F l m) (b : Mat F m n) : Mat F l n :=
  fun i j => ((List.finRange m).map fun k => a i k * b k j).sum

/-- `_stop_training` (116-133). `inv`: the matrix inverse or the pseudo-inverse; `none` if it raises. -/
def stop (bias : Bool) (inv : Mat F (size bias d) (size bias d) → Option (Mat F (size bias d) (size bias d)))
    (s : RSt F bias d e) : Except Err Unit × RSt F bias d e :=
  match s.acc with
  | none => (.error .noneType, s)
  | some (xx, xy) => match inv xx with
    | none => (.error .singular, s)
    | some i => (.ok (), { s with beta := some (mul i xy), acc := none })

/-- `_execute` (135-138). -/
def execute (bias : Bool) (s : RSt F bias d e) (x : List (Row F d)) : Except Err (List (Row F e)) :=
  match s.beta with
  | none => .error .noneType
  | some b => .ok ((x.map (addConstant bias)).map fun r j => ((List.finRange (size bias d)).map fun k => r k * b k j).sum)

/-- A sequence of `train` calls, all of which are made whether or not one of them raises. -/
def trains (bias : Bool) (s : RSt F bias d e) (cs : List (List (Row F d) × List (Row F e))) : RSt F bias d e :=
  cs.foldl (fun s c => (train bias s c.1 c.2).2) s

end Mdp.Regression
