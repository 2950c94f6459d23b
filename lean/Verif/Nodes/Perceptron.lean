import Verif.Nodes.Hopfield
import Verif.Nodes.Markov

/-!
# Model of PerceptronClassifier and SignumClassifier (nodes/classifier_nodes.py 12-115)

Floats are elements of an ordered field.
-/

namespace Mdp.Perceptron

open Hopfield (sgn)
open Markov (LabelArg stretched)

variable {F : Type} [Field F] [LinearOrder F] {d : Nat}

/-- `weights` (`none`: the empty list of `__init__`) and `offset_weight` (58-60). -/
structure St (F : Type) (d : Nat) where
  weights : Option (Fin d → F)
  offset : F

def St.new (F : Type) [Field F] (d : Nat) : St F d := ⟨none, 0⟩

/-- `_label` for one row (107-115). -/
def label (w : Fin d → F) (offset : F) (x : Fin d → F) : F := sgn ((∑ j, x j * w j) + offset)

/-- The body of the loop of `_train` for one row (92-105); `learning_rate` is 0.1. -/
def trainRow (s : (Fin d → F) × F) (x : Fin d → F) (y : F) : (Fin d → F) × F :=
  let rate := (1 / 10) * (y - label s.1 s.2 x)
  (fun j => s.1 j + rate * x j, s.2 + rate * 1)

/-- `_check_train_args` (62-73): whether the labels are accepted for `n` rows. -/
def check (n : Nat) : LabelArg F → Bool
  | .scalar l => decide (l = 1 ∨ l = -1)
  | .array ls => decide (ls.length = n) && ls.all fun l => decide (l = 1 ∨ l = -1)
  | .iter _ => false

/-- `train` (62-105); `false`: an exception. -/
def St.train (s : St F d) (x : List (Fin d → F)) (labels : LabelArg F) : Bool × St F d :=
  if check x.length labels then
    let w := s.weights.getD fun _ => 1
    let r := (stretched x labels).foldl (fun s p => trainRow s p.1 p.2) (w, s.offset)
    (true, ⟨some r.1, r.2⟩)
  else (false, s)

/-- `SignumClassifier._label` (28-30) for one row. -/
def signumLabel (x : Fin d → F) : F := sgn (∑ j, x j)

end Mdp.Perceptron
