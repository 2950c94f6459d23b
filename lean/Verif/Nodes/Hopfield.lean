import Mathlib.Algebra.BigOperators.Fin
import Mathlib.Algebra.Order.Field.Basic
import Mathlib.Data.List.FinRange

/-!
# Model of DiscreteHopfieldClassifier (nodes/classifier_nodes.py 242-356)

Floats are elements of an ordered field. The random orders are given by an oracle.
-/

namespace Mdp.Hopfield

variable {F : Type} [Field F] [LinearOrder F] {n : Nat}

/-- numpy's `sign`. -/
def sgn (x : F) : F := if 0 < x then 1 else if x < 0 then -1 else 0

/-- `bool_to_sign` (routines.py 458-460) of an array of integers (the dtype is `b`). -/
def boolToSign (p : Fin n → Int) : Fin n → F := fun i => sgn ((p i : F) - 1 / 2)

/-- `sign_to_bool` (routines.py 463-471). -/
def signToBool (s : Fin n → F) : Fin n → Bool := fun i => decide (s i ≥ 0)

/-- `_weight_matrix` (`none`: the number 0 assigned in `__init__`) and `_num_patterns`. -/
structure St (F : Type) (n : Nat) where
  weights : Option (Fin n → Fin n → F)
  numPatterns : Nat

def St.new (F : Type) (n : Nat) : St F n := ⟨none, 0⟩

/-- `_train_one` (291-295). -/
def St.trainOne (s : St F n) (pattern : Fin n → Int) : St F n :=
  let p : Fin n → F := boolToSign pattern
  let old : Fin n → Fin n → F := s.weights.getD fun _ _ => 0
  ⟨some fun i j => old i j + p i * p j / (n : F), s.numPatterns + 1⟩

/-- `_train` (279-289). -/
def St.train (s : St F n) (x : List (Fin n → Int)) : St F n := x.foldl (fun s p => s.trainOne p) s

/-- `_stop_training` (316-320); `none`: TypeError (a number is not subscriptable). -/
def St.stop (s : St F n) : Option (St F n) :=
  match s.weights with
  | none => if n = 0 then some s else none
  | some w => some { s with weights := some fun i j => if i = j then 0 else w i j }

/-- The body of the inner loop of `_label_one` (342-355): the new value of `has_converged` and the pattern. -/
def update (w : Fin n → Fin n → F) (threshold : Fin n → F) (c : Bool × (Fin n → F)) (row : Fin n) :
    Bool × (Fin n → F) :=
  let new := sgn ((∑ j, w row j * c.2 j) - threshold row)
  if new = 0 then c
  else if c.2 row ≠ new then (false, fun i => if i = row then new else c.2 i)
  else c

/-- One pass of the outer loop. -/
def sweep (w : Fin n → Fin n → F) (threshold : Fin n → F) (order : List (Fin n)) (s : Fin n → F) :
    Bool × (Fin n → F) :=
  order.foldl (update w threshold) (true, s)

/-- The outer loop (337-355) with the update orders `orders 0`, `orders 1`, ...; `none`: still running after `fuel`
passes. -/
def loop (w : Fin n → Fin n → F) (threshold : Fin n → F) (orders : Nat → List (Fin n)) :
    Nat → Nat → (Fin n → F) → Option (Fin n → F)
  | 0, _, _ => none
  | fuel + 1, k, s =>
    let r := sweep w threshold (orders k) s
    if r.1 then some r.2 else loop w threshold orders fuel (k + 1) r.2

/-- `_label_one` (334-356). -/
def labelOne (w : Fin n → Fin n → F) (threshold : Fin n → F) (orders : Nat → List (Fin n)) (fuel : Nat)
    (pattern : Fin n → Int) : Option (Fin n → Bool) :=
  (loop w threshold orders fuel 0 (boolToSign pattern)).map signToBool

end Mdp.Hopfield
