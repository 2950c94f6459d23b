import Verif.Parallel.NodeJoin
import Mathlib.Algebra.BigOperators.Fin
import Mathlib.Algebra.Order.Field.Basic

/-!
# Model of NearestMeanClassifier and KNNClassifier (nodes/classifier_nodes.py 620-816)

Training is modelled in `Verif.Parallel.NodeJoin` (`meanTrain`, `knnTrain`). A dictionary is a function to `Option`;
where its order matters (`for label in dict`) the order is a parameter. `argsort` gives some sorting permutation.
Floats are elements of an ordered field.
-/

namespace Mdp.Nearest

open Cov Join

/-- numpy's `argmin` and `argmax` of an array: the first index such that no entry is better; `none`: the exception
for an empty array. -/
def argBest {V : Type} (better : V → V → Prop) [DecidableRel better] : List V → Option Nat
  | [] => none
  | a :: l => some ((l.zipIdx 1).foldl (fun b p => if better p.1 b.1 then p else b) (a, 0)).2

variable {F : Type} [Field F] [LinearOrder F] {d : Nat} {L : Type} [DecidableEq L]

/-- `NearestMeanClassifier._stop_training` (690-697): the labels in the order of the dictionary and the list of their
means; `none`: `vstack` of nothing raises. A label with no rows (its mean is `nan`) is also `none`: what follows is not
modelled. -/
def nmStop (order : List L) (m : L → Option (Row F d × Nat)) : Option (List L × List (Row F d)) :=
  if order.isEmpty then none
  else (order.mapM fun l => (m l).bind fun p => if p.2 = 0 then none else some (divR p.1 (p.2 : F))).map
    fun means => (order, means)

/-- `NearestMeanClassifier._label` (699-713) for one row. -/
def nmLabel (s : List L × List (Row F d)) (x : Row F d) : Option L :=
  let squareDistances := s.2.map fun c => ∑ i, (x i - c i) ^ 2
  (argBest (fun a b => a < b) squareDistances).bind fun i => s.1[i]?

/-- `ordered_labels` and `samples` with `sample_label_indices`. -/
structure KnnSt (F : Type) (d : Nat) (L : Type) where
  order : List L
  samples : List (Nat × Row F d)

/-- `KNNClassifier._stop_training` (785-798); `none`: `concatenate` of nothing. -/
def knnStop (order : List L) (m : L → Option (List (List (Row F d)))) : Option (KnnSt F d L) :=
  if order.isEmpty then none
  else some ⟨order, order.zipIdx.flatMap fun p => (((m p.1).getD []).flatten).map fun r => (p.2, r)⟩

/-- `square_distances` for one row (809-811). -/
def knnDist (s : KnnSt F d L) (x : Row F d) : List F :=
  s.samples.map fun p => (∑ i, x i * x i) + (∑ i, p.2 i * p.2 i) - 2 * ∑ i, x i * p.2 i

/-- `perm` may be the result of `argsort`. -/
def IsArgsort (dist : List F) (perm : List Nat) : Prop :=
  perm.Perm (List.range dist.length) ∧ perm.Pairwise fun i j => ∀ a ∈ dist[i]?, ∀ b ∈ dist[j]?, a ≤ b

/-- `numx.bincount`. -/
def bincount (l : List Nat) : List Nat :=
  match l.max? with
  | none => []
  | some m => (List.range (m + 1)).map fun i => l.count i

/-- `KNNClassifier._label` (812-816) for one row; `perm` is the result of `argsort`. -/
def knnLabel (k : Nat) (s : KnnSt F d L) (perm : List Nat) : Option L :=
  (argBest (fun a b => b < a) (bincount ((perm.take k).filterMap fun i => s.samples[i]?.map fun p => p.1))).bind
    fun i => s.order[i]?

end Mdp.Nearest
