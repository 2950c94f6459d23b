import Verif.Nodes.HitParade
import Mathlib.Algebra.BigOperators.Fin
import Mathlib.Algebra.Order.Field.Basic

/-!
# Model of KMeansClassifier (nodes/classifier_nodes.py 360-452)

Floats are elements of an ordered field; distances are squared (the norm is a monotone function of that). The array of
centroids is a function on `Fin (m+1)`, so there is at least one cluster: with none, `argmin` raises.
-/

namespace Mdp.KMeans

open HitParade (argmin setAt)

variable {F : Type} [Field F] [LinearOrder F] {d m : Nat}

/-- The square of `numx.linalg.norm(x - c)`. -/
def dist (x c : Fin d → F) : F := ∑ i, (x i - c i) ^ 2

/-- `_nearest_centroid_idx` (439-441). -/
def nearest (x : Fin d → F) (cs : Fin (m + 1) → Fin d → F) : Fin (m + 1) := argmin fun k => dist x (cs k)

/-- `_train` (400-404): the rows are collected. -/
def train (data : List (Fin d → F)) (x : List (Fin d → F)) : List (Fin d → F) := data ++ x

/-- Sum and number of the rows nearest to each centroid (421-429). -/
def accumulate (data : List (Fin d → F)) (cs : Fin (m + 1) → Fin d → F) : Fin (m + 1) → (Fin d → F) × F :=
  data.foldl (fun acc x => setAt acc (nearest x cs)
    (fun i => (acc (nearest x cs)).1 i + x i, (acc (nearest x cs)).2 + 1)) fun _ => (fun _ => 0, 0)

/-- `new_centroids` (432-433). -/
def step (data : List (Fin d → F)) (cs : Fin (m + 1) → Fin d → F) : Fin (m + 1) → Fin d → F :=
  let acc := accumulate data cs
  fun k => if (acc k).2 > 0 then fun i => (acc k).1 i / (acc k).2 else cs k

/-- The loop of `_stop_training` (419-437); `none`: the loop ends without assigning `_centroids`, which stays `None`. -/
def loop (data : List (Fin d → F)) : Nat → (Fin (m + 1) → Fin d → F) → Option (Fin (m + 1) → Fin d → F)
  | 0, _ => none
  | n + 1, cs => if step data cs = cs then some cs else loop data n (step data cs)

/-- What `stop_training` does: an exception or a value of `_centroids`. -/
inductive Outcome (F : Type) (d m : Nat) where
  | raises
  | centroids (cs : Option (Fin (m + 1) → Fin d → F))

/-- `_stop_training` (406-437); `sample` is the result of `random.sample(range(tlen), num_clusters)`, which raises if
there are more clusters than rows. -/
def stop (data : List (Fin d → F)) (maxIter : Nat) (sample : Fin (m + 1) → Nat) : Outcome F d m :=
  if data.length < m + 1 then .raises
  else .centroids (loop data maxIter fun k => (data[sample k]?).getD fun _ => 0)

/-- `_label` (443-452) for one row; `none`: TypeError. -/
def label (cs : Option (Fin (m + 1) → Fin d → F)) (x : Fin d → F) : Option (Fin (m + 1)) :=
  cs.map fun cs => nearest x cs

end Mdp.KMeans
