import Verif.Nodes.Nearest
import Mathlib.Analysis.SpecialFunctions.Pow.Real
import Mathlib.Analysis.SpecialFunctions.Trigonometric.Basic

/-!
# Model of GaussianClassifier (nodes/classifier_nodes.py 455-615)

Training is modelled in `Verif.Parallel.NodeJoin` (`gaussTrain`). Floats are real numbers (no underflow). The determinant
and the inverse of a matrix are parameters.
-/

namespace Mdp.Gaussian

open Cov Join

variable {d : Nat} {L : Type}

/-- The attributes after training, one entry per label. -/
structure Cls (d : Nat) (L : Type) where
  label : L
  sqrtDet : ℝ
  invCov : Mat ℝ d d
  mean : Row ℝ d
  p : ℝ

/-- 'The covariance matrix is singular for at least one class.', or an error of `fix`. -/
inductive Err where
  | singular
  | fix

/-- The body of the loop of `_stop_training` for one label (526-537), with the number of rows for `p`. -/
noncomputable def stopOne (det : Mat ℝ d d → ℝ) (inv : Mat ℝ d d → Mat ℝ d d)
    (m : L → Option (Mat ℝ d d × Row ℝ d × Nat)) (lbl : L) : Except Err (Cls d L × Nat) :=
  match m lbl with
  | none => .error .fix
  | some (mtx, avg, n) =>
    match (CovSt.mk (some (mtx, avg)) n false).fix true with
    | .error _ => .error .fix
    | .ok ((cov, mean, p), _) =>
      if Real.sqrt (det cov) = 0 then .error .singular
      else .ok (⟨lbl, Real.sqrt (det cov), inv cov, mean, p⟩, p)

/-- `_stop_training` (522-541); `keys` are the keys of the dictionary in some order. -/
noncomputable def stop [LinearOrder L] (det : Mat ℝ d d → ℝ) (inv : Mat ℝ d d → Mat ℝ d d) (keys : List L)
    (m : L → Option (Mat ℝ d d × Row ℝ d × Nat)) : Except Err (List (Cls d L)) :=
  match (keys.insertionSort (· ≤ ·)).mapM (stopOne det inv m) with
  | .error e => .error e
  | .ok cs =>
    let nitems : Nat := (cs.map fun c => c.2).sum
    .ok (cs.map fun c => { c.1 with p := c.1.p / (nitems : ℝ) })

/-- `_gaussian_prob` (543-567) for one row. -/
noncomputable def gaussianProb (c : Cls d L) (x : Row ℝ d) : ℝ :=
  let xmn : Row ℝ d := fun i => x i - c.mean i
  let exponent := -(1 / 2) * ∑ j, (∑ i, xmn i * c.invCov i j) * xmn j
  let constant := (2 * Real.pi) ^ (-(d : ℝ) / 2) / c.sqrtDet
  constant * Real.exp exponent

/-- `class_probabilities` (569-589) for one row. -/
noncomputable def classProbabilities (cs : List (Cls d L)) (x : Row ℝ d) : List ℝ :=
  let tmp := cs.map fun c => gaussianProb c x * c.p
  let tot := tmp.sum
  tmp.map fun t => t / tot

/-- `_prob` (591-595) for one row. -/
noncomputable def prob (cs : List (Cls d L)) (x : Row ℝ d) : List (L × ℝ) :=
  (cs.map fun c => c.label).zip (classProbabilities cs x)

/-- `_label` (597-615) for one row. -/
noncomputable def label (cs : List (Cls d L)) (x : Row ℝ d) : Option L :=
  (Nearest.argBest (fun a b => b < a) (classProbabilities cs x)).bind fun i => (cs.map fun c => c.label)[i]?

end Mdp.Gaussian
