import Verif.Num.Cov
import Mathlib.Data.List.Dedup
import Mathlib.Algebra.Group.Prod

/-!
# Model of forking and joining the parallel nodes

parallel/parallelnodes.py 166-257, parallel/parallelclassifiers.py, and the training methods of the nodes concerned.
Only the statistics gathered during training are modelled. Dimensions, dtypes and the training flag (join 66-82) are
not. A dictionary is a function to `Option`; no result depends on the order of its keys.
-/

namespace Mdp.Join

open Cov

variable {F : Type} [Field F] {d : Nat} {L : Type} [DecidableEq L] {M : Type}

inductive Err where
  /-- `None` in an in-place addition -/
  | noneType
  /-- 'Need at least 2 time samples' -/
  | short
  /-- 'The number of labels should be equal to the number of datapoints' -/
  | labels
  /-- `KeyError` -/
  | key
deriving DecidableEq

/-- `_join_covariance` (parallelnodes.py 166-174). -/
def joinCov (s f : CovSt F d) : Except Err (CovSt F d) :=
  match s.acc, f.acc with
  | some a, some b => .ok ⟨some (a.1 + b.1, a.2 + b.2), s.tlen + f.tlen, s.bias⟩
  | _, _ => .error .noneType

/-! ## PCANode: `_cov_mtx` -/

/-- `_fork`: a new node (parallelnodes.py 182-183). -/
def pcaFork (F : Type) (d : Nat) : CovSt F d := CovSt.new F d false

/-- `_train` (pca_nodes.py 150-156). -/
def pcaTrain (s : CovSt F d) (x : List (Row F d)) : CovSt F d := s.update x

/-- `_join` (185-191). -/
def pcaJoin (s f : CovSt F d) : Except Err (CovSt F d) :=
  match s.acc with
  | none => .ok f
  | some _ => joinCov s f

/-! ## SFANode: `_cov_mtx`, `_dcov_mtx`, `_include_last_sample` -/

structure SfaSt (F : Type) (d : Nat) where
  cov : CovSt F d
  dcov : CovSt F d
  incl : Bool

def sfaNew (F : Type) (d : Nat) (incl : Bool) : SfaSt F d := ⟨CovSt.new F d false, CovSt.new F d false, incl⟩

/-- `_fork` (197-198): the switch is passed on as the attribute `_include_last_sample` of the parent. -/
def sfaFork (s : SfaSt F d) : SfaSt F d := sfaNew F d s.incl

/-- `time_derivative` (sfa_nodes.py 206-216). -/
def timeDerivative (x : List (Row F d)) : List (Row F d) := List.zipWith (· - ·) (x.drop 1) x.dropLast

/-- `_train` (244-261) with its check (228-242). `incl`: the argument `include_last_sample`. -/
def sfaTrain (s : SfaSt F d) (x : List (Row F d)) (incl : Option Bool := none) : Except Err (SfaSt F d) :=
  if x.length < 2 then .error .short
  else
    let incl' := incl.getD s.incl
    .ok ⟨s.cov.update (if incl' then x else x.dropLast), s.dcov.update (timeDerivative x), s.incl⟩

/-- `_join` (200-208). -/
def sfaJoin (s f : SfaSt F d) : Except Err (SfaSt F d) :=
  match s.cov.acc with
  | none => .ok { s with cov := f.cov, dcov := f.dcov }
  | some _ =>
    match joinCov s.cov f.cov with
    | .error e => .error e
    | .ok c => match joinCov s.dcov f.dcov with
      | .error e => .error e
      | .ok dc => .ok { s with cov := c, dcov := dc }

/-! ## HistogramNode: `data_hist` -/

/-- `_train` (misc_nodes.py 892-903) with `hist_fraction = 1`. -/
def histTrain (s : Option (List (Row F d))) (x : List (Row F d)) : Option (List (Row F d)) :=
  match s with
  | some h => some (h ++ x)
  | none => some x

/-- `_join` (parallelnodes.py 252-257). -/
def histJoin (s f : Option (List (Row F d))) : Option (List (Row F d)) :=
  match s, f with
  | some a, some b => some (a ++ b)
  | none, some b => some b
  | s, none => s

/-! ## Nodes with one accumulator per label -/

/-- The argument `labels`: one label for all rows or a sequence of labels. -/
inductive Labels (L : Type) where
  | one (l : L)
  | each (ls : List L)

/-- The groups of rows visited: every label once (the order of a set is arbitrary) with the rows having it
(`compress`; fda_nodes.py 83-91, classifier_nodes.py 503-520, 652-667, 759-774). -/
def groups (x : List (Row F d)) : Labels L → List (L × List (Row F d))
  | .one l => [(l, x)]
  | .each ls => ls.dedup.map fun l => (l, ((ls.zip x).filter fun p => p.1 = l).map (·.2))

/-- `_check_train_args`. -/
def labelsOk (x : List (Row F d)) : Labels L → Bool
  | .one _ => true
  | .each ls => ls.length = x.length

/-- `if label not in D: D[label] = zero; D[label] += v`. -/
def upd (zero : M) (op : M → M → M) (m : L → Option M) (l : L) (v : M) : L → Option M :=
  fun k => if k = l then some (op ((m l).getD zero) v) else m k

/-- Training of a node with one accumulator per label. -/
def labTrain (zero : M) (op : M → M → M) (f : List (Row F d) → M) (m : L → Option M)
    (x : List (Row F d)) (labels : Labels L) : Except Err (L → Option M) :=
  if labelsOk x labels then .ok ((groups x labels).foldl (fun m g => upd zero op m g.1 (f g.2)) m)
  else .error .labels

/-- `for key in fork: if key in self: self[key] += fork[key] else self[key] = fork[key]`
(parallelnodes.py 236-243; parallelclassifiers.py 20-25, 33-41, 49-55). GaussianClassifier takes over the dictionary
of the fork if its own is empty, which gives the same mapping. -/
def labJoin (op : M → M → M) (s f : L → Option M) : L → Option M :=
  fun k => match f k with
    | some v => match s k with
      | some w => some (op w v)
      | none => some v
    | none => s k

/-- FDANode, first phase, and NearestMeanClassifier: sum and number of the rows of every label
(`_update_means` fda_nodes.py 98-111, `_update_mean` classifier_nodes.py 669-681). -/
def meanTrain (m : L → Option (Row F d × Nat)) (x : List (Row F d)) (labels : Labels L) :
    Except Err (L → Option (Row F d × Nat)) :=
  labTrain (0, 0) (· + ·) (fun x => (colSum x, x.length)) m x labels

/-- GaussianClassifier: a covariance accumulator per label (`_update_covs` classifier_nodes.py 498-501). The object is
updated as soon as it exists, so its matrices are never `None`. -/
def gaussTrain (m : L → Option (Mat F d d × Row F d × Nat)) (x : List (Row F d)) (labels : Labels L) :
    Except Err (L → Option (Mat F d d × Row F d × Nat)) :=
  labTrain (0, 0, 0) (· + ·) (fun x => (multT x x, colSum x, x.length)) m x labels

/-- KNNClassifier: the list of sample arrays of every label (`_add_samples` classifier_nodes.py 776-780). -/
def knnTrain (m : L → Option (List (List (Row F d)))) (x : List (Row F d)) (labels : Labels L) :
    Except Err (L → Option (List (List (Row F d)))) :=
  labTrain [] (· ++ ·) (fun x => [x]) m x labels

/-! ## FDANode, second phase -/

/-- `means` (the class means), `_S_W`, `_allcov`. -/
structure FdaSt (F : Type) (d : Nat) (L : Type) where
  means : L → Option (Row F d)
  sw : Option (Mat F d d)
  allcov : CovSt F d

/-- `_stop_means` (fda_nodes.py 93-96). -/
def stopMeans (m : L → Option (Row F d × Nat)) : L → Option (Row F d) :=
  fun l => (m l).map fun p => divR p.1 (p.2 : F)

/-- At the beginning of the second phase. -/
def fdaStart (m : L → Option (Row F d × Nat)) : FdaSt F d L := ⟨stopMeans m, none, CovSt.new F d false⟩

/-- `_fork` in the second phase (parallelnodes.py 213-221). -/
def fdaFork (s : FdaSt F d L) : FdaSt F d L := { s with sw := none, allcov := CovSt.new F d false }

/-- `_update_SW` (fda_nodes.py 156-166) for all groups; the first unknown label raises. -/
def addSW (means : L → Option (Row F d)) : Mat F d d → List (L × List (Row F d)) → Except Err Unit × Mat F d d
  | sw, [] => (.ok (), sw)
  | sw, g :: gs =>
    match means g.1 with
    | none => (.error .key, sw)
    | some m =>
      let x := g.2.map fun a => a - m
      addSW means (sw + multT x x) gs

/-- `_train_fda` (116-139). -/
def fdaTrain (s : FdaSt F d L) (x : List (Row F d)) (labels : Labels L) : Except Err Unit × FdaSt F d L :=
  if labelsOk x labels then
    let r := addSW s.means (s.sw.getD 0) (groups x labels)
    (r.1, { s with sw := some r.2, allcov := s.allcov.update x })
  else (.error .labels, s)

/-- `_join` in the second phase (parallelnodes.py 223-235), the fork being in the second phase. -/
def fdaJoin (s f : FdaSt F d L) : Except Err (FdaSt F d L) :=
  match s.sw with
  | none => .ok { s with allcov := f.allcov, sw := f.sw }
  | some w =>
    match joinCov s.allcov f.allcov with
    | .error e => .error e
    | .ok c => match f.sw with
      | none => .error .noneType
      | some w' => .ok { s with allcov := c, sw := some (w + w') }

end Mdp.Join
