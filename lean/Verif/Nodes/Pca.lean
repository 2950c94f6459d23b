import Verif.Num.Cov
import Mathlib.Algebra.Order.Field.Basic

/-!
# Model of `PCANode` and `WhiteningNode` (mdp/nodes/pca_nodes.py)

Numbers are elements of an ordered field. The eigenvalue solver of the numerical library is a parameter: a function of the
matrix and the range of eigenvalues asked for, which returns pairs of an eigenvalue and an eigenvector or raises. The
square root is a parameter as well. A data matrix is the list of its rows. Dimension checks of `train`, `execute` and
`inverse` are not part of this model (C03, C05).
-/

namespace Mdp.Pca

open Mdp.Cov

variable {F : Type} [Field F] [LinearOrder F] {d : Nat}

inductive Err where
  /-- `fix` without data -/
  | noneType
  /-- SymeigException, as NodeException -/
  | symeig
  /-- 'Got negative eigenvalues' -/
  | negative
  /-- InconsistentDimException -/
  | dim
  /-- 'No eigenvalues larger than var_abs' -/
  | reduced
  /-- NodeException of `_inverse` -/
  | inverse
deriving DecidableEq

/-- The parameters of the node (38-114) and the output dimension, which may have been set to a number of components
(`outDim`) or to a fraction of the variance (`desired`, 116-121). `var_part` is `none` for `None` and `0`. -/
structure Cfg (F : Type) where
  outDim : Option Nat := none
  desired : Option F := none
  svd : Bool := false
  reduce : Bool := false
  varAbs : F
  varRel : F
  varPart : Option F := none

/-- An eigenvalue solver (utils/_symeig.py, utils/routines.py:299-311): the eigenvalues in ascending order with their
eigenvectors; the second argument is the range of indices, from 1 on, both ends included. -/
abbrev Solver (F : Type) (d : Nat) := Mat F d d → Option (Int × Int) → Option (List (F × Row F d))

/-- The trained node (205, 285-292): `d`, `v` (as list of columns), `avg`, `total_variance`, `explained_variance`, output dimension. -/
structure Res (F : Type) (d : Nat) where
  ds : List F
  vs : List (Row F d)
  avg : Row F d
  total : F
  explained : F
  outDim : Option Nat

/-- `numx.diag(cov).sum()` (221). -/
def trace (c : Mat F d d) : F := ((List.finRange d).map fun i => c i i).sum

/-- `varcum = (d / vartot).cumsum()` (255). -/
def cumsum (a : F) : List F → List F
  | [] => []
  | x :: l => (a + x) :: cumsum (a + x) l

/-- `varcum.searchsorted(v)` for an array in ascending order: the number of entries before the first one not less than
`v` (258). -/
def searchsorted (l : List F) (v : F) : Nat := (l.takeWhile fun x => x < v).length

/-- `_adjust_output_dim` (158-182): the output dimension and the range. -/
def adjust (c : Cfg F) (d : Nat) : Option Nat × Option (Int × Int) :=
  match c.desired, c.outDim with
  | none, none => (some d, none)
  | _, some k => if k ≥ 1 then (some k, some ((d : Int) - k + 1, d)) else (some k, none)
  | some _, none => (none, none)

/-- `d`, the columns of `v` and the output dimension, during `_stop_training` (247-282). -/
abbrev Kept (F : Type) (d : Nat) := List F × List (Row F d) × Option Nat

/-- The selection by the fraction of variance (250-264); the setter of `output_dim` raises if another one is set. -/
def byVariance (c : Cfg F) (vartot : F) (k : Kept F d) : Except Err (Kept F d) :=
  match c.desired with
  | none => .ok k
  | some p =>
    let ds := k.1.filter (fun x => 0 < x)
    let n := searchsorted (cumsum 0 (ds.map (· / vartot))) p + 1
    if k.2.2 = none ∨ k.2.2 = some n then .ok (ds.take n, k.2.1.take n, some n) else .error .dim

/-- The automatic reduction (267-282). -/
def byReduce (c : Cfg F) (vartot : F) (k : Kept F d) : Except Err (Kept F d) :=
  if c.reduce then
    let d1 := k.1.filter (fun x => c.varAbs < x)
    match d1 with
    | [] => .error .reduced
    | a :: r =>
      let m := r.foldl max a
      let d2 := d1.filter (fun x => c.varRel < x / m)
      let d3 := match c.varPart with
        | none => d2
        | some p => d2.filter (fun x => p < x / vartot)
      .ok (d3, k.2.1.take d3.length, some d3.length)
  else .ok k

/-- The rest of `_stop_training` (250-292). -/
def conclude (c : Cfg F) (avg : Row F d) (vartot : F) (k : Kept F d) : Except Err (Res F d) :=
  match byVariance c vartot k with
  | .error e => .error e
  | .ok k => match byReduce c vartot k with
    | .error e => .error e
    | .ok (ds, vs, outDim) => .ok ⟨ds, vs, avg, vartot, ds.sum / vartot, outDim⟩

/-- `_stop_training` (184-292), `debug=False`. -/
def stop (c : Cfg F) (solve : Solver F d) (s : CovSt F d) : Except Err (Res F d) :=
  match s.fix true with
  | .error _ => .error .noneType
  | .ok ((cov, avg, _), _) =>
    let (outDim, rng) := adjust c d
    match solve cov rng with
    | none => .error .symeig
    | some l =>
      if !(c.reduce || c.svd || c.desired.isSome) && l.any (fun p => p.1 < 0) then .error .negative
      else conclude c avg (trace cov) (l.reverse.map (·.1), l.reverse.map (·.2), outDim)

/-- `x - avg` times a vector (343, 344). -/
def proj (avg : Row F d) (x v : Row F d) : F := ((List.finRange d).map fun k => (x k - avg k) * v k).sum

/-- `_execute` (327-344) for a row. -/
def Res.execute (r : Res F d) (n : Option Nat) (x : Row F d) : List F :=
  match n with
  | none => r.vs.map (proj r.avg x)
  | some n => (r.vs.take n).map (proj r.avg x)

/-- The sum of `y[i]` times row `i` of a reconstruction matrix, plus `avg` (371). -/
def recon (avg : Row F d) (y : List F) (ws : List (Row F d)) : Row F d :=
  fun k => (List.zipWith (fun a w => a * w k) y ws).sum + avg k

/-- `_inverse` (346-372) for a row, with the rows `ws` of the reconstruction matrix (310-325). -/
def Res.inverseWith (r : Res F d) (ws : List (Row F d)) (y : List F) : Except Err (Row F d) :=
  match r.outDim with
  | none => .error .inverse
  | some k => if y.length > k then .error .inverse else .ok (recon r.avg y (ws.take y.length))

/-- `_inverse` of a `PCANode` (346-372). -/
def Res.inverse (r : Res F d) (y : List F) : Except Err (Row F d) := r.inverseWith r.vs y

/-- `WhiteningNode._stop_training` (393-407): the columns of `v` divided by the square roots of `d`. -/
def whiten (sqrt : F → F) (r : Res F d) : Res F d :=
  { r with vs := List.zipWith (fun v a => fun k => v k / sqrt a) r.vs r.ds }

/-- `WhiteningNode.get_recmatrix` (418-435) and `inverse`. -/
def Res.whiteInverse (r : Res F d) (y : List F) : Except Err (Row F d) :=
  r.inverseWith (List.zipWith (fun v a => fun k => v k * a) r.vs r.ds) y

end Mdp.Pca
