import Mathlib.Algebra.Field.Defs
import Mathlib.Algebra.BigOperators.Group.List.Basic

/-!
# Model of the covariance accumulators (utils/covariance.py)

Numbers are elements of a field; division by zero, rounding and the round-off warning (14-24) are not modelled.
A data matrix is the list of its rows. `update` makes "no consistency checks on the data": all rows given to
one object have the same number of columns here (the nodes check this, C03). dtypes and casts are not modelled.
-/

namespace Mdp.Cov

variable {F : Type} [Field F] {d e : Nat}

/-- A row with `d` columns. -/
abbrev Row (F : Type) (d : Nat) := Fin d → F
abbrev Mat (F : Type) (d e : Nat) := Fin d → Fin e → F

/-- `mult(x.T, y)`. -/
def multT (x : List (Row F d)) (y : List (Row F e)) : Mat F d e :=
  fun i j => (List.zipWith (fun a b => a i * b j) x y).sum

/-- `x.sum(axis=0)`. -/
def colSum (x : List (Row F d)) : Row F d := fun i => (x.map fun a => a i).sum

/-- `numx.outer(a, b)`. -/
def outer (a : Row F d) (b : Row F e) : Mat F d e := fun i j => a i * b j

/-- In-place division of an array by a number. -/
def divM (a : Mat F d e) (c : F) : Mat F d e := fun i j => a i j / c
def divR (a : Row F d) (c : F) : Row F d := fun i => a i / c

/-- An exception. -/
inductive Err where
  /-- arithmetic with `None` -/
  | noneType
  /-- 'Block length is %d, should be at least %d.' -/
  | short
  /-- '# samples mismatch' -/
  | mismatch
deriving DecidableEq

/-! ## CovarianceMatrix (27-140) -/

/-- `_cov_mtx` and `_avg` (set and cleared together), `_tlen`, `bias`. -/
structure CovSt (F : Type) (d : Nat) where
  acc : Option (Mat F d d × Row F d)
  tlen : Nat
  bias : Bool

/-- `__init__` (43-63). -/
def CovSt.new (F : Type) (d : Nat) (bias : Bool) : CovSt F d := ⟨none, 0, bias⟩

/-- `update` (83-97) with `_init_internals` (65-81). -/
def CovSt.update (s : CovSt F d) (x : List (Row F d)) : CovSt F d :=
  let a := s.acc.getD (0, 0)
  ⟨some (a.1 + multT x x, a.2 + colSum x), s.tlen + x.length, s.bias⟩

/-- `fix` (99-140): the result and the new state. -/
def CovSt.fix (s : CovSt F d) (center : Bool) : Except Err ((Mat F d d × Row F d × Nat) × CovSt F d) :=
  match s.acc with
  | none => .error .noneType
  | some (cov, avg) =>
    let n : F := s.tlen
    let cov := if s.bias then divM cov n else divM cov (n - 1)
    let cov := if center then
        let avgMtx := outer avg avg
        cov - (if s.bias then divM avgMtx (n * n) else divM avgMtx (n * (n - 1)))
      else cov
    .ok ((cov, divR avg n, s.tlen), ⟨none, 0, s.bias⟩)

/-! ## DelayCovarianceMatrix (342-468) -/

/-- `_cov_mtx`, `_avg` and `_avg_dt` (set and cleared together), `_tlen`, `_dt` (not negative), `bias`. -/
structure DelaySt (F : Type) (d : Nat) where
  acc : Option (Mat F d d × Row F d × Row F d)
  tlen : Nat
  dt : Nat
  bias : Bool

/-- `__init__` (356-380). -/
def DelaySt.new (F : Type) (d : Nat) (dt : Nat) (bias : Bool) : DelaySt F d := ⟨none, 0, dt, bias⟩

/-- `update` (399-421). The internals are initialised before the block length is checked. -/
def DelaySt.update (s : DelaySt F d) (x : List (Row F d)) : Except Err Unit × DelaySt F d :=
  let a := s.acc.getD (0, 0, 0)
  let tlen := x.length
  if tlen < s.dt + 1 then (.error .short, { s with acc := some a })
  else
    let cov := a.1 + multT (x.take (tlen - s.dt)) ((x.take tlen).drop s.dt)
    let total := colSum x
    let avg := a.2.1 + (total - colSum (x.drop (tlen - s.dt)))
    let avgDt := a.2.2 + (total - colSum (x.take s.dt))
    (.ok (), ⟨some (cov, avg, avgDt), s.tlen + (tlen - s.dt), s.dt, s.bias⟩)

/-- `mult(A, mult(c, A.T))`. -/
def conj (a : Mat F e d) (c : Mat F d d) : Mat F e e :=
  fun i j => ((List.finRange d).map fun k => a i k * ((List.finRange d).map fun l => c k l * a j l).sum).sum

/-- `fix` (423-468) without `A`. -/
def DelaySt.fix (s : DelaySt F d) : Except Err ((Mat F d d × Row F d × Row F d × Nat) × DelaySt F d) :=
  match s.acc with
  | none => .error .noneType
  | some (cov, avg, avgDt) =>
    let n : F := s.tlen
    let cov := cov - divM (outer avg avgDt) n
    let cov := if s.bias then divM cov n else divM cov (n - 1)
    .ok ((cov, divR avg n, divR avgDt n, s.tlen), ⟨none, 0, s.dt, s.bias⟩)

/-- `fix(A)` (455-456). -/
def DelaySt.fixA (s : DelaySt F d) (a : Mat F e d) :
    Except Err ((Mat F e e × Row F d × Row F d × Nat) × DelaySt F d) :=
  match s.fix with
  | .error e => .error e
  | .ok ((c, r), s) => .ok ((conj a c, r), s)

/-! ## CrossCovarianceMatrix (547-614) -/

structure CrossSt (F : Type) (d e : Nat) where
  acc : Option (Mat F d e × Row F d × Row F e)
  tlen : Nat
  bias : Bool

def CrossSt.new (F : Type) (d e : Nat) (bias : Bool) : CrossSt F d e := ⟨none, 0, bias⟩

/-- `update` (563-580); the dtypes agree. -/
def CrossSt.update (s : CrossSt F d e) (x : List (Row F d)) (y : List (Row F e)) : Except Err Unit × CrossSt F d e :=
  if x.length ≠ y.length then (.error .mismatch, s)
  else
    let a := s.acc.getD (0, 0, 0)
    (.ok (), ⟨some (a.1 + multT x y, a.2.1 + colSum x, a.2.2 + colSum y), s.tlen + x.length, s.bias⟩)

/-- `fix` (582-614). -/
def CrossSt.fix (s : CrossSt F d e) : Except Err ((Mat F d e × Row F d × Row F e × Nat) × CrossSt F d e) :=
  match s.acc with
  | none => .error .noneType
  | some (cov, avgx, avgy) =>
    let n : F := s.tlen
    let m := outer avgx avgy
    let cov := if s.bias then divM cov n - divM m (n * n) else divM cov (n - 1) - divM m (n * (n - 1))
    .ok ((cov, divR avgx n, divR avgy n, s.tlen), ⟨none, 0, s.bias⟩)

/-! ## MultipleCovarianceMatrices (471-544), one of the matrices -/

/-- `symmetrize` (487-492). -/
def symmetrize (c : Mat F d d) : Mat F d d := fun i j => 1 / 2 * (c i j + c j i)

/-- `rotate` (504-522) with the cosine and sine of the angle. `covs_i` is a copy, `covs_j` is a view, read again
after column (row) `i` has been assigned. -/
def rotate (c s : F) (i j : Fin d) (m : Mat F d d) : Mat F d d :=
  -- columns
  let m1 : Mat F d d := fun k l => if l = i then c * m k i - s * m k j else m k l
  let m2 : Mat F d d := fun k l => if l = j then s * m k i + c * m1 k j else m1 k l
  -- rows
  let m3 : Mat F d d := fun k l => if k = i then c * m2 i l - s * m2 j l else m2 k l
  fun k l => if k = j then s * m2 i l + c * m3 j l else m3 k l

/-- `permute` (524-531): rows, then columns. -/
def permute (i j : Fin d) (m : Mat F d d) : Mat F d d :=
  let m1 : Mat F d d := fun k l => if k = j then m i l else if k = i then m j l else m k l
  fun k l => if l = j then m1 k i else if l = i then m1 k j else m1 k l

/-- `transform` (533-540): `mult(mult(t.T, c), t)`. -/
def transform (t : Mat F d d) (c : Mat F d d) : Mat F d d :=
  fun i j => ((List.finRange d).map fun l => ((List.finRange d).map fun k => t k i * c k l).sum * t l j).sum

end Mdp.Cov
