import Verif.Ica.Model
import Verif.Num.Cov

/-!
# Model of `ISFANode` (mdp/nodes/isfa_nodes.py) and `TDSEPNode` (mdp/nodes/ica_nodes.py:1024-1111)

Numbers are real. The covariance matrices are a function of the number of the time-lag; `n` is `_effective_input_dim`, `R` is
`output_dim`. Random orders of the axes, random rotations and permutations, and the order of equal elements in `argsort` are
parameters. Progress messages are not modelled, nor is the argument `complete` of the functions for the angles, which nothing in
the package uses.
-/

namespace Mdp.Isfa

open Mdp.Ica Matrix

variable {n T : Nat}

/-- The covariance matrices (`MultipleCovarianceMatrices`). -/
abbrev Covs (T n : Nat) := Fin T → Cov.Mat ℝ n n

/-- The attributes `output_dim`, `icaweights`, `sfaweights`, `_bica_bsfa`, `eps_contrast`, `max_iter`. -/
structure Par (T : Nat) where
  R : Nat
  ica : Fin T → ℝ
  sfa : Fin T → ℝ
  bica : ℝ
  bsfa : ℝ
  eps : ℝ
  maxIter : Nat

/-- The indices below `R`. -/
def top (R n : Nat) : Finset (Fin n) := Finset.univ.filter fun i => i.1 < R

/-- `(dg*dg).sum()` for the diagonal of `covs[:R, :R]` (427-428, 493-494, 532-533). -/
noncomputable def diagSq (R : Nat) (c : Cov.Mat ℝ n n) : ℝ := ∑ i ∈ top R n, c i i * c i i

/-- The sum of the squares above the diagonal of `covs[:R, :R]` (498-499, 534; `_triu` 22-38). -/
noncomputable def triuSq (R : Nat) (c : Cov.Mat ℝ n n) : ℝ := ∑ i ∈ top R n, ∑ j ∈ top R n, if i < j then c i j * c i j else 0

/-- `_get_contrast` (518-535): the parts for SFA and ICA. -/
noncomputable def contrast (p : Par T) (c : Covs T n) : ℝ × ℝ :=
  (∑ t, p.bsfa * p.sfa t * diagSq p.R (c t), ∑ t, p.bica * p.ica t * (2 * triuSq p.R (c t)))

/-- `_adjust_ica_sfa_coeff` (537-550): `_bica_bsfa`. -/
noncomputable def adjust (sfaIca : ℝ × ℝ) (R : Nat) : ℝ × ℝ :=
  if R > 1 then (sfaIca.2 / (R * (R - 1)), - sfaIca.1 / R) else (0, - sfaIca.1)

/-- The attributes for given arguments of the constructor (215-218, 787). -/
noncomputable def mkPar (sfaIca : ℝ × ℝ) (ica sfa : Fin T → ℝ) (R : Nat) (eps : ℝ) (maxIter : Nat) : Par T :=
  ⟨R, ica, sfa, (adjust sfaIca R).1, (adjust sfaIca R).2, eps, maxIter⟩

/-- The attributes of `TDSEPNode` (mdp/nodes/ica_nodes.py:1093-1104): weight 1 for every time-lag (isfa_nodes.py:195-196, 204-206), as many
outputs as inputs. -/
noncomputable def tdsep (T n : Nat) (limit : ℝ) (maxIter : Nat) : Par T :=
  mkPar (0, 1) (fun _ => 1) (fun t => if t.1 = 0 then 1 else 0) n limit maxIter

/-! ## Angles -/

/-- `_givens_angle_case1` (451-515): the angle and the contrast. -/
noncomputable def angle1 (p : Par T) (c : Covs T n) (m k : Fin n) : ℝ × ℝ :=
  let d0 := ∑ t, p.sfa t * (c t m m * c t m m + c t k k * c t k k)
  let d1 := 4 * ∑ t, p.sfa t * (c t m m * c t m k - c t m k * c t k k)
  let d2 := 2 * ∑ t, p.sfa t * (2 * c t m k * c t m k + c t m m * c t k k)
  let e0 := 2 * ∑ t, p.ica t * c t m k * c t m k
  let e1 := 4 * ∑ t, p.ica t * (c t m k * c t k k - c t m m * c t m k)
  let e2 := ∑ t, p.ica t * ((c t m m - c t k k) * (c t m m - c t k k) - 2 * c t m k * c t m k)
  let s24 := 0.25 * (p.bsfa * d1 + p.bica * e1)
  let c24 := 0.25 * (p.bsfa * (d0 - d2) + p.bica * (e0 - e2))
  let phi4 := arctan2 s24 c24
  let minimum := if 0 ≤ phi4 then -0.25 * (phi4 - Real.pi) else -0.25 * (phi4 + Real.pi)
  let dc := ∑ t, (diagSq p.R (c t) - c t k k * c t k k - c t m m * c t m m) * p.sfa t
  let ec := 2 * ∑ t, p.ica t * (triuSq p.R (c t) - c t m k * c t m k)
  let a20 := 0.25 * (p.bsfa * (4 * dc + d2 + 3 * d0) + p.bica * (4 * ec + e2 + 3 * e0))
  (minimum, a20 + c24 * Real.cos (-4 * minimum) + s24 * Real.sin (-4 * minimum))

/-- The terms of the contrast that depend on the angle (405-406). -/
noncomputable def wave (c22 s22 c24 s24 phi : ℝ) : ℝ :=
  c22 * Real.cos (-2 * phi) + s22 * Real.sin (-2 * phi) + c24 * Real.cos (-4 * phi) + s24 * Real.sin (-4 * phi)

/-- The derivative (416-419). -/
noncomputable def slope (c22 s22 c24 s24 phi : ℝ) : ℝ :=
  2 * c22 * Real.sin (-2 * phi) - 2 * s22 * Real.cos (-2 * phi) + 4 * c24 * Real.sin (-4 * phi) - 4 * s24 * Real.cos (-4 * phi)

/-- `numx.linspace(left, right, npoints+3)` (404). -/
noncomputable def linspace (left right : ℝ) (i : Nat) : ℝ := left + i * ((right - left) / 102)

open Classical in
/-- `contrast.argmin()` (407): the first index of the least value. -/
noncomputable def argmin (f : Nat → ℝ) : Nat :=
  ((List.range 103).find? fun i => ∀ j ∈ List.range 103, f i ≤ f j).getD 0

open Classical in
/-- The search for the angle (400-423). -/
noncomputable def search (c22 s22 c24 s24 : ℝ) : ℝ :=
  let f := wave c22 s22 c24 s24
  let left := -Real.pi / 2 - Real.pi / 101
  let right := Real.pi / 2 + Real.pi / 101
  let i := argmin fun k => f (linspace left right k)
  let left1 := linspace left right (i - 1)
  let right1 := linspace left right (min (i + 1) 102)
  let i1 := argmin fun k => f (linspace left1 right1 k)
  let left2 := linspace left1 right1 (i1 - 1)
  let right2 := linspace left1 right1 (min (i1 + 1) 102)
  let dl := slope c22 s22 c24 s24 left2
  let dr := slope c22 s22 c24 s24 right2
  if |dl - dr| < 1 / 2 ^ 26 then linspace left1 right1 i1 else right2 - dr * (right2 - left2) / (dr - dl)

/-- `_givens_angle_case2` (357-448): the angle and the contrast. -/
noncomputable def angle2 (p : Par T) (c : Covs T n) (m k : Fin n) : ℝ × ℝ :=
  let d0 := ∑ t, p.sfa t * c t m m * c t m m
  let d1 := 4 * ∑ t, p.sfa t * c t m k * c t m m
  let d2 := 2 * ∑ t, p.sfa t * (2 * c t m k * c t m k + c t m m * c t k k)
  let d3 := 4 * ∑ t, p.sfa t * c t m k * c t k k
  let d4 := ∑ t, p.sfa t * c t k k * c t k k
  let e0 := 2 * ∑ t, p.ica t * (∑ i ∈ top p.R n, c t i m * c t i m - c t m m * c t m m)
  let e1 := 4 * ∑ t, p.ica t * (∑ i ∈ top p.R n, c t i m * c t i k - c t m m * c t m k)
  let e2 := 2 * ∑ t, p.ica t * (∑ i ∈ top p.R n, c t i k * c t i k - c t m k * c t m k)
  let s22 := 0.25 * p.bsfa * (d1 + d3) + 0.5 * p.bica * e1
  let c22 := 0.5 * p.bsfa * (d0 - d4) + 0.5 * p.bica * (e0 - e2)
  let s24 := 0.125 * p.bsfa * (d1 - d3)
  let c24 := 0.125 * p.bsfa * (d0 - d2 + d4)
  let minimum := search c22 s22 c24 s24
  let dc := ∑ t, (diagSq p.R (c t) - c t m m * c t m m) * p.sfa t
  let ec := 2 * ∑ t, (∑ i ∈ top p.R n, ∑ j ∈ top p.R n, if i < j ∧ i ≠ m ∧ j ≠ m then c t i j * c t i j else 0) * p.ica t
  let a20 := 0.125 * p.bsfa * (3 * d0 + d2 + 3 * d4 + 8 * dc) + 0.5 * p.bica * (e0 + e2 + 2 * ec)
  (minimum, a20 + c22 * Real.cos (-2 * minimum) + s22 * Real.sin (-2 * minimum) + c24 * Real.cos (-4 * minimum)
    + s24 * Real.sin (-4 * minimum))

/-- `_givens_angle` (344-354). -/
noncomputable def givensAngle (p : Par T) (c : Covs T n) (i j : Fin n) : ℝ × ℝ := if j.1 < p.R then angle1 p c i j else angle2 p c i j

/-- `MultipleCovarianceMatrices.rotate`. -/
noncomputable def rotCovs (phi : ℝ) (i j : Fin n) (c : Covs T n) : Covs T n := fun t => Cov.rotate (Real.cos phi) (Real.sin phi) i j (c t)

/-- `MultipleCovarianceMatrices.transform`. -/
noncomputable def trCovs (g : Matrix (Fin n) (Fin n) ℝ) (c : Covs T n) : Covs T n := fun t => Cov.transform g (c t)

/-! ## Sweeps -/

inductive Err where
  /-- NodeException: no convergence -/
  | node
  /-- UnboundLocalError: `contrast` -/
  | unbound
  /-- AttributeError: a list has no `ncovs` -/
  | attribute
  /-- TypeError -/
  | type
  /-- IndexError -/
  | index
deriving DecidableEq

/-- The variables of `_do_sweep`: `max_increase` (`⊤` is infinity, from a division by zero), the matrices, the rotation,
`prev_contrast` and `contrast` (`none` if it has no value yet). -/
structure Sweep (T n : Nat) where
  maxInc : WithTop ℝ
  covs : Covs T n
  q : Matrix (Fin n) (Fin n) ℝ
  prev : ℝ
  cur : Option ℝ

open Classical in
/-- The loop of `_do_sweep` (718-743) over the pairs of axes. -/
noncomputable def pairLoop (p : Par T) : Sweep T n → List (Fin n × Fin n) → Sweep T n
  | s, [] => s
  | s, (i, j) :: l =>
    let a := givensAngle p s.covs i j
    if a.2 = 0 then { s with maxInc := ((-1 : ℝ) : WithTop ℝ), cur := some a.2 }
    else if s.prev < a.2 then pairLoop p { s with cur := some a.2 } l
    else
      let rel : WithTop ℝ := if s.prev = 0 then ⊤ else (((s.prev - a.2) / |s.prev| : ℝ) : WithTop ℝ)
      pairLoop p { maxInc := max s.maxInc rel, covs := rotCovs a.1 i j s.covs,
                   q := rotateM a.1 i j s.q, prev := a.2, cur := some a.2 } l

/-- The variables of `_optimize`. -/
structure Opt (T n : Nat) where
  covs : Covs T n
  q : Matrix (Fin n) (Fin n) ℝ
  contrast : ℝ
  perturbed : Int
  part : Nat

/-- `_do_sweep` (701-745) for the axes in random order. -/
noncomputable def doSweep (p : Par T) (axes : List (Fin n × Fin n)) (o : Opt T n) : Except Err (WithTop ℝ × Opt T n) :=
  let s := pairLoop p ⟨((-1 : ℝ) : WithTop ℝ), o.covs, o.q, o.contrast, none⟩ axes
  match s.cur with
  | none => .error .unbound
  | some v => .ok (s.maxInc, { o with covs := s.covs, q := s.q, contrast := v })

/-- The random choices for one sweep: the order of the axes, a rotation and a permutation of the outer space. -/
structure Draw (R n : Nat) where
  axes : List (Fin n × Fin n)
  rot : Matrix (Fin (n - R)) (Fin (n - R)) ℝ
  perm : Equiv.Perm (Fin (n - R))

/-- `PRT` (332-342, 656-663): the identity with `mult(rot, perm)` in the outer space; `perm[row[col], col] = 1`. -/
noncomputable def Draw.matrix {R : Nat} (d : Draw R n) : Matrix (Fin n) (Fin n) ℝ := fun i j =>
  if h : R ≤ i.1 ∧ R ≤ j.1 then
    d.rot ⟨i.1 - R, by omega⟩ (d.perm ⟨j.1 - R, by omega⟩)
  else if i = j then 1 else 0

open Classical in
/-- The decisions after a sweep (630-651): `sweeping`, `perturbed` and `part_sweep`. -/
noncomputable def decide' (p : Par T) (maxInc : WithTop ℝ) (contrast : ℝ) (sweep : Nat) (perturbed : Int) (part : Nat) : Bool × Int × Nat :=
  let (sweeping, perturbed) :=
    if maxInc < ((0 : ℝ) : WithTop ℝ) ∨ contrast = 0 then (false, if perturbed = 0 then -1 else -perturbed) else (true, perturbed)
  if maxInc < (p.eps : WithTop ℝ) ∧ ((0 : ℝ) : WithTop ℝ) ≤ maxInc then
    let (sweeping, perturbed) :=
      if perturbed = 0 then (sweeping, 1)
      else if 1 ≤ perturbed ∧ part + 1 = sweep then (false, perturbed)
      else if perturbed < 0 then (false, perturbed)
      else (sweeping, perturbed)
    (sweeping, perturbed, sweep)
  else (sweeping, perturbed, part)

/-- The loop of `_optimize` (623-681). `sweep` is the number of sweeps so far; `none` stands for a loop that has not come to an
end after `fuel` sweeps. -/
noncomputable def optLoop (p : Par T) (draw : Nat → Draw p.R n) : Nat → Nat → Opt T n → Option (Except Err (Opt T n))
  | 0, _, _ => none
  | fuel + 1, sweep, o =>
    let sweep := sweep + 1
    match doSweep p (draw sweep).axes o with
    | .error e => some (.error e)
    | .ok (maxInc, o) =>
      let (sweeping, perturbed, part) := decide' p maxInc o.contrast sweep o.perturbed o.part
      let o := if 1 ≤ perturbed ∧ sweeping = true then
          { o with covs := trCovs (draw sweep).matrix o.covs, q := o.q * (draw sweep).matrix,
                   perturbed := perturbed + 1, part := part }
        else { o with perturbed := perturbed, part := part }
      if sweep = p.maxIter then some (.error .node)
      else if sweeping then optLoop p draw fuel sweep o else some (.ok o)

/-- `_optimize` (572-699): the rotation, the initial and the final contrast. -/
noncomputable def optimize (p : Par T) (draw : Nat → Draw p.R n) (fuel : Nat) (covs : Covs T n) :
    Option (Except Err (Matrix (Fin n) (Fin n) ℝ × (ℝ × ℝ) × (ℝ × ℝ))) :=
  let c0 := contrast p covs
  match optLoop p draw fuel 0 ⟨covs, 1, c0.1 + c0.2, if n = p.R then -1 else 0, 0⟩ with
  | none => none
  | some (.error e) => some (.error e)
  | some (.ok o) => some (.ok (o.q, c0, contrast p o.covs))

/-- `rot_axis` (789-790). -/
def axes (R n : Nat) : List (Fin n × Fin n) :=
  ((List.finRange n).filter fun i => i.1 < R).flatMap fun i => ((List.finRange n).filter fun j => i < j).map fun j => (i, j)

/-- The node after training. `rp` is the list of the columns of `RP`. -/
structure Res (T n : Nat) where
  covs : Covs T n
  rpc : Matrix (Fin n) (Fin n) ℝ
  rp : List (Vec n)
  initial : ℝ × ℝ
  final : ℝ × ℝ

/-- `_stop_training` (784-820) after `_fix_covs`. `order` is `argsort` for the listed indices; there is at least one time-lag, the
first one decides the order. -/
noncomputable def stop (p : Par (T + 1)) (order : (Fin n → ℝ) → List (Fin n) → List (Fin n)) (draw : Nat → Draw p.R n) (fuel : Nat)
    (rp0 : Option (Matrix (Fin n) (Fin n) ℝ)) (covs : Covs (T + 1) n) : Option (Except Err (Res (T + 1) n)) :=
  let (rp, covs) := match rp0 with
    | none => ((1 : Matrix (Fin n) (Fin n) ℝ), covs)
    | some rp => (rp, trCovs rp covs)
  match optimize p draw fuel covs with
  | none => none
  | some (.error e) => some (.error e)
  | some (.ok (q, c0, c1)) =>
    let rpc := rp * q
    let covs := trCovs q covs
    let idx := (order (fun i => covs 0 i i) ((List.finRange n).filter fun i => i.1 < p.R)).reverse
    some (.ok ⟨covs, rpc, idx.map fun j i => rpc i j, c0, c1⟩)

/-- `_execute` (290-295) after whitening, for a row. -/
noncomputable def Res.execute (r : Res T n) (x : Vec n) : List ℝ := r.rp.map fun v => x ⬝ᵥ v

/-- `_inverse` (297-303) before the inverse of the whitening, for a row. -/
noncomputable def Res.inverse (r : Res T n) (y : List ℝ) : Vec n := fun i => (List.zipWith (fun a v => a * v i) y r.rp).sum

/-! ## The constructor -/

/-- The argument `lags`: an integer, a list or tuple of integers, an array with or without integers, another object. -/
inductive Lags where
  | int (k : Int)
  | list (l : List Int)
  | array (isInt : Bool) (l : List Int)
  | other

/-- The arguments `icaweights` and `sfaweights`. -/
inductive Weights where
  | default
  | number (x : ℝ)
  | list (l : List ℝ)

/-- `lags` (178-192). -/
def Lags.get : Lags → Except Err (List Int)
  | .int k => .ok ((List.range k.toNat).map fun i : Nat => (i : Int) + 1)
  | .list l => .ok l
  | .array true l => .ok l
  | .array false _ => .error .node
  | .other => .error .node

/-- `icaweights` (195-202): the number for all time-lags or the list. A number has no length; the message for a wrong length formats strings
with `%d`, which is a TypeError. -/
noncomputable def Weights.ica (w : Weights) (len : Nat) : Except Err (List ℝ) :=
  match w with
  | .default => .ok (List.replicate len 1)
  | .number _ => .error .type
  | .list l => if l.length ≠ len then .error .type else .ok l

/-- `sfaweights` (204-212). -/
noncomputable def Weights.sfa (w : Weights) (len : Nat) : Except Err (List ℝ) :=
  match w with
  | .default => if len = 0 then .error .index else .ok (1 :: List.replicate (len - 1) 0)
  | .number _ => .error .type
  | .list l => if l.length ≠ len then .error .type else .ok l

/-- The node after construction: the time-lags, the weights, the number of components that the whitening keeps (`none`: no whitening), and
`output_dim`. -/
structure Init where
  lags : List Int
  ica : List ℝ
  sfa : List ℝ
  white : Option (Option Nat)
  outDim : Option Nat

/-- `__init__` (177-258). -/
noncomputable def init (lags : Lags) (ica sfa : Weights) (whitened : Bool) (whiteComp outDim : Option Nat) : Except Err Init :=
  match lags.get with
  | .error e => .error e
  | .ok lags => match ica.ica lags.length with
    | .error e => .error e
    | .ok ica => match sfa.sfa lags.length with
      | .error e => .error e
      | .ok sfa =>
        if whitened then .ok ⟨lags, ica, sfa, none, outDim⟩
        else match outDim with
          | some k => .ok ⟨lags, ica, sfa, some (some k), some k⟩
          | none => .ok ⟨lags, ica, sfa, some whiteComp, whiteComp⟩

/-- `_effective_input_dim` (276-281) for an input dimension. -/
def Init.effective (s : Init) (d : Nat) : Nat :=
  match s.white with
  | none => d
  | some w => w.getD d

/-- `output_dim` when training ends (784-785). -/
def Init.outputs (s : Init) (d : Nat) : Nat := s.outDim.getD (s.effective d)

/-- The argument of `stop_training` (747): nothing, a list of `DelayCovarianceMatrix`, a `MultipleCovarianceMatrices`. -/
inductive Given (T n : Nat) where
  | nothing
  | list
  | multiple (c : Covs T n)

/-- `_fix_covs` (552-570) and the first use of the matrices (580, 798): `fixed` are the whitened symmetric matrices of the training data. -/
def Given.fix {T n : Nat} (fixed : Covs T n) : Given T n → Except Err (Covs T n)
  | .nothing => .ok fixed
  | .list => .error .attribute
  | .multiple c => .ok c

end Mdp.Isfa
