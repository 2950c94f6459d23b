import Mathlib.Data.Matrix.Mul
import Mathlib.Analysis.SpecialFunctions.Complex.Arg
import Verif.Nodes.Pca

/-!
# Model of the rotation based algorithms for independent component analysis

`utils.rotate`, `CuBICANode.core` (mdp/nodes/ica_nodes.py) and `JADENode.core` (mdp/nodes/jade.py). Numbers are real; `arctan2 y x` is
the argument of the complex number `x + i y`. Data arrays are lists of rows. Messages are not modelled.
-/

namespace Mdp.Ica

open Matrix

/-- A row. -/
abbrev Vec (m : Nat) := Fin m → ℝ

variable {m : Nat}

/-- `numx.arctan2`. -/
noncomputable def arctan2 (y x : ℝ) : ℝ := Complex.arg ⟨x, y⟩

/-- `utils.rotate` (mdp/utils/routines.py:98-118) for a row: the column `i` is copied, the column `j` is assigned last. -/
noncomputable def rotRow (phi : ℝ) (i j : Fin m) (r : Vec m) : Vec m := fun k =>
  if k = j then Real.sin phi * r i + Real.cos phi * r j
  else if k = i then Real.cos phi * r i - Real.sin phi * r j
  else r k

/-- `utils.rotate` (mdp/utils/routines.py:98-118) for a square matrix. -/
noncomputable def rotateM (phi : ℝ) (i j : Fin m) (q : Matrix (Fin m) (Fin m) ℝ) : Matrix (Fin m) (Fin m) ℝ :=
  fun a => rotRow phi i j (q a)

/-- The pairs of signals of a sweep in order (ica_nodes.py:286-287, jade.py:185-186). -/
def pairs (m : Nat) : List (Fin m × Fin m) :=
  (List.finRange m).flatMap fun i => ((List.finRange m).filter fun j => i < j).map fun j => (i, j)

/-! ## CuBICA -/

/-- A moment of two columns (294-302): `mult(u1**a, u2**b) / tlen`. -/
noncomputable def moment (x : List (Vec m)) (i j : Fin m) (a b : Nat) : ℝ :=
  (x.map fun r => r i ^ a * r j ^ b).sum / x.length

/-- The rotation angle of a pair (288-322). -/
noncomputable def angle (x : List (Vec m)) (i j : Fin m) : ℝ :=
  let C111 := moment x i j 3 0
  let C112 := moment x i j 2 1
  let C122 := moment x i j 1 2
  let C222 := moment x i j 0 3
  let C1111 := moment x i j 4 0 - 3
  let C1112 := moment x i j 3 1
  let C1122 := moment x i j 2 2 - 1
  let C1222 := moment x i j 1 3
  let C2222 := moment x i j 0 4 - 3
  let c34 := 0.0625 * ((C111*C111+C222*C222) - 3*(C112*C112+C122*C122) - 2*(C111*C122+C112*C222))
  let s34 := 0.25 * (C111*C112 - C122*C222)
  let c44 := 1/384 * (7*(C1111*C1111+C2222*C2222) - 16*(C1112*C1112+C1222*C1222) - 12*(C1111*C1122+C1122*C2222)
    - 36*(C1122*C1122) - 32*(C1112*C1222) - 2*(C1111*C2222))
  let s44 := 1/96 * (7*(C1111*C1112-C1222*C2222) + 6*(C1112*C1122-C1122*C1222) + (C1111*C1222-C1112*C2222))
  let phi : ℝ := -0.25 * arctan2 (s34 + s44) (c34 + c44)
  phi

/-- The rotated data, `Qt` and the largest angle of the sweep. -/
structure CuSt (m : Nat) where
  x : List (Vec m)
  q : Matrix (Fin m) (Fin m) ℝ
  maxangle : ℝ

/-- The inner loop (286-333) for one pair. -/
noncomputable def CuSt.pair (s : CuSt m) (p : Fin m × Fin m) : CuSt m :=
  let phi := angle s.x p.1 p.2
  ⟨s.x.map (rotRow phi p.1 p.2), rotateM phi p.1 p.2 s.q, max s.maxangle |phi|⟩

/-- One sweep (285-333). -/
noncomputable def CuSt.sweep (s : CuSt m) : CuSt m := (pairs m).foldl CuSt.pair { s with maxangle := 0 }

/-- The sweeps (284-337), with the angles of the sweeps made; the first argument is the number of sweeps left. -/
noncomputable def CuSt.sweeps (limit : ℝ) : Nat → CuSt m → CuSt m × List ℝ
  | 0, s => (s, [])
  | n + 1, s =>
    let s' := s.sweep
    if s'.maxangle ≤ limit then (s', [s'.maxangle])
    else
      let r := s'.sweeps limit n
      (r.1, s'.maxangle :: r.2)

/-- `int(1+round(numx.sqrt(comp)))` (281); the square root of a natural number is not half way between two. -/
def numSweeps (comp : Nat) : Nat := 1 + (comp.sqrt + if comp.sqrt * comp.sqrt + comp.sqrt < comp then 1 else 0)

/-- `CuBICANode.core` (240-345): the filters, the rotated data, and the angles of the sweeps, of which the last one is returned. -/
noncomputable def cubica (limit : ℝ) (data : List (Vec m)) : CuSt m × List ℝ :=
  CuSt.sweeps limit (numSweeps m) ⟨data, 1, 0⟩

/-! ## JADE -/

/-- `mult(Xijm*X.T, X) / T` (jade.py:131, 138). -/
noncomputable def fourth (x : List (Vec m)) (i j : Fin m) : Matrix (Fin m) (Fin m) ℝ :=
  fun k l => (x.map fun r => r i * r j * r k * r l).sum / x.length

/-- `numx.outer(R[:, i], R[:, j])`. -/
def unitOuter (i j : Fin m) : Matrix (Fin m) (Fin m) ℝ := fun k l => if k = i ∧ l = j then 1 else 0

/-- The matrix for a pair of equal or different indices (124-141): with different indices `sqrt(2)` multiplies the first term only. -/
noncomputable def cumMatrix (x : List (Vec m)) (i j : Fin m) : Matrix (Fin m) (Fin m) ℝ :=
  if i = j then fourth x i i - 1 - 2 • unitOuter i i
  else Real.sqrt 2 • fourth x i j - unitOuter i j - unitOuter j i

/-- The matrices in the order in which they are stored in `CM` (124-141). -/
noncomputable def cumMatrices (x : List (Vec m)) : List (Matrix (Fin m) (Fin m) ℝ) :=
  (List.finRange m).flatMap fun i => cumMatrix x i i :: ((List.finRange m).filter fun j => j < i).map fun j => cumMatrix x i j

/-- The Givens angle of a pair (191-196). -/
noncomputable def givens (cm : List (Matrix (Fin m) (Fin m) ℝ)) (p q : Fin m) : ℝ :=
  let g0 := cm.map fun c => c p p - c q q
  let g1 := cm.map fun c => c p q + c q p
  let gg00 := (List.zipWith (· * ·) g0 g0).sum
  let gg01 := (List.zipWith (· * ·) g0 g1).sum
  let gg10 := (List.zipWith (· * ·) g1 g0).sum
  let gg11 := (List.zipWith (· * ·) g1 g1).sum
  let ton := gg00 - gg11
  let toff := gg01 + gg10
  0.5 * arctan2 toff (ton + Real.sqrt (ton * ton + toff * toff))

/-- Columns `p` and `q` multiplied with `G` from the right (206, 208-213). -/
noncomputable def colG (theta : ℝ) (p q : Fin m) (c : Matrix (Fin m) (Fin m) ℝ) : Matrix (Fin m) (Fin m) ℝ := fun a k =>
  if k = p then c a p * Real.cos theta + c a q * Real.sin theta
  else if k = q then c a p * -Real.sin theta + c a q * Real.cos theta
  else c a k

/-- Rows `p` and `q` multiplied with the transposed of `G` from the left (207). -/
noncomputable def rowG (theta : ℝ) (p q : Fin m) (c : Matrix (Fin m) (Fin m) ℝ) : Matrix (Fin m) (Fin m) ℝ := fun k a =>
  if k = p then Real.cos theta * c p a + Real.sin theta * c q a
  else if k = q then -Real.sin theta * c p a + Real.cos theta * c q a
  else c k a

/-- `V`, `CM`, the number of rotations of the sweep and the last angle. -/
structure JSt (m : Nat) where
  v : Matrix (Fin m) (Fin m) ℝ
  cm : List (Matrix (Fin m) (Fin m) ℝ)
  upds : Nat
  theta : ℝ

/-- The inner loop (185-215) for one pair. -/
noncomputable def JSt.pair (seuil : ℝ) (s : JSt m) (p : Fin m × Fin m) : JSt m :=
  let theta := givens s.cm p.1 p.2
  if seuil < |theta| then
    ⟨colG theta p.1 p.2 s.v, s.cm.map fun c => colG theta p.1 p.2 (rowG theta p.1 p.2 c), s.upds + 1, theta⟩
  else { s with theta := theta }

/-- One sweep (179-215). -/
noncomputable def JSt.sweep (seuil : ℝ) (s : JSt m) : JSt m := (pairs m).foldl (JSt.pair seuil) { s with upds := 0 }

inductive Err where
  /-- NodeException: no convergence -/
  | convergence
  /-- the model has not enough steps; never the result (see `jade_ends`) -/
  | fuel
  /-- UnboundLocalError -/
  | unbound
  /-- NodeException of `train` or IndexError, for an array of rank one -/
  | rank
  /-- NodeException or InconsistentDimException -/
  | dim
  /-- nan -/
  | nan
  /-- NodeException: too many failures -/
  | failures
  /-- 'Nonlinearity not found' -/
  | nonlinearity
  /-- exception of the whitening node -/
  | white (e : Mdp.Pca.Err)
deriving DecidableEq

/-- The loop `while encore` (178-222); the first argument bounds the number of sweeps, `updates` counts the rotations so far. -/
noncomputable def JSt.loop (seuil : ℝ) (maxIt : Nat) : Nat → Nat → JSt m → Except Err (JSt m)
  | 0, _, _ => .error .fuel
  | n + 1, updates, s =>
    let s' := s.sweep seuil
    if maxIt < updates + s'.upds then .error .convergence
    else if s'.upds = 0 then .ok s'
    else s'.loop seuil maxIt n (updates + s'.upds)

/-- `numx.sign(numx.sign(b)+0.1)` (247). -/
noncomputable def signOf (b : ℝ) : ℝ := if b < 0 then -1 else 1

/-- `JADENode.core` (90-250): the filters and the value returned. `order` is the permutation that sorts the lengths of the columns of
the pseudo-inverse (these are all one up to rounding errors), depending on `V`. -/
noncomputable def jade (limit : ℝ) (maxIt : Nat) (order : Matrix (Fin m) (Fin m) ℝ → Equiv.Perm (Fin m)) (data : List (Vec m)) :
    Except Err (Matrix (Fin m) (Fin m) ℝ × ℝ) :=
  match JSt.loop (limit * limit / Real.sqrt data.length) maxIt (maxIt + 1) 0 ⟨1, cumMatrices data, 0, 0⟩ with
  | .error e => .error e
  | .ok s =>
    -- `B = V.T[order]`; `b = B[:, 0]`; `B = diag(signs) B`; `filters = B.T`
    let b : Matrix (Fin m) (Fin m) ℝ := fun k a => s.v a (order s.v k)
    let sgn : Fin m → ℝ := fun k => signOf (if h : 0 < m then b k ⟨0, h⟩ else 0)
    .ok (fun a k => sgn k * b k a, s.theta)

end Mdp.Ica
