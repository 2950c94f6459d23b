import Mathlib.Data.Real.Sqrt
import Mathlib.Data.Real.Sign
import Mathlib.Data.Complex.Basic
import Mathlib.LinearAlgebra.Matrix.Notation
import Mathlib.Algebra.BigOperators.Fin

/-!
# Model of `random_rot` and `symrand` (mdp/utils/routines.py 143-203, 241-256)

Numbers are real numbers. The random numbers are arguments. A division by zero gives nan, which the products of matrices
spread: no matrix (`none`).
-/

namespace Mdp.Rand

open Matrix

/-- The vector `x` of a pass of the loop (190-192) made of the random numbers: `D[n-1]` times the norm is subtracted from the
first element. -/
noncomputable def shifted (len : Nat) (x : Nat → ℝ) (k : Nat) : ℝ :=
  if k = 0 then x 0 - Real.sign (x 0) * Real.sqrt (∑ l ∈ Finset.range len, x l * x l) else x k

/-- `mat` (193-197): the Householder transformation of the coordinates from number `n` on; `n` is counted from zero here. -/
noncomputable def house (dim n : Nat) (x : Nat → ℝ) : Option (Matrix (Fin dim) (Fin dim) ℝ) :=
  let s := ∑ l ∈ Finset.range (dim - n), x l * x l
  if s = 0 then none
  else some (Matrix.of fun i j =>
    if n ≤ i.val ∧ n ≤ j.val then (if i = j then 1 else 0) - 2 * (x (i.val - n) * x (j.val - n)) / s
    else if i = j then 1 else 0)

/-- The loop (189-198) from pass `n` on, `k` passes: `H` and the signs `D`. -/
noncomputable def rotLoop (dim : Nat) (draw : Nat → Nat → ℝ) :
    Nat → Nat → Matrix (Fin dim) (Fin dim) ℝ → (Fin dim → ℝ) → Option (Matrix (Fin dim) (Fin dim) ℝ × (Fin dim → ℝ))
  | 0, _, H, D => some (H, D)
  | k + 1, n, H, D =>
    (house dim n (shifted (dim - n) (draw n))).bind fun mat =>
      rotLoop dim draw k (n + 1) (H * mat) (fun i => if i.val = n then Real.sign (draw n 0) else D i)

/-- `random_rot(dim)` (178-203) where `draw n` are the normal random numbers of pass `n`; `D[-1]` of an empty array raises. -/
noncomputable def randomRot (dim : Nat) (draw : Nat → Nat → ℝ) : Option (Matrix (Fin dim) (Fin dim) ℝ) :=
  if dim = 0 then none
  else (rotLoop dim draw (dim - 1) 0 1 (fun _ => 1)).map fun (H, D) =>
    let D' : Fin dim → ℝ := fun i => if i.val = dim - 1 then (-1) ^ (1 - dim % 2) * ∏ j, D j else D i
    Matrix.of fun i j => D' i * H i j

/-- `mult_diag(d, mtx, left)` (241-256): row vectors are spread over the last axis. -/
def multDiag {n : Nat} (d : Fin n → ℝ) (mtx : Matrix (Fin n) (Fin n) ℝ) (left : Bool) : Matrix (Fin n) (Fin n) ℝ :=
  if left then (Matrix.of fun i j => d j * mtx.transpose i j).transpose else Matrix.of fun i j => d j * mtx i j

/-- `symrand(d)` (148-175) with a real dtype: `d` are the eigenvalues given or drawn, `draw` the random numbers of
`random_rot`. -/
noncomputable def symrand {n : Nat} (d : Fin n → ℝ) (draw : Nat → Nat → ℝ) : Option (Matrix (Fin n) (Fin n) ℝ) :=
  (randomRot n draw).map fun v =>
    let h := multDiag d v.transpose false * v
    (0.5 : ℝ) • (h.transpose + h)

/-- `symrand(d, dtype)` with a complex dtype (172-174): a second real matrix gives the imaginary part; `d2` are its eigenvalues,
which are `d` if eigenvalues have been given. -/
noncomputable def symrandC {n : Nat} (d d2 : Fin n → ℝ) (draw draw2 : Nat → Nat → ℝ) :
    Option (Matrix (Fin n) (Fin n) ℂ) :=
  (symrand d draw).bind fun h => (symrand d2 draw2).map fun h2 =>
    Matrix.of fun i j => (h i j : ℂ) + Complex.I *
      (((if i.val ≤ j.val then h2 i j else 0) - (if j.val ≤ i.val then h2 i j else 0) : ℝ) : ℂ)

end Mdp.Rand
