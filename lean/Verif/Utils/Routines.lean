import Verif.Utils.Random
import Mathlib.Analysis.SpecialFunctions.Trigonometric.Basic
import Mathlib.Logic.Function.Basic

/-!
# Model of functions of mdp/utils/routines.py

`rotate`, `permute`, `cov2`, `cov_maxima`, `sqrtm`, `orthogonal_permutations`, `izip_stretched`, `bool_to_sign`,
`sign_to_bool` and `gabor`. Numbers are real numbers; a division by zero or the square root of a negative number gives nan:
nothing to use (`none`). Arrays have fixed shapes; negative indices are not modelled.
-/

namespace Mdp.Routines

open Matrix

/-! ## In-place functions -/

/-- `mat[:, i] = c` -/
def setCol {n m : Nat} (a : Matrix (Fin n) (Fin m) ℝ) (i : Fin m) (c : Fin n → ℝ) : Matrix (Fin n) (Fin m) ℝ :=
  Matrix.of fun k l => if l = i then c k else a k l

/-- `mat[i, :] = r` -/
def setRow {n m : Nat} (a : Matrix (Fin n) (Fin m) ℝ) (i : Fin n) (r : Fin m → ℝ) : Matrix (Fin n) (Fin m) ℝ :=
  Matrix.of fun k l => if k = i then r l else a k l

/-- `rotate` (98-118), the array afterwards: `col_i` is a copy, `col_j` a view, which shows what has been assigned before. -/
noncomputable def rotate {n m : Nat} (mat : Matrix (Fin n) (Fin m) ℝ) (angle : ℝ) (i j : Fin m) (degrees : Bool) :
    Matrix (Fin n) (Fin m) ℝ :=
  let angle := if degrees then angle / 180 * Real.pi else angle
  let colI := fun k => mat k i
  let mat1 := setCol mat i fun k => Real.cos angle * colI k - Real.sin angle * mat k j
  setCol mat1 j fun k => Real.sin angle * colI k + Real.cos angle * mat1 k j

/-- `permute` (121-140), the array afterwards: in `x[i, :], x[j, :] = x[j, :], x[i, :] + 0` the first right-hand side is a view,
the second one a copy. -/
def permute {n : Nat} {m : Nat} (x : Matrix (Fin n) (Fin m) ℝ) (rows : Option (Fin n × Fin n))
    (cols : Option (Fin m × Fin m)) : Matrix (Fin n) (Fin m) ℝ :=
  let x := match rows with
    | none => x
    | some (i, j) =>
      let copy := fun l => x i l
      let x1 := setRow x i fun l => x j l
      setRow x1 j copy
  match cols with
    | none => x
    | some (i, j) =>
      let copy := fun k => x k i
      let x1 := setCol x i fun k => x k j
      setCol x1 j copy

/-! ## Functions of matrices -/

/-- `cov2` (213-221) of two arrays with `n` rows. -/
noncomputable def cov2 {n p q : Nat} (x : Fin n → Fin p → ℝ) (y : Fin n → Fin q → ℝ) :
    Option (Matrix (Fin p) (Fin q) ℝ) :=
  if n = 0 ∨ n = 1 then none
  else
    let mnx := fun i => (∑ t, x t i) / n
    let mny := fun j => (∑ t, y t j) / n
    some (Matrix.of fun i j => (∑ t, x t i * y t j) / ((n : ℝ) - 1) - mnx i * mny j)

/-- All pairs of indices in the order of a flattened array. -/
def cells (n : Nat) : List (Fin n × Fin n) :=
  (List.finRange n).flatMap fun i => (List.finRange n).map fun j => (i, j)

/-- `argmax` of a flattened array as a pair of indices: the first index of the largest element. -/
noncomputable def argmax {n : Nat} (a : Matrix (Fin (n + 1)) (Fin (n + 1)) ℝ) : Fin (n + 1) × Fin (n + 1) :=
  (cells (n + 1)).foldl (fun b c => if a b.1 b.2 < a c.1 c.2 then c else b) (0, 0)

/-- `cov_maxima` (224-238); the row and the column of the maximum are left out in the recursion. -/
noncomputable def covMaxima : (n : Nat) → Matrix (Fin n) (Fin n) ℝ → List ℝ
  | 0, _ => []
  | n + 1, cov =>
    let cov : Matrix (Fin (n + 1)) (Fin (n + 1)) ℝ := Matrix.of fun i j => |cov i j|
    let g := argmax cov
    cov g.1 g.2 :: covMaxima n (cov.submatrix g.1.succAbove g.2.succAbove)

/-- `sqrtm` (314-317); `eig` are the eigenvalues and eigenvectors `symeig` returns. -/
noncomputable def sqrtm {n : Nat} (eig : (Fin n → ℝ) × Matrix (Fin n) (Fin n) ℝ) : Option (Matrix (Fin n) (Fin n) ℝ) :=
  if ∀ i, 0 ≤ eig.1 i then some (eig.2 * Rand.multDiag (fun i => Real.sqrt (eig.1 i)) eig.2.transpose true) else none

/-! ## Iterators -/

/-- `itertools.product` of lists. -/
def product {α : Type} : List (List α) → List (List α)
  | [] => [[]]
  | l :: ls => l.flatMap fun a => (product ls).map fun t => a :: t

/-- `orthogonal_permutations` (359-386): a dictionary is the list of its items. -/
def orthogonalPermutations {κ α : Type} (d : List (κ × List α)) : List (List (κ × α)) :=
  product (d.map fun p => p.2.map fun a => (p.1, a))

/-- An argument of `izip_stretched`: something that can be iterated, with the elements left, or not (`_iter_or_repeat`,
389-393). -/
inductive Arg (α : Type) where
  | iter (l : List α)
  | const (a : α)

/-- `next(it)` for all iterators in turn (421): the tuple and the iterators afterwards, or `StopIteration`. -/
def nexts {α : Type} : List (Arg α) → Option (List α × List (Arg α))
  | [] => some ([], [])
  | .iter [] :: _ => none
  | .iter (a :: l) :: s => (nexts s).map fun (t, s') => (a :: t, .iter l :: s')
  | .const a :: s => (nexts s).map fun (t, s') => (a :: t, .const a :: s')

/-- `izip_stretched` (396-424): the first `k` values of the generator. -/
def izipStretched {α : Type} : Nat → List (Arg α) → List (List α)
  | 0, _ => []
  | k + 1, s => if s.isEmpty then [] else
    match nexts s with
    | none => []
    | some (t, s') => t :: izipStretched k s'

/-! ## Signs -/

/-- `bool_to_sign` (458-460). -/
noncomputable def boolToSign (b : Bool) : ℝ := Real.sign ((if b then 1 else 0) - 0.5)

/-- `sign_to_bool` (463-471). -/
noncomputable def signToBool (x : ℝ) (zero : Bool) : Bool := if zero then decide (x ≥ 0) else decide (x > 0)

/-! ## Gabor wavelets -/

/-- `gabor` (474-514): the element in row `p` and column `q`; `w` and `h` are the first and the second element of `size`. -/
noncomputable def gabor (w h : Nat) (alpha phi freq : ℝ) (sgm : ℝ × ℝ) (x0 : Option (ℝ × ℝ)) (res ampl : ℝ) (p q : Nat) : ℝ :=
  let c := x0.getD (((w / 2 : Nat) : ℝ), ((h / 2 : Nat) : ℝ))
  let y0 := c.1
  let x0 := c.2
  let freq := freq * res
  let sinalpha := Real.sin alpha
  let cosalpha := Real.cos alpha
  let v0 := freq * cosalpha
  let u0 := freq * sinalpha
  let a := (p : ℝ) - x0
  let b := (q : ℝ) - y0
  let xr := a * cosalpha - b * sinalpha
  let yr := a * sinalpha + b * cosalpha
  ampl * Real.exp (-0.5 * (xr * xr / (sgm.1 * sgm.1) + yr * yr / (sgm.2 * sgm.2))) *
    Real.cos (-2 * Real.pi * (u0 * a + v0 * b) - phi)

end Mdp.Routines
