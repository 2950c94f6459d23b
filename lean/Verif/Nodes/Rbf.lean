import Verif.Nodes.NeuralGas
import Mathlib.Analysis.Complex.Exponential
import Mathlib.LinearAlgebra.Matrix.NonsingularInverse

/-!
# Model of the radial basis and general expansions (mdp/nodes/expansion_nodes.py 164-517)

`RBFExpansionNode`, `GrowingNeuralGasExpansionNode` and `GeneralExpansionNode`. Numbers are real numbers; nan is `none`.
-/

namespace Mdp.Rbf

open Mdp.Cov (Row)
open Mdp.NeuralGas (S)

inductive Err where
  /-- `NodeException` -/
  | node
  /-- `LinAlgError` of `inv` -/
  | singular
  /-- `IndexError` for a missing second axis -/
  | index
  /-- `ValueError` of an assignment with shapes that do not fit -/
  | value
deriving DecidableEq

/-! ## RBFExpansionNode -/

/-- The argument `sizes` (179-198): a number, a list of numbers, a matrix, or a list of matrices of one shape, given by the numbers of rows and
columns and the elements. -/
inductive Sizes where
  | scalar (s : Option ℝ)
  | list (l : List (Option ℝ))
  | matrix (rows cols : Nat) (m : Nat → Nat → ℝ)
  | matrices (rows cols : Nat) (l : List (Nat → Nat → ℝ))

/-- `_sizes` and `_isotropic`. -/
inductive Kind (d : Nat) where
  | iso (s : List (Option ℝ))
  | aniso (m : List (Matrix (Fin d) (Fin d) ℝ))

structure Node (d : Nat) where
  centers : List (Row ℝ d)
  kind : Kind d

/-- `mdp.utils.inv` (utils/__init__.py 72) and the assignment (245): the inverse, converted to the dtype of the array; it raises for a singular
matrix. -/
noncomputable def invert {d : Nat} (cast : ℝ → ℝ) (m : Matrix (Fin d) (Fin d) ℝ) : Except Err (Matrix (Fin d) (Fin d) ℝ) :=
  if m.det = 0 then .error .singular else .ok (Matrix.of fun i j => cast (m⁻¹ i j))

/-- The check of the shape and the loop (235-245). -/
noncomputable def aniso {d : Nat} (cast : ℝ → ℝ) (centers : List (Row ℝ d)) (rows cols : Nat) (l : List (Nat → Nat → ℝ)) : Except Err (Node d) :=
  if rows ≠ d ∨ cols ≠ d then .error .node
  else
    match l.mapM fun m => invert cast (Matrix.of fun i j : Fin d => cast (m i j)) with
    | .error e => .error e
    | .ok ms => .ok ⟨centers, .aniso ms⟩

/-- `_init_RBF` (210-248). `castC` and `castS` are the conversions to the dtypes of the arrays `centers` and `sizes`: the dtype of the node, or
without one that of the arguments. -/
noncomputable def init {d : Nat} (castC castS : ℝ → ℝ) (centers : List (Row ℝ d)) (sizes : Sizes) : Except Err (Node d) :=
  if centers.length = 0 then .error .index
  else
    let c := centers.map fun r => (fun i => castC (r i) : Row ℝ d)
    match sizes with
    | .scalar s => .ok ⟨c, .iso (List.replicate c.length (s.map castS))⟩
    | .list l => if l.length ≠ c.length then .error .node else .ok ⟨c, .iso (l.map fun s => s.map castS)⟩
    | .matrix rows cols m => aniso castS c rows cols (List.replicate c.length m)
    | .matrices rows cols l => if l.length ≠ c.length then .error .node else aniso castS c rows cols l

/-- One output (254-259) of an isotropic node: `0/0` is nan, and `exp(-0.5*inf)` zero. -/
noncomputable def isoValue {d : Nat} (x c : Row ℝ d) (s : Option ℝ) : Option ℝ :=
  match s with
  | none => none
  | some s =>
    let q := ∑ i, (x i - c i) ^ 2
    if s = 0 then (if q = 0 then none else some 0) else some (Real.exp (-0.5 * (q / s)))

/-- One output of an anisotropic node. -/
noncomputable def anisoValue {d : Nat} (x c : Row ℝ d) (m : Matrix (Fin d) (Fin d) ℝ) : Option ℝ :=
  some (Real.exp (-0.5 * ∑ j, (x j - c j) * ∑ i, (x i - c i) * m i j))

/-- `_execute` (250-260) for a row. -/
noncomputable def Node.execute {d : Nat} (nd : Node d) (x : Row ℝ d) : List (Option ℝ) :=
  match nd.kind with
  | .iso s => List.zipWith (isoValue x) nd.centers s
  | .aniso m => List.zipWith (anisoValue x) nd.centers m

/-! ## GrowingNeuralGasExpansionNode -/

/-- The mean of a list; of no numbers it is nan. -/
noncomputable def meanOf (l : List ℝ) : Option ℝ := if l.length = 0 then none else some (l.sum / l.length)

/-- `sizes` (367-374). -/
noncomputable def gasSizes {d : Nat} (s : S ℝ d) : List (Option ℝ) :=
  s.g.nodes.map fun n => meanOf ((Mdp.Graph.neighbors s.g n).map fun m => ∑ i, (s.pos n i - s.pos m i) ^ 2)

/-- `_stop_training` (356-378): the dimension of the output and the expansion; the positions have a float type. -/
noncomputable def gasStop {d : Nat} (s : S ℝ d) : Nat × Except Err (Node d) :=
  (s.g.nodes.length, init id id (s.g.nodes.map s.pos) (.list (gasSizes s)))

/-! ## GeneralExpansionNode -/

/-- A two-dimensional array. -/
structure Arr where
  rows : Nat
  cols : Nat
  get : Nat → Nat → ℝ

/-- `numx.zeros` -/
def Arr.zeros (r c : Nat) : Arr := ⟨r, c, fun _ _ => 0⟩

/-- `output_sizes` (450-466). -/
def outputSizes (funcs : List (Arr → Arr)) (n : Nat) : List Nat := funcs.map fun f => (f (Arr.zeros 1 n)).cols

/-- `expanded_dim` (438-448). -/
def expandedDim (funcs : List (Arr → Arr)) (n : Nat) : Nat := (outputSizes funcs n).sum

/-- `out[:, k:k+w] = v`: an axis of length one is repeated. -/
def assign (out : Arr) (k w : Nat) (v : Arr) : Option Arr :=
  if (v.rows = out.rows ∨ v.rows = 1) ∧ (v.cols = w ∨ v.cols = 1) then
    some { out with get := fun t q =>
      if k ≤ q ∧ q < k + w then v.get (if v.rows = 1 then 0 else t) (if v.cols = 1 then 0 else q - k) else out.get t q }
  else none

/-- The loop of `_execute` (513-516) from the position `k` on. -/
def fill (x : Arr) : List (Arr → Arr) → List Nat → Nat → Arr → Option Arr
  | f :: fs, w :: ws, k, out => (assign out k w (f x)).bind (fill x fs ws (k + w))
  | _, _, _, out => some out

/-- `_execute` (504-517); `none` for a raised exception. The number of columns of `x` is the input dimension. -/
def general (funcs : List (Arr → Arr)) (x : Arr) : Option Arr :=
  fill x funcs (outputSizes funcs x.cols) 0 (Arr.zeros x.rows (expandedDim funcs x.cols))

end Mdp.Rbf
