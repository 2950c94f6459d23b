import Verif.Nodes.Sfa
import Verif.Nodes.Expansion

/-!
# Model of `SFA2Node` (mdp/nodes/sfa_nodes.py 615-752) and of `QuadraticForm` (mdp/utils/quad_forms.py 15-51)

Numbers are elements of an ordered field.
-/

namespace Mdp.Sfa

open Mdp.Cov Mdp.Join

variable {F : Type} [Field F] [LinearOrder F] {n : Nat}

/-- `QuadraticExpansionNode.output_dim` (expansion_nodes.py 105-114, 147-158). -/
def quadDim (n : Nat) : Nat := (Expansion.expandedDim 2 n).toNat

/-- `self._expnode(x)` for a row (665): the node returns `quadDim n` numbers. -/
def expand2 (x : Row F n) : Row F (quadDim n) := fun k => ((Expansion.polyExecute 2 x).getD []).getD k.1 0

/-- `_train` (671-673); `_check_train_args` (228-242) looks at the length only. -/
def train2 (s : St F (quadDim n)) (x : List (Row F n)) (incl : Option Bool) : Except Err Unit × St F (quadDim n) :=
  s.train (x.map expand2) incl

/-- `_set_range` (675-683): the output dimension is not set. -/
def setRange2 (d : Nat) (out : Option Nat) : Option (Nat × Nat) :=
  match out with
  | some k => if k ≤ d then some (1, k) else none
  | none => none

variable {d : Nat}

/-- `SFANode._stop_training` after the matrices are known (277-318), with `_set_range` of `SFA2Node`; then 688-690. -/
def solve2 (solver : Solver F d) (s : St F d) (f : Fixed F d) : Except Err Unit × St F d :=
  match solver f.dcov f.cov (setRange2 d s.outDim) with
  | none => (.error .symeig, s)
  | some l =>
    if l.any (fun p => p.1 < 0) then (.error .negative, s)
    else (.ok (), { s with
      fixed := none
      outDim := some (s.outDim.getD d)
      res := some ⟨l.map (·.1), l.map (·.2), l.map (fun p => dotL f.avg p.2), f.avg⟩ })

/-- `_stop_training` (685-690), `debug=False`. -/
def stop2 (solver : Solver F d) (s : St F d) : Except Err Unit × St F d :=
  match s.acc with
  | none => match s.fixed with
    | none => (.error .attribute, s)
    | some f => solve2 solver s f
  | some a => match a.cov.fix true with
    | .error _ => (.error .noneType, s)
    | .ok ((cov, avg, _), _) => match a.dcov.fix false with
      | .error _ => (.error .noneType, s)
      | .ok ((dcov, _, _), _) =>
        solve2 solver { s with acc := none, fixed := some ⟨cov, avg, dcov⟩ } ⟨cov, avg, dcov⟩

/-- `_execute` (698-710) for a row. -/
def execute2 (s : St F (quadDim n)) (m : Option Nat) (x : Row F n) : Except Err (List F) := s.execute m (expand2 x)

/-- `QuadraticForm`: `1/2 x'Hx + f'x + c`. -/
structure QForm (F : Type) (n : Nat) where
  H : Mat F n n
  f : List F
  c : F

/-- `h[i, j] = a`. -/
def setAt (h : Mat F n n) (i j : Fin n) (a : F) : Mat F n n := fun i' j' => if i' = i ∧ j' = j then a else h i' j'

/-- The body of the loops (734-743). `none`: IndexError. -/
def quadStep (sf : List F) (p : Mat F n n × Nat) (ij : Fin n × Fin n) : Option (Mat F n n × Nat) :=
  if ij.1 < ij.2 then do
    let a ← sf[p.2]?
    some (setAt p.1 ij.1 ij.2 a, p.2 + 1)
  else if ij.2 = ij.1 then do
    let a ← sf[p.2]?
    some (setAt p.1 ij.1 ij.2 (2 * a), p.2 + 1)
  else some (setAt p.1 ij.1 ij.2 (p.1 ij.2 ij.1), p.2)

/-- The pairs of indices in the order of the two loops (734-735). -/
def loopPairs (n : Nat) : List (Fin n × Fin n) := (List.finRange n).flatMap fun i => (List.finRange n).map fun j => (i, j)

/-- `QuadraticForm.__init__` (quad_forms.py 26-43). Simplification: the test for symmetry is exact. -/
def QForm.new (H : Mat F n n) (f : List F) (c : F) : Option (QForm F n) :=
  if ∀ i j, H i j = H j i then some ⟨H, f, c⟩ else none

/-- `get_quadratic_form` (712-745) of a trained node. `none`: an exception. -/
def getQuadraticForm (s : St F (quadDim n)) (nr : Nat) : Option (QForm F n) := do
  let r ← s.res
  let sf ← r.sf[nr]?
  let c := - dotL r.avg sf
  let sfl := List.ofFn sf
  let f := sfl.take n
  let (h, _) ← (loopPairs n).foldlM (quadStep sfl) (fun _ _ => 0, n)
  QForm.new h f c

/-- `apply` (quad_forms.py 45-50) for a row. `none`: the lengths do not agree. -/
def QForm.apply (q : QForm F n) (x : Row F n) : Option F :=
  if q.f.length = n then
    some (1 / 2 * ((List.finRange n).map fun i => ((List.finRange n).map fun j => x j * q.H i j).sum * x i).sum +
      (List.zipWith (· * ·) (List.ofFn x) q.f).sum + q.c)
  else none

end Mdp.Sfa
