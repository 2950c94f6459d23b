import Verif.Num.Cov
import Verif.Nodes.PcaAlg
import Mathlib.Analysis.Real.Sqrt

/-!
# Model of `CCIPCANode`, `CCIPCAWhiteningNode` (mdp/nodes/pca_nodes_online.py) and `MCANode` (mdp/nodes/mca_nodes_online.py)

Numbers are real numbers; an array of data is the list of its rows, a matrix of components the list of its columns. Division by
zero, which fills arrays with nan, ends the computation with `nan`. Dimension and dtype checks and the loops over samples are
those of `OnlineNode` (C05, C63). `amn_params` with `m = 0` is not modelled. The random initial vectors are a parameter of
`check`.
-/

namespace Mdp.Ccipca

open Mdp.Cov Mdp.Pca

variable {d : Nat}

inductive Err where
  /-- no exception, but arrays of nan -/
  | nan
  /-- TypeError -/
  | typeError
  /-- ValueError -/
  | value
  /-- AssertionError -/
  | assertion
  /-- NodeException -/
  | node
  /-- TrainingFinishedException -/
  | finished
  /-- AttributeError -/
  | attribute
  /-- TrainingException -/
  | training
deriving DecidableEq

/-- Euclidean norm. -/
noncomputable def nrm (v : Row ℝ d) : ℝ := Real.sqrt (dot v v)

/-- `amn_params` (pca_nodes_online.py:27). -/
structure Amn where
  n1 : ℝ
  n2 : ℝ
  m : ℝ
  c : ℝ

/-- `_amnesic` (125-141). -/
noncomputable def amnesic (p : Amn) (n : Nat) : ℝ × ℝ :=
  let i : ℝ := (n : ℝ) + 1
  let l := if i < p.n1 then 0 else if i < p.n2 then p.c * (i - p.n1) / (p.n2 - p.n1) else p.c + (i - p.n2) / p.m
  ((i - 1 - l) / i, (1 + l) / i)

/-- Column `j` of `_v`, column `j` of `v`, and `d[j]`. -/
structure Comp (d : Nat) where
  u : Row ℝ d
  v : Row ℝ d
  e : ℝ

/-- The loop of `_train` (143-176) without the reduced dimensionality; `r` is the residual. -/
noncomputable def components (w1 w2 : ℝ) : Row ℝ d → List (Comp d) → Option (List (Comp d))
  | _, [] => some []
  | r, c :: l =>
    if c.e = 0 then none
    else
      let u : Row ℝ d := fun k => w1 * c.u k + w2 * dot r c.u / c.e * r k
      let e := nrm u
      if e = 0 then none
      else
        let v : Row ℝ d := fun k => u k / e
        (components w1 w2 (fun k => r k - dot r v * v k) l).map (⟨u, v, e⟩ :: ·)

/-- The reduced dimensionality in the loop of `_train` (150-168, 176): the first index at which the ratio is exceeded. -/
noncomputable def firstOver (tot rel : ℝ) : Nat → ℝ → List (Comp d) → Option Nat
  | _, _, [] => none
  | j, ev, c :: l => if rel < (ev + c.e) / tot then some j else firstOver tot rel (j + 1) (ev + c.e) l

/-- The attributes (65-74), the class, and those of `OnlineNode` that are used. -/
structure PSt (d : Nat) where
  /-- `CCIPCAWhiteningNode` -/
  white : Bool := false
  amn : Amn := ⟨20, 200, 2000, 3⟩
  varRel : ℝ := 1
  /-- `_init_v`, as columns -/
  initV : Option (List (Row ℝ d)) := none
  /-- `_v`, `v`, `d` -/
  comps : Option (List (Comp d)) := none
  varTot : ℝ := 1
  outDim : Option Nat := none
  reduced : Option Nat := none
  iter : Nat := 0
  started : Bool := false
  incremental : Bool := true

/-- `__init__` (27-74): the initial vectors are stored, but not used. -/
def PSt.new (white : Bool) (amn : Amn) (varRel : ℝ) (initV : Option (List (Row ℝ d))) (out : Option Nat) : PSt d :=
  { white := white, amn := amn, varRel := varRel, initV := initV, outDim := out, reduced := out }

/-- The setter of `init_eigen_vectors` (85-111). -/
noncomputable def PSt.setInit (s : PSt d) (vs : List (Row ℝ d)) : Except Err Unit × PSt d :=
  let s := { s with initV := some vs }
  let fill (s : PSt d) : PSt d := match s.comps with
    | some _ => s
    | none => { s with comps := some (vs.map fun u => ⟨u, fun k => u k / nrm u, nrm u⟩) }
  match s.outDim with
  | none => (.ok (), fill { s with outDim := some vs.length })
  | some n => if n = vs.length then (.ok (), fill s) else (.error .assertion, s)

/-- `_check_params` (113-123); `rnd` gives the random columns. -/
noncomputable def PSt.check (rnd : Nat → List (Row ℝ d)) (s : PSt d) : PSt d :=
  match s.initV with
  | some _ => s
  | none => (s.setInit (rnd (s.outDim.getD d))).2

/-- The object after the loop (175-176, 284-291), and the next iteration. -/
noncomputable def PSt.after (s : PSt d) (n : Nat) (l : List (Comp d)) : PSt d := { s with
  comps := some (if s.white then l.map fun c => { c with v := fun k => c.v k / Real.sqrt c.e } else l)
  varTot := (l.map Comp.e).sum
  reduced := some ((firstOver s.varTot s.varRel 0 0 l).getD n)
  iter := s.iter + 1 }

/-- `_train` with one row (143-176). -/
noncomputable def PSt.row (s : PSt d) (x : Row ℝ d) : Except Err (PSt d) :=
  match s.comps, s.outDim with
  | some l, some n => match components (amnesic s.amn (s.iter + 1)).1 (amnesic s.amn (s.iter + 1)).2 x l with
    | none => .error .nan
    | some l' => .ok (s.after n l')
  | _, _ => .error .typeError

/-- The loop over samples. -/
noncomputable def PSt.rows (s : PSt d) : List (Row ℝ d) → Except Err (PSt d)
  | [] => .ok s
  | x :: l => match s.row x with
    | .error e => .error e
    | .ok s => s.rows l

/-- `_train` with a whole chunk: the products of arrays with a number of rows other than one do not fit (for nodes with one
output or more). -/
noncomputable def PSt.batch (s : PSt d) (x : List (Row ℝ d)) : Except Err (PSt d) :=
  match x with
  | [r] => s.row r
  | _ => match s.comps with
    | some [] => .ok s
    | some _ => .error .value
    | none => .error .typeError

/-- `train` with a chunk. -/
noncomputable def PSt.train (rnd : Nat → List (Row ℝ d)) (s : PSt d) (x : List (Row ℝ d)) : Except Err (PSt d) :=
  let s := { s.check rnd with started := true }
  if s.incremental then s.rows x else s.batch x

/-- `_execute` (215-230) for a row. -/
noncomputable def PSt.exec (s : PSt d) (n : Option Nat) (x : Row ℝ d) : Except Err (List ℝ) :=
  match s.comps with
  | none => .error .typeError
  | some l => .ok ((l.take (n.getD l.length)).map fun c => dot x c.v)

/-- `get_recmatrix` (205-213, 301-316): row `j`. -/
noncomputable def Comp.back (white : Bool) (c : Comp d) : Row ℝ d := if white then fun k => c.v k * c.e else c.v

/-- `inverse` (232-255) for a row; `y` must have `output_dim` entries (`_check_output`), `mult` as many as there are rows. -/
noncomputable def PSt.inverse (s : PSt d) (n : Option Nat) (y : List ℝ) : Except Err (Row ℝ d) :=
  match s.comps, s.outDim with
  | some l, some o =>
    if y.length ≠ o then .error .node
    else
      let n := n.getD y.length
      if o < n then .error .node
      else if y.length ≠ n then .error .value
      else .ok fun k => (List.zipWith (fun a c => a * c.back s.white k) y (l.take n)).sum
  | _, _ => .error .typeError

/-- `get_eigenvectors` of the whitening node (293-299), column by column. -/
noncomputable def PSt.eigenvectors (s : PSt d) : Except Err (List (Row ℝ d)) :=
  match s.comps with
  | none => .error .typeError
  | some l => .ok (l.map fun c k => Real.sqrt c.e * c.v k)

/-! ## MCANode -/

/-- Column `j` of `v` and `d[j]`. -/
structure MComp (d : Nat) where
  v : Row ℝ d
  e : ℝ

/-- `mult(c, v)`. -/
noncomputable def mulV (c : Mat ℝ d d) (v : Row ℝ d) : Row ℝ d := fun k => ∑ l, c k l * v l

/-- The loop of `_train` (mca_nodes_online.py:115-134); with a vector of length zero nan arises where it is divided by. -/
noncomputable def minors (eps gamma : ℝ) (normalize : Bool) : Nat → Mat ℝ d d → List (MComp d) → Option (List (MComp d))
  | _, _, [] => some []
  | j, c, m :: r =>
    let n := eps / (1 + j * 1.2)
    let a := mulV c m.v
    let v : Row ℝ d := fun k => (1.5 - (if normalize then n else n * m.e ^ 2)) * m.v k - n * a k
    let l := dot v v
    if l = 0 ∧ (normalize = true ∨ r ≠ []) then none
    else (minors eps gamma normalize (j + 1) (fun k i => c k i + gamma * (v k * v i) / l) r).map
      (⟨if normalize then fun k => v k / Real.sqrt l else v, Real.sqrt l⟩ :: ·)

/-- The attributes (58-66) and those of `OnlineNode` that are used. -/
structure MSt (d : Nat) where
  eps : ℝ := 0.1
  gamma : ℝ := 1
  normalize : Bool := true
  initV : Option (List (Row ℝ d)) := none
  comps : Option (List (MComp d)) := none
  outDim : Option Nat := none
  iter : Nat := 0
  started : Bool := false

/-- `__init__` (28-66). -/
def MSt.new (eps gamma : ℝ) (normalize : Bool) (initV : Option (List (Row ℝ d))) (out : Option Nat) : MSt d :=
  { eps := eps, gamma := gamma, normalize := normalize, initV := initV, outDim := out }

/-- The setter of `init_eigen_vectors` (77-105): the vectors are not normalised. -/
noncomputable def MSt.setInit (s : MSt d) (vs : List (Row ℝ d)) : Except Err Unit × MSt d :=
  let s := { s with initV := some vs }
  let fill (s : MSt d) : MSt d := match s.comps with
    | some _ => s
    | none => { s with comps := some (vs.map fun u => ⟨u, nrm u⟩) }
  match s.outDim with
  | none => (.ok (), fill { s with outDim := some vs.length })
  | some n => if n = vs.length then (.ok (), fill s) else (.error .assertion, s)

/-- `_check_params` (107-113). -/
noncomputable def MSt.check (rnd : Nat → List (Row ℝ d)) (s : MSt d) : MSt d :=
  match s.initV with
  | some _ => s
  | none => (s.setInit (rnd (s.outDim.getD d))).2

/-- `mult(x.T, x)`. -/
noncomputable def gram (x : List (Row ℝ d)) : Mat ℝ d d := fun k l => (x.map fun r => r k * r l).sum

/-- `_train` with an array (115-134), and the iterations it counts for. -/
noncomputable def MSt.step (s : MSt d) (x : List (Row ℝ d)) : Except Err (MSt d) :=
  match s.comps, s.outDim with
  | some l, some _ => match minors s.eps s.gamma s.normalize 0 (gram x) l with
    | none => .error .nan
    | some l' => .ok { s with comps := some l', iter := s.iter + x.length }
  | _, _ => .error .typeError

/-- `_execute` (164-179) for a row. -/
noncomputable def MSt.exec (s : MSt d) (n : Option Nat) (x : Row ℝ d) : Except Err (List ℝ) :=
  match s.comps with
  | none => .error .typeError
  | some l => .ok ((l.take (n.getD l.length)).map fun c => dot x c.v)

end Mdp.Ccipca
