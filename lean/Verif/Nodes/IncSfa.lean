import Verif.Nodes.Ccipca
import Verif.Online.Stats

/-!
# Model of `IncSFANode` (mdp/nodes/sfa_nodes_online.py)

The node owns an averaging node (`Verif.Online.Stats`), a whitening node and a minor component node (`Verif.Nodes.Ccipca`) and a
time difference node. Numbers are real. `d` is the input dimension, `p` the output dimension of the whitening node. `rndW` and `rndM`
give the random initial vectors. Dtypes and dimension checks are not modelled (C05); neither is `_inverse`, which needs a
pseudo-inverse. An exception or nan is the result `Except.error`; the object is not modelled after it.
-/

namespace Mdp.IncSfa

open Mdp.Cov (Row Mat)
open Mdp.Pca (dot)
open Mdp.OnlineStats Mdp.Ccipca

variable {d p : Nat}

/-- The attributes (71-92). `avg` is `none` if `remove_mean` is not set (then there is no such attribute, 78-79). -/
structure ISt (d p : Nat) where
  avg : Option (CSt ℝ d)
  wh : PSt d
  td : DSt ℝ p := {}
  mca : MSt p
  newEp : Option Bool := none
  initSf : Option (List (Row ℝ d)) := none
  sf : Option (List (Row ℝ d)) := none
  wv : Option (List (Row ℝ d)) := none
  /-- `none` is None -/
  sfChange : Option ℝ := some 0
  incremental : Bool := true
  iter : Nat := 0

/-- `__init__` (29-92). -/
noncomputable def ISt.new (eps : ℝ) (whOut : Option Nat) (removeMean : Bool) (avgN : Option Nat) (amn : Amn)
    (initPca : Option (List (Row ℝ d))) (initMca : Option (List (Row ℝ p))) (out : Option Nat) (incremental : Bool) : ISt d p where
  avg := if removeMean then some { avgN := avgN } else none
  wh := PSt.new true amn 1 initPca whOut
  mca := MSt.new eps 1 true initMca out
  incremental := incremental

/-- `mult(a, b)` of two matrices given by their columns. -/
noncomputable def mulCols (a : List (Row ℝ d)) (b : List (Row ℝ p)) : List (Row ℝ d) :=
  b.map fun m k => ∑ j : Fin p, (a.getD j 0) k * m j

/-- A row of `whiteningnode._execute`. -/
noncomputable def whiten (p : Nat) (wh : PSt d) (x : Row ℝ d) : Except Err (Row ℝ p) :=
  match wh.exec none x with
  | .ok y => .ok fun j => y.getD j 0
  | .error e => .error e

/-- The vectors of the whitening node, of the minor component node. -/
def whV (s : PSt d) : List (Row ℝ d) := (s.comps.getD []).map Comp.v
def mcaV (s : MSt p) : List (Row ℝ p) := (s.comps.getD []).map MComp.v

/-- `avgnode._execute` (stats_nodes_online.py:66-77). -/
noncomputable def center (a : CSt ℝ d) (x : Row ℝ d) : Row ℝ d := if a.iter ≤ 1 then x else x - a.avg.getD 0

/-- The input of the whitening node (182-184, 229-230). -/
noncomputable def centered (avg : Option (CSt ℝ d)) (x : Row ℝ d) : Row ℝ d := match avg with
  | none => x
  | some a => center a x

/-- The rows of a chunk through a function that may raise. -/
def rowsM {α β : Type} (f : α → Except Err β) : List α → Except Err (List β)
  | [] => .ok []
  | x :: l => match f x with
    | .error e => .error e
    | .ok y => match rowsM f l with
      | .error e => .error e
      | .ok ys => .ok (y :: ys)

/-- `_check_params`, the part executed once (146-157): the averaging and the whitening node are executed, and thereby trained. -/
noncomputable def ISt.setup (rndW : Nat → List (Row ℝ d)) (rndM : Nat → List (Row ℝ p)) (s : ISt d p) (x : List (Row ℝ d)) :
    Except Err (ISt d p) :=
  match s.avg with
  | none => .error .attribute
  | some a =>
    let r := a.check.execute x
    let wh := s.wh.check rndW
    match (if wh.started then .ok wh else wh.train rndW r.1) with
    | .error e => .error e
    | .ok wh => match rowsM (whiten p wh) r.1 with
      | .error e => .error e
      | .ok y =>
        let mca := s.mca.check rndM
        let sf := mulCols (wh.initV.getD []) (mca.initV.getD [])
        .ok { s with avg := some r.2, wh := wh, td := s.td.check y, mca := mca, initSf := some sf, sf := some sf }

/-- `_check_params` (144-162). -/
noncomputable def ISt.check (rndW : Nat → List (Row ℝ d)) (rndM : Nat → List (Row ℝ p)) (s : ISt d p) (x : List (Row ℝ d)) :
    Except Err (ISt d p) :=
  let toggle (s : ISt d p) : ISt d p := match s.newEp with
    | none => { s with newEp := some true }
    | some _ => { s with newEp := some false }
  match s.initSf with
  | some _ => .ok (toggle s)
  | none => match s.setup rndW rndM x with
    | .error e => .error e
    | .ok s => .ok (toggle s)

/-- The Frobenius norm of the difference of two matrices. -/
noncomputable def distM (a b : List (Row ℝ d)) : ℝ :=
  Real.sqrt (List.zipWith (fun u v => dot (fun k => u k - v k) (fun k => u k - v k)) a b).sum

/-- `tdiffnode._execute` of a node that has been trained (stats_nodes_online.py:179-194). -/
def diffs (t : DSt ℝ p) (y : Row ℝ p) : List (Row ℝ p) :=
  let z := (t.bufs.getD ([], [])).1 ++ [y]
  List.zipWith (fun a b => a - b) (z.drop 1) (z.take (z.length - 1))

/-- `_step_train` (181-201) with one row; the last component is `sf_change`. -/
noncomputable def ISt.step (s : ISt d p) (x : Row ℝ d) : Except Err (ISt d p × Option ℝ) :=
  let avg := s.avg.map fun a => a.row x
  let x := centered avg x
  match s.wh.row x with
  | .error e => .error e
  | .ok wh => match whiten p wh x with
    | .error e => .error e
    | .ok y =>
      let td := s.td.step [y]
      if s.newEp = some true then .ok ({ s with avg := avg, wh := wh, td := td }, none)
      else match s.mca.step (diffs td y) with
        | .error e => .error e
        | .ok mca =>
          let sf := mulCols (whV wh) (mcaV mca)
          .ok ({ s with avg := avg, wh := wh, td := td, mca := mca, sf := some sf }, some (distM sf (s.sf.getD [])))

/-- `_train` in incremental training (216-222), and the next iteration. -/
noncomputable def ISt.row (ne : Option Bool) (s : ISt d p) (x : Row ℝ d) : Except Err (ISt d p) :=
  let s := match ne with | none => s | some b => { s with newEp := some b }
  match s.step x with
  | .error e => .error e
  | .ok (s, c) => .ok { s with wv := some (whV s.wh), sfChange := c, iter := s.iter + 1 }

/-- The loop over samples. -/
noncomputable def ISt.rows (ne : Option Bool) (s : ISt d p) : List (Row ℝ d) → Except Err (ISt d p)
  | [] => .ok s
  | x :: l => match s.row ne x with
    | .error e => .error e
    | .ok s => s.rows ne l

/-- The loop of `_train` in batch training (213-215). -/
noncomputable def ISt.steps (s : ISt d p) (c : Option ℝ) : List (Row ℝ d) → Except Err (ISt d p × Option ℝ)
  | [] => .ok (s, c)
  | x :: l => match s.step x with
    | .error e => .error e
    | .ok (s, c) => { s with newEp := some false }.steps c l

/-- `train(x, new_episode)` (signal_node_online.py:239-286, 174-179, 203-222). -/
noncomputable def ISt.train (rndW : Nat → List (Row ℝ d)) (rndM : Nat → List (Row ℝ p)) (ne : Option Bool) (s : ISt d p)
    (x : List (Row ℝ d)) : Except Err (ISt d p) :=
  if !s.incremental && decide (x.length < 2) then .error .training
  else match s.check rndW rndM x with
    | .error e => .error e
    | .ok s =>
      if s.incremental then s.rows ne x
      else match { s with newEp := some true }.steps (some 0) x with
        | .error e => .error e
        | .ok (s, c) => .ok { s with wv := some (whV s.wh), sfChange := c, iter := s.iter + x.length }

/-- `_execute` (224-231) of a row. -/
noncomputable def ISt.exec (s : ISt d p) (x : Row ℝ d) : Except Err (List ℝ) :=
  match s.sf with
  | none => .error .typeError
  | some sf => .ok (sf.map fun v => dot (centered s.avg x) v)

end Mdp.IncSfa
