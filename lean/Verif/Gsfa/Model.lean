import Verif.Py.State
import Verif.Nodes.Sfa
import Mathlib.Algebra.BigOperators.Group.Finset.Basic
import Mathlib.Order.Interval.Finset.Nat

/-!
# Model of `CovDCovMatrix` and `GSFANode` (mdp/nodes/gsfa_nodes.py)

Numbers are elements of an ordered field; rounding and dtypes are not modelled. A data matrix is a number of rows with a
function that gives row `i`; only rows below the number count. Strings of modes such as 'window5' are given parsed.
Printing (`verbose`) is not modelled. The modes 'smart_unlabeled2', 'smart_unlabeled3' are in `Verif.Gsfa.Smart`; `update_graph_old` and
`update_compact_classes` are modelled in `Verif.Gsfa.Compact`.
-/

namespace Mdp.Gsfa

open Mdp.Cov Py
open scoped BigOperators

variable {F : Type} [Field F] {d : Nat}

/-- A data matrix with `n` rows. -/
structure Rows (F : Type) (d : Nat) where
  n : Nat
  row : Nat → Row F d

/-- `x[a:b]` for `a` and `b` that are not negative. -/
def Rows.slice (x : Rows F d) (a b : Nat) : Rows F d := ⟨min b x.n - a, fun i => x.row (a + i)⟩

/-- `x.sum(axis=0)`. -/
def Rows.colSum (x : Rows F d) : Row F d := fun k => ∑ i ∈ Finset.range x.n, x.row i k

/-- `mult(x.T, y)` for matrices with the same number of rows. -/
def Rows.multT (x y : Rows F d) : Mat F d d := fun k l => ∑ i ∈ Finset.range x.n, x.row i k * y.row i l

/-- `x - y` for matrices with the same number of rows. -/
def Rows.sub (x y : Rows F d) : Rows F d := ⟨x.n, fun i k => x.row i k - y.row i k⟩

/-- `x - r` for a row `r`. -/
def Rows.subRow (x : Rows F d) (r : Row F d) : Rows F d := ⟨x.n, fun i k => x.row i k - r k⟩

/-- `x * w` for a column `w`. -/
def Rows.scale (x : Rows F d) (w : Nat → F) : Rows F d := ⟨x.n, fun i k => x.row i k * w i⟩

/-- `x[a:a + len(y)] = y`. -/
def Rows.assign (x : Rows F d) (a : Nat) (y : Rows F d) : Rows F d :=
  ⟨x.n, fun i => if a ≤ i ∧ i < a + y.n then y.row (i - a) else x.row i⟩

/-- `x[::-1]`. -/
def Rows.reverse (x : Rows F d) : Rows F d := ⟨x.n, fun i => x.row (x.n - 1 - i)⟩

inductive Err where
  /-- TrainingException -/
  | training
  /-- ValueError -/
  | value
  /-- TypeError -/
  | typeError
  /-- IndexError -/
  | index
  /-- ZeroDivisionError -/
  | zeroDivision
  /-- OverflowError -/
  | overflow
  /-- no exception, but a matrix of nan and inf -/
  | nan
  /-- AttributeError -/
  | attribute
  /-- InconsistentDimException -/
  | dim
  /-- NodeException because of a SymeigException -/
  | symeig
  /-- NodeException: 'Got negative eigenvalues' -/
  | negative
  /-- execution of a node without filters -/
  | untrained
deriving DecidableEq

/-- The accumulators (587-613). `sum_prod_x` and `sum_x` are set together; `none` is `None`. -/
structure Acc (F : Type) (d : Nat) where
  sums : Option (Mat F d d × Row F d) := none
  num : F
  diffs : Option (Mat F d d) := none
  numDiffs : F

/-- `CovDCovMatrix()` (587-613). -/
def Acc.new : Acc F d := { num := 0, numDiffs := 0 }

/-- `add_samples` (615-632). -/
def Acc.addSamples (a : Acc F d) (p : Mat F d d) (s : Row F d) (n w : F) : Acc F d :=
  { a with
    sums := match a.sums with
      | none => some (fun k l => p k l * w, fun k => s k * w)
      | some (p', s') => some (fun k l => p' k l + p k l * w, fun k => s' k + s k * w)
    num := a.num + n * w }

/-- `add_diffs` (634-647). -/
def Acc.addDiffs (a : Acc F d) (p : Mat F d d) (n w : F) : Acc F d :=
  { a with
    diffs := match a.diffs with
      | none => some fun k l => p k l * w
      | some p' => some fun k l => p' k l + p k l * w
    numDiffs := a.numDiffs + n * w }

/-- A method of `CovDCovMatrix`. -/
abbrev Upd (F : Type) (d : Nat) := M Err (Acc F d) Unit

/-- `update_unlabeled` (649-657). -/
def updateUnlabeled (x : Rows F d) (w : F) : Upd F d :=
  M.modify fun a => a.addSamples (x.multT x) x.colSum x.n w

/-- `update_regular` (659-674). -/
def updateRegular (x : Rows F d) (w : F) : Upd F d :=
  M.modify fun a =>
    let a := a.addSamples (x.multT x) x.colSum x.n w
    let diffs := (x.slice 1 x.n).sub (x.slice 0 (x.n - 1))
    a.addDiffs (diffs.multT diffs) ((x.n : F) - 1) w

/-- The edge weights of `update_graph`: an array with its number of rows and columns, or the items of a dictionary. -/
inductive Edges (F : Type) where
  | array (rows cols : Nat) (w : Nat → Nat → F)
  | dict (items : List ((Nat × Nat) × F))

/-- The shape check of `update_graph` (699-707). -/
def Edges.shape (n : Nat) : Edges F → Bool
  | .array r c _ => r = n && c = n
  | .dict _ => true

/-- `update_graph` (676-743); `node_weights` `None` is a list of ones, `edge_weights` `None` raises. The node weights are
an array of numbers. -/
def updateGraph (x : Rows F d) (node : Option (List F)) (edge : Option (Edges F)) (w : F) : Upd F d :=
  let node := node.getD (List.replicate x.n 1)
  if node.length ≠ x.n then M.raise .training
  else match edge with
    | none => M.raise .training
    | some edge =>
      if edge.shape x.n = false then M.raise .training
      else
        let wx := x.scale fun i => node.getD i 0
        let p := x.multT wx
        do
          M.modify fun a => a.addSamples p wx.colSum node.sum w
          match edge with
          | .array _ _ e =>
            let wnum := ∑ i ∈ Finset.range x.n, ∑ j ∈ Finset.range x.n, e i j
            let prod2 : Mat F d d := fun k l =>
              ∑ j ∈ Finset.range x.n, (∑ i ∈ Finset.range x.n, x.row i k * e i j) * x.row j l
            M.modify fun a => a.addDiffs (fun k l => 2 * p k l - 2 * prod2 k l) wnum w
          | .dict items =>
            if items.any (fun t => x.n ≤ t.1.1 || x.n ≤ t.1.2) then M.raise .index
            else
              let prod : Mat F d d := fun k l => (items.map fun t =>
                (x.row t.1.2 k - x.row t.1.1 k) * ((x.row t.1.2 l - x.row t.1.1 l) * t.2)).sum
              M.modify fun a => a.addDiffs prod (items.map (·.2)).sum w

/-- `x_mirror` (825-828, 875-878), for a positive width. -/
def mirror (x : Rows F d) (width : Nat) : Rows F d :=
  let z : Rows F d := ⟨x.n + 2 * width, fun _ _ => 0⟩
  let z := z.assign width x
  let z := z.assign 0 (x.slice 0 width).reverse
  z.assign (z.n - width) (x.slice (x.n - width) x.n).reverse

/-- The sum `Aacc123`, `Bprod` and the result of the centre part (830-853, 954-982): `y` is the matrix that is summed in
windows, `x` the matrix of centres; `x` has `2 * width` rows less. -/
def centre (y x : Rows F d) (width : Nat) : Mat F d d :=
  let sq : Nat → Mat F d d := fun i k l => y.row i k * y.row i l
  let middle := y.slice (2 * width) (y.n - 2 * width)
  let a : Mat F d d := fun k l =>
    (∑ i ∈ Finset.range (2 * width), ((i + 1 : Nat) : F) * sq i k l)
    + (∑ i ∈ Finset.Ico (y.n - 2 * width) y.n, ((y.n : F) - i) * sq i k l)
    + (2 * width + 1) * middle.multT middle k l
  -- the cumulated sum with a row of zeros in front (848-849, 976-977)
  let b : Rows F d := ⟨y.n + 1, fun i => (y.slice 0 i).colSum⟩
  let B := (b.slice (2 * width + 1) b.n).sub (b.slice 0 (b.n - (2 * width + 1)))
  let bp := x.multT B
  fun k l => (2 * width + 1) * x.multT x k l + a k l - bp k l - bp l k

/-- `update_mirroring_sliding_window` (807-855). With width zero `x_mirror[0:-0] = x` does not fit (for a single sample numpy
accepts it; this case is not modelled). -/
def updateMirror (x : Rows F d) (w : F) (width : Nat) : Upd F d :=
  if x.n ≤ 2 * width then M.raise .training
  else do
    M.modify fun a => a.addSamples (x.multT x) x.colSum x.n w
    if width = 0 then M.raise .value
    else M.modify fun a => a.addDiffs (centre (mirror x width) x width) (x.n * (2 * width)) w

/-- The offsets `range(-width, width + 1)` without zero, plus `width`. -/
def offsets (width : Nat) : List Nat := (List.range (2 * width + 1)).filter (· ≠ width)

/-- `update_slow_mirroring_sliding_window` (857-888). -/
def updateSlowMirror (x : Rows F d) (w : F) (width : Nat) : Upd F d :=
  if x.n ≤ 2 * width then M.raise .training
  else do
    M.modify fun a => a.addSamples (x.multT x) x.colSum x.n w
    if width = 0 then M.raise .value
    else M.modify fun a => (offsets width).foldl (fun a o =>
      let diffs := ((mirror x width).slice o (o + x.n)).sub x
      a.addDiffs (diffs.multT diffs) diffs.n w) a

/-- `update_slow_truncating_sliding_window` (890-917). -/
def updateTruncating (x : Rows F d) (w : F) (width : Nat) : Upd F d :=
  if x.n ≤ 2 * width then M.raise .value
  else do
    M.modify fun a => a.addSamples (x.multT x) x.colSum x.n w
    if width = 0 then M.raise .value
    else
      let ext := (⟨x.n + 2 * width, fun _ _ => 0⟩ : Rows F d).assign width x
      M.modify fun a => (List.range width).foldl (fun a o =>
        let offset := o + 1
        let diffs := (ext.slice (offset + width) (width + x.n)).sub (x.slice 0 (x.n - offset))
        a.addDiffs (fun k l => 2 * diffs.multT diffs k l) (2 * ((x.n : F) - offset)) w) a

/-- `x_sel` (930-936, 996-1002), for a positive width with `2 * width < n`. -/
def selected (x : Rows F d) (width : Nat) : Rows F d :=
  let up := (x.slice 0 width).scale fun i => ((width + i : Nat) : F) / (2 * width)
  let s := x.assign 0 up
  let down := (s.slice (s.n - width) s.n).scale fun i => ((2 * width - 1 - i : Nat) : F) / (2 * width)
  s.assign (s.n - width) down

/-- The samples of both sliding windows (929-941, 995-1007). -/
def windowSamples (x : Rows F d) (w : F) (width : Nat) (a : Acc F d) : Acc F d :=
  let sel := selected x width
  a.addSamples (sel.multT x) sel.colSum ((x.n : F) - (1 / 2 * width - 1 / 2)) w

/-- `update_fast_sliding_window` (919-984). With width zero the borders do not fit (for a single sample numpy accepts it; this
case is not modelled). -/
def updateFastWindow (x : Rows F d) (w : F) (width : Nat) : Upd F d :=
  if x.n ≤ 2 * width then M.raise .value
  else if width = 0 then M.raise .value
  else M.modify fun a =>
    let a := windowSamples x w width a
    let a := (List.range width).foldl (fun a i =>
      let diffs := (x.slice 0 (width + i + 1)).subRow (x.row i)
      a.addDiffs (diffs.multT diffs) ((diffs.n : F) - 1) w) a
    let a := (List.range width).foldl (fun a i =>
      let i := x.n - width + i
      let diffs := (x.slice (i - width) x.n).subRow (x.row i)
      a.addDiffs (diffs.multT diffs) ((diffs.n : F) - 1) w) a
    a.addDiffs (centre x (x.slice width (x.n - width)) width) (((x.n : F) - 2 * width) * (2 * width)) w

/-- `update_sliding_window` (986-1018). -/
def updateWindow (x : Rows F d) (w : F) (width : Nat) : Upd F d :=
  if x.n ≤ 2 * width then M.raise .value
  else if width = 0 then M.raise .value
  else M.modify fun a =>
    (List.range width).foldl (fun a o =>
      let diffs := (x.slice (o + 1) x.n).sub (x.slice 0 (x.n - (o + 1)))
      a.addDiffs (diffs.multT diffs) diffs.n w) (windowSamples x w width a)

/-- The argument `block_size`: nothing, a number or a list (arrays are not modelled). -/
inductive BlockSize where
  | none
  | int (n : Nat)
  | list (l : List Nat)

/-- `media` (1055-1059, 1126-1130). -/
def means (x : Rows F d) (bs : Nat) : Rows F d :=
  ⟨x.n / bs, fun i k => (x.slice (i * bs) ((i + 1) * bs)).colSum k * (1 / bs)⟩

/-- `update_serial` for a number (1038-1073). -/
def updateSerialInt (x : Rows F d) (bs : Nat) (w : F) : Upd F d :=
  if bs = 0 then M.raise .zeroDivision
  else if 0 < x.n % bs then M.raise .value
  else M.modify fun a =>
    let xp := x.slice bs (x.n - bs)
    let ini := x.slice 0 bs
    let fin := x.slice (x.n - bs) x.n
    let p : Mat F d d := fun k l => ini.multT ini k l + 2 * xp.multT xp k l + fin.multT fin k l
    let a := a.addSamples p (fun k => ini.colSum k + 2 * xp.colSum k + fin.colSum k)
      (2 * bs + 2 * ((x.n : F) - 2 * bs)) w
    let media := means x bs
    let ma := media.slice 0 (media.n - 1)
    let mb := media.slice 1 media.n
    let mixed : Mat F d d := fun k l => ma.multT mb k l + mb.multT ma k l
    let pd : Mat F d d := fun k l => (bs * p k l - bs * bs * mixed k l) * (1 / bs)
    a.addDiffs (fun k l => 2 * pd k l) (2 * (bs * ((media.n : F) - 1))) w

/-- `update_serial` (1021-1073). -/
def updateSerial (x : Rows F d) (w : F) : BlockSize → Upd F d
  | .none => M.raise .training
  | .int n => updateSerialInt x n w
  | .list [] => M.raise .index
  | .list (b :: l) => if l.all (· = b) then updateSerialInt x b w else M.raise .value

/-- `update_clustered_homogeneous_block_sizes` for a number (1105-1150). -/
def updateClusteredInt (x : Rows F d) (w : F) (bs : Nat) (selfLoops : Bool) : Upd F d :=
  if bs = 0 then M.raise .zeroDivision
  else if 0 < x.n % bs then M.raise .value
  else M.modify fun a =>
    let p := x.multT x
    let a := a.addSamples p x.colSum x.n w
    let media := means x bs
    let pm := media.multT media
    let pd : Mat F d d := fun k l =>
      if selfLoops then 2 * bs * (p k l - bs * pm k l) / bs else 2 * bs * (p k l - bs * pm k l) / ((bs : F) - 1)
    a.addDiffs pd ((media.n : F) * bs) w

/-- The loop of `update_clustered` (1095-1102). -/
def clusterLoop (x : Rows F d) (w : F) (selfLoops : Bool) : Nat → List Nat → Upd F d
  | _, [] => pure ()
  | c, b :: l => do
    updateClusteredInt (x.slice c (c + b)) w b selfLoops
    clusterLoop x w selfLoops (c + b) l

/-- `update_clustered` (1076-1102). If the sizes do not sum up, the message of the ValueError is made with
`'%d' % block_sizes`, which raises a TypeError for a list. -/
def updateClustered (x : Rows F d) (w : F) (bs : BlockSize) (selfLoops : Bool := true) : Upd F d :=
  match bs with
  | .int n => updateClusteredInt x w n selfLoops
  | .none => M.raise .training
  | .list l => if x.n ≠ l.sum then M.raise .typeError else clusterLoop x w selfLoops 0 l

/-- `train_mode='mixed'` (197-206); `x[0:bs]` with a list for `bs` raises a TypeError. -/
def updateMixed (x : Rows F d) : BlockSize → Upd F d
  | .none => M.raise .training
  | .list _ => M.raise .typeError
  | .int bs => do
    updateClusteredInt (x.slice 0 bs) 2 bs true
    updateClusteredInt (x.slice bs (x.n - bs)) 1 bs true
    updateClusteredInt (x.slice (x.n - bs) x.n) 2 bs true
    updateSerialInt x bs 1

/-- `train_mode='DualSerialK'` (174-196). -/
def updateDualSerial (x : Rows F d) (k : Nat) : BlockSize → Upd F d
  | .none => M.raise .typeError
  | .list _ => M.raise .typeError
  | .int bs =>
    if bs = 0 ∨ k = 0 then M.raise .zeroDivision
    else
      let dual := x.n / k
      let chunk := bs / k
      let x2 := (List.range (x.n / bs)).foldl (fun x2 i => (List.range k).foldl (fun x2 j =>
        x2.assign (j * dual + i * chunk) (x.slice (i * bs + j * chunk) (i * bs + (j + 1) * chunk))) x2)
        (⟨x.n, fun _ _ => 0⟩ : Rows F d)
      do
        updateSerialInt x bs 1
        updateSerialInt x2 dual 0

/-- `x[ordering, :]`. -/
def Rows.permute (x : Rows F d) (o : List Nat) : Rows F d := ⟨o.length, fun i => x.row (o.getD i 0)⟩

/-- `numx.unique(labels)`. -/
def unique (labels : List Int) : List Int := labels.dedup.mergeSort

/-- `train_mode=('classification', labels, weight)` (119-135); `argsort` is a parameter. -/
def updateClassification (argsort : List Int → List Nat) (x : Rows F d) (labels : List Int) (w : F) : Upd F d :=
  if x.n < labels.length then M.raise .index
  else updateClustered (x.permute (argsort labels)) w (.list ((unique labels).map fun u => labels.count u))

/-- `train_mode=('serial_regressionB', labels, weight)` (136-145). -/
def updateRegression (argsort : List Int → List Nat) (x : Rows F d) (bs : Nat) (labels : List Int) (w : F) : Upd F d :=
  if x.n < labels.length then M.raise .index
  else updateSerialInt (x.permute (argsort labels)) bs w

/-- A value of `train_mode` that is not a list. -/
inductive Mode (F : Type) where
  | regular
  | unlabeled
  | clustered
  | serial
  | dualSerial (k : Nat)
  | mixed
  | window (width : Nat)
  | fwindow (width : Nat)
  | mirrorWindow (width : Nat)
  | smirrorWindow (width : Nat)
  | graph
  | ignoreData
  | classification (labels : List Int) (weight : F)
  | regression (bs : Nat) (labels : List Int) (weight : F)
  | unknown

/-- The keyword arguments of `train` apart from the mode. -/
structure Args (F : Type) where
  blockSize : BlockSize := .none
  node : Option (List F) := none
  edge : Option (Edges F) := none

/-- One pass of the loop over the modes (112-455). -/
def updateMode (argsort : List Int → List Nat) (x : Rows F d) (g : Args F) : Mode F → Upd F d
  | .regular => updateRegular x 1
  | .unlabeled => updateUnlabeled x 1
  | .clustered => updateClustered x 1 g.blockSize
  | .serial => updateSerial x 1 g.blockSize
  | .dualSerial k => updateDualSerial x k g.blockSize
  | .mixed => updateMixed x g.blockSize
  | .window n => updateWindow x 1 n
  | .fwindow n => updateFastWindow x 1 n
  | .mirrorWindow n => updateMirror x 1 n
  | .smirrorWindow n => updateSlowMirror x 1 n
  | .graph => updateGraph x g.node g.edge 1
  | .ignoreData => pure ()
  | .classification labels w => updateClassification argsort x labels w
  | .regression bs labels w => updateRegression argsort x bs labels w
  | .unknown => M.raise .value

/-- The variable `block_size` after a pass of the loop: 'serial_regression' assigns to it (137). -/
def nextArgs (g : Args F) : Mode F → Args F
  | .regression bs _ _ => { g with blockSize := .int bs }
  | _ => g

/-- The loop over the modes (112-455). -/
def updateModes (argsort : List Int → List Nat) (x : Rows F d) (g : Args F) : List (Mode F) → Upd F d
  | [] => pure ()
  | m :: l => do
    updateMode argsort x g m
    updateModes argsort x (nextArgs g m) l

/-- `add_cov_dcov_matrix` (1238-1257). The accumulators of the other object are `None` when it has not been trained: TypeError,
after `sum_prod_x` has been assigned to if the differences only are missing (this is not modelled: the object is kept). -/
def addCovDCov (b : Acc F d) (adding own : F) : Upd F d := fun a =>
  match b.sums, b.diffs with
  | some (bp, bs), some bd => (.ok (), {
      sums := some (match a.sums with
        | none => (fun k l => bp k l * adding, fun k => bs k * adding)
        | some (p, s) => (fun k l => p k l * own + bp k l * adding, fun k => s k * own + bs k * adding))
      num := a.num * own + b.num * adding
      diffs := some (match a.diffs with
        | none => fun k l => bd k l * adding
        | some p => fun k l => p k l * own + bd k l * adding)
      numDiffs := a.numDiffs * own + b.numDiffs * adding })
  | _, _ => (.error .typeError, a)

variable [LinearOrder F]

/-- `fix` (1259-1295): covariance, average, second moment of the differences. -/
def Acc.fix (a : Acc F d) : Except Err (Sfa.Fixed F d) :=
  match a.sums with
  | none => .error .typeError
  | some (p, s) =>
    if a.num = 0 then .error .zeroDivision
    else match a.diffs with
      | none => .error .typeError
      | some pd =>
        if a.numDiffs = 0 then .error .nan
        else
          let avg : Row F d := fun k => s k * (1 / a.num)
          .ok { cov := fun k l => (p k l - a.num * (avg k * avg l)) / a.num
                avg := avg
                dcov := fun k l => pd k l / a.numDiffs }

/-- The node (33-64). `acc` is `none` once the accumulators have been deleted. -/
structure St (F : Type) (d : Nat) where
  acc : Option (Acc F d)
  outDim : Option Nat := none
  res : Option (Sfa.Res F d) := none

/-- A new node. -/
def St.new (out : Option Nat) : St F d := { acc := some Acc.new, outDim := out }

/-- `_train` (66-455). -/
def St.train (argsort : List Int → List Nat) (s : St F d) (x : Rows F d) (g : Args F) (modes : List (Mode F)) :
    Except Err Unit × St F d :=
  match s.acc with
  | none => (.error .attribute, s)
  | some a =>
    let r := updateModes argsort x g modes a
    (r.1, { s with acc := some r.2 })

/-- `_stop_training` (462-500) and `_set_range` (520-529). -/
def St.stop (solver : Sfa.Solver F d) (s : St F d) : Except Err Unit × St F d :=
  match s.acc with
  | none => (.error .attribute, s)
  | some a => match a.fix with
    | .error e => (.error e, s)
    | .ok f => match Sfa.setRange d s.outDim with
      | .error _ => (.error .dim, s)
      | .ok (rng, k) =>
        let s := { s with outDim := some k }
        match solver f.dcov f.cov rng with
        | none => (.error .symeig, s)
        | some l =>
          if l.any (fun p => p.1 < 0) then (.error .negative, s)
          else (.ok (), { s with
            acc := none
            res := some ⟨l.map (·.1), l.map (·.2), l.map (fun p => Sfa.dotL f.avg p.2), f.avg⟩ })

/-- `_execute` (502-511) for a row: `if n` takes `0` for no number. -/
def St.execute (s : St F d) (n : Option Nat) (x : Row F d) : Except Err (List F) :=
  match s.res with
  | none => .error .untrained
  | some r => match n with
    | none | some 0 => .ok (List.zipWith (fun w b => Sfa.dotL x w - b) r.sf r.bias)
    | some n => .ok (List.zipWith (fun w b => Sfa.dotL x w - b) (r.sf.take n) (r.bias.take n))

end Mdp.Gsfa
