import Verif.Ica.FastModel
import Verif.Nodes.Pca
import Mathlib.Data.Nat.Log

/-!
# `ICANode`: whitening, telescope mode, execution

`mdp/nodes/ica_nodes.py:16-214`, `Cumulator` of `mdp/signal_node.py:763-786`. Numbers are reals; the core routine is a parameter, which gets the
(whitened) data and gives filters and a convergence value, or raises.
-/

namespace Mdp.Ica

open Matrix

variable {d : Nat}

/-- The core routine for every number of signals. -/
abbrev Core := (k : Nat) → List (Vec k) → Except Err (Matrix (Fin k) (Fin k) ℝ × ℝ)

/-- The parameters of the constructor (75-128). `parm` is `white_parm`, without an output dimension: with one the construction of the
whitening node is a TypeError. `white_comp` is a number of components or `None`. -/
structure ICfg where
  whitened : Bool
  whiteComp : Option Nat
  parm : Pca.Cfg ℝ
  tele : Bool
  limit : ℝ

inductive NErr where
  /-- the whitening node raises -/
  | white (e : Pca.Err)
  /-- the core routine raises -/
  | core (e : Err)
  /-- UnboundLocalError for `convergence` -/
  | unbound
  /-- TrainingException: the node has not been trained -/
  | untrained
  /-- TrainingFinishedException -/
  | finished
  /-- an array of rank one instead of two -/
  | rank
  /-- AttributeError: an array has no `append` -/
  | append
  /-- NodeException or ValueError: wrong dimension -/
  | dim

/-- The results of training: the attribute `output_dim`, the whitening node, and filters for `k` signals. -/
structure Trained (d : Nat) where
  outDim : Nat
  white : Option (Pca.Res ℝ d)
  k : Nat
  filters : Matrix (Fin k) (Fin k) ℝ
  conv : ℝ

/-- A row of an array with `k` columns. -/
def toVec (k : Nat) (l : List ℝ) : Vec k := fun i => l.getD i 0

/-- `range(minpow, maxpow+1)` (168-170) for `d` columns and `n > 0` rows; `math.frexp` gives the exponent of a number in `[1/2, 1)`. The
quotient of logarithms is taken as exact. -/
def powers (d n : Nat) : List Nat :=
  let minpow := if d = 0 then 0 else Nat.log 2 (10 * d) + 1
  List.range' minpow (Nat.log 2 n + 1 - minpow)

open Classical in
/-- The loop of the telescope mode (170-176); the second argument is the last result, if any. -/
noncomputable def telescope {α β : Type} (core : List α → Except Err (β × ℝ)) (limit : ℝ) (data : List α) :
    Option (β × ℝ) → List Nat → Except NErr (β × ℝ)
  | none, [] => .error .unbound
  | some r, [] => .ok r
  | _, t :: l =>
    match core (data.take (2 ^ t)) with
    | .error e => .error (.core e)
    | .ok r => if r.2 ≤ limit then .ok r else telescope core limit data (some r) l

/-- The call of the core routine (166-181). -/
noncomputable def ICfg.call (c : ICfg) (core : Core) (d k : Nat) (data : List (Vec k)) :
    Except NErr (Matrix (Fin k) (Fin k) ℝ × ℝ) :=
  if c.tele then telescope (core k) c.limit data none (powers d data.length)
  else match core k data with
    | .error e => .error (.core e)
    | .ok r => .ok r

/-- The parameters of the whitening node (153-155). -/
def ICfg.whiteCfg (c : ICfg) : Pca.Cfg ℝ := { c.parm with outDim := c.whiteComp, desired := none }

/-- The attribute `output_dim` after training (131-136, 152, 161-162). -/
def ICfg.outDim (c : ICfg) (d : Nat) : Nat := if c.whitened then d else c.whiteComp.getD d

/-- `_stop_training` (138-181), after the chunks have been put together. -/
noncomputable def ICfg.finish (c : ICfg) (core : Core) (solve : Pca.Solver ℝ d) (data : List (Vec d)) : Except NErr (Trained d) :=
  if c.whitened then
    match c.call core d d data with
    | .error e => .error e
    | .ok r => .ok ⟨c.outDim d, none, d, r.1, r.2⟩
  else
    match Pca.stop c.whiteCfg solve (([data] : List (List (Cov.Row ℝ d))).foldl Cov.CovSt.update (Cov.CovSt.new ℝ d false)) with
    | .error e => .error (.white e)
    | .ok r =>
      let w := Pca.whiten Real.sqrt r
      match c.call core d w.vs.length (data.map fun x => toVec w.vs.length (w.execute none x)) with
      | .error e => .error e
      | .ok f => .ok ⟨c.outDim d, some w, w.vs.length, f.1, f.2⟩

/-- The input of the filters (203-204). -/
noncomputable def Trained.inner (t : Trained d) (x : Vec d) : Vec t.k :=
  match t.white with
  | none => toVec t.k (List.ofFn x)
  | some w => toVec t.k (w.execute none x)

/-- `_execute` (202-208) for a row. -/
noncomputable def Trained.execute (t : Trained d) (x : Vec d) : List ℝ := List.ofFn (t.inner x ᵥ* t.filters)

/-- `inverse` (`mdp/signal_node.py`: the check of the number of columns; 210-214) for a row. -/
noncomputable def Trained.inverse (t : Trained d) (y : List ℝ) : Except NErr (Vec d) :=
  if y.length ≠ t.outDim then .error .dim
  else if y.length ≠ t.k then .error .dim
  else
    let z := List.ofFn (toVec t.k y ᵥ* t.filtersᵀ)
    match t.white with
    | none => .ok (toVec d z)
    | some w => match w.whiteInverse z with
      | .error e => .error (.white e)
      | .ok x => .ok x

/-- `get_projmatrix()` (18-37). -/
noncomputable def Trained.proj (t : Trained d) : Matrix (Fin d) (Fin t.k) ℝ :=
  match t.white with
  | none => Matrix.of fun i a => if h : i.val < t.k then t.filters ⟨i, h⟩ a else 0
  | some w => Matrix.of fun i a => ∑ j : Fin t.k, t.filters j a * w.vs.getD j 0 i

/-- `get_recmatrix()` (39-61). -/
noncomputable def Trained.back (t : Trained d) : Matrix (Fin t.k) (Fin d) ℝ :=
  match t.white with
  | none => Matrix.of fun a i => if h : i.val < t.k then t.filters ⟨i, h⟩ a else 0
  | some w => Matrix.of fun a i => ∑ j : Fin t.k, t.filters j a * (w.vs.getD j 0 i * w.ds.getD j 0)

/-- `CuBICANode.core` (269-331) as the core routine. -/
noncomputable def cubicaCore (limit : ℝ) : Core := fun _ data => .ok ((cubica limit data).1.q, (cubica limit data).1.maxangle)

/-- `JADENode.core` (`mdp/nodes/jade.py:90-250`) as the core routine. -/
noncomputable def jadeCore (limit : ℝ) (maxIt : Nat) (order : (k : Nat) → Matrix (Fin k) (Fin k) ℝ → Equiv.Perm (Fin k)) : Core :=
  fun k data => jade limit maxIt (order k) data

/-! ## The node -/

/-- What the attribute `data` is: the list of chunks, an array of rank two, an array of rank one. -/
inductive Store (d : Nat) where
  | chunks (l : List (List (Vec d)))
  | array
  | flat

/-- The state of the node; `training` is `is_training()`. -/
structure NSt (d : Nat) where
  store : Store d := .chunks []
  training : Bool := true
  result : Option (Trained d) := none

/-- `train` (`mdp/signal_node.py:774-778`). -/
def NSt.train (s : NSt d) (x : List (Vec d)) : Except NErr Unit × NSt d :=
  if s.training = false then (.error .finished, s)
  else match s.store with
    | .chunks l => (.ok (), { s with store := .chunks (l ++ [x]) })
    | .array => (.error .append, s)
    | .flat => (.error .append, s)

/-- `stop_training` (`mdp/signal_node.py:619-639`, 780-784): `numx.concatenate` of an array of rank two gives one of rank one, for which
whitening and core routines raise; for an array of rank one it raises itself. -/
noncomputable def NSt.stop (c : ICfg) (core : Core) (solve : Pca.Solver ℝ d) (s : NSt d) : Except NErr Unit × NSt d :=
  if s.training = false then (.error .finished, s)
  else match s.store with
    | .chunks [] => (.error .untrained, s)
    | .chunks l => match c.finish core solve l.flatten with
      | .error e => (.error e, { s with store := .array })
      | .ok t => (.ok (), { store := .array, training := false, result := some t })
    | .array => (.error .rank, { s with store := .flat })
    | .flat => (.error .rank, s)

/-- `execute` of the node: training is stopped first. -/
noncomputable def NSt.execute (c : ICfg) (core : Core) (solve : Pca.Solver ℝ d) (s : NSt d) (x : List (Vec d)) :
    Except NErr (List (List ℝ)) × NSt d :=
  let r := if s.training then s.stop c core solve else (.ok (), s)
  match r.1, r.2.result with
  | .error e, _ => (.error e, r.2)
  | .ok _, none => (.error .untrained, r.2)
  | .ok _, some t => (.ok (x.map t.execute), r.2)

end Mdp.Ica
