import Verif.Num.Cov
import Mathlib.Data.Real.Sqrt

/-!
# Model of `XSFANode` (mdp/nodes/xsfa_nodes.py)

`NormalizeNode`, `ProjectionNode`, the order in which the source extractors are trained, and how a row passes through them. Numbers are
real numbers; a data matrix is the list of its rows. The SFA, expansion and whitening nodes inside the extractors are functions of rows.
-/

namespace Mdp.Xsfa

open Mdp.Cov

/-! ## NormalizeNode (314-350) -/

/-- A trained node: `m` and `s`. -/
structure Normalize (d : Nat) where
  m : Row ℝ d
  s : Row ℝ d

/-- `_train` for all chunks (338-339) and `_stop_training` (341-344). -/
noncomputable def Normalize.train {d : Nat} (chunks : List (List (Row ℝ d))) : Except Err (Normalize d) :=
  match (chunks.foldl CovSt.update (CovSt.new ℝ d false)).fix true with
  | .error e => .error e
  | .ok ((cov, avg, _), _) => .ok ⟨avg, fun i => Real.sqrt (cov i i)⟩

/-- `_execute` (346-347) of a row; a division by zero gives nan or infinity: no number. -/
noncomputable def Normalize.execute {d : Nat} (nd : Normalize d) (x : Row ℝ d) : Fin d → Option ℝ :=
  fun i => if nd.s i = 0 then none else some ((x i - nd.m i) / nd.s i)

/-- `_inverse` (349-350). -/
noncomputable def Normalize.inverse {d : Nat} (nd : Normalize d) (y : Row ℝ d) : Row ℝ d := fun i => y i * nd.s i + nd.m i

/-! ## ProjectionNode (280-312) -/

/-- `x[-k:]` -/
def fromEnd (k : Nat) (x : List ℝ) : List ℝ := if k = 0 then x else x.drop (x.length - k)

/-- `x[:-k]` -/
def uptoEnd (k : Nat) (x : List ℝ) : List ℝ := if k = 0 then [] else x.take (x.length - k)

/-- A row of a matrix with `d` columns. -/
def asRow (d : Nat) (x : List ℝ) : Row ℝ d := fun i => x.getD i 0

/-- A node with `S` and `L` for rows with `E` expanded sources; `output_dim` is `S + 1 + L` (291). -/
structure Projection where
  S : Nat
  L : Nat

def Projection.outputDim (p : Projection) : Nat := p.S + 1 + p.L

/-- The two arguments of `update` (297) for a chunk; the second one has `L` columns, or all for `L = 0`. -/
def Projection.parts (p : Projection) (E F : Nat) (x : List (List ℝ)) : List (Row ℝ E) × List (Row ℝ F) :=
  (x.map fun r => asRow E (uptoEnd p.outputDim r), x.map fun r => asRow F (fromEnd p.L r))

/-- `_train` for all chunks (294-297) and `_stop_training` (299-300): `proj_mtx`. `E` and `F` are the numbers of columns of the arguments of
`update`; the numbers of rows agree, so that `update` does not raise. -/
noncomputable def Projection.train (p : Projection) (E F : Nat) (chunks : List (List (List ℝ))) : Except Err (Mat ℝ E F) :=
  match (chunks.foldl (fun s x => (s.update (p.parts E F x).1 (p.parts E F x).2).2) (CrossSt.new ℝ E F false)).fix with
  | .error e => .error e
  | .ok ((mtx, _, _, _), _) => .ok mtx

/-- `_execute` (302-312) of a row: `result[:, -L:]` and `result[:, :-L]` are assigned. Shapes that do not fit raise (`none`). For `L = 0` the
first is all of `result` and the second has no columns; a single column would be spread, but there are at least `output_dim` then. -/
def Projection.execute (p : Projection) (E F : Nat) (mtx : Mat ℝ E F) (r : List ℝ) : Option (List ℝ) :=
  let out := p.outputDim
  let src := uptoEnd p.L (fromEnd out r)
  let exp := uptoEnd out r
  let inp := fromEnd p.L r
  let part := (List.finRange F).map fun j : Fin F => inp.getD j.val 0 - ((List.finRange E).map fun i : Fin E => exp.getD i.val 0 * mtx i j).sum
  if p.L = 0 then (if F = out then some part else none)
  else if F = p.L ∧ src.length = out - p.L then some (src ++ part)
  else none

/-! ## The phases of the extractors (224-277) -/

/-- The structure of a node that decides about the number of its training phases. -/
inductive Tree where
  /-- An ordinary node; `phases` is the length of `_get_train_seq()`. -/
  | leaf (trainable : Bool) (phases : Nat)
  /-- `FlowNode` of two or more nodes (mdp/hinet/flownode.py 139-157), one after the other. -/
  | seq (a b : Tree)
  /-- `Layer` or `SameInputLayer` of two nodes (mdp/hinet/layer.py 135-145). -/
  | par (a b : Tree)

mutual
/-- `len(node._get_train_seq())` of nodes that are not trained yet. A `FlowNode` adds the phases of its trainable nodes, a layer takes the
maximum over all. -/
def Tree.phases : Tree → Nat
  | .leaf _ k => k
  | .seq a b => (if a.trainable then a.phases else 0) + (if b.trainable then b.phases else 0)
  | .par a b => max a.phases b.phases

/-- `node.is_trainable()`: of a `FlowNode` if there are phases (flownode.py 49-60), of a layer if a node is in training (layer.py 53-61, 310-318). -/
def Tree.trainable : Tree → Bool
  | .leaf b _ => b
  | .seq a b => decide (0 < (if a.trainable then a.phases else 0) + (if b.trainable then b.phases else 0))
  | .par a b => a.trainable || b.trainable
end

/-- A node that is not trainable: the sequence has one phase all the same (signal_node.py 428-430). -/
def fixedNode : Tree := .leaf false 1

/-- A node with one training phase. -/
def simpleNode : Tree := .leaf true 1

/-- `_get_source_extractor(dim, S)` (224-277); `exp` is the node for the expansion of the sources. -/
def extractor (exp : Tree) (outputDim S : Nat) : Tree :=
  let sfa := simpleNode
  let srcExp := .seq (.seq exp simpleNode) simpleNode
  let n2 : Tree := .par (.par srcExp fixedNode) fixedNode
  let srcRem : Tree := .seq simpleNode (.par fixedNode simpleNode)
  if S = 0 then .seq (.seq sfa n2) srcRem
  else if S = outputDim - 1 then .par fixedNode simpleNode
  else .seq (.seq (.par fixedNode sfa) n2) srcRem

/-! ## The order of training (161-219) -/

/-- `_flow` (the number of phases for which each extractor has been trained), `n_extracted_src`, and the training phase of the node itself,
which `stop_training` counts. -/
structure St where
  flow : List Nat
  nExtracted : Nat
  phase : Nat

/-- `_training_phases` (181-188). -/
def trainingPhases (exp : Tree) (outputDim : Nat) : List Nat := (List.range outputDim).map fun S => (extractor exp outputDim S).phases

/-- `_training_phases_mods` (192-193). -/
def phasesMods (exp : Tree) (outputDim : Nat) : List Nat :=
  (List.range (trainingPhases exp outputDim).dropLast.length).map fun i => ((trainingPhases exp outputDim).take (i + 1)).sum

/-- `_initialize_internal_flow` (169-193). -/
def St.init : St := ⟨[0], 0, 0⟩

/-- `stop_training` of the node (203-219): the last extractor finishes one of its phases; if it is finished itself (it was at phase `done`
of `phases`) it raises (`none`). -/
def St.stop (exp : Tree) (outputDim : Nat) (s : St) : Option St :=
  match s.flow.getLast? with
  | none => none
  | some done =>
    if done < (extractor exp outputDim s.nExtracted).phases then
      let flow := s.flow.dropLast ++ [done + 1]
      let cur := s.phase + 1
      if cur ∈ phasesMods exp outputDim ∧ s.nExtracted ≠ outputDim - 1 then some ⟨flow ++ [0], s.nExtracted + 1, cur⟩
      else some ⟨flow, s.nExtracted, cur⟩
    else none

/-- The state after `k` training phases. -/
def after (exp : Tree) (outputDim : Nat) : Nat → Option St
  | 0 => some St.init
  | k + 1 => (after exp outputDim k).bind (St.stop exp outputDim)

/-! ## Execution of the extractors -/

/-- A trained extractor: the SFA node, the expansion of sources with its normalisation and whitening, the projection and the second
whitening. -/
structure Extractor where
  S : Nat
  L : Nat
  E : Nat
  last : Bool
  sfa : List ℝ → List ℝ
  expand : List ℝ → List ℝ
  mtx : Mat ℝ E (L - 1)
  white : List ℝ → List ℝ

/-- `Layer._execute` of two nodes (layer.py 187-209) of which the first has `k` inputs. -/
def layer2 (k : Nat) (f g : List ℝ → List ℝ) (x : List ℝ) : List ℝ := f (x.take k) ++ g (x.drop k)

/-- What an extractor does to a row (224-277). -/
def Extractor.execute (m : Extractor) (x : List ℝ) : Option (List ℝ) :=
  if m.last then some (layer2 m.S id m.sfa x)
  else
    let y := if m.S = 0 then m.sfa x else layer2 m.S id m.sfa x
    let z := layer2 (m.S + 1) (fun s => m.expand s ++ s) id y
    ((Projection.mk m.S (m.L - 1)).execute m.E (m.L - 1) m.mtx z).map (layer2 (m.S + 1) id m.white)

/-- `self._flow(x)` after the basic expansion. -/
def runAll : List Extractor → List ℝ → Option (List ℝ)
  | [], x => some x
  | m :: ms, x => (m.execute x).bind (runAll ms)

/-- `_execute` (221-222) after the basic expansion. -/
def execute (ms : List Extractor) (outputDim : Nat) (x : List ℝ) : Option (List ℝ) := (runAll ms x).map (·.take outputDim)

end Mdp.Xsfa
