import Verif.Nodes.Expansion
import Mathlib.Algebra.BigOperators.Group.Finset.Basic

/-!
# The gradient extension (`bimdp/nodes/gradient.py`)

All functions work on the samples of a batch one by one; the model is for one sample: `x` is a row and `grad` a matrix.
Arrays have entries in a commutative ring; dtypes are not modelled. The messages that carry `method` and `grad` from node to
node are those of C59-C61; a flow is executed from the first to the last node (`gradFlow`).
-/

namespace Bi.Gradient

inductive Err where
  /-- `TrainingException` -/
  | training
  /-- `NotImplementedError` -/
  | notImplemented
  /-- `ValueError` of numpy: shapes do not fit -/
  | value
  /-- `IndexError` -/
  | index
deriving DecidableEq

/-- A matrix with its shape. -/
structure Jac (R : Type) where
  rows : Nat
  cols : Nat
  e : Nat → Nat → R

variable {R : Type} [CommRing R]

/-- `np.zeros`. -/
def zeros (R : Type) [CommRing R] (r c : Nat) : Jac R := ⟨r, c, fun _ _ => 0⟩

/-- `grad[:, diag_indices, diag_indices] = 1.0` with `diag_indices = arange(dim)`; an index beyond the shape is an
`IndexError`. -/
def setDiag (J : Jac R) (dim : Nat) : Except Err (Jac R) :=
  if dim ≤ J.rows ∧ dim ≤ J.cols then .ok ⟨J.rows, J.cols, fun k j => if k = j ∧ k < dim then 1 else J.e k j⟩
  else .error .index

/-- `np.dot` of two matrices. -/
def dot (A B : Jac R) : Except Err (Jac R) :=
  if A.cols = B.rows then .ok ⟨A.rows, B.cols, fun k j => ∑ m ∈ Finset.range A.cols, A.e k m * B.e m j⟩
  else .error .value

/-- `x[a:b]` -/
def slice (x : List R) (a b : Nat) : List R := (x.take b).drop a

/-- The length `l` of a value fits into a slice of length `n` if it is the same or one (the entry is repeated). -/
def fits (n l : Nat) : Bool := l == n || l == 1

/-- The index into the value. -/
def bidx (l i : Nat) : Nat := if l = 1 then 0 else i

/-- `J[r0:r1, c0:c1] = V`; slices end with the array. -/
def setBlock (J : Jac R) (r0 r1 c0 c1 : Nat) (V : Jac R) : Except Err (Jac R) :=
  if fits (min r1 J.rows - r0) V.rows && fits (min c1 J.cols - c0) V.cols then
    .ok ⟨J.rows, J.cols, fun k j =>
      if r0 ≤ k ∧ k < min r1 J.rows ∧ c0 ≤ j ∧ j < min c1 J.cols then V.e (bidx V.rows (k - r0)) (bidx V.cols (j - c0))
      else J.e k j⟩
  else .error .value

/-- A node with a gradient: `_execute` and `_get_grad`. -/
structure GNode (R : Type) where
  inDim : Nat
  outDim : Nat
  training : Bool
  exec : List R → List R
  grad : List R → Except Err (Jac R)

/-! ### Nodes -/

/-- gradient.py:84-89 -/
def identity (R : Type) [CommRing R] (d : Nat) : GNode R where
  inDim := d
  outDim := d
  training := false
  exec := fun x => x
  grad := fun _ => setDiag (zeros R d d) d

/-- A trained `SFANode`: `y = x·sf - bias` (sfa_nodes.py:320-333), gradient.py:91-94. -/
def sfa (i o : Nat) (sf : Nat → Nat → R) (bias : Nat → R) : GNode R where
  inDim := i
  outDim := o
  training := false
  exec := fun x => (List.range o).map fun k => (∑ m ∈ Finset.range i, x.getD m 0 * sf m k) - bias k
  grad := fun _ => .ok ⟨o, i, fun k m => sf m k⟩

/-- gradient.py:108-111, one pass of the loop. The state is the matrix and `i_start`. -/
def quadStep (dim : Nat) (x : List R) (p : Jac R × Nat) (i : Nat) : Except Err (Jac R × Nat) :=
  let J := p.1
  let s := p.2
  let v := x.drop i
  -- grad[:, i_start:i_start+dim-i, i] = x[:,i:]
  if J.cols ≤ i then .error .index
  else if fits (min (s + dim - i) J.rows - s) v.length then
    let e1 := fun k j => if j = i ∧ s ≤ k ∧ k < min (s + dim - i) J.rows then v.getD (bidx v.length (k - s)) 0 else J.e k j
    -- grad[:, diag_indices+i_start, diag_indices+i] += x[:,i,np.newaxis]
    if x.length ≤ i then .error .index
    else if dim - i + s ≤ J.rows ∧ dim ≤ J.cols then
      .ok (⟨J.rows, J.cols, fun k j => if s ≤ k ∧ k - s < dim - i ∧ j = k - s + i then e1 k j + x.getD i 0 else e1 k j⟩,
        s + (dim - i))
    else .error .index
  else .error .value

/-- gradient.py:96-112 `_quadex_grad`. -/
def quadGrad (dim outDim : Nat) (x : List R) : Except Err (Jac R) := do
  let J ← setDiag (zeros R outDim dim) dim
  let p ← (List.range dim).foldlM (quadStep dim x) (J, dim)
  return p.1

/-- `QuadraticExpansionNode` (expansion_nodes.py:146-163): the polynomial expansion of degree 2. -/
def quad (R : Type) [CommRing R] (d : Nat) : GNode R where
  inDim := d
  outDim := (Mdp.Expansion.expandedDim 2 d).toNat
  training := false
  exec := fun x => (Mdp.Expansion.polyExecute 2 fun k : Fin d => x.getD k 0).getD []
  grad := quadGrad d (Mdp.Expansion.expandedDim 2 d).toNat

/-- A trained `SFA2Node` (sfa_nodes.py:698-710): expansion, then `SFANode._execute`; gradient.py:114-119. -/
def sfa2 (d o : Nat) (sf : Nat → Nat → R) (bias : Nat → R) : GNode R where
  inDim := d
  outDim := o
  training := false
  exec := fun x => (sfa (quad R d).outDim o sf bias).exec ((quad R d).exec x)
  grad := fun x => do
    let q ← (quad R d).grad x
    let s ← (sfa (quad R d).outDim o sf bias).grad x
    dot s q

/-- gradient.py:123-147 `_layer_grad`: the loop with `in_stop`, `out_stop`. -/
def layLoop (outDim inDim : Nat) (x : List R) : List (GNode R) → Nat → Nat → Option (Jac R) → Except Err (Option (Jac R))
  | [], _, _, g => .ok g
  | N :: Ns, i0, o0, g =>
    match N.grad (slice x i0 (i0 + N.inDim)) with
    | .error e => .error e
    | .ok V =>
      match setBlock (g.getD (zeros R outDim inDim)) o0 (o0 + N.outDim) i0 (i0 + N.inDim) V with
      | .error e => .error e
      | .ok J => layLoop outDim inDim x Ns (i0 + N.inDim) (o0 + N.outDim) (some J)

/-- `None` is not an array. -/
def layGrad (outDim inDim : Nat) (Ns : List (GNode R)) (x : List R) : Except Err (Jac R) :=
  match layLoop outDim inDim x Ns 0 0 none with
  | .error e => .error e
  | .ok none => .error .value
  | .ok (some J) => .ok J

/-- layer.py:181-200 -/
def layExec (x : List R) : List (GNode R) → Nat → List R
  | [], _ => []
  | N :: Ns, i0 => N.exec (slice x i0 (i0 + N.inDim)) ++ layExec x Ns (i0 + N.inDim)

/-- A `Layer`. -/
def layer (Ns : List (GNode R)) : GNode R where
  inDim := (Ns.map GNode.inDim).sum
  outDim := (Ns.map GNode.outDim).sum
  training := Ns.any GNode.training
  exec := fun x => layExec x Ns 0
  grad := layGrad (Ns.map GNode.outDim).sum (Ns.map GNode.inDim).sum Ns

/-- A `SameInputLayer` (layer.py:288-363) inherits the gradient of `Layer`; `input_dim` is that of the nodes. -/
def sameInput (d : Nat) (Ns : List (GNode R)) : GNode R where
  inDim := d
  outDim := (Ns.map GNode.outDim).sum
  training := Ns.any GNode.training
  exec := fun x => Ns.flatMap fun N => N.exec x
  grad := layGrad (Ns.map GNode.outDim).sum d Ns

/-- A node without a gradient (gradient.py:66-72), e.g. `FlowNode` or, in a layer, `Switchboard`. -/
def noGrad (i o : Nat) (exec : List R → List R) : GNode R where
  inDim := i
  outDim := o
  training := false
  exec := exec
  grad := fun _ => .error .notImplemented

/-! ### Messages -/

/-- gradient.py:48-51: the initial value of `grad`. -/
def initGrad (d : Nat) : Option (Jac R) → Except Err (Jac R)
  | some g => .ok g
  | none => setDiag (zeros R d d) d

/-- gradient.py:36-64 `_gradient`. -/
def gradient (N : GNode R) (x : List R) (g : Option (Jac R)) : Except Err (List R × Jac R) := do
  if N.training then .error .training
  let g ← initGrad N.inDim g
  let new ← N.grad x
  let g ← dot new g
  return (N.exec x, g)

/-- gradient.py:151-168 `_switchboard_gradient`; the connections are not negative. -/
def switchGradient (d : Nat) (conns : List Nat) (x : List R) (g : Option (Jac R)) : Except Err (List R × Jac R) := do
  let g ← initGrad d g
  if conns.all fun c => c < g.rows then
    return (conns.map fun c => x.getD c 0, ⟨conns.length, g.cols, fun k j => g.e (conns.getD k 0) j⟩)
  else .error .index

/-- bilayer.py:311-320: `hsplit` of `grad` cuts its rows, if their number can be divided by the number of nodes. -/
def splitGrad (n i : Nat) : Option (Jac R) → Option (Jac R)
  | none => none
  | some g =>
    if g.rows % n = 0 then some ⟨g.rows / n, g.cols, fun k j => g.e (i * (g.rows / n) + k) j⟩
    else some g

/-- `n.hstack` of the matrices of the nodes: rows one below the other. -/
def stackRows : Jac R → Jac R → Except Err (Jac R)
  | A, B => if A.cols = B.cols then .ok ⟨A.rows + B.rows, A.cols, fun k j => if k < A.rows then A.e k j else B.e (k - A.rows) j⟩
    else .error .value

/-- bilayer.py:106-145, 321-341: the nodes `i, …, i + n - 1` of `tot` nodes, with results side by side. -/
def cloneLoop (N : GNode R) (tot : Nat) (x : List R) (g : Option (Jac R)) : Nat → Nat → Except Err (List R × Option (Jac R))
  | _, 0 => .ok ([], none)
  | i, n + 1 => do
    let nd := x.length / tot
    let r ← gradient N (slice x (nd * i) (nd * (i + 1))) (splitGrad tot i g)
    let q ← cloneLoop N tot x g (i + 1) n
    match q.2 with
    | none => return (r.1 ++ q.1, some r.2)
    | some J => do
      let J' ← stackRows r.2 J
      return (r.1 ++ q.1, some J')

/-- A `CloneBiLayer` of `n` nodes that gets `method: 'gradient'`: `_get_method` (bilayer.py:90-96) leaves the method to the
nodes. -/
def cloneGradient (N : GNode R) (n : Nat) (x : List R) (g : Option (Jac R)) : Except Err (List R × Jac R) := do
  let r ← cloneLoop N n x g 0 n
  match r.2 with
  | none => .error .value
  | some J => return (r.1, J)

/-- Nodes of a flow. -/
inductive El (R : Type) where
  | node (N : GNode R)
  | switch (d : Nat) (conns : List Nat)
  | clone (N : GNode R) (n : Nat)

def El.gradient : El R → List R → Option (Jac R) → Except Err (List R × Jac R)
  | .node N => Gradient.gradient N
  | .switch d c => switchGradient d c
  | .clone N n => cloneGradient N n

/-- `flow.execute(x, {'method': 'gradient'})`. -/
def gradFlow : List (El R) → List R → Option (Jac R) → Except Err (List R × Option (Jac R))
  | [], x, g => .ok (x, g)
  | E :: Es, x, g => do
    let r ← E.gradient x g
    gradFlow Es r.1 (some r.2)

/-- bilayer.py:106-145 without messages. -/
def cloneExec (N : GNode R) (tot : Nat) (x : List R) : Nat → Nat → List R
  | _, 0 => []
  | i, n + 1 => N.exec (slice x (x.length / tot * i) (x.length / tot * (i + 1))) ++ cloneExec N tot x (i + 1) n

/-- `execute` of a node of a flow. -/
def El.exec : El R → List R → List R
  | .node N, x => N.exec x
  | .switch _ c, x => c.map fun k => x.getD k 0
  | .clone N n, x => cloneExec N n x 0 n

/-- `flow.execute(x)`. -/
def execFlow : List (El R) → List R → List R
  | [], x => x
  | E :: Es, x => execFlow Es (E.exec x)

end Bi.Gradient
