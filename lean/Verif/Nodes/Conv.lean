import Mathlib.Data.Real.Basic
import Mathlib.Algebra.BigOperators.Group.Finset.Basic

/-!
# Model of `Convolution2DNode` (mdp/nodes/convolution_nodes.py)

Numbers are real numbers. `scipy.signal.fftconvolve` and `convolve2d` are modelled by their documented results (`conv`): the full convolution of the
image continued beyond its border, or a part of it. Images and filters have at least one row and column; dtypes are left out. An exception after
attributes were set keeps them.
-/

namespace Mdp.Conv

inductive Err where
  /-- `NodeException` -/
  | node
  /-- `ValueError` of numpy or scipy -/
  | value
deriving DecidableEq

inductive Mode where
  | full
  | same
  | valid
deriving DecidableEq

/-- `boundary` and `fillvalue`. -/
inductive Boundary where
  | fill (v : ℝ)
  | wrap
  | symm

/-- `filters`: an array with three axes. -/
structure Filters where
  n : Nat
  h : Nat
  w : Nat
  get : Nat → Nat → Nat → ℝ

/-- The argument of `execute`: flattened images, images, or an array of another rank. -/
inductive Data where
  | flat (n d : Nat) (get : Nat → Nat → ℝ)
  | images (n h w : Nat) (get : Nat → Nat → Nat → ℝ)
  | other

/-- The attributes (89-113). `boundary` is `fill 0` for the approach `'fft'`, which ignores it. -/
structure Node where
  filters : Filters
  inputShape : Option (Nat × Nat)
  inputDim : Option Nat
  mode : Mode
  boundary : Boundary
  output2d : Bool
  outputShape : Option (Int × Int)
  outputDim : Option Int

/-- `__init__` (30-113) for arguments of the right types. -/
def Node.new (filters : Filters) (inputShape : Option (Nat × Nat)) (inputDim : Option Nat) (mode : Mode) (boundary : Boundary) (output2d : Bool) :
    Node := ⟨filters, inputShape, inputDim, mode, boundary, output2d, none, none⟩

/-- `set_filters` (119-125): nothing else is changed. -/
def Node.setFilters (nd : Node) (f : Filters) : Node := { nd with filters := f }

/-- `_output_shape` (207-219). -/
def shapeFor (mode : Mode) (s : Nat × Nat) (f : Filters) : Int × Int :=
  match mode with
  | .same => (s.1, s.2)
  | .full => (s.1 + f.h - 1, s.2 + f.w - 1)
  | .valid => (s.1 - f.h + 1, s.2 - f.w + 1)

/-- `x.shape[0]` and the product of the others. -/
def Data.size : Data → Nat × Nat
  | .flat n d _ => (n, d)
  | .images n h w _ => (n, h * w)
  | .other => (0, 0)

/-- `_input_shape` is found if it is missing (184-192); the product of the two is the input dimension if that is missing (194-196). -/
def findShape (nd : Node) (x : Data) : Except Err Node :=
  match x with
  | .other => .error .node
  | .flat _ _ _ => match nd.inputShape with
    | none => .error .node
    | some s => .ok { nd with inputDim := some (nd.inputDim.getD (s.1 * s.2)) }
  | .images _ h w _ =>
    let s := nd.inputShape.getD (h, w)
    .ok { nd with inputShape := some s, inputDim := some (nd.inputDim.getD (s.1 * s.2)) }

/-- `_pre_execution_checks` (170-224): the node afterwards, and whether it raised. -/
def Node.check (nd : Node) (x : Data) : Node × Option Err :=
  match findShape nd x with
  | .error e => (nd, some e)
  | .ok nd =>
    if x.size.2 ≠ nd.inputDim.getD 0 then (nd, some .node)
    else
      let nd := match nd.outputDim, nd.inputShape with
        | none, some s =>
          let o := shapeFor nd.mode s nd.filters
          { nd with outputShape := some o, outputDim := some (nd.filters.n * (o.1 * o.2)) }
        | _, _ => nd
      (nd, if x.size.1 = 0 then some .node else none)

/-- The image continued beyond its border. -/
def ext (b : Boundary) (h w : Nat) (im : Nat → Nat → ℝ) (i j : Int) : ℝ :=
  match b with
  | .fill v => if 0 ≤ i ∧ i < h ∧ 0 ≤ j ∧ j < w then im i.toNat j.toNat else v
  | .wrap => im (i % h).toNat (j % w).toNat
  | .symm =>
    let r (n : Nat) (k : Int) : Nat := (if k % (2 * n) < n then k % (2 * n) else 2 * n - 1 - k % (2 * n)).toNat
    im (r h i) (r w j)

/-- The element of the full convolution. -/
def fullAt (b : Boundary) (h w : Nat) (im : Nat → Nat → ℝ) (fh fw : Nat) (flt : Nat → Nat → ℝ) (i j : Nat) : ℝ :=
  ∑ a ∈ Finset.range fh, ∑ c ∈ Finset.range fw, flt a c * ext b h w im ((i : Int) - a) ((j : Int) - c)

/-- `signal.fftconvolve` or `signal.convolve2d` of an image and a filter: the shape and the elements. In the mode `'valid'` scipy exchanges the two if
the filter is larger in both directions, and raises if it is larger in one; the result never fits into `y` then (whose shape has a
negative length, or zero where the result has two), so both are `none`. -/
def conv (mode : Mode) (b : Boundary) (h w : Nat) (im : Nat → Nat → ℝ) (fh fw : Nat) (flt : Nat → Nat → ℝ) : Option (Nat × Nat × (Nat → Nat → ℝ)) :=
  match mode with
  | .full => some (h + fh - 1, w + fw - 1, fullAt b h w im fh fw flt)
  | .same => some (h, w, fun i j => fullAt b h w im fh fw flt (i + (fh - 1) / 2) (j + (fw - 1) / 2))
  | .valid =>
    if fh ≤ h ∧ fw ≤ w then some (h - fh + 1, w - fw + 1, fun i j => fullAt b h w im fh fw flt (i + (fh - 1)) (j + (fw - 1)))
    else none

/-- `y[n_im,n_flt,:,:] = …` (237-243): the two shapes agree, or an axis of length one is repeated. -/
def fit (oh ow : Nat) (r : Nat × Nat × (Nat → Nat → ℝ)) : Option (Nat → Nat → ℝ) :=
  if (r.1 = oh ∨ r.1 = 1) ∧ (r.2.1 = ow ∨ r.2.1 = 1) then
    some fun i j => r.2.2 (if r.1 = 1 then 0 else i) (if r.2.1 = 1 then 0 else j)
  else none

/-- The result of `execute`: an array with two or four axes. -/
inductive Out where
  | flat (n d : Nat) (get : Nat → Nat → ℝ)
  | four (n f h w : Nat) (get : Nat → Nat → Nat → Nat → ℝ)

/-- The image number `t` (232-234): its shape and elements. -/
def image (x : Data) (shape : Nat × Nat) (t : Nat) : Nat × Nat × (Nat → Nat → ℝ) :=
  match x with
  | .flat _ _ g => (shape.1, shape.2, fun i j => g t (i * shape.2 + j))
  | .images _ h w g => (h, w, g t)
  | .other => (0, 0, fun _ _ => 0)

/-- `im.reshape(input_shape)` (233-234) does not raise. -/
def Data.reshapes (x : Data) (shape : Nat × Nat) : Bool :=
  match x with
  | .flat _ d _ => d == shape.1 * shape.2
  | _ => true

/-- All assignments (232-243) succeed: the elements of `y`. -/
def collect (n k : Nat) (v : Nat → Nat → Option (Nat → Nat → ℝ)) : Option (Nat → Nat → Nat → Nat → ℝ) :=
  if (∀ t ∈ List.range n, ∀ f ∈ List.range k, (v t f).isSome) then
    some fun t f i j => ((v t f).getD fun _ _ => 0) i j
  else none

/-- `y.resize((n, d))` (247) of the array `y` with the given elements: in the order of memory, cut off or continued with zeros. -/
def resize (n k h w : Nat) (get : Nat → Nat → Nat → Nat → ℝ) (d : Nat) : Out :=
  .flat n d fun t q =>
    let p := t * d + q
    if p < n * k * h * w then get (p / (k * h * w)) (p / (h * w) % k) (p / w % h) (p % w) else 0

/-- `_execute` (226-249). -/
def Node.run (nd : Node) (x : Data) : Except Err Out :=
  match nd.outputShape, nd.inputShape, nd.outputDim with
  | some (oh, ow), some s, some d =>
    if oh < 0 ∨ ow < 0 ∨ !x.reshapes s then .error .value
    else
      let n := x.size.1
      match collect n nd.filters.n fun t f =>
          let im := image x s t
          (conv nd.mode nd.boundary im.1 im.2.1 im.2.2 nd.filters.h nd.filters.w (nd.filters.get f)).bind (fit oh.toNat ow.toNat) with
      | none => .error .value
      | some g => .ok (if nd.output2d then resize n nd.filters.n oh.toNat ow.toNat g d.toNat else .four n nd.filters.n oh.toNat ow.toNat g)
  | _, _, _ => .error .value

/-- `execute`. -/
def Node.execute (nd : Node) (x : Data) : Node × Except Err Out :=
  match nd.check x with
  | (nd, some e) => (nd, .error e)
  | (nd, none) => (nd, nd.run x)

end Mdp.Conv
