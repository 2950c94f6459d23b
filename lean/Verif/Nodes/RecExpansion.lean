import Verif.Py.Loop
import Verif.Nodes.Expansion
import Mathlib.Algebra.Field.Defs
import Mathlib.Order.Lattice

/-!
# Model of the recursive expansions (nodes/recursive_expansion_nodes.py)

`_execute` treats all samples in the same way; except for the domain check and the normalisation the model looks at one
row. `result` is the list of the entries of that row. Exact arithmetic in a field.
-/

namespace Mdp.RecExp

open Mdp.Expansion (expandedDim slice write)

variable {F : Type} [Field F] {n : Nat}

/-- `result[:, pos] = v`: an `IndexError` (`none`) if there is no such column. -/
def put (buf : List F) (pos : Nat) (v : F) : Option (List F) :=
  if pos < buf.length then some (buf.set pos v) else none

/-- What an init function returns besides the changed array: the next position, the next order and `special`. -/
structure Init (F : Type) where
  buf : List F
  pos : Nat
  order : Nat
  special : Option Nat

/-- The names accepted for `recf` (427-434). Functions supplied by the user are not modelled. -/
inductive Kind
  | standard | legendre | rational | chebyshev
  deriving DecidableEq

/-- `init_standard_poly` (45-89). The argument `x` stands for `x[:, cur_var]`. -/
def initStandard (result : List F) (x : F) (pos : Nat) : Option (Init F) := do
  let result ← put result pos x
  some ⟨result, pos + 1, 2, some pos⟩

/-- `recf_standard_poly` (92-154). -/
def recfStandard (result : List F) (special : Option Nat) (pos : Nat) : Option F := do
  let a ← result[pos - 1]?
  let b ← result[← special]?
  some (a * b)

/-- `init_legendre_poly` (157-196). -/
def initLegendre (result : List F) (x : F) (pos : Nat) : Option (Init F) := do
  let result ← put result pos x
  let a ← result[pos]?
  let result ← put result (pos + 1) (3 / 2 * a * a - 1 / 2)
  some ⟨result, pos + 2, 3, some pos⟩

/-- `recf_legendre_poly` (199-243). -/
def recfLegendre (result : List F) (special : Option Nat) (n pos : Nat) : Option F := do
  let s ← result[← special]?
  let a ← result[pos - 1]?
  let b ← result[pos - 2]?
  some ((2 * n - 1) / n * s * a - (n - 1) / n * b)

/-- `init_legendre_rational` (246-286). Division by zero (`x = -1`) gives infinity or nan in numpy; the theorems
exclude it. -/
def initRational (result : List F) (x : F) (pos : Nat) : Option (Init F) := do
  let result ← put result pos ((x - 1) / (x + 1))
  let a ← result[pos]?
  let result ← put result (pos + 1) (3 / 2 * (x - 1) / (x + 1) * a - 1 / 2)
  some ⟨result, pos + 2, 3, none⟩

/-- `recf_legendre_rational` (289-333). -/
def recfRational (result : List F) (x : F) (n pos : Nat) : Option F := do
  let a ← result[pos - 1]?
  let b ← result[pos - 2]?
  some ((2 * n - 1) / n * (x - 1) / (x + 1) * a - (n - 1) / n * b)

/-- `init_chebyshev_poly` (336-375). -/
def initChebyshev (result : List F) (x : F) (pos : Nat) : Option (Init F) := do
  let result ← put result pos x
  let a ← result[pos]?
  let result ← put result (pos + 1) (2 * x * a - 1)
  some ⟨result, pos + 2, 3, some pos⟩

/-- `recf_chebyshev_poly` (378-423). -/
def recfChebyshev (result : List F) (x : F) (pos : Nat) : Option F := do
  let a ← result[pos - 1]?
  let b ← result[pos - 2]?
  some (2 * x * a - b)

/-- `self.r_init` (509-511, 427-434). -/
def Kind.init : Kind → List F → F → Nat → Option (Init F)
  | .standard => initStandard
  | .legendre => initLegendre
  | .rational => initRational
  | .chebyshev => initChebyshev

/-- `self.recf` (513, 427-434). -/
def Kind.recf : Kind → List F → F → Option Nat → Nat → Nat → Option F
  | .standard => fun r _ s _ pos => recfStandard r s pos
  | .legendre => fun r _ s n pos => recfLegendre r s n pos
  | .rational => fun r x _ n pos => recfRational r x n pos
  | .chebyshev => fun r x _ _ pos => recfChebyshev r x pos

/-- One round of the loop over the orders (583-586). -/
def recStep (k : Kind) (x : F) (special : Option Nat) (p : List F × Nat) (n : Nat) : Option (List F × Nat) := do
  let v ← k.recf p.1 x special n p.2
  let buf ← put p.1 p.2 v
  some (buf, p.2 + 1)

/-- One round of the loop over the variables (577-586). `while n <= deg` with `n += 1` in each round runs over
`n, …, deg`. -/
def single (k : Kind) (deg : Nat) (p : List F × Nat) (x : F) : Option (List F × Nat) := do
  let i ← k.init p.1 x p.2
  (List.range' i.order (deg + 1 - i.order)).foldlM (recStep k x i.special) (i.buf, i.pos)

/-- The array, the next position and the list of blocks still to be multiplied: `(off, leadVar, leadDeg)`. -/
structure St (F : Type) where
  buf : List F
  pos : Nat
  todo : List (Nat × Nat × Nat)

/-- The body of the inner loop of `process` (446-453). `k` has been increased once for each earlier `d`. A factor
outside the array is an exception in the model; the theorems show that this does not happen. -/
def processDeg (off leadVar leadDeg deg v : Nat) (s : St F) (d : Nat) : Option (St F) := do
  let l := deg + 1 - leadDeg - d
  let k := 1 + deg * v + (d - 1)
  let a := slice s.buf (1 + off) (1 + off + l)
  let b ← s.buf[k]?
  let buf ← if a.length = l then write s.buf s.pos (a.map (· * b)) else none
  some ⟨buf, s.pos + l, if l > 1 ∧ leadVar > 0 then s.todo ++ [(s.pos - 1, v, leadDeg + d)] else s.todo⟩

/-- The body of the outer loop of `process` (442-453). -/
def processVar (off leadVar leadDeg deg : Nat) (s : St F) (v : Nat) : Option (St F) :=
  (List.range' 1 (deg - leadDeg)).foldlM (processDeg off leadVar leadDeg deg v) s

/-- `process` (437-455). -/
def process (off leadVar leadDeg deg : Nat) (s : St F) : Option (St F) :=
  (List.range leadVar).foldlM (processVar off leadVar leadDeg deg) s

/-- `while len(todoList) > 0` (601-603): the first entry is taken off the list. -/
def todoStep (deg : Nat) (s : St F) : St F ⊕ Option (List F) :=
  match s.todo with
  | [] => .inr (some s.buf)
  | t :: ts =>
    match process t.1 t.2.1 t.2.2 deg { s with todo := ts } with
    | none => .inr none
    | some s' => .inl s'

/-- `np.empty([num_samples, dim])`, with arbitrary contents (565-568): `dim` counts the constant function also if
`with0` is not set. -/
def empty (deg : Nat) (n : Nat) (junk : Nat → F) : List F :=
  (List.range (expandedDim deg n + 1).toNat).map junk

/-- The first part of `_execute` (573-591) for `deg ≥ 1`. -/
def firsts (k : Kind) (deg : Nat) (x : Fin n → F) (junk : Nat → F) : Option (List F × Nat) := do
  let result ← put (empty deg n junk) 0 1
  if deg > 1 then
    ((List.finRange n).map x).foldlM (single k deg) (result, 1)
  else do
    let result ← put result 0 1
    let result ← (List.finRange n).foldlM (fun r (i : Fin n) => put r (i.1 + 1) (x i)) result
    some (result, 1)

/-- `todoList` at the beginning (597-599). -/
def todo0 (deg n : Nat) : List (Nat × Nat × Nat) := (List.range' 1 (n - 1)).map fun i => (i * deg, i, 1)

/-- What `_execute` returns for a row: `None`, an exception, or the row of the result. -/
inductive Res (F : Type)
  | none
  | error
  | row (r : List F)

/-- `RecursiveExpansionNode._execute` (547-604) returns `r`. A negative degree is not modelled. -/
def Executes (k : Kind) (deg : Nat) (with0 : Bool) (x : Fin n → F) (junk : Nat → F) (r : Res F) : Prop :=
  if deg = 0 then
    r = if with0 then .row (List.replicate n 1) else .none
  else
    match firsts k deg x junk with
    | .none => r = .error
    | .some p => ∃ o, Py.Returns (todoStep deg) ⟨p.1, p.2, todo0 deg n⟩ o ∧
        r = match o with
          | .none => .error
          | .some b => .row (if with0 then b else b.drop 1)

/-- `expanded_dim` (532-545), which is also `output_dim`. -/
def outDim (deg : Nat) (with0 : Bool) (n : Nat) : Int :=
  if with0 then expandedDim deg n + 1 else expandedDim deg n

/-! ## Normalisation -/

variable [LinearOrder F]

/-- A bound of the domain: a number, or infinity. -/
inductive Bound (F : Type)
  | inf
  | val (b : F)

/-- The domains (427-434): lower and upper bound, `inf` meaning `-Inf` resp. `Inf`. -/
def Kind.domain : Kind → Bound F × Bound F
  | .standard => (.inf, .inf)
  | .legendre => (.val (-1), .val 1)
  | .rational => (.val 0, .inf)
  | .chebyshev => (.val (-1), .val 1)

/-- `np.amax` of a non-empty list; `none` for an empty one, for which numpy raises a `ValueError`. -/
def amax : List F → Option F
  | [] => none
  | a :: l => some (l.foldl max a)

/-- `np.amin`. -/
def amin : List F → Option F
  | [] => none
  | a :: l => some (l.foldl min a)

/-- All entries of an array. -/
def entries (xs : List (Fin n → F)) : List F := xs.flatMap fun x => (List.finRange n).map x

/-- `check_domain` (606-625): `some true` if it passes, `some false` for the `NodeException`. -/
def checkDomain (dom : Bound F × Bound F) (prec : F) (xs : List (Fin n → F)) : Option Bool := do
  let xmax := (← amax (entries xs)) - prec
  let xmin := (← amin (entries xs)) + prec
  let above := match dom.2 with
    | .inf => false
    | .val u => decide (u < xmax)
  let below := match dom.1 with
    | .inf => false
    | .val l => decide (xmin < l)
  some (!(above || below))

/-- The extrema collected during training (681-684). -/
structure Range (F : Type) (n : Nat) where
  amaxcolumn : Fin n → F
  amincolumn : Fin n → F
  amax : F
  amin : F

/-- `amax(x, axis=0)` of a chunk with first row `x` and further rows `xs`. -/
def colMax (x : Fin n → F) (xs : List (Fin n → F)) : Fin n → F := fun j => xs.foldl (fun m y => max m (y j)) (x j)

/-- `amin(x, axis=0)`. -/
def colMin (x : Fin n → F) (xs : List (Fin n → F)) : Fin n → F := fun j => xs.foldl (fun m y => min m (y j)) (x j)

/-- `_train` (696-715). `none`: an exception (no rows or no columns). -/
def train (s : Option (Range F n)) (xs : List (Fin n → F)) : Option (Range F n) :=
  match xs with
  | [] => none
  | x :: xs => do
    let hi := match s with
      | none => colMax x xs
      | some r => fun j => max (r.amaxcolumn j) (colMax x xs j)
    let lo := match s with
      | none => colMin x xs
      | some r => fun j => min (r.amincolumn j) (colMin x xs j)
    some ⟨hi, lo, ← RecExp.amax ((List.finRange n).map hi), ← RecExp.amin ((List.finRange n).map lo)⟩

/-- Training with a sequence of chunks. -/
def trainAll (s : Option (Range F n)) : List (List (Fin n → F)) → Option (Option (Range F n))
  | [] => some s
  | c :: cs => do
    let r ← train s c
    trainAll (some r) cs

/-- `domain_transformation`, made by `_stop_training` (717-781). All branches but the identity change their argument in
place; the new contents are the value of this function. The attributes `lower`, `upper` are never `None` here. -/
def transform (dom : Bound F × Bound F) (r : Range F n) (x : Fin n → F) : Fin n → F :=
  match dom with
  | (.inf, .inf) => x
  | (.inf, .val upper) => fun j => x j - max (r.amaxcolumn j - upper) 0
  | (.val lower, .inf) => fun j => x j - min (r.amincolumn j - lower) 0
  | (.val lower, .val upper) =>
    let mean := lower + (upper - lower) / 2
    let dev := upper - lower
    let datamaxdev := r.amax - r.amin
    let datamean := (r.amax + r.amin) / 2
    if r.amax < upper ∧ r.amin > lower then x
    else if datamaxdev < dev then fun j => x j + (-datamean + mean)
    else fun j => (x j + (-datamean + mean * datamaxdev / dev)) * (dev / datamaxdev)

/-- `execute` of a trained `NormalizingRecursiveExpansionNode` (686-694; signal_node.py 641-654, 561-563; routines.py
83-90) for an array with rows `xs`, as far as the argument is concerned: the contents of the caller's array
afterwards, and the rows that are checked and expanded. `same`: the array already has the dtype of the node, then
`refcast` returns the array itself, otherwise a copy. -/
def executeArg (dom : Bound F × Bound F) (r : Range F n) (same : Bool) (xs : List (Fin n → F)) :
    List (Fin n → F) × List (Fin n → F) :=
  let ys := xs.map (transform dom r)
  (if same then ys else xs, ys)

/-- `execute`: the caller's array afterwards, and either the rows passed on to the expansion or an exception of
the check (570-571). -/
def normExecute (dom : Bound F × Bound F) (r : Range F n) (check : Bool) (prec : F) (same : Bool)
    (xs : List (Fin n → F)) : List (Fin n → F) × Option (List (Fin n → F)) :=
  let p := executeArg dom r same xs
  (p.1, if check then (if checkDomain dom prec p.2 = some true then some p.2 else none) else some p.2)

end Mdp.RecExp
