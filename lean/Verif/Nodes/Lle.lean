import Verif.Utils.Symeig
import Mathlib.LinearAlgebra.Matrix.Adjugate
import Mathlib.Algebra.Order.Floor.Ring

/-!
# Model of `LLENode` and `HLLENode` (mdp/nodes/lle_nodes.py)

The routines of the numerical library are parameters: `argsort` (any order of equal distances), singular values, `eigh`,
`svd`, `qr` and the square root. Numbers are exact, elements of an ordered field; a system of linear equations is solved by
Cramer's rule and refused if its determinant is zero (`LinAlgError`). The checks of `Node.train`, `Node.stop_training` and
`Node.execute`, `verbose`, and warnings are not part of the model. The training data are the concatenation of the chunks
(`Cumulator`, see Verif/Node/Cumulator.lean). A matrix of column vectors is the list of its columns.
-/

namespace Mdp.Lle

open Mdp.Cov Mdp.Symeig

inductive Err where
  /-- TrainingException -/
  | training
  /-- IndexError -/
  | index
  /-- ValueError: shapes that do not fit, `int` of NaN -/
  | value
  /-- LinAlgError: singular matrix -/
  | singular
  /-- SymeigException -/
  | symeig
deriving DecidableEq

/-- The numerical library. `argsort`: indices in ascending order of the keys; `sing`: `svd(A, compute_uv=0)`; `svd`: the
singular values of `svd(A)` with the rows of its third result; `left`: the columns of its first result, in the order of
descending singular values; `qr`: the columns of the first result of `qr(A)`, for `A` given by its columns. -/
structure Env (F : Type) where
  argsort : (n : Nat) → (Fin n → F) → List (Fin n)
  sing : (n m : Nat) → Mat F n m → List F
  eig : Symeig.Env F
  svd : (n m : Nat) → Mat F n m → List (F × Row F m)
  left : (n m : Nat) → Mat F n m → List (Row F n)
  qr : (n : Nat) → List (Row F n) → List (Row F n)

/-- The arguments of the constructor (46-96): `variance` is a float `output_dim` that is at most one, then `out` is
`None`. -/
structure Cfg (F : Type) where
  k : Nat
  r : Option F
  svd : Bool := false
  out : Option Nat := none
  variance : Option F := none

variable {F : Type} [Field F] [LinearOrder F] {d N : Nat}

/-- `argsort((M_Mi**2).sum(1))` with `M_Mi = M - x` (155-156, 244-245, 299-300). -/
def nearest (E : Env F) (M : Fin N → Row F d) (x : Row F d) : List (Fin N) := E.argsort N fun a => ∑ c, (M a c - x c) ^ 2

/-- `M_Mi[nbrs]` (157, 246, 301). -/
def diffs (M : Fin N → Row F d) (x : Row F d) (nb : List (Fin N)) : Mat F nb.length d := fun j c => M (nb.get j) c - x c

/-- `Q = mult(M_Mi, M_Mi.T)` (159, 248, 304). -/
def gram (M : Fin N → Row F d) (x : Row F d) (nb : List (Fin N)) : Matrix (Fin nb.length) (Fin nb.length) F :=
  Matrix.of fun i j => ∑ c, diffs M x nb i c * diffs M x nb j c

/-- `solve(Q, ones(k))`. -/
def solveOnes {n : Nat} (Q : Matrix (Fin n) (Fin n) F) : Option (Fin n → F) :=
  if Q.det = 0 then none else some fun j => Q.cramer (fun _ => 1) j / Q.det

/-- The diagonal correction and the weights (165-188, 305-314): `Q[arange(k), arange(k)] += reg` is an IndexError if there
are less than `k` neighbours. -/
def weights {n : Nat} (k : Nat) (Q : Matrix (Fin n) (Fin n) F) (reg : F) : Except Err (Fin n → F) :=
  if n < k then .error .index
  else match solveOnes (Q + reg • 1) with
    | none => .error .singular
    | some w => .ok fun j => w j / ∑ i, w i

/-- `W[nbrs, row] = w` (191), `W[row, nbrs] = w` (315): one column (row) of the matrix of weights. -/
def put (nb : List (Fin N)) (w : Fin nb.length → F) (a : Fin N) : F :=
  match (List.finRange nb.length).find? fun j => nb.get j = a with
  | some j => w j
  | none => 0

/-- `numx.sum(sig2[output_dim:])` with the squares of the singular values of the differences (171-175, 306-307). -/
def unused (E : Env F) (out : Nat) (M : Fin N → Row F d) (x : Row F d) (nb : List (Fin N)) : F :=
  (((E.sing nb.length d (diffs M x nb)).map (· ^ 2)).drop out).sum

/-- One pass of the loop of `_stop_training` (147-191). The neighbours, products and singular values of
`_adjust_output_dim` are the same. -/
def trainRow (E : Env F) (c : Cfg F) (out : Nat) (M : Fin N → Row F d) (i : Fin N) : Except Err (Fin N → F) :=
  let nb := ((nearest E M (M i)).drop 1).take c.k
  let Q := gram M (M i) nb
  let reg := match c.r with
    | none => unused E out M (M i) nb
    | some r => r * ∑ j, Q j j
  match weights c.k Q reg with
  | .error e => .error e
  | .ok w => .ok (put nb w)

/-- A loop over all rows; the first failure ends it. -/
def loop {α : Type} (dflt : α) (f : Fin N → Except Err α) : Except Err (Fin N → α) :=
  match (List.finRange N).findSome? fun i => match f i with
    | .error e => some e
    | .ok _ => none with
  | some e => .error e
  | none => .ok fun i => match f i with
    | .ok w => w
    | .error _ => dflt

/-- `nongeneral_svd(A, range=(lo, hi))` (mdp/utils/routines.py 299-311). -/
def nsvd (E : Env F) {n m : Nat} (A : Mat F n m) (rng : Nat × Nat) : List (F × Row F m) :=
  slice rng ((E.svd n m A).insertionSort fun a b => a.1 ≤ b.1)

/-- `W[W_diag_idx, W_diag_idx] -= 1` (202). -/
def minusOne (W : Matrix (Fin N) (Fin N) F) : Mat F N N := fun a i => W a i - if a = i then 1 else 0

/-- The null space of `W - 1` (199-219), as list of columns. -/
def embedding (E : Env F) (c : Cfg F) (out : Nat) (W : Matrix (Fin N) (Fin N) F) : Except Err (List (Row F N)) :=
  if c.svd then .ok ((nsvd E (fun i j => minusOne W j i) (2, out + 1)).map (·.2))
  else match E.eig.std (fun a b => ∑ i, minusOne W a i * minusOne W b i + if a = b then 1 / 10 else 0) (some (2, out + 1)) with
    | .error _ => .error .symeig
    | .ok l => .ok (l.map (·.2))

/-- The number of dimensions needed at one point (256-272); `sig2` are the squares of the singular values. With
`sig2.sum() == 0` the result is NaN. -/
def estimate (v : F) (sig2 : List F) : Except Err F :=
  if sig2.sum = 0 then .error .value
  else
    let s := sig2.map (· / sig2.sum)
    let S := (List.range s.length).map fun j => (s.take (j + 1)).sum
    let m := S.findIdx fun a => v ≤ a
    match s[m]? with
    | none => .error .index
    | some a => if 0 < m then .ok (m + (v - S.getD (m - 1) 0) / a) else .ok (v / a)

/-- `numx.median`. -/
def median (l : List F) : F :=
  let l := l.insertionSort (· ≤ ·)
  if l.length % 2 = 1 then l.getD (l.length / 2) 0 else (l.getD (l.length / 2 - 1) 0 + l.getD (l.length / 2) 0) / 2

/-- `_adjust_output_dim` (221-282). With less than `k` neighbours the assignments `Qs[row, :, :] = …` do not fit (for two
points and `k = 2` the array of one element is repeated; this is not modelled). -/
def adjust [FloorRing F] [IsStrictOrderedRing F] (E : Env F) (k : Nat) (v : F) (M : Fin N → Row F d) : Except Err Nat :=
  match loop 0 fun i =>
    let nb := ((nearest E M (M i)).drop 1).take k
    if nb.length < k then (.error .value : Except Err F)
    else estimate v ((E.sing nb.length d (diffs M (M i) nb)).map (· ^ 2)) with
  | .error e => .error e
  | .ok f => .ok ⌈median ((List.finRange N).map f)⌉₊

/-- The node after training. -/
structure Res (F : Type) (N d : Nat) where
  data : Fin N → Row F d
  W : Matrix (Fin N) (Fin N) F
  proj : List (Row F N)
  out : Nat

/-- The number of output dimensions (122-137). -/
def outDim [FloorRing F] [IsStrictOrderedRing F] (E : Env F) (c : Cfg F) (M : Fin N → Row F d) : Except Err Nat :=
  match c.out, c.variance with
  | some o, _ => .ok o
  | none, none => .ok d
  | none, some v => adjust E c.k v M

/-- `_stop_training` (98-219). -/
def stop [FloorRing F] [IsStrictOrderedRing F] (E : Env F) (c : Cfg F) (M : Fin N → Row F d) : Except Err (Res F N d) :=
  if c.k > N then .error .training
  else match outDim E c M with
    | .error e => .error e
    | .ok out => match loop (fun _ => 0) (trainRow E c out M) with
      | .error e => .error e
      | .ok cols =>
        let W : Matrix (Fin N) (Fin N) F := Matrix.of fun a i => cols i a
        match embedding E c out W with
        | .error e => .error e
        | .ok proj => .ok ⟨M, W, proj, out⟩

/-- One pass of the loop of `_execute` (297-318): `r` is the local variable, which keeps the value computed for the first
row; in that pass it is added twice. -/
def execRow (E : Env F) (k : Nat) (t : Res F N d) (r : Option F) (x : Row F d) : Except Err (List F) × Option F :=
  let nb := (nearest E t.data x).take k
  let s := unused E t.out t.data x nb
  let now := r.isNone && decide (k > t.out)
  let reg1 := if now then s else 0
  let r := if now then some s else r
  let reg2 := match r with
    | some r => r
    | none => 0
  match weights k (gram t.data x nb) (reg1 + reg2) with
  | .error e => (.error e, r)
  | .ok w => (.ok (t.proj.map fun u => ∑ a, put nb w a * u a), r)

/-- `_execute` (284-318). -/
def execRows (E : Env F) (k : Nat) (t : Res F N d) : Option F → List (Row F d) → Except Err (List (List F))
  | _, [] => .ok []
  | r, x :: xs => match execRow E k t r x with
    | (.error e, _) => .error e
    | (.ok y, r) => match execRows E k t r xs with
      | .error e => .error e
      | .ok ys => .ok (y :: ys)

def execute (E : Env F) (c : Cfg F) (t : Res F N d) (xs : List (Row F d)) : Except Err (List (List F)) :=
  execRows E c.k t c.r xs

/-! ## Hessian LLE -/

/-- `_mgs` (334-346): the columns of `q` and the norms `r[i, i]`, for a matrix given by its columns. -/
def mgs (sqrt : F → F) {m : Nat} : List (Row F m) → List (Row F m) × List F
  | [] => ([], [])
  | v :: vs =>
    let n := sqrt (∑ c, v c * v c)
    let q : Row F m := fun c => v c / n
    let rest := mgs sqrt (vs.map fun u c => u c - (∑ b, q b * u b) * q c)
    (q :: rest.1, n :: rest.2)
  termination_by l => l.length
  decreasing_by simp

/-- The products `nbrhd[i] * nbrhd[i:, :]` (499-503). -/
def products {k : Nat} : List (Row F k) → List (Row F k)
  | [] => []
  | u :: us => (u :: us).map (fun v c => u c * v c) ++ products us

/-- `Yi` (499-505) for the coordinates of the neighbours, as list of rows: ones, the coordinates, and their products
`i ≤ j`. -/
def forms {k : Nat} (nbrhd : List (Row F k)) : List (Row F k) :=
  ([fun _ => 1] : List (Row F k)) ++ nbrhd ++ products nbrhd

/-- `S = w.sum(0)`, small values replaced by one, `w / S` (519-525). -/
def scaleSum {k : Nat} (w : Row F k) : Row F k :=
  let S := ∑ c, w c
  let S := if |S| < 1 / 10000 then 1 else S
  fun c => w c / S

/-- The columns of weights of one row (482-525). -/
def hessRow (E : Env F) (out : Nat) (M : Fin N → Row F d) (nb : List (Fin N)) : List (Row F nb.length) :=
  let mean : Row F d := fun c => (∑ j, M (nb.get j) c) / (nb.length : F)
  let local' := (E.left nb.length d fun j c => M (nb.get j) c - mean c).take out
  let dp := out * (out + 1) / 2
  let w := if 1 + out + dp ≤ nb.length then ((E.qr nb.length (forms local')).take (out + 1 + dp)).drop (out + 1)
    else let q := (mgs E.eig.sqrt (forms local')).1
      q.drop (q.length - dp)
  w.map scaleSum

/-- `W[nbrs, …] = w / S` (525) for a row. With `k = N` there are only `N - 1` neighbours, and the array `Yi` of `k`
columns (499) does not fit. -/
def hessCols (E : Env F) (k out : Nat) (M : Fin N → Row F d) (i : Fin N) : Except Err (List (Row F N)) :=
  let nb := ((nearest E M (M i)).drop 1).take k
  if nb.length < k then .error .value else .ok ((hessRow E out M nb).map (put nb))

/-- `sqrtm(A)` (mdp/utils/routines.py 314-317). -/
def sqrtm (E : Env F) {m : Nat} (A : Mat F m m) : Except Err (Mat F m m) :=
  match E.eig.std A none with
  | .error _ => .error .symeig
  | .ok l => .ok fun i j => (l.map fun p => p.2 i * (E.eig.sqrt p.1 * p.2 j)).sum

/-- `_stop_training` of `HLLENode` (419-579); the result is `training_projection`, as list of columns. -/
def hstop [FloorRing F] [IsStrictOrderedRing F] (E : Env F) (c : Cfg F) (M : Fin N → Row F d) :
    Except Err (Nat × List (Row F N)) :=
  if c.k > N then .error .training
  else match outDim E c M with
    | .error e => .error e
    | .ok out =>
      if min c.k N ≤ out then .error .training
      else match loop [] (hessCols E c.k out M) with
        | .error e => .error e
        | .ok cols =>
          let cs := (List.finRange N).flatMap cols
          let WW : Mat F N N := fun a b => (cs.map fun w => w a * w b).sum
          let U := if c.svd then (.ok (nsvd E (n := cs.length) (fun i j => cs.get i j) (2, out + 1)) : Except Err _)
            else match E.eig.std (fun a b => WW a b + if a = b then 1 / 100 else 0) (some (2, out + 1)) with
              | .error _ => .error .symeig
              | .ok l => .ok l
          match U with
          | .error e => .error e
          | .ok l =>
            let Y := l.map fun p a => p.2 a * E.eig.sqrt (N : F)
            match sqrtm E (m := Y.length) fun i j => ∑ a, Y.get i a * Y.get j a with
            | .error e => .error e
            | .ok C => .ok (out, (List.finRange Y.length).map fun j a => ∑ i, Y.get i a * C i j)

end Mdp.Lle
