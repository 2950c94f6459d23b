import Verif.Num.Cov
import Mathlib.Algebra.Order.Field.Basic

/-!
# Model of the search for extrema of a quadratic form (mdp/utils/quad_forms.py 52-132)

Numbers are elements of an ordered field; matrices have at least one row. The routines of numpy are parameters.
-/

namespace Mdp.Quad

open Mdp.Cov

variable {F : Type} [Field F] [LinearOrder F] {n : Nat}

inductive Err where
  /-- LinAlgError: singular matrix -/
  | singular
  /-- UnboundLocalError: `beta` -/
  | unbound
  /-- not an exception: more steps are needed than the model is allowed to make -/
  | fuel
deriving DecidableEq

/-- The routines used: `_eig_sort` (52-58), eigenvalues in ascending order with their eigenvectors; `numx_linalg.solve`;
`mdp.utils.norm2` (routines.py); `numx.finfo(dtype).eps`; `epsilon` (quad_forms.py 10). -/
structure Env (F : Type) (n : Nat) where
  eig : Mat F (n + 1) (n + 1) → (Fin (n + 1) → F) × (Fin (n + 1) → Row F (n + 1))
  solve : Mat F (n + 1) (n + 1) → Row F (n + 1) → Option (Row F (n + 1))
  norm2 : Row F (n + 1) → F
  eps : F
  epsilon : F

/-- Sum over the indices. -/
def sumF (f : Fin (n + 1) → F) : F := ((List.finRange (n + 1)).map f).sum

/-- The variables of the loop (111-128); `lambd` is `none` before the first step, `beta` is a function of it. -/
structure Loop (F : Type) where
  ll : F
  lr : F
  nx : F
  lambd : Option F

/-- The condition of the loop (117). A quotient by zero is infinite. -/
def Loop.goes (tol norm epsilon : F) (s : Loop F) : Bool :=
  decide (|s.nx - norm ^ 2| > tol) &&
    (if s.lr = 0 then decide (0 < s.lr - s.ll) else decide ((s.lr - s.ll) / s.lr > epsilon))

/-- The body of the loop (119-128). -/
def Loop.step (norm : F) (mu alpha : Fin (n + 1) → F) (s : Loop F) : Loop F :=
  let lambd := 1 / 2 * (s.lr - s.ll) + s.ll
  let nx := sumF fun i => alpha i ^ 2 * (1 / (lambd - mu i)) ^ 2
  if nx > norm ^ 2 then { s with ll := lambd, nx := nx, lambd := some lambd }
  else { s with lr := lambd, nx := nx, lambd := some lambd }

/-- The loop (117-128). `none`: not finished. -/
def Loop.run (tol norm epsilon : F) (mu alpha : Fin (n + 1) → F) : Nat → Loop F → Option (Loop F)
  | 0, s => if s.goes tol norm epsilon then none else some s
  | fuel + 1, s => if s.goes tol norm epsilon then Loop.run tol norm epsilon mu alpha fuel (s.step norm mu alpha) else some s

/-- The state before the loop (111-116). -/
def Loop.init (nf norm : F) (mu : Fin (n + 1) → F) : Loop F := ⟨mu (Fin.last n), nf / norm + mu (Fin.last n), 0, none⟩

/-- `_maximize` (97-132) with `x0=None`, for `factor*H` and `factor*f`. -/
def maximize (e : Env F n) (H : Mat F (n + 1) (n + 1)) (f : Row F (n + 1)) (norm tol : F) (fuel : Nat) :
    Except Err (Row F (n + 1)) :=
  let (mu, V) := e.eig H
  let alpha := fun i => sumF fun k => V i k * f k
  match Loop.run tol norm e.epsilon mu alpha fuel (Loop.init (e.norm2 f) norm mu) with
  | none => .error .fuel
  | some s => match s.lambd with
    | none => .error .unbound
    | some l => .ok fun k => sumF fun i => V i k * alpha i * (1 / (l - mu i))

/-- `xmin` (83-87). -/
def xminOf (e : Env F n) (H : Mat F (n + 1) (n + 1)) (f : Row F (n + 1)) (norm tol : F) (fuel : Nat) (pos : Bool)
    (x0 : Row F (n + 1)) : Except Err (Row F (n + 1)) :=
  if pos && decide (e.norm2 x0 ≤ norm) then .ok x0
  else maximize e (fun i j => -1 * H i j) (fun i => -1 * f i) norm tol fuel

/-- `xmax` (88-92). -/
def xmaxOf (e : Env F n) (H : Mat F (n + 1) (n + 1)) (f : Row F (n + 1)) (norm tol : F) (fuel : Nat) (neg : Bool)
    (x0 : Row F (n + 1)) : Except Err (Row F (n + 1)) :=
  if neg && decide (e.norm2 x0 ≤ norm) then .ok x0 else maximize e H f norm tol fuel

/-- `get_extrema` (60-95): `xmax` and `xmin`. -/
def getExtrema (e : Env F n) (H : Mat F (n + 1) (n + 1)) (f : Row F (n + 1)) (norm tol : F) (fuel : Nat) :
    Except Err (Row F (n + 1) × Row F (n + 1)) :=
  if ∀ i, |f i| < e.eps then
    let (_, W) := e.eig H
    .ok (fun k => W (Fin.last n) k * norm, fun k => W 0 k * norm)
  else
    let (E, _) := e.eig H
    let pos := decide (E 0 ≥ 0)
    let neg := !pos && decide (E (Fin.last n) ≤ 0)
    match e.solve (fun i j => - H i j) f with
    | none => .error .singular
    | some x0 => match xminOf e H f norm tol fuel pos x0 with
      | .error er => .error er
      | .ok xmin => match xmaxOf e H f norm tol fuel neg x0 with
        | .error er => .error er
        | .ok xmax => .ok (xmax, xmin)

end Mdp.Quad
