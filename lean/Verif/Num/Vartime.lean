import Verif.Num.Cov
import Mathlib.Algebra.Order.Field.Basic

/-!
# Model of VartimeCovarianceMatrix (utils/covariance.py 143-339)

Numbers are elements of a linearly ordered field; `sq` stands for `numx.sqrt`.
-/

namespace Mdp.Cov

variable {F : Type} [Field F] [LinearOrder F] {d : Nat}

/-- The argument `dt`: absent, a number, or an array. -/
inductive Dt (F : Type) where
  | none
  | const (c : F)
  | arr (l : List F)

inductive VErr where
  /-- 'As time_dependence is specified, ...' -/
  | needFull
  /-- 'Unexpected length of dt.' -/
  | badLen
  /-- 'Unexpected type or value of dt.' -/
  | badVal
  /-- `IndexError` on a chunk without rows -/
  | index
  /-- arithmetic with `None` -/
  | noneType
deriving DecidableEq

/-- `_cov_mtx` and `_avg` (set and cleared together), `_tlen`, `tchunk`, `xlast`. `_steps` is only used for a
warning. `xlast` does not exist before the first update; it is read only when `tchunk > 0`. -/
structure VarSt (F : Type) (d : Nat) where
  acc : Option (Mat F d d × Row F d)
  tlen : F
  tchunk : Nat
  xlast : Row F d

/-- `__init__` (159-173). -/
def VarSt.new (F : Type) [Field F] (d : Nat) : VarSt F d := ⟨none, 0, 0, 0⟩

/-- Checks on `dt` (225-235). -/
def VarSt.check (s : VarSt F d) (rows : Nat) (dt : Dt F) (timeDep : Bool) : Option VErr :=
  match dt with
  | .none => none
  | .arr l =>
    if timeDep ∧ s.tchunk > 0 ∧ rows = l.length + 1 then some .needFull
    else if l.length ≠ rows ∧ rows ≠ l.length + 1 then some .badLen
    else none
  | .const c => if ¬ c > 0 then some .badVal else none

/-- The increment between the last row so far and the first row of this chunk (244-260), if counted. -/
def VarSt.gap (s : VarSt F d) (rows : Nat) (dt : Dt F) (timeDep : Bool) : Option F :=
  if s.tchunk > 0 then
    match dt with
    | .arr l => if l.length = rows then l.head? else none
    | .const c => if timeDep then some c else none
    | .none => if timeDep then some 1 else none
  else none

/-- `_dt` (264-270), broadcast against the rows of `x[1:]`: `dt[-rows+1:]` is all of `dt` for a single row. -/
def steps (rows : Nat) (dt : Dt F) : List F :=
  match dt with
  | .none => List.replicate (rows - 1) 1
  | .const c => List.replicate (rows - 1) c
  | .arr l => if rows = 1 then l else l.drop (l.length - (rows - 1))

/-- What is added to `_tlen` (287-292). -/
def stepSum (rows : Nat) (dt : Dt F) : F :=
  match dt with
  | .none => ((rows - 1 : Nat) : F)
  | .const c => c * ((rows - 1 : Nat) : F)
  | .arr _ => (steps rows dt).sum

/-- `numx.multiply(x, w[:, None])`. -/
def scale (x : List (Row F d)) (w : List F) : List (Row F d) := List.zipWith (fun a c i => a i * c) x w

def half (m : Mat F d d) : Mat F d d := divM m 2

/-- `update` (175-294). -/
def VarSt.update (sq : F → F) (s : VarSt F d) (x : List (Row F d)) (dt : Dt F) (timeDep : Bool) :
    Except VErr Unit × VarSt F d :=
  match s.check x.length dt timeDep with
  | some e => (.error e, s)
  | none =>
    let a := s.acc.getD (0, 0)
    match x.head?, x.getLast? with
    | some x0, some xl =>
      let (cov, avg, tlen) := match s.gap x.length dt timeDep with
        | none => (a.1, a.2, s.tlen)
        | some g =>
          (a.1 + (fun i j => (outer s.xlast s.xlast i j + outer x0 x0 i j) * g / 2),
            a.2 + (fun i => (s.xlast i + x0 i) * g / 2), s.tlen + g)
      let w := steps x.length dt
      let sw := w.map sq
      let hi := x.drop 1
      let lo := x.dropLast
      let cov := cov + half (multT (scale hi sw) (scale hi sw))
      let cov := cov + half (multT (scale lo sw) (scale lo sw))
      let avg := avg + divR (colSum (scale lo w)) 2
      let avg := avg + divR (colSum (scale hi w)) 2
      (.ok (), ⟨some (cov, avg), tlen + stepSum x.length dt, s.tchunk + 1, xl⟩)
    | _, _ => (.error .index, { s with acc := some a })

/-- `fix` (296-339). `tchunk` and `xlast` stay. -/
def VarSt.fix (s : VarSt F d) (center : Bool) : Except VErr ((Mat F d d × Row F d × F) × VarSt F d) :=
  match s.acc with
  | none => .error .noneType
  | some (cov, avg) =>
    let cov := divM cov s.tlen
    let cov := if center then cov - divM (outer avg avg) (s.tlen * s.tlen) else cov
    .ok ((cov, divR avg s.tlen, s.tlen), { s with acc := none, tlen := 0 })

end Mdp.Cov
