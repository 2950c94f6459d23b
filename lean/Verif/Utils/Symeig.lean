import Verif.Nodes.Sfa
import Mathlib.Data.List.Sort

/-!
# Model of the eigenvalue solvers (mdp/utils/_symeig.py, mdp/utils/symeig_semidefinite.py)

The routines `eigh` and `svd` of the numerical library and the square root are parameters. Numbers are exact. A matrix of
column vectors is the list of its columns. Not modelled: the arguments `turbo`, `type`, `overwrite` (the solvers leave their
arguments as they are), the conversion of types; the solver `ldl` is in `Utils/Ldl.lean`, `reg` in `Utils/Reg.lean`.
-/

namespace Mdp.Symeig

open Mdp.Cov Mdp.Sfa

inductive Err where
  /-- SymeigException -/
  | symeig
  /-- IndexError -/
  | index
  /-- the error of `svd` -/
  | svd
deriving DecidableEq

variable {F : Type} [Field F] [LinearOrder F]

/-- The numerical library. `eigh` gives eigenvalues and eigenvectors, `svd` the singular values with the columns of `U`. -/
structure Env (F : Type) where
  eigh : (d : Nat) → Mat F d d → Option (List (F × Row F d))
  svd : (d : Nat) → Mat F d d → Option (List (F × Row F d))
  sqrt : F → F

/-- 'sanitize range' (_symeig.py 52-62, 148-157). -/
def clampRange (n : Nat) (r : Nat × Nat) : Nat × Nat :=
  let lo := if r.1 < 1 then 1 else r.1
  let lo := if lo > n then n else lo
  let hi := if r.2 > n then n else r.2
  if lo > hi then (hi, lo) else (lo, hi)

/-- `w[lo-1:hi]`. -/
def slice {α : Type} (r : Nat × Nat) (l : List α) : List α := (l.take r.2).drop (r.1 - 1)

/-- The end of `_symeig_fake` (142-160): sort by eigenvalue, then cut. -/
def finish {d : Nat} (n : Nat) (rng : Option (Nat × Nat)) (l : List (F × Row F d)) : List (F × Row F d) :=
  let l := l.insertionSort fun a b => a.1 ≤ b.1
  match rng with
  | none => l
  | some r => slice (clampRange n r) l

/-- `symeig(A, None, range=rng)` (_symeig.py 43-69, 110-167). -/
def Env.std (E : Env F) {d : Nat} (A : Mat F d d) (rng : Option (Nat × Nat)) : Except Err (List (F × Row F d)) :=
  match E.eigh d A with
  | none => .error .symeig
  | some l => .ok (finish d rng l)

/-- `ZB / sqrt(wB)` (_symeig.py 131), `ev2 *= 1/sqrt(eg)` (symeig_semidefinite.py 362-365), `mult(U, diag(1/s**0.5))`
(436): the columns of `S`. -/
def Env.scale (E : Env F) {d : Nat} (l : List (F × Row F d)) : List (Row F d) := l.map fun p k => p.2 k * (1 / E.sqrt p.1)

/-- `mult(S.T, mult(A, S))` (_symeig.py 133, symeig_semidefinite.py 367, 437). -/
def colsForm {d : Nat} (A : Mat F d d) (S : List (Row F d)) : Mat F S.length S.length := fun i j => dotL (S.get i) fun k => dotL (A k) (S.get j)

/-- `mult(S, u)` for a column `u` (_symeig.py 136, symeig_semidefinite.py 370, 438). -/
def back {d : Nat} (S : List (Row F d)) (u : Row F S.length) : Row F d := fun k => dotL (fun i => S.get i k) u

/-- `_symeig_fake(A, B, range=rng)` (_symeig.py 111-167). -/
def Env.fake (E : Env F) {d : Nat} (A B : Mat F d d) (rng : Option (Nat × Nat)) : Except Err (List (F × Row F d)) :=
  match E.eigh d B with
  | none => .error .symeig
  | some l =>
    if l.any (fun p => p.1 < 0) then .error .symeig
    else
      let S := E.scale l
      match E.eigh S.length (colsForm A S) with
      | none => .error .symeig
      | some m => .ok (finish d rng (m.map fun p => (p.1, back S p.2)))

/-- `_find_blank_data_idx` (symeig_semidefinite.py 133-156). -/
def blank {n : Nat} (thr : F) (B : Mat F (n + 1) (n + 1)) : Option (List (Fin (n + 1))) :=
  let zero := (List.finRange (n + 1)).filter fun j => |B 0 j| < thr
  if zero.length > 0 then
    let zero2 := (List.finRange (n + 1)).filter fun j => (zero.map fun i => |B i j|).sum / (zero.length : F) < thr
    if zero2.length > 0 then some ((List.finRange (n + 1)).filter fun j => j ∉ zero2) else none
  else none

/-- `B[idx, :][:, idx]` (350-351). -/
def sub {n : Nat} (nz : List (Fin n)) (M : Mat F n n) : Mat F nz.length nz.length := fun i j => M (nz.get i) (nz.get j)

/-- `ev = zeros(..); ev[nonzero_idx, :] = ev_tmp` (377-378) for a column. -/
def embed {n : Nat} (nz : List (Fin n)) (v : Row F nz.length) : Row F n :=
  fun k => if h : nz.idxOf k < nz.length then v ⟨nz.idxOf k, h⟩ else 0

/-- The treatment of blank data around the solvers (347-351, 372-378; 419-423, 448-454): the result of the solver and
`rank_deficit`. -/
def withBlank {n : Nat} (thr : F) (A B : Mat F (n + 1) (n + 1))
    (core : (d : Nat) → Mat F d d → Mat F d d → Except Err (List (F × Row F d) × Nat)) :
    Except Err (List (F × Row F (n + 1)) × Nat) :=
  match blank thr B with
  | none => core (n + 1) A B
  | some nz => match core nz.length (sub nz A) (sub nz B) with
    | .error e => .error e
    | .ok (l, deficit) => .ok (l.map fun p => (p.1, embed nz p.2), deficit + (n + 1 - nz.length))

/-- 358-370, with the eigenvectors `kept` that remain after `off` have been left out. -/
def Env.pcaTail (E : Env F) (rng : Option (Nat × Nat)) {d : Nat} (A : Mat F d d) (kept : List (F × Row F d)) (off : Nat) :
    Except Err (List (F × Row F d) × Nat) :=
  if kept.length = 0 then .error .index
  else match E.std (colsForm A (E.scale kept)) rng with
    | .error e => .error e
    | .ok m => .ok (m.map fun p => (p.1, back (E.scale kept) p.2), off)

/-- 353-370. -/
def Env.pcaCore (E : Env F) (thr : F) (rng : Option (Nat × Nat)) (d : Nat) (A B : Mat F d d) :
    Except Err (List (F × Row F d) × Nat) :=
  match E.std B none with
  | .error e => .error e
  | .ok l => E.pcaTail rng A (l.dropWhile fun p => decide (p.1 < thr)) (l.takeWhile fun p => decide (p.1 < thr)).length

/-- `symeig_semidefinite_pca` (311-380). -/
def Env.pca (E : Env F) (thr : F) {n : Nat} (A B : Mat F (n + 1) (n + 1)) (rng : Option (Nat × Nat)) :
    Except Err (List (F × Row F (n + 1)) × Nat) := withBlank thr A B (E.pcaCore thr rng)

/-- 429-446, with the singular vectors `kept` that remain after `off` have been left out; `old` is the value of
`rank_deficit` before the call. -/
def Env.svdTail (E : Env F) (old : Nat) (rng : Option (Nat × Nat)) {d : Nat} (A : Mat F d d) (kept : List (F × Row F d))
    (off : Nat) : Except Err (List (F × Row F d) × Nat) :=
  if kept.length = 0 then .error .index
  else match E.svd (E.scale kept).length (colsForm A (E.scale kept)) with
    | none => .error .svd
    | some m =>
      let es := (m.map fun p => (dotL (back (E.scale kept) p.2) fun k => dotL (A k) (back (E.scale kept) p.2),
        back (E.scale kept) p.2)).reverse
      .ok (match rng with | none => es | some r => slice r es, if off > 0 then off else old)

/-- 425-446. -/
def Env.svdCore (E : Env F) (thr : F) (old : Nat) (rng : Option (Nat × Nat)) (d : Nat) (A B : Mat F d d) :
    Except Err (List (F × Row F d) × Nat) :=
  match E.svd d B with
  | none => .error .svd
  | some l =>
    let off := (l.reverse.takeWhile fun p => decide (p.1 < thr)).length
    E.svdTail old rng A (l.take (l.length - off)) off

/-- `symeig_semidefinite_svd` (383-456). -/
def Env.svdSolve (E : Env F) (thr : F) (old : Nat) {n : Nat} (A B : Mat F (n + 1) (n + 1)) (rng : Option (Nat × Nat)) :
    Except Err (List (F × Row F (n + 1)) × Nat) := withBlank thr A B (E.svdCore thr old rng)

/-- A solver as the node uses it (sfa_nodes.py 284-315); the kind of error is not kept. -/
def asSolver {d : Nat} (f : Mat F d d → Mat F d d → Option (Nat × Nat) → Except Err (List (F × Row F d) × Nat)) : Solver F d :=
  fun A B rng => match f A B rng with
    | .error _ => none
    | .ok (l, _) => some l

/-- `symeig` as the node uses it. -/
def Env.plain (E : Env F) {d : Nat} : Solver F d := fun A B rng => match E.fake A B rng with
  | .error _ => none
  | .ok l => some l

end Mdp.Symeig
