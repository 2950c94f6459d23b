import Verif.Num.Cov
import Mathlib.Analysis.SpecialFunctions.Pow.Real
import Mathlib.Analysis.SpecialFunctions.Log.Basic
import Mathlib.LinearAlgebra.Matrix.NonsingularInverse
import Mathlib.Analysis.Real.Pi.Bounds

/-!
# Model of `FANode` (mdp/nodes/em_nodes.py)

Numbers are real. The covariance matrix is the model of `utils.CovarianceMatrix` (Verif/Num/Cov.lean). `d` is the input
dimension and `k` the output dimension, which is `d` if it has not been set (93-95); both are not zero. Random numbers are
arguments. Views of `ravel()` into which `put` writes (133, 148, 184) are the diagonals of the matrices. Dimension checks of
`train`, `stop_training` and `execute`, printing and dtypes are not modelled.
-/

namespace Mdp.Factor

open Mdp.Cov Matrix

noncomputable section

variable {d k : Nat}

inductive Err where
  /-- `fix` without data -/
  | noneType
  /-- AttributeError: `_cov_mtx` has been deleted -/
  | attribute
  /-- NodeException: 'The covariance matrix of the data is singular' -/
  | singular
  /-- LinAlgError of `inv` -/
  | linalg
  /-- execution of a node that has not been trained -/
  | untrained
deriving DecidableEq

/-- The loading factors `A` and the noise variances `sigma`. -/
structure Par (d k : Nat) where
  A : Matrix (Fin d) (Fin k) ℝ
  sigma : Fin d → ℝ

/-- `inv` (utils/__init__.py:72). -/
def inv {n : Nat} (m : Matrix (Fin n) (Fin n) ℝ) : Except Err (Matrix (Fin n) (Fin n) ℝ) :=
  if m.det = 0 then .error .linalg else .ok m⁻¹

/-- `B = mult(A, A.T)` with `sigma` added to the diagonal (131-133, 183-184). -/
def Par.outer (p : Par d k) : Matrix (Fin d) (Fin d) ℝ := p.A * p.Aᵀ + diagonal p.sigma

/-- One EM cycle (130-157): the log-likelihood and the new parameters. -/
def Par.cycle (cov : Matrix (Fin d) (Fin d) ℝ) (p : Par d k) : Except Err (ℝ × Par d k) :=
  let logDetB := Real.log |p.outer.det|
  match inv p.outer with
  | .error e => .error e
  | .ok B =>
    let trAB := p.Aᵀ * B
    let trABcov := trAB * cov
    let eyy := - (trAB * p.A) + trABcov * trABᵀ + 1
    match inv eyy with
    | .error e => .error e
    | .ok eyyInv =>
      let A := trABcovᵀ * eyyInv
      let sigma := fun i => cov i i - (A * trABcov) i i
      let traceBcov := ∑ i, ∑ j, B i j * covᵀ i j
      let lhood := -(d : ℝ) / 2 * Real.log (2 * Real.pi) - 0.5 * logDetB - 0.5 * traceBcov
      .ok (lhood, ⟨A, sigma⟩)

/-- The variables of the loop (123-128): parameters, `base_lhood`, `old_lhood` (with `base_lhood`; minus infinity before
is not used), `lhood_curve`, and the number of warnings. -/
structure Em (d k : Nat) where
  par : Par d k
  base : Option (ℝ × ℝ)
  curve : List ℝ
  warned : Nat

/-- The convergence criterion (161-174): the next state, and whether the loop ends. -/
def Em.judge (tol : ℝ) (s : Em d k) (lhood : ℝ) (par : Par d k) : Em d k × Bool :=
  match s.base with
  | none => (⟨par, some (lhood, lhood), s.curve ++ [lhood], s.warned⟩, false)
  | some (base, old) =>
    if lhood - base < (1 + tol) * (old - base) then ({ s with par := par }, true)
    else (⟨par, some (base, lhood), s.curve ++ [lhood], if lhood < old then s.warned + 1 else s.warned⟩, false)

/-- The loop (129-174) over `max_cycles` cycles. -/
def Em.loop (tol : ℝ) (cov : Matrix (Fin d) (Fin d) ℝ) : Nat → Em d k → Except Err (Em d k)
  | 0, s => .ok s
  | n + 1, s =>
    match s.par.cycle cov with
    | .error e => .error e
    | .ok (lhood, par) =>
      match s.judge tol lhood par with
      | (s', true) => .ok s'
      | (s', false) => Em.loop tol cov n s'

/-- The scale of the initial loading factors (114-117). -/
def scale (cov : Matrix (Fin d) (Fin d) ℝ) : ℝ :=
  if d ≤ 300 then cov.det ^ (1 / (d : ℝ)) else (∏ i, cov i i) ^ (1 / (d : ℝ))

/-- What training leaves (176-188): `A`, `sigma`, `mu`, `E_y_mtx`, `lhood`, `tlen`; and the number of warnings. -/
structure Res (d k : Nat) where
  par : Par d k
  mu : Fin d → ℝ
  ey : Matrix (Fin d) (Fin k) ℝ
  lhood : List ℝ
  tlen : Nat
  warned : Nat

/-- The parameters of the node (50-79). `range` of a negative number of cycles is empty. -/
structure Cfg where
  tol : ℝ
  maxCycles : Nat

/-- The node: `_cov_mtx` is `none` once it has been deleted. -/
structure St (d k : Nat) where
  cov : Option (CovSt ℝ d)
  res : Option (Res d k)

/-- `__init__` (79). -/
def St.new (d k : Nat) : St d k := ⟨some (CovSt.new ℝ d true), none⟩

/-- `_train` (81-83). -/
def St.train (s : St d k) (x : List (Row ℝ d)) : Except Err Unit × St d k :=
  match s.cov with
  | none => (.error .attribute, s)
  | some c => (.ok (), { s with cov := some (c.update x) })

/-- `_stop_training` (85-188); `noise` are standard normal numbers. -/
def St.stop (c : Cfg) (noise : Matrix (Fin d) (Fin k) ℝ) (s : St d k) : Except Err Unit × St d k :=
  match s.cov with
  | none => (.error .attribute, s)
  | some acc =>
    match acc.fix true with
    | .error _ => (.error .noneType, s)
    | .ok ((cov, mu, tlen), _) =>
      let s := { s with cov := none }
      let sc := scale (Matrix.of cov)
      if sc ≤ 0 then (.error .singular, s)
      else
        let par : Par d k := ⟨Real.sqrt (sc / k) • noise, fun i => cov i i⟩
        match Em.loop c.tol (Matrix.of cov) c.maxCycles ⟨par, none, [], 0⟩ with
        | .error e => (.error e, s)
        | .ok em =>
          match inv em.par.outer with
          | .error e => (.error e, s)
          | .ok B => (.ok (), { s with res := some ⟨em.par, mu, Bᵀ * em.par.A, em.curve, tlen, em.warned⟩ })

/-- `_execute` (190-191) for a row. -/
def St.execute (s : St d k) (x : Row ℝ d) : Except Err (Row ℝ k) :=
  match s.res with
  | none => .error .untrained
  | some r => .ok ((x - r.mu) ᵥ* r.ey)

/-- `generate_input` (197-236) for a row `y` of latent variables; `noise` are the standard normal numbers if noise is
asked for. Without training `_if_training_stop_training` has ended it before. -/
def St.generate (s : St d k) (y : Row ℝ k) (noise : Option (Row ℝ d)) : Except Err (Row ℝ d) :=
  match s.res with
  | none => .error .untrained
  | some r =>
    let res := y ᵥ* r.par.Aᵀ + r.mu
    match noise with
    | none => .ok res
    | some ns => .ok (res + fun i => ns i * Real.sqrt (r.par.sigma i))

end

end Mdp.Factor
