import Mathlib.Data.Matrix.Mul
import Mathlib.Data.Real.Sqrt

/-!
# Model of `NIPALSNode` (mdp/nodes/nipals.py)

Training from the data collected on (`Cumulator`, C08). Numbers are real numbers. A division of zero by zero gives nan in numpy;
comparisons with nan are false, and what is computed from nan is nan: no number (`none`).
-/

namespace Mdp.Nipals

open Matrix

variable {n m : Nat}

/-- Why the inner loop (109-126) ends: with a loading and a score vector, with nan, or with a `NodeException`. -/
inductive Ending (n m : Nat) where
  | done (p : Fin (m + 1) → ℝ) (t : Fin n → ℝ)
  | nan
  | noConvergence

/-- The inner loop (109-126) with the score vector `t` if `it` may still be increased `r` times without an exception. The condition
`diff > conv` holds at the start (108). -/
noncomputable def power (conv : ℝ) (X : Matrix (Fin n) (Fin (m + 1)) ℝ) : Nat → (Fin n → ℝ) → Ending n m
  | 0, _ => .noConvergence
  | r + 1, t =>
    if t ⬝ᵥ t = 0 then .nan
    else
      let p0 := (t ⬝ᵥ t)⁻¹ • (X.transpose *ᵥ t)
      if p0 ⬝ᵥ p0 = 0 then .nan
      else
        let p := (Real.sqrt (p0 ⬝ᵥ p0))⁻¹ • p0
        let tNew := X *ᵥ p
        let diff := (tNew - t) ⬝ᵥ (tNew - t)
        if diff > conv then power conv X r tNew else .done p tNew

/-- What the outer loop leaves: the loadings and variances found, the number of further components that are nan, the explained
variance, and `output_dim` if it has been set. -/
structure Found (m : Nat) where
  good : List ((Fin (m + 1) → ℝ) × ℝ)
  nans : Nat
  expVar : Option ℝ
  outputDim : Option Nat

/-- The outer loop (103-138) from component `i` on, for `k` components; `var` is the total variance, `des` the variance desired. Once
something is nan, the data are nan and so is the rest. -/
noncomputable def components (conv : ℝ) (maxIt : Nat) (var : ℝ) (des : Option ℝ) :
    Nat → Nat → Matrix (Fin n) (Fin (m + 1)) ℝ → ℝ → Except Unit (Found m)
  | 0, _, _, expVar => .ok ⟨[], 0, some expVar, none⟩
  | k + 1, i, X, expVar =>
    match power conv X maxIt (fun a => X a 0) with
    | .noConvergence => .error ()
    | .nan => .ok ⟨[], k + 1, none, none⟩
    | .done p t =>
      let D := vecMulVec t p
      let X' := X - D
      let D1 := D *ᵥ p
      let d := (D1 ⬝ᵥ D1) / ((n : ℝ) - 1)
      let expVar := expVar + d / var
      if (des.elim false fun v => decide (expVar ≥ v)) then .ok ⟨[(p, d)], 0, some expVar, some (i + 1)⟩
      else
        match components conv maxIt var des k (i + 1) X' expVar with
        | .error e => .error e
        | .ok f => .ok { f with good := (p, d) :: f.good }

/-- `X.mean(axis=0)` (90). -/
noncomputable def avg (X : Matrix (Fin n) (Fin (m + 1)) ℝ) (j : Fin (m + 1)) : ℝ := (∑ a, X a j) / n

/-- `X -= mean` (96). -/
noncomputable def centred (X : Matrix (Fin n) (Fin (m + 1)) ℝ) : Matrix (Fin n) (Fin (m + 1)) ℝ :=
  Matrix.of fun a j => X a j - avg X j

/-- `X.var(axis=0).sum()` (97): numpy divides by the number of rows. -/
noncomputable def totalVar (X : Matrix (Fin n) (Fin (m + 1)) ℝ) : ℝ :=
  ∑ j, (∑ a, (X a j - avg X j) * (X a j - avg X j)) / n

/-- A trained node: `avg`, `v` with `d` (`none` for nan), `total_variance`, `explained_variance`. -/
structure Trained (m : Nat) where
  avg : Fin (m + 1) → ℝ
  comps : List (Option ((Fin (m + 1) → ℝ) × ℝ))
  totalVariance : ℝ
  explainedVariance : Option ℝ

/-- `_stop_training` (78-142) for the data `X`; `outputDim` is the number of components asked for (`none`: not given), `des` the desired
fraction of variance. -/
noncomputable def stopTraining (conv : ℝ) (maxIt : Nat) (outputDim : Option Nat) (des : Option ℝ)
    (X : Matrix (Fin n) (Fin (m + 1)) ℝ) : Except Unit (Trained m) :=
  let Y := centred X
  let var := totalVar Y
  match components conv maxIt var des (m + 1) 0 Y 0 with
  | .error e => .error e
  | .ok f =>
    let out := match f.outputDim with
      | some k => k
      | none => match outputDim with
        | some k => k
        | none => m + 1
    .ok ⟨avg X, ((f.good.map some) ++ List.replicate f.nans none).take out, var, f.expVar⟩

end Mdp.Nipals
