import Mathlib.Analysis.SpecialFunctions.Log.Basic
import Mathlib.LinearAlgebra.Matrix.NonsingularInverse
import Mathlib.Analysis.Real.Pi.Bounds

/-!
# Specification of factor analysis

Observations `x` with `d` components are `x = μ + A y + ε`: the factors `y` have `k` independent components with mean zero
and variance one, and the components of the noise `ε` are independent, with mean zero and variances `σ`. All are normal.
-/

namespace Mdp.Factor

open Matrix

noncomputable section

variable {d k : Nat}

/-- The mean of the data. -/
def avg (X : List (Fin d → ℝ)) (i : Fin d) : ℝ := (X.map fun x => x i).sum / X.length

/-- The covariance matrix of the data. -/
def covMat (X : List (Fin d → ℝ)) : Matrix (Fin d) (Fin d) ℝ :=
  Matrix.of fun i j => (X.map fun x => (x i - avg X i) * (x j - avg X j)).sum / X.length

/-- The logarithm of the density of the normal distribution with mean `μ` and covariance matrix `S`. -/
def logDensity (μ : Fin d → ℝ) (S : Matrix (Fin d) (Fin d) ℝ) (x : Fin d → ℝ) : ℝ :=
  -(d : ℝ) / 2 * Real.log (2 * Real.pi) - Real.log S.det / 2 - ((x - μ) ⬝ᵥ S⁻¹ *ᵥ (x - μ)) / 2

/-- The mean log-likelihood of data, for the mean of the data, loading factors `A` and noise variances `σ`. -/
def logLik (X : List (Fin d → ℝ)) (A : Matrix (Fin d) (Fin k) ℝ) (σ : Fin d → ℝ) : ℝ :=
  (X.map fun x => logDensity (avg X) (A * Aᵀ + diagonal σ) x).sum / X.length

/-- All data are in a plane of smaller dimension. -/
def Degenerate (X : List (Fin d → ℝ)) : Prop := ∃ w : Fin d → ℝ, w ≠ 0 ∧ ∃ c, ∀ x ∈ X, w ⬝ᵥ x = c

/-- A component of the data is constant. -/
def ConstantColumn (X : List (Fin d → ℝ)) : Prop := ∃ i c, ∀ x ∈ X, x i = c

/-- The covariance matrix of the factors given an observation. -/
def postVar (A : Matrix (Fin d) (Fin k) ℝ) (σ : Fin d → ℝ) : Matrix (Fin k) (Fin k) ℝ :=
  (1 + Aᵀ * diagonal σ⁻¹ * A)⁻¹

/-- The mean of the factors given an observation with the deviation `r` from the mean. -/
def postMean (A : Matrix (Fin d) (Fin k) ℝ) (σ : Fin d → ℝ) (r : Fin d → ℝ) : Fin k → ℝ :=
  (postVar A σ * Aᵀ * diagonal σ⁻¹) *ᵥ r

/-- The mean expected log-likelihood of observations and factors for the parameters `A'` and `σ'`, when the factors are
distributed as for the parameters `A` and `σ`, without the terms that do not depend on `A'` and `σ'`. -/
def expectedLik (X : List (Fin d → ℝ)) (A : Matrix (Fin d) (Fin k) ℝ) (σ : Fin d → ℝ) (A' : Matrix (Fin d) (Fin k) ℝ)
    (σ' : Fin d → ℝ) : ℝ :=
  (X.map fun x => ∑ i, (- Real.log (σ' i) / 2 -
    ((x i - avg X i - A' i ⬝ᵥ postMean A σ (x - avg X)) ^ 2 + A' i ⬝ᵥ postVar A σ *ᵥ A' i) / (2 * σ' i))).sum / X.length

/-- `A'` and `σ'` are the result of an EM step: their expected log-likelihood is larger than that of all others. -/
def EmStep (X : List (Fin d → ℝ)) (A : Matrix (Fin d) (Fin k) ℝ) (σ : Fin d → ℝ) (A' : Matrix (Fin d) (Fin k) ℝ)
    (σ' : Fin d → ℝ) : Prop :=
  (∀ i, 0 < σ' i) ∧ ∀ (A'' : Matrix (Fin d) (Fin k) ℝ) (σ'' : Fin d → ℝ), (∀ i, 0 < σ'' i) → (A'', σ'') ≠ (A', σ') →
    expectedLik X A σ A'' σ'' < expectedLik X A σ A' σ'

/-- The negative logarithm of the density of the factors `y` and the observation `x`, without constants. -/
def energy (μ : Fin d → ℝ) (A : Matrix (Fin d) (Fin k) ℝ) (σ : Fin d → ℝ) (x : Fin d → ℝ) (y : Fin k → ℝ) : ℝ :=
  ∑ j, y j ^ 2 / 2 + ∑ i, (x i - μ i - A i ⬝ᵥ y) ^ 2 / (2 * σ i)

/-- The gain since the start of the likelihoods `L` has not grown by the factor `1 + tol` in cycle `t`. -/
def Settled (tol : ℝ) (L : Nat → ℝ) (t : Nat) : Prop := 1 ≤ t ∧ L t - L 0 < (1 + tol) * (L (t - 1) - L 0)

end

end Mdp.Factor
