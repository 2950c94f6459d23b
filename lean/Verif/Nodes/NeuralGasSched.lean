import Verif.Nodes.NeuralGas
import Mathlib.Analysis.SpecialFunctions.Pow.Real

/-! # The schedule of the parameters of a `NeuralGasNode` -/

namespace Mdp.NeuralGas

/-- The parameters of a `NeuralGasNode` (neural_gas_nodes.py:433-439) that determine an epoch. -/
structure NgParams where
  epsilonI : ℝ
  epsilonF : ℝ
  lambdaI : ℝ
  lambdaF : ℝ
  maxAgeI : ℝ
  maxAgeF : ℝ
  maxEpochs : Nat

/-- `denom` (neural_gas_nodes.py:478-481). -/
noncomputable def denom (N : NgParams) (epoch : Nat) : ℝ :=
  if (epoch : ℝ) < N.maxEpochs then epoch / N.maxEpochs else 1

/-- The values used in the epoch with the given number (neural_gas_nodes.py:482-484, 494), over the
real numbers. -/
noncomputable def schedule (N : NgParams) (epoch : Nat) : Epoch ℝ :=
  { eps := N.epsilonI * (N.epsilonF / N.epsilonI) ^ denom N epoch
    w := fun rank => Real.exp (-(rank : ℝ) / (N.lambdaI * (N.lambdaF / N.lambdaI) ^ denom N epoch))
    T := N.maxAgeI * (N.maxAgeF / N.maxAgeI) ^ denom N epoch }

end Mdp.NeuralGas
