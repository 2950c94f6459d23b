import Verif.Nodes.Sfa
import Mathlib.Analysis.SpecialFunctions.Trigonometric.Basic

/-!
# Model of `EtaComputerNode` (mdp/nodes/misc_nodes.py 523-636)

Numbers are real numbers; what numpy makes of a division by zero (nan or inf, with a warning) is `none`. The checks of
`Node.train` and `Node.stop_training` are not part of this model.
-/

namespace Mdp.Eta

open Mdp.Cov Mdp.Join

variable {d : Nat}

/-- `_mean`, `_var`, `_tlen`, `_diff2` (581-587); before the first call of `train` they do not exist, which is the same as
zeros. -/
structure Acc (d : Nat) where
  mean : Row ℝ d := 0
  var : Row ℝ d := 0
  tlen : Nat := 0
  diff2 : Row ℝ d := 0

/-- `_train` (589-599). -/
noncomputable def Acc.train (s : Acc d) (data : List (Row ℝ d)) : Acc d :=
  let rdata := data.dropLast
  let td := timeDerivative data
  { mean := s.mean + colSum rdata
    var := s.var + colSum (rdata.map fun x => x * x)
    tlen := s.tlen + rdata.length
    diff2 := s.diff2 + colSum (td.map fun x => x * x) }

/-- `old_div` of numbers: nothing to use if the divisor is zero. -/
noncomputable def quot (a b : ℝ) : Option ℝ := if b = 0 then none else some (a / b)

/-- `_stop_training` (601-615): `_eta`. -/
noncomputable def Acc.eta (s : Acc d) (i : Fin d) : Option ℝ :=
  (quot (s.mean i * s.mean i) s.tlen).bind fun m =>
    (quot (s.var i - m) ((s.tlen : ℝ) - 1)).bind fun var =>
      (quot (s.diff2 i) s.tlen).bind fun dd =>
        (quot dd var).bind fun delta =>
          some (Real.sqrt delta / (2 * Real.pi))

/-- `get_eta` (617-636) of a node in which training has ended. -/
noncomputable def Acc.getEta (s : Acc d) (t : ℝ) (i : Fin d) : Option ℝ := (s.eta i).map fun e => e * t

/-- `SFANode.get_eta_values` (mdp/nodes/sfa_nodes.py 344-374) of a node in which training has ended; without the attribute
`d` it raises. -/
noncomputable def sfaEta (s : Sfa.St ℝ d) (t : ℝ) : Option (List ℝ) :=
  s.res.map fun r => r.ds.map fun v => t / (2 * Real.pi) * Real.sqrt v

end Mdp.Eta
