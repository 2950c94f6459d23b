import Mathlib.Analysis.SpecialFunctions.Exp
import Mathlib.LinearAlgebra.Matrix.Notation
import Mathlib.Algebra.BigOperators.Fin

/-!
# `RBMNode` and `RBMWithLabelsNode`

`mdp/nodes/rbm_nodes.py`. Numbers are reals. An array with `T` rows is a function on `Fin T`; visible variables are indexed by `ι` (for the node
with labels: visible ones and labels, `Fin a ⊕ Fin b`), hidden variables by `κ`. Random numbers in `[0,1)` are arguments.
-/

namespace Mdp.Rbm

open Matrix

variable {ι κ : Type} [Fintype ι] [Fintype κ]

/-- The weights (85-89). -/
structure Rbm (ι κ : Type) where
  w : Matrix ι κ ℝ
  bv : ι → ℝ
  bh : κ → ℝ

/-- The probabilities of `_sample_h` (96) for a row. -/
noncomputable def Rbm.probsH (r : Rbm ι κ) (v : ι → ℝ) : κ → ℝ := fun j => 1 / (1 + Real.exp (-r.bh j - (v ᵥ* r.w) j))

open Classical in
/-- The comparison with random numbers (97, 103, 353). -/
noncomputable def above {ι : Type} (p u : ι → ℝ) : ι → ℝ := fun j => if p j > u j then 1 else 0

/-- The sample of `_sample_h` (97) for a row. -/
noncomputable def Rbm.sampleH (r : Rbm ι κ) (v : ι → ℝ) (u : κ → ℝ) : κ → ℝ := above (r.probsH v) u

/-- The probabilities of `_sample_v` (102) for a row. -/
noncomputable def Rbm.probsV (r : Rbm ι κ) (h : κ → ℝ) : ι → ℝ := fun i => 1 / (1 + Real.exp (-r.bv i - (h ᵥ* r.wᵀ) i))

/-- The sample of `_sample_v` (103) for a row. -/
noncomputable def Rbm.sampleV (r : Rbm ι κ) (h : κ → ℝ) (u : ι → ℝ) : ι → ℝ := above (r.probsV h) u

/-- `_energy` (232-234) for a row. -/
def Rbm.energy (r : Rbm ι κ) (v : ι → ℝ) (h : κ → ℝ) : ℝ := -(v ⬝ᵥ r.bv) - h ⬝ᵥ r.bh - ∑ j, (v ᵥ* r.w) j * h j

/-- `_execute` (252-271) for a row. -/
noncomputable def Rbm.execute (r : Rbm ι κ) (returnProbs : Bool) (v : ι → ℝ) (u : κ → ℝ) : κ → ℝ :=
  if returnProbs then r.probsH v else r.sampleH v u

/-! ## Labels -/

section
variable {a b : Nat}

/-- `probs_v` of `_sample_v` (348-352). -/
noncomputable def Rbm.labelsV (r : Rbm (Fin a ⊕ Fin b) κ) (h : κ → ℝ) : Fin a → ℝ :=
  fun i => 1 / (1 + Real.exp (-(r.bv (.inl i) + (h ᵥ* r.wᵀ) (.inl i))))

/-- `probs_l` of `_sample_v` (356-359): softmax after the subtraction of the maximum; at least one label. -/
noncomputable def Rbm.labelsL (r : Rbm (Fin a ⊕ Fin b) κ) (h : κ → ℝ) : Fin b → ℝ :=
  let al : Fin b → ℝ := fun k => r.bv (.inr k) + (h ᵥ* r.wᵀ) (.inr k)
  let p : Fin b → ℝ := fun k => Real.exp (al k - ⨆ i, al i)
  fun k => p k / ∑ i, p i

/-- The row of `x` of `_sample_v` with `sample_l=False` (353, 366-372). -/
noncomputable def Rbm.labelsSample (r : Rbm (Fin a ⊕ Fin b) κ) (h : κ → ℝ) (u : Fin a ⊕ Fin b → ℝ) : Fin a ⊕ Fin b → ℝ :=
  Sum.elim (above (r.labelsV h) fun i => u (.inl i)) (r.labelsL h)

/-- `v` and `l` of `sample_v` (353, 361-365, 417-420): `pick` is the outcome of `multinomial(1, probs_l)`. -/
noncomputable def Rbm.labelsDraw (r : Rbm (Fin a ⊕ Fin b) κ) (h : κ → ℝ) (u : Fin a → ℝ) (pick : Fin b) : (Fin a → ℝ) × (Fin b → ℝ) :=
  (above (r.labelsV h) u, fun k => if k = pick then 1 else 0)

/-- `energy` (422-443) of the node with labels. -/
def Rbm.labelsEnergy (r : Rbm (Fin a ⊕ Fin b) κ) (v : Fin a → ℝ) (h : κ → ℝ) (l : Fin b → ℝ) : ℝ := r.energy (Sum.elim v l) h

/-- `execute` (445-475) and `sample_h` (378-399) of the node with labels. -/
noncomputable def Rbm.labelsExecute (r : Rbm (Fin a ⊕ Fin b) κ) (returnProbs : Bool) (v : Fin a → ℝ) (l : Fin b → ℝ) (u : κ → ℝ) : κ → ℝ :=
  r.execute returnProbs (Sum.elim v l) u

end

/-! ## Training -/

inductive Err where
  /-- UnboundLocalError for `v_model` -/
  | unbound
deriving DecidableEq

/-- The state: the weights (`none`: they are nan) and the last change, which is zero at first (92). -/
structure St (ι κ : Type) where
  rbm : Option (Rbm ι κ)
  delta : Rbm ι κ

/-- The parameters of `train` (106-107). -/
structure Args where
  nUpdates : Nat
  epsilon : ℝ
  decay : ℝ
  momentum : ℝ
  withPh : Bool

/-- The random numbers of a call, by iteration and row. -/
structure Rand (T : Nat) (ι κ : Type) where
  h0 : Fin T → κ → ℝ
  v : Nat → Fin T → ι → ℝ
  h : Nat → Fin T → κ → ℝ

/-- The updates of the model term (150-154): `k` of them, starting with the iteration `i` and the hidden variables `h`; `sv` is `_sample_v`. The result
is `v_model`, `h_model`. -/
noncomputable def chain (r : Rbm ι κ) (sv : (κ → ℝ) → (ι → ℝ) → ι → ℝ) (uv : Nat → ι → ℝ) (uh : Nat → κ → ℝ) :
    Nat → Nat → Option (ι → ℝ) → (κ → ℝ) → Option (ι → ℝ) × (κ → ℝ)
  | 0, _, v, h => (v, h)
  | k + 1, i, _, h => chain r sv uv uh k (i + 1) (some (sv h (uv i))) (r.sampleH (sv h (uv i)) (uh i))

variable {T : Nat}

/-- `_train` (106-179) without messages; `sv` is `_sample_v` for the current weights. With no rows the mean is `0/0`. -/
noncomputable def St.train (sv : Rbm ι κ → (κ → ℝ) → (ι → ℝ) → ι → ℝ) (s : St ι κ) (p : Args) (x : Fin T → ι → ℝ) (u : Rand T ι κ) :
    Except Err Unit × St ι κ :=
  if p.nUpdates = 0 then (.error .unbound, s)
  else match s.rbm with
    | none => (.ok (), s)
    | some r =>
      if T = 0 then (.ok (), { s with rbm := none })
      else
        let phData : Fin T → κ → ℝ := fun t => r.probsH (x t)
        let hData : Fin T → κ → ℝ := fun t => r.sampleH (x t) (u.h0 t)
        let vModel : Fin T → ι → ℝ := fun t =>
          (chain r (sv r) (fun i => u.v i t) (fun i => u.h i t) p.nUpdates 0 none (hData t)).1.getD 0
        let hModel : Fin T → κ → ℝ := fun t => (chain r (sv r) (fun i => u.v i t) (fun i => u.h i t) p.nUpdates 0 none (hData t)).2
        let phModel : Fin T → κ → ℝ := fun t => r.probsH (vModel t)
        let dw : Matrix ι κ ℝ := Matrix.of fun i j =>
          p.momentum * s.delta.w i j + p.epsilon * ((∑ t, x t i * phData t j - ∑ t, vModel t i * phModel t j) / T - p.decay * r.w i j)
        let dbv : ι → ℝ := fun i => p.momentum * s.delta.bv i + p.epsilon * ((∑ t, x t i - ∑ t, vModel t i) / T)
        let dbh : κ → ℝ := fun j => p.momentum * s.delta.bh j + p.epsilon *
          ((if p.withPh then ∑ t, phData t j - ∑ t, phModel t j else ∑ t, hData t j - ∑ t, hModel t j) / T)
        (.ok (), { rbm := some ⟨fun i j => r.w i j + dw i j, fun i => r.bv i + dbv i, fun j => r.bh j + dbh j⟩, delta := ⟨dw, dbv, dbh⟩ })

/-- `train` of `RBMNode`. -/
noncomputable def St.trainPlain (s : St ι κ) (p : Args) (x : Fin T → ι → ℝ) (u : Rand T ι κ) : Except Err Unit × St ι κ :=
  s.train Rbm.sampleV p x u

/-- `train` of `RBMWithLabelsNode` (481-525): `update_with_ph` is always true. -/
noncomputable def St.trainLabels {a b : Nat} (s : St (Fin a ⊕ Fin b) κ) (p : Args) (v : Fin T → Fin a → ℝ) (l : Fin T → Fin b → ℝ)
    (u : Rand T (Fin a ⊕ Fin b) κ) : Except Err Unit × St (Fin a ⊕ Fin b) κ :=
  s.train Rbm.labelsSample { p with withPh := true } (fun t => Sum.elim (v t) (l t)) u

end Mdp.Rbm
