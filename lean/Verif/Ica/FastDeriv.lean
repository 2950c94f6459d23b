import Verif.Ica.FastModel
import Mathlib.Analysis.SpecialFunctions.Trigonometric.DerivHyp
import Mathlib.Analysis.SpecialFunctions.ExpDeriv

/-!
# The derivatives of the nonlinearities of `FastICANode` (`mdp/nodes/ica_nodes.py`), C189

The steps of the code use the derivative of the nonlinearity, or a constant in its place. -/

namespace Mdp.Ica

open Matrix

theorem hasDerivAt_tanh (u : ℝ) : HasDerivAt Real.tanh (1 - Real.tanh u * Real.tanh u) u := by
  have h := (Real.hasDerivAt_sinh u).div (Real.hasDerivAt_cosh u) (Real.cosh_pos u).ne'
  have e : (fun y => Real.sinh y / Real.cosh y) = Real.tanh := by funext y; rw [Real.tanh_eq_sinh_div_cosh]
  have h' : HasDerivAt (fun y => Real.sinh y / Real.cosh y) _ u := h
  rw [e] at h'
  convert h' using 1
  rw [Real.tanh_eq_sinh_div_cosh]
  have := (Real.cosh_pos u).ne'
  field_simp

/-- C189. For tanh and gaus the derivative is exact. -/
theorem nonlinearity_derivative (c : FCfg) (u : ℝ) :
    HasDerivAt (c.fn .tanh) (c.dfn .tanh u) u ∧ HasDerivAt (c.fn .gaus) (c.dfn .gaus u) u := by
  constructor
  · have h := (hasDerivAt_tanh (c.fineTanh * u)).comp u ((hasDerivAt_id u).const_mul c.fineTanh)
    have h' : HasDerivAt (fun y => Real.tanh (c.fineTanh * y)) _ u := h
    show HasDerivAt (fun y => Real.tanh (c.fineTanh * y)) (c.fineTanh * (1 - Real.tanh (c.fineTanh * u) * Real.tanh (c.fineTanh * u))) u
    convert h' using 1
    ring
  · have h1 : HasDerivAt (fun y : ℝ => -c.fineGaus * (y * y) * 0.5) (-c.fineGaus * (1 * u + u * 1) * 0.5) u :=
      (((hasDerivAt_id u).mul (hasDerivAt_id u)).const_mul (-c.fineGaus)).mul_const 0.5
    have h2 : HasDerivAt (fun y : ℝ => y * Real.exp (-c.fineGaus * (y * y) * 0.5)) _ u := (hasDerivAt_id u).mul h1.exp
    show HasDerivAt (fun y : ℝ => y * Real.exp (-c.fineGaus * (y * y) * 0.5))
      ((1 - c.fineGaus * (u * u)) * Real.exp (-c.fineGaus * (u * u) * 0.5)) u
    convert h2 using 1
    simp only [id]
    ring

theorem avg_mul {m : Nat} (x : List (Vec m)) (a : ℝ) (f : Vec m → ℝ) : avg x (fun r => a * f r) = a * avg x f := by
  simp only [avg, List.sum_map_mul_left, mul_div_assoc]

/-- C189. For pow3 and skew the constants are the means of the derivatives over the samples, if the component has mean zero and
variance one, as for white data and a vector of length one. -/
theorem nonlinearity_constant {m : Nat} (c : FCfg) (x : List (Vec m)) (hx : x ≠ []) (w : Vec m) :
    (∀ u, HasDerivAt (c.fn .pow3) (3 * (u * u)) u) ∧ (∀ u, HasDerivAt (c.fn .skew) (2 * u) u) ∧
    (avg x (fun r => (r ⬝ᵥ w) * (r ⬝ᵥ w)) = 1 →
      avg x (fun r => c.dfn .pow3 (r ⬝ᵥ w)) = avg x (fun r => 3 * ((r ⬝ᵥ w) * (r ⬝ᵥ w)))) ∧
    (avg x (fun r => r ⬝ᵥ w) = 0 → avg x (fun r => c.dfn .skew (r ⬝ᵥ w)) = avg x (fun r => 2 * (r ⬝ᵥ w))) := by
  have hl : (x.length : ℝ) ≠ 0 := Nat.cast_ne_zero.2 (fun h => hx (List.length_eq_zero_iff.1 h))
  refine ⟨fun u => ?_, fun u => ?_, fun h => ?_, fun h => ?_⟩
  · have h2 : HasDerivAt (fun y : ℝ => y * y * y) _ u := ((hasDerivAt_id u).mul (hasDerivAt_id u)).mul (hasDerivAt_id u)
    show HasDerivAt (fun y : ℝ => y * y * y) _ u
    convert h2 using 1
    simp
    ring
  · have h2 : HasDerivAt (fun y : ℝ => y * y) _ u := (hasDerivAt_id u).mul (hasDerivAt_id u)
    show HasDerivAt (fun y : ℝ => y * y) _ u
    convert h2 using 1
    simp
    ring
  · rw [avg_mul, h]
    simp only [avg, FCfg.dfn, List.map_const', List.sum_replicate, nsmul_eq_mul]
    field_simp
  · rw [avg_mul, h]
    simp [avg, FCfg.dfn]

/-- Two samples of a white component. -/
example (c : FCfg) : avg [![(1 : ℝ)], ![-1]] (fun r => c.dfn .pow3 (r ⬝ᵥ ![1])) =
    avg [![(1 : ℝ)], ![-1]] (fun r => 3 * ((r ⬝ᵥ ![1]) * (r ⬝ᵥ ![1]))) :=
  (nonlinearity_constant c _ (by simp) _).2.2.1 (by norm_num [avg, dotProduct])

end Mdp.Ica
