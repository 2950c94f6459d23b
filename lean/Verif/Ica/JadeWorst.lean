import Verif.Ica.Jade
import Mathlib.Analysis.Real.Pi.Bounds

/-!
# JADENode can end where every pair is to be rotated by the largest angle (C183)
-/

namespace Mdp.Ica

open Matrix

theorem mixed_fourth (i j k l : Fin 2) : fourth mixed i j k l = if i = j ∧ j = k ∧ k = l then 2 else 0 := by
  have h2 : Real.sqrt 2 * Real.sqrt 2 = 2 := Real.mul_self_sqrt (by norm_num)
  simp only [fourth, mixed, List.map_cons, List.map_nil, List.sum_cons, List.sum_nil, List.length_cons, List.length_nil]
  generalize Real.sqrt 2 = w at h2 ⊢
  have h4 : w ^ 4 = 4 := by linear_combination (w * w + 2) * h2
  revert i j k l
  simp only [Fin.forall_fin_two]
  norm_num
  linear_combination (1 / 2) * h4

theorem mixed_permuted (s : Equiv.Perm (Fin 2)) (v : Matrix (Fin 2) (Fin 2) ℝ) (hv : v = fun a k => if a = s k then 1 else 0) (phi : ℝ) :
    diagonality (cumMatrices mixed) (v * turn phi 0 1) = diagonality (cumMatrices mixed) v + 1 - Real.cos (4 * phi) := by
  have hs : (s 0 = 0 ∧ s 1 = 1) ∨ (s 0 = 1 ∧ s 1 = 0) := by clear hv; revert s; decide
  have hc : ∀ c : Matrix (Fin 2) (Fin 2) ℝ, ∀ i j, (vᵀ * c * v) i j = c (s i) (s j) := by
    intro c i j
    have vi : ∀ a k, v a k = if a = s k then 1 else 0 := fun a k => by rw [hv]
    simp only [Matrix.mul_apply, Matrix.transpose_apply, vi, Finset.sum_mul, ite_mul, one_mul, zero_mul, mul_ite, mul_one, mul_zero,
      Finset.sum_ite_eq', Finset.mem_univ, if_true]
  have e1 : toffOf ((cumMatrices mixed).map fun c => vᵀ * c * v) 0 1 = 0 := by
    simp only [toffOf, List.map_map, Function.comp_def, hc]
    rcases hs with ⟨h0, h1⟩ | ⟨h0, h1⟩ <;> rw [h0, h1] <;>
    simp only [matrices_two, List.map_cons, List.map_nil, List.sum_cons, List.sum_nil, cumMatrix, Matrix.sub_apply,
      Matrix.smul_apply, mixed_fourth, unitOuter, one_apply, Fin.isValue, one_ne_zero, zero_ne_one, if_true, if_false, and_true, and_false,
      smul_eq_mul, true_and, false_and] <;> norm_num
  have e2 : tonOf ((cumMatrices mixed).map fun c => vᵀ * c * v) 0 1 = -4 := by
    simp only [tonOf, List.map_map, Function.comp_def, hc]
    rcases hs with ⟨h0, h1⟩ | ⟨h0, h1⟩ <;> rw [h0, h1] <;>
    simp only [matrices_two, List.map_cons, List.map_nil, List.sum_cons, List.sum_nil, cumMatrix, Matrix.sub_apply,
      Matrix.smul_apply, mixed_fourth, unitOuter, one_apply, Fin.isValue, one_ne_zero, zero_ne_one, if_true, if_false, and_true, and_false,
      smul_eq_mul, true_and, false_and] <;> norm_num
  rw [diagonality_mul, diagonality_turn _ (by decide), e1, e2, ← diagonality_mul, Matrix.mul_one]
  ring

/-- **C183, false** in the degenerate case: for two binary signals mixed by 45 degrees `JADENode.core` returns a basis in which the
best rotation of the two signals is by 45 degrees, which is above the threshold (for all limits up to one): every rotation by an angle
not above the threshold is worse. -/
theorem jade_stationary_violation (limit : ℝ) (h0 : 0 ≤ limit) (h1 : limit ≤ 1) (maxIt : Nat)
    (order : Matrix (Fin 2) (Fin 2) ℝ → Equiv.Perm (Fin 2)) :
    ∃ f, jade limit maxIt order mixed = .ok (f, 0) ∧
      (∀ phi, diagonality (cumMatrices mixed) (f * turn phi 0 1) ≤ diagonality (cumMatrices mixed) (f * turn (Real.pi / 4) 0 1)) ∧
      ∀ t, |t| ≤ limit ^ 2 / Real.sqrt mixed.length →
        diagonality (cumMatrices mixed) (f * turn t 0 1) < diagonality (cumMatrices mixed) (f * turn (Real.pi / 4) 0 1) := by
  obtain ⟨s, hs⟩ := (jade_angle_false limit maxIt order).1
  refine ⟨_, hs, fun phi => ?_, fun t ht => ?_⟩
  · rw [mixed_permuted s _ rfl, mixed_permuted s _ rfl, show 4 * (Real.pi / 4) = Real.pi by ring, Real.cos_pi]
    linarith [Real.neg_one_le_cos (4 * phi)]
  · have hl : Real.sqrt ((mixed.length : ℕ) : ℝ) = 2 := by
      rw [show ((mixed.length : ℕ) : ℝ) = 2 ^ 2 by simp [mixed]; norm_num]
      exact Real.sqrt_sq (by norm_num)
    rw [hl] at ht
    have hp := Real.pi_gt_three
    have hq : limit ^ 2 ≤ 1 := by nlinarith
    have h4 : |4 * t| < Real.pi := by rw [abs_mul]; norm_num; linarith
    have := Real.cos_lt_cos_of_nonneg_of_le_pi (abs_nonneg (4 * t)) le_rfl h4
    rw [Real.cos_pi, Real.cos_abs] at this
    rw [mixed_permuted s _ rfl, mixed_permuted s _ rfl, show 4 * (Real.pi / 4) = Real.pi by ring, Real.cos_pi]
    linarith

/-- The default limit and number of iterations. -/
example : ∃ f, jade (1 / 1000) 1000 (fun _ => 1) mixed = .ok (f, 0) :=
  (jade_stationary_violation (1 / 1000) (by norm_num) (by norm_num) 1000 _).imp fun _ h => h.1

end Mdp.Ica
