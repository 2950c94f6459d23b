import Verif.Isfa.Converge
import Verif.Isfa.Two
import Verif.Isfa.White
import Verif.Isfa.Tdsep
import Verif.Isfa.Limit

/-!
# Concrete cases for the theorems about ISFA

Two signals with two time-lags (`exC`), TDSEP, at most 10000 sweeps; four white samples.
-/

namespace Mdp.Isfa

open Mdp.Ica Matrix

/-- Four samples with mean zero, variance one and no correlation. -/
noncomputable def exWhite : List (Vec 2) :=
  [![√3 / 2, √3 / 2], ![√3 / 2, -(√3 / 2)], ![-(√3 / 2), √3 / 2], ![-(√3 / 2), -(√3 / 2)]]

theorem exWhite_mean (i : Fin 2) : Cov.mean (exWhite.map fun x => x i) = 0 := by
  fin_cases i <;> simp [exWhite, Cov.mean]

theorem exWhite_cov (i j : Fin 2) : Cov.cov false (exWhite.map fun x => (x i, x j)) = if i = j then 1 else 0 := by
  have h3 : √(3 : ℝ) * √3 = 3 := Real.mul_self_sqrt (by norm_num)
  fin_cases i <;> fin_cases j <;> simp [exWhite, Cov.cov, Cov.codev, Cov.mean] <;> nlinarith

/-- C271, C273, C275. -/
example : ∃ r, stop (tdsep 2 2 (1 / 100000) 10000) sort2 (draw2 _ rfl) 10000 none exC = some (.ok r) ∧
    r.rpcᵀ * r.rpc = 1 ∧ r.covs = changed r.rpc exC ∧
    Cov.mean (exWhite.map fun x => (r.execute x).getD 0 0) = 0 ∧
    Cov.cov false (exWhite.map fun x => ((r.execute x).getD 0 0, (r.execute x).getD 1 0)) = 0 ∧
    ((∀ g : Matrix (Fin 2) (Fin 2) ℝ, gᵀ * g = 1 → r.final.1 + r.final.2 ≤
        objective (tdsep 2 2 (1 / 100000) 10000) (changed g (changed 1 exC))) ∨ r.rpc = 1) := by
  obtain ⟨r, hr⟩ := isfa_two_converges (p := tdsep 2 2 (1 / 100000) 10000) sort2 (draw2_ok _ rfl) rfl
    (by change (0 : ℝ) < 1 / 100000; norm_num) (by change 10000 ≠ 1; decide) (by change 10000 ≠ 2; decide) 9998 none exC_symm
  obtain ⟨h1, h2, _⟩ := isfa_rotation (draw2_ok _ rfl) exC_symm hr
  obtain ⟨w1, w2⟩ := isfa_white sort2_sorts (draw2_ok _ rfl) (le_refl 2) (fun rp h => absurd h (by simp)) exC_symm hr
    exWhite exWhite_mean exWhite_cov 0 1 (by change 0 < 2; decide) (by change 1 < 2; decide)
  refine ⟨r, hr, h1 (fun rp h => absurd h (by simp)), h2, w1, w2, ?_⟩
  rcases isfa_two_partial (draw2_ok _ rfl) rfl exC_symm hr with h | ⟨g, _, _, h, _⟩
  · exact .inl h
  · exact .inr h

/-- C269, C270: the two axes of `exC`. -/
example : |(givensAngle (tdsep 2 2 (1 / 100000) 10000) exC 0 1).1| ≤ Real.pi / 4 ∧
    (givensAngle (tdsep 2 2 (1 / 100000) 10000) exC 0 1).2 ≤
      objective (tdsep 2 2 (1 / 100000) 10000) (changed (plane 0 0 1) exC) := by
  obtain ⟨h1, h2⟩ := isfa_best_angle (tdsep 2 2 (1 / 100000) 10000) exC exC_symm 0 1 (by decide) (by change 1 < 2; decide)
  have h3 := isfa_contrast_of_angle (tdsep 2 2 (1 / 100000) 10000) exC exC_symm 0 1 (by decide) (by change 0 < 2; decide)
  exact ⟨h1, by rw [h3]; exact h2 0⟩

/-- C277. -/
example : stop (tdsep 2 2 (1 / 100000) 10000) sort2 (draw2 _ rfl) 10000 none exC ≠ none :=
  isfa_terminates (tdsep 2 2 (1 / 100000) 10000) (by change 0 < 10000; decide) sort2 (draw2 _ rfl) none exC

/-- C279: weights for three time-lags; the lags of the number 2. -/
example : (∃ s, init (.list [1, 2, 5]) .default (.list [1, 2, 3]) true none none = .ok s ∧ s.sfa = [1, 2, 3] ∧
      (∀ x ∈ s.ica, x = 1) ∧ s.ica.length = 3 ∧ s.effective 4 = 4) ∧
    init (.int 0) .default .default true none none = .error .index := by
  constructor
  · refine ⟨_, rfl, rfl, ?_, rfl, rfl⟩
    exact (isfa_weights [1, 2, 5] .default (.list [1, 2, 3]) true none none _ rfl).2.2.2.1 rfl
  · exact (isfa_lags 0 .default .default true none none).2 (by decide)

end Mdp.Isfa
