import Verif.Isfa.Converge

/-!
# Training for two signals with a limit of two sweeps (C275)
-/

namespace Mdp.Isfa

open Mdp.Ica Matrix

variable {T : Nat}

/-- **C275** (isfa_two_limit_two): for two signals and two outputs and `max_iter=2`, let `b` be the least objective of all rotations.
Training succeeds exactly if `b` is zero, or the objective at the start is not zero and exceeds `b` by less than the threshold, relative to
its size: in all other cases it raises although the least objective has been found in the first sweep. -/
theorem isfa_two_limit_two {p : Par (T + 1)} (order : (Fin 2 → ℝ) → List (Fin 2) → List (Fin 2)) {draw : Nat → Draw p.R 2}
    (hd : ∀ k, (draw k).Ok) (hR : p.R = 2) (he : 0 < p.eps) (h2 : p.maxIter = 2) (fuel : Nat) (rp0 : Option (Matrix (Fin 2) (Fin 2) ℝ))
    {c : Covs (T + 1) 2} (hc : ∀ t a b, c t a b = c t b a) (b : ℝ)
    (hb : ∃ g : Matrix (Fin 2) (Fin 2) ℝ, gᵀ * g = 1 ∧ objective p (changed g (changed (rp0.getD 1) c)) = b)
    (hmin : ∀ g : Matrix (Fin 2) (Fin 2) ℝ, gᵀ * g = 1 → b ≤ objective p (changed g (changed (rp0.getD 1) c))) :
    (∃ r, stop p order draw (fuel + 2) rp0 c = some (.ok r)) ↔
      b = 0 ∨ (objective p (changed (rp0.getD 1) c) ≠ 0 ∧
        objective p (changed (rp0.getD 1) c) - b < p.eps * |objective p (changed (rp0.getD 1) c)|) := by
  have hi : (0 : Fin 2).1 < p.R := by rw [hR]; decide
  have hj : (1 : Fin 2).1 < p.R := by rw [hR]; decide
  have key : ∀ c : Covs (T + 1) 2, (∀ t a b, c t a b = c t b a) →
      (∃ g : Matrix (Fin 2) (Fin 2) ℝ, gᵀ * g = 1 ∧ objective p (changed g c) = b) →
      (∀ g : Matrix (Fin 2) (Fin 2) ℝ, gᵀ * g = 1 → b ≤ objective p (changed g c)) →
      ((∃ o : Opt (T + 1) 2,
        optLoop p draw (fuel + 2) 0 ⟨c, 1, (contrast p c).1 + (contrast p c).2, if 2 = p.R then -1 else 0, 0⟩ = some (.ok o)) ↔
      b = 0 ∨ (objective p c ≠ 0 ∧ objective p c - b < p.eps * |objective p c|)) := by
    intro c hc hb hmin
    rw [if_pos hR.symm, contrast_eq p c hc]
    have e2 := isfa_contrast_of_angle p c hc 0 1 (by decide) hi
    have e3 := (isfa_best_angle p c hc 0 1 (by decide) hj).2
    have eb : (givensAngle p c 0 1).2 = b := by
      apply le_antisymm
      · obtain ⟨g, hg, rfl⟩ := hb
        obtain ⟨phi, hp⟩ := objective_two p c g hg
        rw [hp, e2]
        exact e3 phi
      · rw [e2]
        exact hmin _ (plane_orthogonal _ (by decide))
    by_cases hz : (givensAngle p c 0 1).2 = 0
    · obtain ⟨_, _, h⟩ := optLoop_zero (draw := draw) (fuel := fuel + 1) (o := ⟨c, 1, objective p c, -1, 0⟩) (draw_two hR (hd 1)) (by omega) hz
      exact ⟨fun _ => .inl (by rw [← eb, hz]), fun _ => ⟨_, h⟩⟩
    have e30 := e3 0
    rw [plane_zero, changed_one, ← e2] at e30
    have s1 := sweep_pair (o := (⟨c, 1, objective p c, -1, 0⟩ : Opt (T + 1) 2)) hz e30
    simp only [] at s1
    rw [show fuel + 2 = (fuel + 1) + 1 from rfl, optLoop]
    simp only [Nat.zero_add]
    rw [draw_two hR (hd 1), s1]
    simp only []
    rw [decide_in p (rel_nonneg e30) hz]
    rw [eb] at hz ⊢
    have hiff : max ((-1 : ℝ) : WithTop ℝ) (if objective p c = 0 then ⊤ else (((objective p c - b) / |objective p c| : ℝ) : WithTop ℝ)) < (p.eps : WithTop ℝ) ↔
        (objective p c ≠ 0 ∧ objective p c - b < p.eps * |objective p c|) := by
      rw [max_lt_iff]
      constructor
      · rintro ⟨_, h⟩
        split at h
        · exact absurd h (not_lt.2 le_top)
        · rename_i h0
          exact ⟨h0, (div_lt_iff₀ (abs_pos.2 h0)).1 (WithTop.coe_lt_coe.1 h)⟩
      · rintro ⟨h0, h⟩
        rw [if_neg h0]
        exact ⟨WithTop.coe_lt_coe.2 (by linarith), WithTop.coe_lt_coe.2 ((div_lt_iff₀ (abs_pos.2 h0)).2 h)⟩
    by_cases hm : max ((-1 : ℝ) : WithTop ℝ) (if objective p c = 0 then ⊤ else (((objective p c - b) / |objective p c| : ℝ) : WithTop ℝ)) < (p.eps : WithTop ℝ)
    · rw [if_pos hm]
      simp only [Bool.false_eq_true, and_false, if_false]
      rw [if_neg (by omega)]
      exact ⟨fun _ => .inr (hiff.1 hm), fun _ => ⟨_, rfl⟩⟩
    · rw [if_neg hm]
      simp only [and_true, if_true]
      rw [if_neg (by omega), if_neg (by norm_num)]
      refine ⟨?_, fun h => absurd (hiff.2 (h.resolve_left hz)) hm⟩
      rintro ⟨o, ho⟩
      obtain ⟨_, _, _, hm2, _⟩ := optLoop_step ho
      exact absurd h2.symm hm2
  unfold stop optimize
  cases rp0 with
  | none =>
    rw [Option.getD_none, changed_one] at hb hmin ⊢
    rw [← key c hc hb hmin]
    simp only []
    constructor
    · rintro ⟨r, hr⟩
      generalize optLoop p draw (fuel + 2) 0 _ = L at hr
      match L, hr with
      | some (.ok o), _ => exact ⟨o, rfl⟩
    · rintro ⟨o, ho⟩
      simp only [ho]
      exact ⟨_, rfl⟩
  | some rp =>
    rw [Option.getD_some] at hb hmin ⊢
    rw [← key (changed rp c) (changed_symm _ c hc) hb hmin]
    simp only [transform_changed]
    constructor
    · rintro ⟨r, hr⟩
      generalize optLoop p draw (fuel + 2) 0 _ = L at hr
      match L, hr with
      | some (.ok o), _ => exact ⟨o, rfl⟩
    · rintro ⟨o, ho⟩
      simp only [ho]
      exact ⟨_, rfl⟩

theorem exC_objective (phi : ℝ) : objective (tdsep 2 2 (1 / 100000) 2) (changed (plane phi 0 1) exC) =
    (Real.cos phi * Real.sin phi) ^ 2 + (Real.cos phi ^ 2 - Real.sin phi ^ 2) ^ 2 := by
  rw [tdsep_objective _ _ (by decide)]
  have e : ∀ t i j, changed (plane phi 0 1) exC t i j = ∑ k, (∑ l, plane phi 0 1 l i * exC t l k) * plane phi 0 1 k j := by
    intro t i j
    change ((plane phi (0 : Fin 2) 1)ᵀ * Matrix.of (exC t) * plane phi (0 : Fin 2) 1 : Matrix (Fin 2) (Fin 2) ℝ) i j = _
    simp only [Matrix.mul_apply, Matrix.transpose_apply, Matrix.of_apply]
  simp only [e, Fin.sum_univ_two]
  simp [exC, plane]
  ring

/-- Two time-lags and `max_iter=2`: training does not succeed; with the default limit it does. -/
example (fuel : Nat) : ¬ (∃ r, stop (tdsep 2 2 (1 / 100000) 2) sort2 (draw2 _ rfl) (fuel + 2) none exC = some (.ok r)) ∧
    ∃ r, stop (tdsep 2 2 (1 / 100000) 10000) sort2 (draw2 _ rfl) (fuel + 2) none exC = some (.ok r) := by
  constructor
  · have o0 : objective (tdsep 2 2 (1 / 100000) 2) exC = 1 := by
      have := exC_objective 0
      rw [plane_zero, changed_one] at this
      rw [this]; norm_num
    intro hex
    have H := (isfa_two_limit_two (p := tdsep 2 2 (1 / 100000) 2) sort2 (draw2_ok _ rfl) rfl (by change (0 : ℝ) < 1 / 100000; norm_num) rfl fuel none
      exC_symm (1 / 4) ?_ ?_).1 hex
    · revert H
      rw [Option.getD_none, changed_one, o0]
      rintro (h | ⟨_, h⟩)
      · norm_num at h
      · change (1 : ℝ) - 1 / 4 < 1 / 100000 * |1| at h
        norm_num at h
    · refine ⟨plane (Real.pi / 4) 0 1, plane_orthogonal _ (by decide), ?_⟩
      rw [Option.getD_none, changed_one, exC_objective, Real.cos_pi_div_four, Real.sin_pi_div_four]
      have h2 : Real.sqrt 2 ^ 2 = 2 := Real.sq_sqrt (by norm_num)
      generalize Real.sqrt 2 = w at h2 ⊢
      have : (w / 2 * (w / 2)) ^ 2 + ((w / 2) ^ 2 - (w / 2) ^ 2) ^ 2 = (w ^ 2) ^ 2 / 16 := by ring
      rw [this, h2]; norm_num
    · intro g hg
      rw [Option.getD_none, changed_one]
      obtain ⟨phi, hp⟩ := objective_two (tdsep 2 2 (1 / 100000) 2) exC g hg
      rw [hp, exC_objective]
      have h1 := Real.sin_sq_add_cos_sq phi
      have : Real.cos phi ^ 2 = 1 - Real.sin phi ^ 2 := by linarith
      rw [mul_pow, this]
      nlinarith [sq_nonneg (1 - 2 * Real.sin phi ^ 2)]
  · exact isfa_two_converges (p := tdsep 2 2 (1 / 100000) 10000) sort2 (draw2_ok _ rfl) rfl (by change (0 : ℝ) < 1 / 100000; norm_num)
      (by change 10000 ≠ 1; decide) (by change 10000 ≠ 2; decide) fuel none exC_symm

end Mdp.Isfa
