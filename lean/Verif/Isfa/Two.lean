import Verif.Isfa.Node

/-!
# Two signals (C275, C276)
-/

namespace Mdp.Isfa

open Mdp.Ica Matrix

variable {n T : Nat}

theorem axes_two : axes 2 2 = [(0, 1)] := by decide

theorem draw_two {p : Par T} (hR : p.R = 2) {d : Draw p.R 2} (hd : d.Ok) : d.axes = [(0, 1)] := by
  have e : axes p.R 2 = [((0 : Fin 2), (1 : Fin 2))] := by rw [hR, axes_two]
  exact List.perm_singleton.1 (hd.1.trans (List.Perm.of_eq e))

/-- Orthogonal matrices of size two are rotations, perhaps after a reflection. -/
theorem orthogonal_two (g : Matrix (Fin 2) (Fin 2) ℝ) (hg : gᵀ * g = 1) : ∃ phi e : ℝ, e * e = 1 ∧ ∀ i, g i 0 = plane phi 0 1 i 0 ∧ g i 1 = e * plane phi 0 1 i 1 := by
  have h00 := congrFun (congrFun hg 0) 0
  have h01 := congrFun (congrFun hg 0) 1
  have h11 := congrFun (congrFun hg 1) 1
  simp only [Matrix.mul_apply, Fin.sum_univ_two, Matrix.transpose_apply, Matrix.one_apply, Fin.isValue, if_true, zero_ne_one, if_false] at h00 h01 h11
  have hn : ‖(⟨g 0 0, -g 1 0⟩ : ℂ)‖ = 1 := by
    rw [Complex.norm_def, Complex.normSq_apply]
    simp only []
    rw [show g 0 0 * g 0 0 + -g 1 0 * -g 1 0 = 1 by linarith, Real.sqrt_one]
  have hc := Complex.norm_mul_cos_arg (⟨g 0 0, -g 1 0⟩ : ℂ)
  have hs := Complex.norm_mul_sin_arg (⟨g 0 0, -g 1 0⟩ : ℂ)
  rw [hn, one_mul] at hc hs
  simp only [] at hc hs
  refine ⟨Complex.arg ⟨g 0 0, -g 1 0⟩, g 0 0 * g 1 1 - g 1 0 * g 0 1, ?_, ?_⟩
  · have : (g 0 0 * g 1 1 - g 1 0 * g 0 1) ^ 2 = (g 0 0 * g 0 0 + g 1 0 * g 1 0) * (g 0 1 * g 0 1 + g 1 1 * g 1 1) - (g 0 0 * g 0 1 + g 1 0 * g 1 1) ^ 2 := by ring
    rw [h00, h11, h01] at this
    linarith
  · intro i
    fin_cases i
    · simp only [plane, Fin.zero_eta, Fin.isValue, and_self, if_true, zero_ne_one, one_ne_zero, and_false, false_and, if_false, hc, hs]
      refine ⟨trivial, ?_⟩
      linear_combination (-g 0 1) * h00 + g 0 0 * h01
    · simp only [plane, Fin.mk_one, Fin.isValue, and_self, if_true, zero_ne_one, one_ne_zero, and_false, false_and, if_false, hc, hs]
      refine ⟨by ring, ?_⟩
      linear_combination (-g 1 1) * h00 + g 1 0 * h01

theorem objective_two (p : Par T) (c : Covs T 2) (g : Matrix (Fin 2) (Fin 2) ℝ) (hg : gᵀ * g = 1) :
    ∃ phi, objective p (changed g c) = objective p (changed (plane phi 0 1) c) := by
  obtain ⟨phi, e, he, h⟩ := orthogonal_two g hg
  refine ⟨phi, ?_⟩
  have key : ∀ t i j, changed g c t i j ^ 2 = changed (plane phi 0 1) c t i j ^ 2 := by
    intro t i j
    have e1 : ∀ (m : Matrix (Fin 2) (Fin 2) ℝ), changed m c t i j = ∑ k, (∑ l, m l i * c t l k) * m k j := by
      intro m
      change (mᵀ * Matrix.of (c t) * m) i j = _
      simp only [Matrix.mul_apply, Matrix.transpose_apply, Matrix.of_apply]
    rw [e1, e1]
    simp only [Fin.sum_univ_two]
    have e2 : e ^ 2 = 1 := by rw [sq]; exact he
    have e4 : e ^ 4 = 1 := by rw [show e ^ 4 = (e ^ 2) ^ 2 by ring, e2]; norm_num
    fin_cases i <;> fin_cases j <;>
      simp only [Fin.zero_eta, Fin.mk_one, Fin.isValue, (h 0).1, (h 1).1, (h 0).2, (h 1).2]
    · generalize plane phi (0 : Fin 2) 1 0 1 = x; generalize plane phi (0 : Fin 2) 1 1 1 = y; generalize plane phi (0 : Fin 2) 1 0 0 = z; generalize plane phi (0 : Fin 2) 1 1 0 = w
      linear_combination (((z * c t 0 0 + w * c t 1 0) * x + (z * c t 0 1 + w * c t 1 1) * y) ^ 2) * e2
    · generalize plane phi (0 : Fin 2) 1 0 1 = x; generalize plane phi (0 : Fin 2) 1 1 1 = y; generalize plane phi (0 : Fin 2) 1 0 0 = z; generalize plane phi (0 : Fin 2) 1 1 0 = w
      linear_combination (((x * c t 0 0 + y * c t 1 0) * z + (x * c t 0 1 + y * c t 1 1) * w) ^ 2) * e2
    · generalize plane phi (0 : Fin 2) 1 0 1 = x; generalize plane phi (0 : Fin 2) 1 1 1 = y; generalize plane phi (0 : Fin 2) 1 0 0 = z; generalize plane phi (0 : Fin 2) 1 1 0 = w
      linear_combination (((x * c t 0 0 + y * c t 1 0) * x + (x * c t 0 1 + y * c t 1 1) * y) ^ 2) * e4
  unfold objective
  simp only [key]

/-- The first sweep for two signals. -/
theorem two_sweep {p : Par T} (hR : p.R = 2) {d : Draw p.R 2} (hd : d.Ok) {o o1 : Opt T 2} (hc : ∀ t a b, o.covs t a b = o.covs t b a)
    (he : o.contrast = objective p o.covs) {mi : WithTop ℝ} (h : doSweep p d.axes o = .ok (mi, o1)) :
    ((givensAngle p o.covs 0 1).2 = 0 ∧ o1.covs = o.covs ∧ o1.q = o.q ∧ o1.contrast = 0) ∨
    ((givensAngle p o.covs 0 1).2 ≠ 0 ∧ o1.covs = changed (plane (givensAngle p o.covs 0 1).1 0 1) o.covs) := by
  obtain ⟨v, hv, _, ho⟩ := doSweep_ok h
  rw [draw_two hR hd] at hv ho
  have hi : (0 : Fin 2).1 < p.R := by rw [hR]; decide
  have hj : (1 : Fin 2).1 < p.R := by rw [hR]; decide
  have e2 := isfa_contrast_of_angle p o.covs hc 0 1 (by decide) hi
  have e3 := (isfa_best_angle p o.covs hc 0 1 (by decide) hj).2 0
  rw [plane_zero, changed_one, ← e2, ← he] at e3
  unfold pairLoop at hv ho
  simp only [] at hv ho
  by_cases hz : (givensAngle p o.covs 0 1).2 = 0
  · rw [if_pos hz] at hv ho
    left
    injection hv with hv
    rw [ho]
    exact ⟨hz, rfl, rfl, hv.symm.trans hz⟩
  · rw [if_neg hz, if_neg (not_lt.2 e3)] at ho
    right
    rw [ho, ← rotate_changed _ (by decide)]
    exact ⟨hz, rfl⟩

/-- **C275** (isfa_two_signals): for two signals and two outputs, if the least objective of all orthogonal matrices is not exactly zero, training
finds it: no orthogonal matrix has a smaller objective. If the angle found has objective exactly zero, the rotation is not made: the result is the start. -/
theorem isfa_two_partial {p : Par (T + 1)} {order : (Fin 2 → ℝ) → List (Fin 2) → List (Fin 2)} {draw : Nat → Draw p.R 2} (hd : ∀ k, (draw k).Ok)
    (hR : p.R = 2) {fuel : Nat} {rp0 : Option (Matrix (Fin 2) (Fin 2) ℝ)} {c : Covs (T + 1) 2} (hc : ∀ t a b, c t a b = c t b a) {r : Res (T + 1) 2}
    (h : stop p order draw fuel rp0 c = some (.ok r)) :
    (∀ g : Matrix (Fin 2) (Fin 2) ℝ, gᵀ * g = 1 → r.final.1 + r.final.2 ≤ objective p (changed g (changed (rp0.getD 1) c))) ∨
    (∃ g : Matrix (Fin 2) (Fin 2) ℝ, gᵀ * g = 1 ∧ objective p (changed g (changed (rp0.getD 1) c)) = 0 ∧ r.rpc = rp0.getD 1 ∧
      ∀ g : Matrix (Fin 2) (Fin 2) ℝ, gᵀ * g = 1 → 0 ≤ objective p (changed g (changed (rp0.getD 1) c))) := by
  obtain ⟨o, ho, h1, h2, h3, h4, _⟩ := stop_ok h
  have hs := changed_symm (start rp0) c hc
  have hce := contrast_eq p (changed (start rp0) c) hs
  have hg := optLoop_good hd hs fuel _ _ (good_start (changed (start rp0) c)) ho
  rw [h2, contrast_eq _ _ (hg.symm hs), h3]
  change (∀ g : Matrix (Fin 2) (Fin 2) ℝ, gᵀ * g = 1 → objective p o.covs ≤ objective p (changed g (changed (start rp0) c))) ∨ _
  cases fuel with
  | zero => exact nomatch ho
  | succ fuel =>
    obtain ⟨mi, o1, hs1, _, hr⟩ := optLoop_step ho
    have hi : (0 : Fin 2).1 < p.R := by rw [hR]; decide
    have hj : (1 : Fin 2).1 < p.R := by rw [hR]; decide
    have e2 := isfa_contrast_of_angle p (changed (start rp0) c) hs 0 1 (by decide) hi
    have e3 := (isfa_best_angle p (changed (start rp0) c) hs 0 1 (by decide) hj).2
    have e4 : ∀ g : Matrix (Fin 2) (Fin 2) ℝ, gᵀ * g = 1 → (givensAngle p (changed (start rp0) c) 0 1).2 ≤ objective p (changed g (changed (start rp0) c)) := by
      intro g hg
      obtain ⟨phi, hp⟩ := objective_two p (changed (start rp0) c) g hg
      rw [hp, e2]
      exact e3 phi
    rcases two_sweep hR (hd 1) (o := ⟨changed (start rp0) c, 1, _, _, _⟩) hs (hce) hs1 with ⟨f1, f2, f3, f4⟩ | ⟨f1, f2⟩
    · right
      simp only [] at f1 f2 f3
      refine ⟨plane (givensAngle p (changed (start rp0) c) 0 1).1 0 1, plane_orthogonal _ (by decide), ?_, ?_, ?_⟩
      · exact e2.symm.trans f1
      · rcases hr with ⟨pe, pa, hr⟩ | ⟨hz, _⟩
        · rw [hr]; simp only []; rw [f3, Matrix.mul_one]; rfl
        · exact absurd f4 hz
      · intro g hg
        rw [← f1]
        exact e4 g hg
    · left
      intro g hgo
      simp only [] at f1 f2
      refine le_trans ?_ (e4 g hgo)
      rw [e2, ← f2]
      have g1 : Good (changed (start rp0) c) o1.covs o1.q := by
        obtain ⟨v, _, _, hoo⟩ := doSweep_ok hs1
        rw [hoo]
        exact (pairLoop_ok p hs _ (fun x hx => axes_lt (hd 1) hx) ⟨((-1 : ℝ) : WithTop ℝ), changed (start rp0) c, 1, _, none⟩ (good_start _)).1
      rcases hr with ⟨pe, pa, hr⟩ | ⟨hz, o2, h5, e0, h6⟩
      · rw [hr]
      · have e5 : o1.contrast = objective p o1.covs := by
          obtain ⟨v, hv, _, hoo⟩ := doSweep_ok hs1
          have q1 := ((pairLoop_ok p hs (draw 1).axes (fun x hx => axes_lt (hd 1) hx) ⟨((-1 : ℝ) : WithTop ℝ), changed (start rp0) c, 1, _, none⟩ (good_start _)).2 (hce)).1
          rcases pairLoop_in p hs (draw 1).axes (fun x hx => ⟨by have := x.2.2; omega, (axes_lt (hd 1) hx).2⟩) ⟨((-1 : ℝ) : WithTop ℝ), changed (start rp0) c, 1, _, none⟩ (good_start _) (hce)
            (Or.inr (by rw [draw_two hR (hd 1)]; simp)) with q | q
          · rw [q] at hv; injection hv with hv
            rw [hoo]; simp only []; rw [← hv]; exact q1
          · rw [q] at hv; injection hv with hv
            rw [hoo] at hz; exact absurd hv.symm hz
        have e6 : objective p o2.covs = objective p o1.covs := by
          rcases h6 with ⟨k1, _⟩ | ⟨k1, _⟩
          · rw [k1]
          · rw [k1, transform_changed, objective_perturb]
        have g2 : Good (changed (start rp0) c) o2.covs o2.q := by
          rcases h6 with ⟨k1, k2⟩ | ⟨k1, k2⟩
          · rw [k1, k2]; exact g1
          · rw [k1, k2, transform_changed]; exact g1.mul (matrix_orthogonal (hd _))
        rw [← e6]
        exact optLoop_decreases hd hR.ge hs fuel _ o2 g2 (by rw [e0, e5, e6]) h5

end Mdp.Isfa
