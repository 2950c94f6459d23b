import Verif.Isfa.Tdsep
import Verif.Isfa.Limit

/-!
# Training for two signals always succeeds (C275), examples
-/

namespace Mdp.Isfa

open Mdp.Ica Matrix

variable {n T : Nat}

/-- One pair of axes, contrast not zero: what the sweep gives. -/
theorem sweep_pair {p : Par T} {o : Opt T n} {i j : Fin n} (hz : (givensAngle p o.covs i j).2 ≠ 0) (hl : (givensAngle p o.covs i j).2 ≤ o.contrast) :
    doSweep p [(i, j)] o = .ok (max ((-1 : ℝ) : WithTop ℝ) (if o.contrast = 0 then ⊤ else (((o.contrast - (givensAngle p o.covs i j).2) / |o.contrast| : ℝ) : WithTop ℝ)),
      { o with covs := rotCovs (givensAngle p o.covs i j).1 i j o.covs, q := rotateM (givensAngle p o.covs i j).1 i j o.q, contrast := (givensAngle p o.covs i j).2 }) := by
  unfold doSweep
  rw [pairLoop]
  simp only []
  rw [if_neg hz, if_neg (not_lt.2 hl)]
  simp only [pairLoop]

/-- No outer space, an improvement, contrast not zero: go on or stop. -/
theorem decide_in (p : Par T) {mi : WithTop ℝ} (h0 : ((0 : ℝ) : WithTop ℝ) ≤ mi) {v : ℝ} (hv : v ≠ 0) (sweep part : Nat) :
    decide' p mi v sweep (-1) part = if mi < (p.eps : WithTop ℝ) then (false, -1, sweep) else (true, -1, part) := by
  unfold decide'
  have h1 : ¬(mi < ((0 : ℝ) : WithTop ℝ) ∨ v = 0) := by
    rintro (h | h)
    · exact absurd h (not_lt.2 h0)
    · exact hv h
  simp only [h1, if_false, h0, and_true]
  split
  · norm_num
  · rfl

theorem rel_nonneg {a b : ℝ} (h : b ≤ a) :
    ((0 : ℝ) : WithTop ℝ) ≤ max ((-1 : ℝ) : WithTop ℝ) (if a = 0 then ⊤ else (((a - b) / |a| : ℝ) : WithTop ℝ)) := by
  refine le_max_of_le_right ?_
  split
  · exact le_top
  · exact WithTop.coe_le_coe.2 (div_nonneg (by linarith) (abs_nonneg _))

/-- **C275** (isfa_two_converges): for two signals and two outputs, a positive threshold and a limit of at least three sweeps (or none), training
succeeds for all covariance matrices. -/
theorem isfa_two_converges {p : Par (T + 1)} (order : (Fin 2 → ℝ) → List (Fin 2) → List (Fin 2)) {draw : Nat → Draw p.R 2} (hd : ∀ k, (draw k).Ok)
    (hR : p.R = 2) (he : 0 < p.eps) (h1 : p.maxIter ≠ 1) (h2 : p.maxIter ≠ 2) (fuel : Nat) (rp0 : Option (Matrix (Fin 2) (Fin 2) ℝ))
    {c : Covs (T + 1) 2} (hc : ∀ t a b, c t a b = c t b a) : ∃ r, stop p order draw (fuel + 2) rp0 c = some (.ok r) := by
  have hi : (0 : Fin 2).1 < p.R := by rw [hR]; decide
  have hj : (1 : Fin 2).1 < p.R := by rw [hR]; decide
  have key : ∀ c : Covs (T + 1) 2, (∀ t a b, c t a b = c t b a) → ∃ o : Opt (T + 1) 2,
      optLoop p draw (fuel + 2) 0 ⟨c, 1, (contrast p c).1 + (contrast p c).2, if 2 = p.R then -1 else 0, 0⟩ = some (.ok o) := by
    intro c hc
    rw [if_pos hR.symm, contrast_eq p c hc]
    by_cases hz : (givensAngle p c 0 1).2 = 0
    · obtain ⟨_, _, h⟩ := optLoop_zero (draw := draw) (fuel := fuel + 1) (o := ⟨c, 1, objective p c, -1, 0⟩) (draw_two hR (hd 1)) h1 hz
      exact ⟨_, h⟩
    have e2 := isfa_contrast_of_angle p c hc 0 1 (by decide) hi
    have e3 := (isfa_best_angle p c hc 0 1 (by decide) hj).2
    have e30 := e3 0
    rw [plane_zero, changed_one, ← e2] at e30
    have s1 := sweep_pair (o := (⟨c, 1, objective p c, -1, 0⟩ : Opt (T + 1) 2)) hz e30
    simp only [] at s1
    rw [show fuel + 2 = (fuel + 1) + 1 from rfl, optLoop]
    simp only [Nat.zero_add]
    rw [draw_two hR (hd 1), s1]
    simp only []
    rw [decide_in p (rel_nonneg e30) hz]
    set a := givensAngle p c 0 1 with ha
    by_cases hm : max ((-1 : ℝ) : WithTop ℝ) (if objective p c = 0 then ⊤ else (((objective p c - a.2) / |objective p c| : ℝ) : WithTop ℝ)) < (p.eps : WithTop ℝ)
    · rw [if_pos hm]
      simp only [Bool.false_eq_true, and_false, if_false]
      rw [if_neg (by omega)]
      exact ⟨_, rfl⟩
    · rw [if_neg hm]
      simp only [and_true, if_true]
      rw [if_neg (by omega), if_neg (by norm_num)]
      -- the second sweep
      have hc1 : ∀ t x y, rotCovs a.1 0 1 c t x y = rotCovs a.1 0 1 c t y x := by
        rw [rotate_changed a.1 (by decide)]; exact changed_symm _ c hc
      have f2 := isfa_contrast_of_angle p (rotCovs a.1 0 1 c) hc1 0 1 (by decide) hi
      have f3 := (isfa_best_angle p (rotCovs a.1 0 1 c) hc1 0 1 (by decide) hj).2 0
      have ea : a.2 = objective p (rotCovs a.1 0 1 c) := by rw [rotate_changed a.1 (by decide)]; exact e2
      rw [plane_zero, changed_one, ← f2, ← ea] at f3
      have f4 : a.2 ≤ (givensAngle p (rotCovs a.1 0 1 c) 0 1).2 := by
        rw [f2, rotate_changed a.1 (by decide), changed_mul]
        have ho : (plane a.1 0 1 * plane (givensAngle p (changed (plane a.1 0 1) c) 0 1).1 0 1)ᵀ * (plane a.1 0 1 * plane (givensAngle p (changed (plane a.1 0 1) c) 0 1).1 0 1) = (1 : Matrix (Fin 2) (Fin 2) ℝ) := by
          rw [Matrix.transpose_mul, Matrix.mul_assoc, ← Matrix.mul_assoc (plane a.1 0 1)ᵀ, plane_orthogonal _ (by decide), Matrix.one_mul,
            plane_orthogonal _ (by decide)]
        obtain ⟨phi, hp⟩ := objective_two p c _ ho
        rw [hp, e2]
        exact e3 phi
      have f5 : (givensAngle p (rotCovs a.1 0 1 c) 0 1).2 = a.2 := le_antisymm f3 f4
      have s2 := sweep_pair (o := (⟨rotCovs a.1 0 1 c, rotateM a.1 0 1 1, a.2, -1, 0⟩ : Opt (T + 1) 2)) (i := 0) (j := 1) (p := p) (by simp only []; rw [f5]; exact hz) (by simp only []; rw [f5])
      simp only [] at s2
      rw [optLoop]
      simp only []
      rw [draw_two hR (hd (1 + 1)), s2]
      simp only []
      rw [decide_in p (rel_nonneg f3) (by rw [f5]; exact hz)]
      have hm2 : max ((-1 : ℝ) : WithTop ℝ) (if a.2 = 0 then ⊤ else (((a.2 - (givensAngle p (rotCovs a.1 0 1 c) 0 1).2) / |a.2| : ℝ) : WithTop ℝ)) < (p.eps : WithTop ℝ) := by
        rw [if_neg hz, f5, sub_self, zero_div]
        exact max_lt (WithTop.coe_lt_coe.2 (by linarith)) (WithTop.coe_lt_coe.2 he)
      rw [if_pos hm2]
      simp only [Bool.false_eq_true, and_false, if_false]
      rw [if_neg (by omega)]
      exact ⟨_, rfl⟩
  unfold stop optimize
  cases rp0 with
  | none =>
    obtain ⟨o, ho⟩ := key c hc
    simp only [ho]
    exact ⟨_, rfl⟩
  | some rp =>
    obtain ⟨o, ho⟩ := key (trCovs rp c) (by rw [transform_changed]; exact changed_symm _ c hc)
    simp only [ho]
    exact ⟨_, rfl⟩

/-! ## Examples -/

/-- Choices for two signals. -/
def draw2 (R : Nat) (h : R = 2) : Nat → Draw R 2 := fun _ => ⟨[(0, 1)], 1, 1⟩

theorem draw2_ok (R : Nat) (h : R = 2) (k : Nat) : (draw2 R h k).Ok := by
  subst h
  refine ⟨?_, by simp [draw2]⟩
  change List.Perm [((0 : Fin 2), (1 : Fin 2))] (axes 2 2)
  rw [axes_two]

open Classical in
/-- Sorting of the indices of two signals. -/
noncomputable def sort2 : (Fin n → ℝ) → List (Fin n) → List (Fin n) := fun d l => l.insertionSort fun i j => d i ≤ d j

theorem sort2_sorts : Sorts (sort2 (n := n)) := by
  intro d l
  classical
  haveI : Std.Total (fun i j : Fin n => d i ≤ d j) := ⟨fun i j => le_total _ _⟩
  haveI : IsTrans (Fin n) (fun i j : Fin n => d i ≤ d j) := ⟨fun i j k => le_trans⟩
  exact ⟨List.perm_insertionSort _ l, List.pairwise_insertionSort _ l⟩

/-- Two matrices that no rotation makes diagonal together. -/
def exC : Covs 2 2 := ![![![1, 0], ![0, 0]], ![![0, 1], ![1, 0]]]

theorem exC_symm : ∀ t a b, exC t a b = exC t b a := by
  intro t a b
  fin_cases t <;> fin_cases a <;> fin_cases b <;> rfl

theorem exC_not_diagonal (g : Matrix (Fin 2) (Fin 2) ℝ) (hg : gᵀ * g = 1) : ¬Diagonal (changed g exC) := by
  intro h
  have e : ∀ t i j, changed g exC t i j = ∑ k, (∑ l, g l i * exC t l k) * g k j := by
    intro t i j
    change (gᵀ * Matrix.of (exC t) * g) i j = _
    simp only [Matrix.mul_apply, Matrix.transpose_apply, Matrix.of_apply]
  have h0 := h 0 0 1 (by decide)
  have h1 := h 1 0 1 (by decide)
  have h00 := congrFun (congrFun hg 0) 0
  have h11 := congrFun (congrFun hg 1) 1
  rw [e] at h0 h1
  simp [Fin.sum_univ_two, exC] at h0 h1
  simp only [Matrix.mul_apply, Fin.sum_univ_two, Matrix.transpose_apply, Matrix.one_apply, Fin.isValue, if_true] at h00 h11
  rcases h0 with h0 | h0
  · rw [h0] at h00 h1
    simp only [mul_zero, zero_mul, zero_add, add_zero, mul_eq_zero] at h00 h1
    rcases h1 with h1 | h1
    · rw [h1] at h00; norm_num at h00
    · rw [h1] at h11
      have := congrFun (congrFun hg 0) 1
      simp only [Matrix.mul_apply, Fin.sum_univ_two, Matrix.transpose_apply, Matrix.one_apply, Fin.isValue, zero_ne_one, if_false, h0, h1] at this
      nlinarith
  · rw [h0] at h11 h1
    simp only [mul_zero, zero_mul, zero_add, add_zero, mul_eq_zero] at h11 h1
    rcases h1 with h1 | h1
    · have := congrFun (congrFun hg 0) 1
      simp only [Matrix.mul_apply, Fin.sum_univ_two, Matrix.transpose_apply, Matrix.one_apply, Fin.isValue, zero_ne_one, if_false, h0, h1] at this
      nlinarith
    · rw [h1] at h11; norm_num at h11

/-- C271-C276: a training that succeeds, with two time-lags, default threshold and limit, and matrices that no rotation makes diagonal. -/
example : ∃ r, stop (tdsep 2 2 (1 / 100000) 10000) sort2 (draw2 _ rfl) 10000 none exC = some (.ok r) ∧
    (∀ g : Matrix (Fin 2) (Fin 2) ℝ, gᵀ * g = 1 → ∑ t, r.covs t 0 1 ^ 2 ≤ ∑ t, changed g exC t 0 1 ^ 2) ∧
    r.final.1 + r.final.2 ≤ r.initial.1 + r.initial.2 ∧ r.rp.length = 2 ∧ ∀ x, r.inverse (r.execute x) = x := by
  obtain ⟨r, hr⟩ := isfa_two_converges (p := tdsep 2 2 (1 / 100000) 10000) sort2 (draw2_ok _ rfl) rfl (by change (0 : ℝ) < 1 / 100000; norm_num)
    (by change 10000 ≠ 1; decide) (by change 10000 ≠ 2; decide) 9998 none exC_symm
  refine ⟨r, hr, fun g hg => tdsep_two_partial (draw2_ok _ rfl) exC_symm exC_not_diagonal hr g hg, isfa_improves_partial (draw2_ok _ rfl) rfl exC_symm hr, ?_, ?_⟩
  · exact (isfa_outputs sort2_sorts (draw2_ok _ rfl) (le_refl 2) (fun rp h => absurd h (by simp)) exC_symm hr).1
  · exact (isfa_round_trip sort2_sorts (draw2_ok _ rfl) (le_refl 2) (fun rp h => absurd h (by simp)) exC_symm hr).2 rfl

/-- C276: one time-lag, covariance one between the two signals; a rotation by 45 degrees separates them, training leaves them as they are. -/
example : ∃ r, stop (tdsep 1 2 (1 / 100000) 10000) sort2 (draw2 _ rfl) 10000 none ![![![0, 1], ![1, 0]]] = some (.ok r) ∧ r.rpc = 1 ∧ r.covs 0 0 1 = 1 ∧
    ∃ g : Matrix (Fin 2) (Fin 2) ℝ, gᵀ * g = 1 ∧ Diagonal (changed g ![![![0, 1], ![1, 0]]] : Covs 1 2) := by
  have hc : ∀ t a b, (![![![0, 1], ![1, 0]]] : Covs 1 2) t a b = (![![![0, 1], ![1, 0]]] : Covs 1 2) t b a := by
    intro t a b
    fin_cases t; fin_cases a <;> fin_cases b <;> rfl
  obtain ⟨r, h1, h2, h3, _⟩ := tdsep_one_lag_violation (limit := 1 / 100000) (maxIter := 10000) (order := sort2) (by decide) (draw2_ok _ rfl) 9999 hc
  exact ⟨r, h1, h2, by rw [h3]; rfl, diagonal_two _ hc⟩

/-- C279, C280. -/
example : ∃ s, init (.int 2) .default (.list [1, 1]) false (some 5) (some 3) = .ok s ∧ s.lags = [1, 2] ∧ s.effective 7 = 3 ∧ s.outputs 7 = 3 := by
  refine ⟨⟨[1, 2], [1, 1], [1, 1], some (some 3), some 3⟩, ?_, rfl, rfl, rfl⟩
  have e : (Lags.int 2).get = .ok [1, 2] := by rfl
  simp [init, e, Weights.ica, Weights.sfa, List.replicate]

/-- C272 with outer space: one output of two signals, a rotation of the outer space by reflection. -/
example : ∃ mi o1, doSweep ⟨1, ![1, 1], ![1, 0], 1, -1, 1 / 1000, 10⟩ [(0, 1)] ⟨exC, 1, objective ⟨1, ![1, 1], ![1, 0], 1, -1, 1 / 1000, 10⟩ exC, 0, 0⟩ = .ok (mi, o1) ∧
    objective (n := 2) ⟨1, ![1, 1], ![1, 0], 1, -1, 1 / 1000, 10⟩ o1.covs ≤ objective ⟨1, ![1, 1], ![1, 0], 1, -1, 1 / 1000, 10⟩ exC := by
  have hok : (⟨[(0, 1)], -1, 1⟩ : Draw 1 2).Ok := ⟨by change List.Perm [((0 : Fin 2), (1 : Fin 2))] (axes 1 2); rw [show axes 1 2 = [(0, 1)] by decide], by simp⟩
  have hs : ∃ mi o1, doSweep ⟨1, ![1, 1], ![1, 0], 1, -1, 1 / 1000, 10⟩ [(0, 1)] ⟨exC, 1, objective ⟨1, ![1, 1], ![1, 0], 1, -1, 1 / 1000, 10⟩ exC, 0, 0⟩ = .ok (mi, o1) := by
    unfold doSweep
    simp only [pairLoop]
    split_ifs <;> exact ⟨_, _, rfl⟩
  obtain ⟨mi, o1, h⟩ := hs
  exact ⟨mi, o1, h, (isfa_sweep_partial (d := ⟨[(0, 1)], -1, 1⟩) hok exC_symm rfl h).1⟩

end Mdp.Isfa
