import Verif.Isfa.Props
import Mathlib.Analysis.SpecialFunctions.Trigonometric.Bounds

/-!
# With outer space the final contrast can be above the initial one (C272)

The search for the angle in a plane that meets the outer space (isfa_nodes.py:400-423) ends with one step of the secant method, which need
not lead to a smaller contrast. `_do_sweep` (718-745) refuses such an angle, but returns its contrast, with which the next sweep compares.
-/

namespace Mdp.Isfa

open Mdp.Ica Matrix

theorem argmin_mid {f : Nat → ℝ} (h : ∀ j < 103, j ≠ 51 → f 51 < f j) : argmin f = 51 := by
  classical
  unfold argmin
  have : (List.range 103).find? (fun i => decide (∀ j ∈ List.range 103, f i ≤ f j)) = some 51 := by
    rw [List.find?_range_eq_some]
    refine ⟨?_, by simp, ?_⟩
    · simp only [List.mem_range, decide_eq_true_eq]
      intro j hj
      by_cases e : j = 51
      · rw [e]
      · exact (h j hj e).le
    · intro j hj
      simp only [Bool.not_eq_true', decide_eq_false_iff_not, List.mem_range, not_forall]
      exact ⟨51, by omega, not_le.2 (h j (by omega) (by omega))⟩
  have e := congrArg (fun o : Option Nat => o.getD 0) this
  simp only [Option.getD_some] at e
  convert e using 3

/-- Half of the last interval of the search. -/
noncomputable def width : ℝ := (Real.pi / 2 + Real.pi / 101) / 2601

theorem width_pos : 0 < width := by unfold width; have := Real.pi_pos; positivity

theorem width_small : width < 1 / 1000 := by
  unfold width
  have := Real.pi_le_four
  linarith

theorem width_large : Real.pi / 5202 ≤ width := by
  unfold width
  have := Real.pi_pos
  linarith

theorem search_mid {a b c d : ℝ} (h : ∀ x : ℝ, x ≠ 0 → |x| < Real.pi → wave a b c d 0 < wave a b c d x) :
    search a b c d = if |slope a b c d (-width) - slope a b c d width| < 1 / 2 ^ 26 then 0
      else width - slope a b c d width * (width + width) / (slope a b c d width - slope a b c d (-width)) := by
  have hpi := Real.pi_pos
  have key : ∀ r : ℝ, 0 < r → r < Real.pi → ∀ l : ℝ, l = -r →
      argmin (fun k => wave a b c d (linspace l r k)) = 51 := by
    intro r h0 h1 l hl
    apply argmin_mid
    intro j hj hne
    have e : linspace l r 51 = 0 := by unfold linspace; rw [hl]; push_cast; ring
    have e2 : linspace l r j = r * (((j : ℝ) - 51) / 51) := by unfold linspace; rw [hl]; push_cast; ring
    rw [e]
    apply h
    · rw [e2]
      have : ((j : ℝ) - 51) ≠ 0 := by
        intro e; apply hne; have : (j : ℝ) = (51 : ℕ) := by push_cast; linarith
        exact_mod_cast this
      positivity
    · rw [e2, abs_mul, abs_of_pos h0]
      have hj' : (j : ℝ) ≤ 102 := by exact_mod_cast (by omega : j ≤ 102)
      have h0' : (0 : ℝ) ≤ j := by positivity
      have : |((j : ℝ) - 51) / 51| ≤ 1 := by rw [abs_le]; constructor <;> linarith
      nlinarith [abs_nonneg (((j : ℝ) - 51) / 51)]
  unfold search
  simp only []
  rw [key (Real.pi / 2 + Real.pi / 101) (by positivity) (by linarith) (-Real.pi / 2 - Real.pi / 101) (by ring)]
  have e1 : linspace (-Real.pi / 2 - Real.pi / 101) (Real.pi / 2 + Real.pi / 101) (51 - 1) = -(51 * width) := by
    unfold linspace width; push_cast; ring
  have e2 : linspace (-Real.pi / 2 - Real.pi / 101) (Real.pi / 2 + Real.pi / 101) (min (51 + 1) 102) = 51 * width := by
    unfold linspace width; norm_num; ring
  rw [e1, e2, key (51 * width) (by have := width_pos; positivity) (by have := width_small; have := Real.two_le_pi; linarith) _ rfl]
  have e3 : linspace (-(51 * width)) (51 * width) (51 - 1) = -width := by unfold linspace; push_cast; ring
  have e4 : linspace (-(51 * width)) (51 * width) (min (51 + 1) 102) = width := by unfold linspace; norm_num; ring
  have e5 : linspace (-(51 * width)) (51 * width) 51 = 0 := by unfold linspace; push_cast; ring
  rw [e3, e4, e5, sub_neg_eq_add]

/-- Without the terms in the sines the minimum at zero is found. -/
theorem search_even {a c : ℝ} (h : ∀ x : ℝ, x ≠ 0 → |x| < Real.pi → wave a 0 c 0 0 < wave a 0 c 0 x) : search a 0 c 0 = 0 := by
  rw [search_mid h]
  split
  · rfl
  · next h1 =>
    have e : slope a 0 c 0 (-width) = -slope a 0 c 0 width := by
      unfold slope
      simp only [mul_neg, Real.sin_neg, neg_mul, Real.cos_neg, neg_neg]; ring
    rw [e] at h1 ⊢
    generalize slope a 0 c 0 width = s at h1 ⊢
    have : s ≠ 0 := by
      intro e; apply h1; rw [e]; norm_num
    field_simp
    ring

/-! ## The matrices -/

/-- Two matrices in which the second coordinate is zero. -/
def block (a d b : Fin 2 → ℝ) : Covs 2 3 := fun t => !![a t, 0, d t; 0, 0, 0; d t, 0, b t]

theorem block_symm (a d b : Fin 2 → ℝ) (t : Fin 2) (i j : Fin 3) : block a d b t i j = block a d b t j i := by
  fin_cases i <;> fin_cases j <;> rfl

/-- The parameters: one output, weight 1 for both time-lags, the default coefficients, limit and number of iterations. -/
noncomputable def par1 : Par 2 := mkPar (1, 1) (fun _ => 1) (fun _ => 1) 1 (1 / 1000000) 10000

theorem par1_R : par1.R = 1 := rfl

theorem par1_bica : par1.bica = 0 := by simp [par1, mkPar, adjust]

theorem par1_bsfa : par1.bsfa = -1 := by simp [par1, mkPar, adjust]

theorem objective1 (c : Covs 2 3) : objective par1 c = -(c 0 0 0 ^ 2 + c 1 0 0 ^ 2) := by
  unfold objective
  rw [par1_bica, par1_bsfa, par1_R]
  simp [Fin.sum_univ_succ, par1, mkPar]

theorem rot0 (i j : Fin 3) (h : i ≠ j) (c : Covs 2 3) : rotCovs 0 i j c = c := by
  rw [rotate_changed 0 h, plane_zero, changed_one]

/-- The first entry after a rotation in the plane of the first and the third coordinate. -/
noncomputable def turned (x : ℝ) (a d b : Fin 2 → ℝ) : Fin 2 → ℝ := fun t =>
  Real.cos x ^ 2 * a t - 2 * Real.cos x * Real.sin x * d t + Real.sin x ^ 2 * b t

theorem rot02 (x : ℝ) (a d b : Fin 2 → ℝ) : ∃ d' b', rotCovs x 0 2 (block a d b) = block (turned x a d b) d' b' := by
  refine ⟨fun t => rotCovs x 0 2 (block a d b) t 0 2, fun t => rotCovs x 0 2 (block a d b) t 2 2, ?_⟩
  funext t i j
  have hs := fun i j => rotate_symm (Real.cos x) (Real.sin x) (show (0 : Fin 3) ≠ 2 by decide) (block a d b t) (block_symm a d b t) i j
  have h00 := rotate_ii (Real.cos x) (Real.sin x) (show (0 : Fin 3) ≠ 2 by decide) (block a d b t) (block_symm a d b t)
  fin_cases i <;> fin_cases j
  · exact h00
  · simp [rotCovs, Cov.rotate, block]
  · rfl
  · simp [rotCovs, Cov.rotate, block]
  · simp [rotCovs, Cov.rotate, block]
  · simp [rotCovs, Cov.rotate, block]
  · exact hs 2 0
  · simp [rotCovs, Cov.rotate, block]
  · rfl

theorem top1 : top 1 3 = {0} := by decide

/-- In the plane of the first two coordinates the present position is found to be the best. -/
theorem angle01 (a d b : Fin 2 → ℝ) (h : 0 < a 0 ^ 2 + a 1 ^ 2) :
    givensAngle par1 (block a d b) 0 1 = (0, -(a 0 ^ 2 + a 1 ^ 2)) := by
  have e : (givensAngle par1 (block a d b) 0 1).1 = 0 := by
    unfold givensAngle
    rw [if_neg (by rw [par1_R]; decide)]
    unfold angle2
    simp only []
    rw [par1_bica, par1_bsfa, par1_R, top1]
    simp [Fin.sum_univ_succ, block, par1, mkPar]
    apply search_even
    intro x hx hp
    have hs : Real.sin x ≠ 0 := by
      rw [abs_lt] at hp
      rcases lt_or_gt_of_ne hx with h1 | h1
      · exact (Real.sin_neg_of_neg_of_neg_pi_lt h1 hp.1).ne
      · exact (Real.sin_pos_of_pos_of_lt_pi h1 hp.2).ne'
    unfold wave
    have e2 : Real.cos (-2 * x) = 1 - 2 * Real.sin x ^ 2 := by
      rw [neg_mul, Real.cos_neg, Real.cos_two_mul, Real.cos_sq']; ring
    have e4 : Real.cos (-4 * x) = 1 - 2 * Real.sin (2 * x) ^ 2 := by
      rw [show -4 * x = -(2 * (2 * x)) by ring, Real.cos_neg, Real.cos_two_mul, Real.cos_sq']; ring
    rw [e2, e4]
    simp
    have : 0 < Real.sin x ^ 2 := by positivity
    nlinarith [mul_pos h this, mul_nonneg h.le (sq_nonneg (Real.sin (2 * x)))]
  have e2 := isfa_contrast_of_angle par1 (block a d b) (block_symm a d b) 0 1 (by decide) (by rw [par1_R]; decide)
  rw [e, plane_zero, changed_one, objective1] at e2
  exact Prod.ext e e2

/-- The entries of the example. -/
def exA : Fin 2 → ℝ := ![10, 10]
def exD : Fin 2 → ℝ := ![1, -1]
def exB : Fin 2 → ℝ := ![1, 0]

theorem turned_sq (x : ℝ) : turned x exA exD exB 0 ^ 2 + turned x exA exD exB 1 ^ 2
    = 200 - Real.sin x ^ 2 * (372 * Real.cos x ^ 2 + 4 * Real.cos x * Real.sin x + 199 * Real.sin x ^ 2) := by
  have h := Real.sin_sq_add_cos_sq x
  simp only [turned, exA, exD, exB, Matrix.cons_val_zero, Matrix.cons_val_one]
  have : (200 : ℝ) = 200 * (Real.sin x ^ 2 + Real.cos x ^ 2) ^ 2 := by rw [h]; ring
  rw [this]
  ring

theorem turned_gap {x : ℝ} (hx : Real.sin x ≠ 0) : turned x exA exD exB 0 ^ 2 + turned x exA exD exB 1 ^ 2 < 200 := by
  rw [turned_sq]
  have h := Real.sin_sq_add_cos_sq x
  have : 0 < Real.sin x ^ 2 := by positivity
  have h2 : 0 < 372 * Real.cos x ^ 2 + 4 * Real.cos x * Real.sin x + 199 * Real.sin x ^ 2 := by
    nlinarith [sq_nonneg (Real.cos x + Real.sin x), sq_nonneg (Real.cos x)]
  nlinarith [mul_pos this h2]

/-- The angle that is found in the plane of the first and the third coordinate. -/
noncomputable def phi0 : ℝ := search (-199 / 2) (-1) (-173 / 8) (1 / 2)

theorem sin_ne {x : ℝ} (hx : x ≠ 0) (hp : |x| < Real.pi) : Real.sin x ≠ 0 := by
  rw [abs_lt] at hp
  rcases lt_or_gt_of_ne hx with h1 | h1
  · exact (Real.sin_neg_of_neg_of_neg_pi_lt h1 hp.1).ne
  · exact (Real.sin_pos_of_pos_of_lt_pi h1 hp.2).ne'

theorem angle02_fst : (givensAngle par1 (block exA exD exB) 0 2).1 = phi0 := by
  unfold givensAngle
  rw [if_neg (by rw [par1_R]; decide)]
  unfold angle2
  simp only []
  rw [par1_bica, par1_bsfa, par1_R, top1]
  simp [Fin.sum_univ_succ, block, par1, mkPar, exA, exD, exB]
  unfold phi0
  norm_num

theorem angle02 : givensAngle par1 (block exA exD exB) 0 2
    = (phi0, -(turned phi0 exA exD exB 0 ^ 2 + turned phi0 exA exD exB 1 ^ 2)) := by
  have e2 := isfa_contrast_of_angle par1 (block exA exD exB) (block_symm _ _ _) 0 2 (by decide) (by rw [par1_R]; decide)
  rw [angle02_fst, ← rotate_changed _ (by decide), objective1] at e2
  obtain ⟨d', b', e⟩ := rot02 phi0 exA exD exB
  rw [e] at e2
  exact Prod.ext angle02_fst e2

theorem wave_turned (x : ℝ) : wave (-199 / 2) (-1) (-173 / 8) (1 / 2) x
    = 631 / 8 - (turned x exA exD exB 0 ^ 2 + turned x exA exD exB 1 ^ 2) := by
  rw [turned_sq]
  unfold wave
  have h := Real.sin_sq_add_cos_sq x
  have e2 : Real.cos (-2 * x) = 1 - 2 * Real.sin x ^ 2 := by
    rw [neg_mul, Real.cos_neg, Real.cos_two_mul, Real.cos_sq']; ring
  have e4 : Real.cos (-4 * x) = 1 - 2 * Real.sin (2 * x) ^ 2 := by
    rw [show -4 * x = -(2 * (2 * x)) by ring, Real.cos_neg, Real.cos_two_mul, Real.cos_sq']; ring
  have e3 : Real.sin (-2 * x) = -(2 * Real.sin x * Real.cos x) := by rw [neg_mul, Real.sin_neg, Real.sin_two_mul]
  have e5 : Real.sin (-4 * x) = -(2 * (2 * Real.sin x * Real.cos x) * (1 - 2 * Real.sin x ^ 2)) := by
    rw [show -4 * x = -(2 * (2 * x)) by ring, Real.sin_neg, Real.sin_two_mul, Real.sin_two_mul, Real.cos_two_mul, Real.cos_sq']; ring
  rw [e2, e3, e4, e5, Real.sin_two_mul]
  have hc : Real.cos x ^ 2 = 1 - Real.sin x ^ 2 := by linarith
  generalize Real.cos x = c at *
  generalize Real.sin x = s at *
  have h3 : c ^ 3 = c * (1 - s ^ 2) := by rw [← hc]; ring
  ring_nf
  simp only [hc, h3]
  ring

theorem phi0_spec : phi0 ≠ 0 ∧ |phi0| < 1 / 1000 := by
  have hw := width_pos
  have hw1 := width_small
  have hw2 := width_large
  have hpi := Real.two_le_pi
  have hp4 := Real.pi_le_four
  have hm : ∀ x : ℝ, x ≠ 0 → |x| < Real.pi → wave (-199 / 2) (-1) (-173 / 8) (1 / 2) 0 < wave (-199 / 2) (-1) (-173 / 8) (1 / 2) x := by
    intro x h1 h2
    rw [wave_turned, wave_turned]
    have := turned_gap (sin_ne h1 h2)
    have h0 : turned 0 exA exD exB 0 ^ 2 + turned 0 exA exD exB 1 ^ 2 = 200 := by rw [turned_sq]; simp
    linarith
  unfold phi0
  rw [search_mid hm]
  have hs : 4 / 5202 ≤ Real.sin (2 * width) := by
    have := Real.mul_le_sin (x := 2 * width) (by linarith) (by linarith)
    refine le_trans ?_ this
    have h1 : 2 / Real.pi * (2 * (Real.pi / 5202)) = 4 / 5202 := by field_simp; norm_num
    have h2 : 0 < 2 / Real.pi := by positivity
    nlinarith
  have hs4 : 0 < Real.sin (4 * width) := Real.sin_pos_of_pos_of_lt_pi (by linarith) (by linarith)
  have hc0 : 0 ≤ Real.cos (2 * width) := Real.cos_nonneg_of_neg_pi_div_two_le_of_le (by linarith) (by linarith)
  have hc1 : Real.cos (2 * width) < 1 := by
    have h1 := Real.sin_sq_add_cos_sq (2 * width)
    have h2 := Real.sin_le_one (2 * width)
    nlinarith
  have hc4 : Real.cos (4 * width) = 2 * Real.cos (2 * width) ^ 2 - 1 := by
    rw [show 4 * width = 2 * (2 * width) by ring, Real.cos_two_mul]
  have hsc := Real.sin_sq_add_cos_sq (2 * width)
  have hs1 := Real.sin_le_one (2 * width)
  have er : slope (-199 / 2) (-1) (-173 / 8) (1 / 2) width = 199 * Real.sin (2 * width) + 173 / 2 * Real.sin (4 * width)
      + 2 * (Real.cos (2 * width) - Real.cos (4 * width)) := by
    unfold slope; simp only [neg_mul, Real.sin_neg, Real.cos_neg]; ring
  have el : slope (-199 / 2) (-1) (-173 / 8) (1 / 2) (-width) = -(199 * Real.sin (2 * width) + 173 / 2 * Real.sin (4 * width))
      + 2 * (Real.cos (2 * width) - Real.cos (4 * width)) := by
    unfold slope; simp only [neg_mul, mul_neg, neg_neg]; ring
  rw [er, el, hc4]
  generalize Real.sin (2 * width) = s at *
  generalize Real.sin (4 * width) = s4 at *
  generalize Real.cos (2 * width) = c at *
  have hO : 199 * s < 199 * s + 173 / 2 * s4 := by linarith
  generalize 199 * s + 173 / 2 * s4 = O at *
  have hE : 0 < 2 * (c - (2 * c ^ 2 - 1)) := by nlinarith
  have hE2 : 2 * (c - (2 * c ^ 2 - 1)) < O := by nlinarith
  generalize 2 * (c - (2 * c ^ 2 - 1)) = E at *
  have hOp : 0 < O := by linarith
  rw [if_neg]
  · have e : width - (O + E) * (width + width) / (O + E - (-O + E)) = -(width * (E / O)) := by
      rw [show O + E - (-O + E) = 2 * O by ring]
      field_simp; ring
    rw [e]
    have h1 : 0 < E / O := div_pos hE hOp
    have h2 : E / O < 1 := (div_lt_one hOp).2 hE2
    refine ⟨by have := mul_pos hw h1; linarith, ?_⟩
    rw [abs_neg, abs_of_pos (mul_pos hw h1)]
    nlinarith
  · rw [not_lt, abs_of_nonpos (by linarith)]
    norm_num
    linarith

/-- The contrast at the angle that is found. -/
theorem worse : -200 < -(turned phi0 exA exD exB 0 ^ 2 + turned phi0 exA exD exB 1 ^ 2) ∧
    -(turned phi0 exA exD exB 0 ^ 2 + turned phi0 exA exD exB 1 ^ 2) < 0 := by
  obtain ⟨h1, h2⟩ := phi0_spec
  have h3 := sin_ne h1 (by have := Real.two_le_pi; linarith)
  refine ⟨by have := turned_gap h3; linarith, ?_⟩
  rw [turned_sq]
  have h4 : |Real.sin phi0| ≤ |phi0| := Real.abs_sin_le_abs
  have h5 : Real.sin phi0 ^ 2 < 1 / 1000 := by
    rw [← sq_abs]; nlinarith [abs_nonneg (Real.sin phi0)]
  have h := Real.sin_sq_add_cos_sq phi0
  nlinarith [sq_nonneg (Real.cos phi0 - Real.sin phi0), sq_nonneg (Real.sin phi0), sq_nonneg (Real.cos phi0)]

/-! ## Training -/

/-- The random choices: two orders of the axes, the outer space stays as it is. -/
noncomputable def exDraw (k : Nat) : Draw par1.R 3 := ⟨if k = 1 then [(0, 1), (0, 2)] else [(0, 2), (0, 1)], 1, 1⟩

theorem exDraw_ok (k : Nat) : (exDraw k).Ok := by
  have h : axes 1 3 = [(0, 1), (0, 2)] := by decide
  refine ⟨?_, by simp [exDraw]⟩
  change (exDraw k).axes.Perm (axes 1 3)
  rw [h]
  unfold exDraw
  simp only []
  split
  · exact List.Perm.refl _
  · exact List.Perm.swap _ _ _

theorem exDraw_matrix (k : Nat) : (exDraw k).matrix = 1 := by
  funext i j
  unfold Draw.matrix
  rw [Matrix.one_apply]
  split
  · next h =>
    simp only [exDraw, Equiv.Perm.one_apply, Matrix.one_apply, Fin.mk.injEq]
    have h1 : 1 ≤ i.1 := h.1
    have h2 : 1 ≤ j.1 := h.2
    have : (i.1 - par1.R = j.1 - par1.R) ↔ i = j := by
      rw [par1_R, Fin.ext_iff]; omega
    simp only [this]
  · rfl

theorem max_zero : max (((-1 : ℝ)) : WithTop ℝ) ((0 : ℝ) : WithTop ℝ) = ((0 : ℝ) : WithTop ℝ) :=
  max_eq_right (WithTop.coe_le_coe.2 (by norm_num))

/-- The first sweep: nothing changes, but the contrast that is returned is that of the refused angle. -/
theorem sweep1 (o : Opt 2 3) (h1 : o.covs = block exA exD exB) (h2 : o.contrast = -200) :
    ∃ q, doSweep par1 (exDraw 1).axes o = .ok (((0 : ℝ) : WithTop ℝ), { o with q := q, contrast :=
      -(turned phi0 exA exD exB 0 ^ 2 + turned phi0 exA exD exB 1 ^ 2) }) := by
  obtain ⟨w1, w2⟩ := worse
  have e : givensAngle par1 (block exA exD exB) 0 1 = (0, -200) := by
    rw [angle01 _ _ _ (by norm_num [exA])]; norm_num [exA]
  have l : pairLoop par1 ⟨((-1 : ℝ) : WithTop ℝ), o.covs, o.q, o.contrast, none⟩ (exDraw 1).axes
      = ⟨((0 : ℝ) : WithTop ℝ), block exA exD exB, rotateM 0 0 1 o.q, -200,
        some (-(turned phi0 exA exD exB 0 ^ 2 + turned phi0 exA exD exB 1 ^ 2))⟩ := by
    rw [h1, h2, show (exDraw 1).axes = [(0, 1), (0, 2)] from rfl]
    unfold pairLoop
    simp only [e]
    rw [if_neg (by norm_num), if_neg (by norm_num), if_neg (by norm_num), rot0 _ _ (by decide), sub_self, zero_div, max_zero]
    unfold pairLoop
    simp only [angle02]
    rw [if_neg w2.ne, if_pos w1]
    rfl
  refine ⟨rotateM 0 0 1 o.q, ?_⟩
  unfold doSweep
  simp only [l]
  rw [← h1]

/-- The second sweep accepts the angle. -/
theorem sweep2 (o : Opt 2 3) (h1 : o.covs = block exA exD exB)
    (h2 : o.contrast = -(turned phi0 exA exD exB 0 ^ 2 + turned phi0 exA exD exB 1 ^ 2)) :
    ∃ q d b, doSweep par1 (exDraw 2).axes o = .ok (((0 : ℝ) : WithTop ℝ), { o with q := q, covs := block (turned phi0 exA exD exB) d b }) := by
  obtain ⟨w1, w2⟩ := worse
  obtain ⟨d, b, er⟩ := rot02 phi0 exA exD exB
  have e : givensAngle par1 (block (turned phi0 exA exD exB) d b) 0 1
      = (0, -(turned phi0 exA exD exB 0 ^ 2 + turned phi0 exA exD exB 1 ^ 2)) := angle01 _ _ _ (by linarith)
  have l : pairLoop par1 ⟨((-1 : ℝ) : WithTop ℝ), o.covs, o.q, o.contrast, none⟩ (exDraw 2).axes
      = ⟨((0 : ℝ) : WithTop ℝ), block (turned phi0 exA exD exB) d b, rotateM 0 0 1 (rotateM phi0 0 2 o.q),
        -(turned phi0 exA exD exB 0 ^ 2 + turned phi0 exA exD exB 1 ^ 2),
        some (-(turned phi0 exA exD exB 0 ^ 2 + turned phi0 exA exD exB 1 ^ 2))⟩ := by
    rw [h1, h2, show (exDraw 2).axes = [(0, 2), (0, 1)] from rfl]
    unfold pairLoop
    simp only [angle02]
    rw [if_neg w2.ne, if_neg (lt_irrefl _), if_neg w2.ne, er, sub_self, zero_div, max_zero]
    unfold pairLoop
    simp only [e]
    rw [if_neg w2.ne, if_neg (lt_irrefl _), if_neg w2.ne, rot0 _ _ (by decide), sub_self, zero_div, max_self]
    rfl
  refine ⟨rotateM 0 0 1 (rotateM phi0 0 2 o.q), d, b, ?_⟩
  unfold doSweep
  simp only [l]
  rw [← h2]

theorem decide1 (v : ℝ) (hv : v ≠ 0) : decide' par1 ((0 : ℝ) : WithTop ℝ) v 1 0 0 = (true, 1, 1) := by
  have h : ((0 : ℝ) : WithTop ℝ) < (par1.eps : WithTop ℝ) := WithTop.coe_lt_coe.2 (by norm_num [par1, mkPar])
  unfold decide'
  rw [if_neg (by simp [hv])]
  simp only []
  rw [if_pos ⟨h, le_refl _⟩]
  rfl

theorem decide2 (v : ℝ) (hv : v ≠ 0) : decide' par1 ((0 : ℝ) : WithTop ℝ) v 2 2 1 = (false, 2, 2) := by
  have h : ((0 : ℝ) : WithTop ℝ) < (par1.eps : WithTop ℝ) := WithTop.coe_lt_coe.2 (by norm_num [par1, mkPar])
  unfold decide'
  rw [if_neg (by simp [hv])]
  simp only []
  rw [if_pos ⟨h, le_refl _⟩]
  rfl

/-- **C272**, negation with outer space: there are parameters (one output of three components, the default coefficients, limit and number of
iterations, equal weights for two time-lags), symmetric matrices and random choices for which training ends without an error and the final
contrast is above the initial one. -/
theorem isfa_improves_false : ∃ (draw : Nat → Draw (mkPar (T := 2) (1, 1) (fun _ => 1) (fun _ => 1) 1 (1 / 1000000) 10000).R 3) (c : Covs 2 3),
    (∀ k, (draw k).Ok) ∧ (∀ t a b, c t a b = c t b a) ∧
    ∀ order, ∃ r, stop (mkPar (T := 2) (1, 1) (fun _ => 1) (fun _ => 1) 1 (1 / 1000000) 10000) order draw 10000 none c = some (.ok r) ∧
      r.initial.1 + r.initial.2 < r.final.1 + r.final.2 := by
  refine ⟨exDraw, block exA exD exB, exDraw_ok, block_symm _ _ _, fun order => ?_⟩
  change ∃ r, stop par1 order exDraw (9998 + 1 + 1) none (block exA exD exB) = some (.ok r) ∧ _
  obtain ⟨w1, w2⟩ := worse
  have hM : par1.maxIter = 10000 := rfl
  have e0 : (contrast par1 (block exA exD exB)).1 + (contrast par1 (block exA exD exB)).2 = -200 := by
    rw [contrast_eq _ _ (block_symm _ _ _), objective1]; norm_num [block, exA]
  obtain ⟨q1, s1⟩ := sweep1 ⟨block exA exD exB, 1, -200, 0, 0⟩ rfl rfl
  obtain ⟨q2, d, b, s2⟩ := sweep2 ⟨block exA exD exB, q1 * 1, -(turned phi0 exA exD exB 0 ^ 2 + turned phi0 exA exD exB 1 ^ 2), 2, 1⟩ rfl rfl
  have ho : optLoop par1 exDraw (9998 + 1 + 1) 0 ⟨block exA exD exB, 1, -200, 0, 0⟩
      = some (.ok ⟨block (turned phi0 exA exD exB) d b, q2, -(turned phi0 exA exD exB 0 ^ 2 + turned phi0 exA exD exB 1 ^ 2), 2, 2⟩) := by
    rw [optLoop]
    simp only [Nat.zero_add]
    rw [s1]
    simp only [decide1 _ w2.ne]
    rw [if_neg (show ¬1 = par1.maxIter by rw [hM]; decide), if_pos (by trivial), if_pos ⟨le_refl _, by trivial⟩, transform_changed, exDraw_matrix, changed_one, optLoop]
    simp only [Nat.reduceAdd, Int.reduceAdd]
    rw [s2]
    simp only [decide2 _ w2.ne]
    rw [if_neg (show ¬2 = par1.maxIter by rw [hM]; decide), if_neg (by simp), if_neg (by simp)]
  have hopt : optimize par1 exDraw (9998 + 1 + 1) (block exA exD exB)
      = some (.ok (q2, contrast par1 (block exA exD exB), contrast par1 (block (turned phi0 exA exD exB) d b))) := by
    unfold optimize
    simp only [e0]
    rw [if_neg (by rw [par1_R]; decide), ho]
  unfold stop
  simp only [hopt]
  refine ⟨_, rfl, ?_⟩
  simp only []
  rw [e0, contrast_eq _ _ (block_symm _ _ _), objective1]
  exact w1

end Mdp.Isfa
