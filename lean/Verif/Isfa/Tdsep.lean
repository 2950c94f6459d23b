import Verif.Isfa.Two

/-!
# TDSEP (C276)
-/

namespace Mdp.Isfa

open Mdp.Ica Matrix

variable {n T : Nat}

/-- **C276** (tdsep_objective): for more than one signal the objective of TDSEP is the mean over the pairs of different signals of the squares of their
time-lagged covariances, added over the time-lags. -/
theorem tdsep_objective (limit : ℝ) (maxIter : Nat) (hn : 1 < n) (c : Covs T n) :
    objective (tdsep T n limit maxIter) c = ∑ t, (∑ i, ∑ j, if i ≠ j then c t i j ^ 2 else 0) / (n * (n - 1)) := by
  unfold objective tdsep mkPar adjust
  simp only [gt_iff_lt, hn, if_true, neg_zero, zero_div, zero_mul, zero_add, one_mul, Fin.is_lt, true_and]
  rw [Finset.mul_sum]
  exact Finset.sum_congr rfl fun t _ => by ring

theorem tdsep_nonneg (limit : ℝ) (maxIter : Nat) (hn : 1 < n) (c : Covs T n) : 0 ≤ objective (tdsep T n limit maxIter) c := by
  rw [tdsep_objective limit maxIter hn]
  have h1 : (1 : ℝ) < n := by exact_mod_cast hn
  refine Finset.sum_nonneg fun t _ => div_nonneg (Finset.sum_nonneg fun i _ => Finset.sum_nonneg fun j _ => ?_) (by nlinarith)
  split
  · positivity
  · exact le_refl _

/-- The time-lagged covariances of different signals vanish. -/
def Diagonal (c : Covs T n) : Prop := ∀ t i j, i ≠ j → c t i j = 0

theorem tdsep_zero (limit : ℝ) (maxIter : Nat) (hn : 1 < n) (c : Covs T n) : objective (tdsep T n limit maxIter) c = 0 ↔ Diagonal c := by
  have h1 : (1 : ℝ) < n := by exact_mod_cast hn
  have h2 : (n : ℝ) * (n - 1) ≠ 0 := by
    have : (0 : ℝ) < n * (n - 1) := by nlinarith
    exact this.ne'
  have hi : ∀ t (i j : Fin n), 0 ≤ if i ≠ j then c t i j ^ 2 else 0 := by intro t i j; split <;> positivity
  rw [tdsep_objective limit maxIter hn, ← Finset.sum_div, div_eq_zero_iff, or_iff_left h2,
    Finset.sum_eq_zero_iff_of_nonneg fun t _ => Finset.sum_nonneg fun i _ => Finset.sum_nonneg fun j _ => hi t i j]
  constructor
  · intro h t i j hij
    have h3 := (Finset.sum_eq_zero_iff_of_nonneg fun i _ => Finset.sum_nonneg fun j _ => hi t i j).1 (h t (Finset.mem_univ _)) i (Finset.mem_univ _)
    have h4 := (Finset.sum_eq_zero_iff_of_nonneg fun j _ => hi t i j).1 h3 j (Finset.mem_univ _)
    rw [if_pos hij] at h4
    exact pow_eq_zero_iff (two_ne_zero) |>.1 h4
  · intro h t _
    refine Finset.sum_eq_zero fun i _ => Finset.sum_eq_zero fun j _ => ?_
    split
    · next hij => rw [h t i j hij]; norm_num
    · rfl

/-- If the first angle has contrast zero, the loop ends at once. -/
theorem optLoop_zero {p : Par T} {draw : Nat → Draw p.R n} {fuel : Nat} {o : Opt T n} {i j : Fin n} {l : List (Fin n × Fin n)}
    (hax : (draw 1).axes = (i, j) :: l) (hm : p.maxIter ≠ 1) (hz : (givensAngle p o.covs i j).2 = 0) :
    ∃ pe pa, optLoop p draw (fuel + 1) 0 o = some (.ok { o with contrast := 0, perturbed := pe, part := pa }) := by
  have hs : doSweep p (draw (0 + 1)).axes o = .ok (((-1 : ℝ) : WithTop ℝ), { o with contrast := 0 }) := by
    unfold doSweep
    rw [Nat.zero_add, hax]
    unfold pairLoop
    simp only [hz, if_true]
  unfold optLoop
  simp only [hs]
  have hd := decide_zero p ((-1 : ℝ) : WithTop ℝ) (0 + 1) o.perturbed o.part
  generalize decide' p ((-1 : ℝ) : WithTop ℝ) 0 (0 + 1) o.perturbed o.part = D at hd
  obtain ⟨sw, pe, pa⟩ := D
  simp only [] at hd
  subst hd
  refine ⟨pe, pa, ?_⟩
  simp only [Bool.false_eq_true, and_false, if_false]
  rw [if_neg (by omega)]

theorem stop_zero {p : Par (T + 1)} {order : (Fin n → ℝ) → List (Fin n) → List (Fin n)} {draw : Nat → Draw p.R n} {fuel : Nat}
    {c : Covs (T + 1) n} {i j : Fin n} {l : List (Fin n × Fin n)}
    (hax : (draw 1).axes = (i, j) :: l) (hm : p.maxIter ≠ 1) (hz : (givensAngle p c i j).2 = 0) :
    stop p order draw (fuel + 1) none c = some (.ok ⟨c, 1, (order (fun i => c 0 i i) ((List.finRange n).filter fun i => i.1 < p.R)).reverse.map fun j i => (1 : Matrix (Fin n) (Fin n) ℝ) i j,
      contrast p c, contrast p c⟩) := by
  unfold stop optimize
  simp only []
  obtain ⟨pe, pa, h⟩ := optLoop_zero (draw := draw) (fuel := fuel) (o := ⟨c, 1, (contrast p c).1 + (contrast p c).2, if n = p.R then -1 else 0, 0⟩) hax hm hz
  rw [h]
  simp only [transform_changed, changed_one, Matrix.mul_one]

/-- **C276**: two signals that can be separated exactly are not separated: if some orthogonal matrix makes all time-lagged covariances of the two
signals vanish, training succeeds, the rotation is the identity and the covariances stay as they are. -/
theorem tdsep_separable_violation {order : (Fin 2 → ℝ) → List (Fin 2) → List (Fin 2)} {limit : ℝ} {maxIter : Nat} (hm : maxIter ≠ 1)
    {draw : Nat → Draw (tdsep (T + 1) 2 limit maxIter).R 2} (hd : ∀ k, (draw k).Ok) (fuel : Nat) {c : Covs (T + 1) 2} (hc : ∀ t a b, c t a b = c t b a)
    {g : Matrix (Fin 2) (Fin 2) ℝ} (hg : gᵀ * g = 1) (hdiag : Diagonal (changed g c)) :
    ∃ r, stop (tdsep (T + 1) 2 limit maxIter) order draw (fuel + 1) none c = some (.ok r) ∧ r.rpc = 1 ∧ r.covs = c ∧ r.final = r.initial := by
  have hi : (0 : Fin 2).1 < (tdsep (T + 1) 2 limit maxIter).R := by change 0 < 2; decide
  have hj : (1 : Fin 2).1 < (tdsep (T + 1) 2 limit maxIter).R := by change 1 < 2; decide
  have hz : (givensAngle (tdsep (T + 1) 2 limit maxIter) c 0 1).2 = 0 := by
    have e2 := isfa_contrast_of_angle (tdsep (T + 1) 2 limit maxIter) c hc 0 1 (by decide) hi
    have e3 := (isfa_best_angle (tdsep (T + 1) 2 limit maxIter) c hc 0 1 (by decide) hj).2
    obtain ⟨phi, hp⟩ := objective_two (tdsep (T + 1) 2 limit maxIter) c g hg
    have e4 := e3 phi
    rw [← hp, (tdsep_zero limit maxIter (by decide) _).2 hdiag, ← e2] at e4
    refine le_antisymm e4 ?_
    rw [e2]
    exact tdsep_nonneg limit maxIter (by decide) _
  exact ⟨_, stop_zero (draw_two rfl (hd 1)) hm hz, rfl, rfl, rfl⟩

/-- A symmetric matrix of size two can be made diagonal by a rotation: with one time-lag the signals can always be separated. -/
theorem diagonal_two (c : Covs 1 2) (hc : ∀ t a b, c t a b = c t b a) : ∃ g : Matrix (Fin 2) (Fin 2) ℝ, gᵀ * g = 1 ∧ Diagonal (changed g c) := by
  set x := (c 0 0 0 - c 0 1 1) / 2 with hx
  set z := c 0 0 1 with hz
  set phi := -Complex.arg ⟨x, z⟩ / 2 with hphi
  have hcs := Complex.norm_mul_cos_arg (⟨x, z⟩ : ℂ)
  have hsn := Complex.norm_mul_sin_arg (⟨x, z⟩ : ℂ)
  simp only [] at hcs hsn
  have h2 : Real.cos (2 * phi) = Real.cos (Complex.arg ⟨x, z⟩) := by rw [hphi, show 2 * (-Complex.arg (⟨x, z⟩ : ℂ) / 2) = -Complex.arg ⟨x, z⟩ by ring, Real.cos_neg]
  have h3 : Real.sin (2 * phi) = -Real.sin (Complex.arg ⟨x, z⟩) := by rw [hphi, show 2 * (-Complex.arg (⟨x, z⟩ : ℂ) / 2) = -Complex.arg ⟨x, z⟩ by ring, Real.sin_neg]
  have key : Real.sin (2 * phi) * x + Real.cos (2 * phi) * z = 0 := by
    rw [h2, h3]
    generalize Complex.arg (⟨x, z⟩ : ℂ) = A at hcs hsn
    generalize ‖(⟨x, z⟩ : ℂ)‖ = N at hcs hsn
    rw [← hcs, ← hsn]; ring
  refine ⟨plane phi 0 1, plane_orthogonal phi (by decide), ?_⟩
  have h01 : changed (plane phi 0 1) c 0 0 1 = 0 := by
    rw [← rotate_changed phi (by decide)]
    unfold rotCovs
    rw [rotate_turn _ _ (by decide)]
    simp only [turn2, Fin.isValue, zero_ne_one, if_false, if_true]
    rw [hc 0 1 0, ← hz, ← key, Real.sin_two_mul, Real.cos_two_mul', hx]
    ring
  intro t i j hij
  have ht : t = 0 := Subsingleton.elim _ _
  subst ht
  fin_cases i <;> fin_cases j
  · exact absurd rfl hij
  · exact h01
  · exact (changed_symm _ c hc 0 1 0).trans h01
  · exact absurd rfl hij

/-- **C276**: with one time-lag and two signals TDSEP never rotates. -/
theorem tdsep_one_lag_violation {order : (Fin 2 → ℝ) → List (Fin 2) → List (Fin 2)} {limit : ℝ} {maxIter : Nat} (hm : maxIter ≠ 1)
    {draw : Nat → Draw (tdsep 1 2 limit maxIter).R 2} (hd : ∀ k, (draw k).Ok) (fuel : Nat) {c : Covs 1 2} (hc : ∀ t a b, c t a b = c t b a) :
    ∃ r, stop (tdsep 1 2 limit maxIter) order draw (fuel + 1) none c = some (.ok r) ∧ r.rpc = 1 ∧ r.covs = c ∧ r.final = r.initial := by
  obtain ⟨g, hg, h⟩ := diagonal_two c hc
  exact tdsep_separable_violation hm hd fuel hc hg h

/-- **C276** (tdsep_two): for two signals that no rotation separates exactly, the time-lagged covariances of the outputs are the least possible. -/
theorem tdsep_two_partial {order : (Fin 2 → ℝ) → List (Fin 2) → List (Fin 2)} {limit : ℝ} {maxIter : Nat}
    {draw : Nat → Draw (tdsep (T + 1) 2 limit maxIter).R 2} (hd : ∀ k, (draw k).Ok) {fuel : Nat} {c : Covs (T + 1) 2} (hc : ∀ t a b, c t a b = c t b a)
    (hsep : ∀ g : Matrix (Fin 2) (Fin 2) ℝ, gᵀ * g = 1 → ¬Diagonal (changed g c)) {r : Res (T + 1) 2}
    (h : stop (tdsep (T + 1) 2 limit maxIter) order draw fuel none c = some (.ok r)) (g : Matrix (Fin 2) (Fin 2) ℝ) (hg : gᵀ * g = 1) :
    ∑ t, r.covs t 0 1 ^ 2 ≤ ∑ t, changed g c t 0 1 ^ 2 := by
  have hobj : ∀ c : Covs (T + 1) 2, (∀ t a b, c t a b = c t b a) → objective (tdsep (T + 1) 2 limit maxIter) c = ∑ t, c t 0 1 ^ 2 := by
    intro c hc
    rw [tdsep_objective limit maxIter (by decide)]
    refine Finset.sum_congr rfl fun t _ => ?_
    simp only [Fin.sum_univ_two, Fin.isValue, ne_eq, not_true_eq_false, if_false, zero_ne_one, not_false_eq_true, if_true, one_ne_zero, hc t 1 0]
    norm_num
  obtain ⟨_, hcov, _, hfin⟩ := isfa_rotation hd hc h
  have hsym : ∀ t a b, r.covs t a b = r.covs t b a := by rw [hcov]; exact changed_symm _ c hc
  rcases isfa_two_partial hd rfl hc h with h1 | ⟨g', hg', h2, _⟩
  · have := h1 g hg
    rw [hfin, hobj _ hsym] at this
    simp only [Option.getD_none, changed_one] at this
    rwa [hobj _ (changed_symm g c hc)] at this
  · simp only [Option.getD_none, changed_one] at h2
    exact absurd ((tdsep_zero limit maxIter (by decide) _).1 h2) (hsep g' hg')

end Mdp.Isfa
