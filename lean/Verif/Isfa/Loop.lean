import Verif.Isfa.Angle

/-!
# The sweeps of ISFA
-/

namespace Mdp.Isfa

open Mdp.Ica Matrix

variable {n T : Nat}

/-- A choice is possible: the axes are those of the algorithm in some order, the rotation is orthogonal. -/
def Draw.Ok {R : Nat} (d : Draw R n) : Prop := d.axes.Perm (Isfa.axes R n) ∧ d.rotᵀ * d.rot = 1

theorem mem_axes {R : Nat} {i j : Fin n} : (i, j) ∈ axes R n ↔ i.1 < R ∧ i < j := by
  unfold axes
  simp only [List.mem_flatMap, List.mem_filter, List.mem_finRange, true_and, List.mem_map, Prod.mk.injEq, decide_eq_true_eq]
  constructor
  · rintro ⟨a, h1, b, h2, rfl, rfl⟩; exact ⟨h1, h2⟩
  · rintro ⟨h1, h2⟩; exact ⟨i, h1, j, h2, rfl, rfl⟩

theorem axes_lt {R : Nat} {d : Draw R n} (hd : d.Ok) {x : Fin n × Fin n} (hx : x ∈ d.axes) : x.1.1 < R ∧ x.1 < x.2 :=
  mem_axes.1 (hd.1.mem_iff.1 hx)

/-! ## Changes of coordinates -/

theorem rotateM_plane (phi : ℝ) {i j : Fin n} (h : i ≠ j) (q : Matrix (Fin n) (Fin n) ℝ) : rotateM phi i j q = q * plane phi i j := by
  funext a b
  rw [Matrix.mul_apply, plane_givens phi h]
  have := Cov.sum_givens (Real.cos phi) (Real.sin phi) i j h (q a) b
  unfold rotateM rotRow
  rw [Finset.sum_congr rfl fun k _ => mul_comm _ _, this] <;> try exact h
  split_ifs <;> simp_all

theorem plane_orthogonal (phi : ℝ) {i j : Fin n} (h : i ≠ j) : (plane phi i j)ᵀ * plane phi i j = 1 := by
  have := rotateM_orthogonal phi h (q := 1) (by simp)
  rw [rotateM_plane phi h, Matrix.one_mul] at this
  exact this

theorem plane_zero (i j : Fin n) : plane 0 i j = 1 := by
  funext a b
  unfold plane
  rw [Matrix.one_apply]
  simp only [Real.cos_zero, Real.sin_zero, neg_zero]
  split_ifs <;> grind

theorem changed_mul (g h : Matrix (Fin n) (Fin n) ℝ) (c : Covs T n) : changed h (changed g c) = changed (g * h) c := by
  funext t
  change hᵀ * (gᵀ * Matrix.of (c t) * g) * h = (g * h)ᵀ * Matrix.of (c t) * (g * h)
  simp only [Matrix.transpose_mul, Matrix.mul_assoc]

theorem changed_one (c : Covs T n) : changed 1 c = c := by
  funext t
  change (1 : Matrix (Fin n) (Fin n) ℝ)ᵀ * Matrix.of (c t) * 1 = Matrix.of (c t)
  rw [Matrix.transpose_one, Matrix.one_mul, Matrix.mul_one]

theorem changed_symm (g : Matrix (Fin n) (Fin n) ℝ) (c : Covs T n) (hc : ∀ t a b, c t a b = c t b a) (t : Fin T) (a b : Fin n) :
    changed g c t a b = changed g c t b a := by
  have h1 : (Matrix.of (c t))ᵀ = Matrix.of (c t) := by ext a b; exact hc t b a
  have h2 : (gᵀ * Matrix.of (c t) * g)ᵀ = gᵀ * Matrix.of (c t) * g := by
    simp only [Matrix.transpose_mul, Matrix.transpose_transpose, h1, Matrix.mul_assoc]
  exact congrFun (congrFun h2 b) a

theorem transform_changed (g : Matrix (Fin n) (Fin n) ℝ) (c : Covs T n) :
    trCovs g c = changed g c := by
  funext t
  exact (Cov.transform_eq g (c t)).trans (congr2_mul g (c t))

theorem rotate_changed (phi : ℝ) {i j : Fin n} (h : i ≠ j) (c : Covs T n) :
    rotCovs phi i j c = changed (plane phi i j) c := by
  funext t
  exact rotate_plane phi h (c t)

/-! ## The perturbation -/

theorem matrix_inner {R : Nat} (d : Draw R n) (k i : Fin n) (hi : i.1 < R) : d.matrix k i = (1 : Matrix (Fin n) (Fin n) ℝ) k i := by
  unfold Draw.matrix
  rw [dif_neg (by omega), Matrix.one_apply]

theorem matrix_inner' {R : Nat} (d : Draw R n) (k i : Fin n) (hk : k.1 < R) : d.matrix k i = (1 : Matrix (Fin n) (Fin n) ℝ) k i := by
  unfold Draw.matrix
  rw [dif_neg (by omega), Matrix.one_apply]

theorem matrix_orthogonal {R : Nat} {d : Draw R n} (hd : d.Ok) : d.matrixᵀ * d.matrix = 1 := by
  ext i j
  rw [Matrix.mul_apply]
  simp only [Matrix.transpose_apply]
  by_cases hi : i.1 < R
  · simp only [matrix_inner d _ i hi]
    rw [show (∑ k, (1 : Matrix (Fin n) (Fin n) ℝ) k i * d.matrix k j) = d.matrix i j by simp [Matrix.one_apply]]
    exact matrix_inner' d i j hi
  by_cases hj : j.1 < R
  · simp only [matrix_inner d _ j hj]
    rw [show (∑ k, d.matrix k i * (1 : Matrix (Fin n) (Fin n) ℝ) k j) = d.matrix j i by simp [Matrix.one_apply]]
    rw [matrix_inner' d j i hj, Matrix.one_apply, Matrix.one_apply]
    simp only [eq_comm]
  have hs : ∑ a : Fin (n - R), d.rot a (d.perm ⟨i.1 - R, by omega⟩) * d.rot a (d.perm ⟨j.1 - R, by omega⟩) = ∑ k, d.matrix k i * d.matrix k j := by
    refine Finset.sum_of_injOn (fun a : Fin (n - R) => (⟨a.1 + R, by omega⟩ : Fin n)) ?_ ?_ ?_ ?_
    · intro a _ b _ h
      simp only [Fin.mk.injEq, Nat.add_right_cancel_iff] at h
      exact Fin.ext h
    · intro a _; exact Finset.mem_coe.2 (Finset.mem_univ _)
    · intro k _ hk
      have : k.1 < R := by
        by_contra h
        exact hk ⟨⟨k.1 - R, by omega⟩, by simp, Fin.ext (by simp; omega)⟩
      rw [matrix_inner' d k i this, Matrix.one_apply, if_neg (by intro e; rw [e] at this; exact hi this), zero_mul]
    · intro a _
      unfold Draw.matrix
      rw [dif_pos ⟨by simp, by omega⟩, dif_pos ⟨by simp, by omega⟩]
      simp
  rw [← hs]
  have := congrFun (congrFun hd.2 (d.perm ⟨i.1 - R, by omega⟩)) (d.perm ⟨j.1 - R, by omega⟩)
  rw [Matrix.mul_apply] at this
  simp only [Matrix.transpose_apply] at this
  rw [this, Matrix.one_apply, Matrix.one_apply]
  simp only [EmbeddingLike.apply_eq_iff_eq, Fin.mk.injEq]
  by_cases e : i = j
  · rw [if_pos e, if_pos (by rw [e])]
  · rw [if_neg e, if_neg]
    intro h
    exact e (Fin.ext (by omega))

theorem matrix_entry {R : Nat} (d : Draw R n) (m : Matrix (Fin n) (Fin n) ℝ) (i j : Fin n) (hi : i.1 < R) (hj : j.1 < R) :
    (d.matrixᵀ * m * d.matrix) i j = m i j := by
  rw [Matrix.mul_apply]
  simp only [matrix_inner d _ j hj, Matrix.one_apply, mul_ite, mul_one, mul_zero, Finset.sum_ite_eq', Finset.mem_univ, if_true]
  rw [Matrix.mul_apply]
  simp only [Matrix.transpose_apply, matrix_inner d _ i hi, Matrix.one_apply, ite_mul, one_mul, zero_mul, Finset.sum_ite_eq', Finset.mem_univ, if_true]

/-- A perturbation of the outer space does not change the objective. -/
theorem objective_perturb (p : Par T) (d : Draw p.R n) (c : Covs T n) : objective p (changed d.matrix c) = objective p c := by
  unfold objective changed
  congr 2
  · refine Finset.sum_congr rfl fun t _ => congrArg _ (Finset.sum_congr rfl fun i _ => ?_)
    split
    · next h => rw [matrix_entry d _ i i h h, Matrix.of_apply]
    · rfl
  · refine Finset.sum_congr rfl fun t _ => congrArg _ (Finset.sum_congr rfl fun i _ => Finset.sum_congr rfl fun j _ => ?_)
    split
    · next h => rw [matrix_entry d _ i j h.1 h.2.1, Matrix.of_apply]
    · rfl

/-! ## Sweeps -/

/-- The matrices are those of the beginning in the coordinates of the rotation. -/
def Good (c0 c : Covs T n) (q : Matrix (Fin n) (Fin n) ℝ) : Prop := qᵀ * q = 1 ∧ c = changed q c0

theorem Good.symm {c0 c : Covs T n} {q : Matrix (Fin n) (Fin n) ℝ} (h : Good c0 c q) (h0 : ∀ t a b, c0 t a b = c0 t b a) (t : Fin T) (a b : Fin n) :
    c t a b = c t b a := by
  rw [h.2]; exact changed_symm q c0 h0 t a b

theorem Good.mul {c0 c : Covs T n} {q g : Matrix (Fin n) (Fin n) ℝ} (h : Good c0 c q) (hg : gᵀ * g = 1) : Good c0 (changed g c) (q * g) := by
  refine ⟨?_, by rw [h.2, changed_mul]⟩
  rw [Matrix.transpose_mul, Matrix.mul_assoc, ← Matrix.mul_assoc qᵀ, h.1, Matrix.one_mul, hg]

theorem Good.rotate {c0 : Covs T n} {c : Covs T n} {q : Matrix (Fin n) (Fin n) ℝ} (h : Good c0 c q) (phi : ℝ) {i j : Fin n} (hij : i ≠ j) :
    Good c0 (rotCovs phi i j c) (rotateM phi i j q) := by
  rw [rotateM_plane phi hij, rotate_changed phi hij]
  exact h.mul (plane_orthogonal phi hij)

/-- The end of a sweep: the matrices are good; if the sweep starts with the right contrast, the objective does not grow. -/
theorem pairLoop_ok (p : Par T) {c0 : Covs T n} (h0 : ∀ t a b, c0 t a b = c0 t b a) (l : List (Fin n × Fin n))
    (hl : ∀ x ∈ l, x.1.1 < p.R ∧ x.1 < x.2) : ∀ s : Sweep T n, Good c0 s.covs s.q →
      Good c0 (pairLoop p s l).covs (pairLoop p s l).q ∧
      (s.prev = objective p s.covs → (pairLoop p s l).prev = objective p (pairLoop p s l).covs ∧ (pairLoop p s l).prev ≤ s.prev) := by
  induction l with
  | nil => intro s h; exact ⟨h, fun e => ⟨e, le_refl _⟩⟩
  | cons x l ih =>
    obtain ⟨i, j⟩ := x
    intro s h
    have hx := hl (i, j) (by simp)
    have ih := ih fun y hy => hl y (by simp [hy])
    unfold pairLoop
    simp only []
    split
    · exact ⟨h, fun e => ⟨e, le_refl _⟩⟩
    · split
      · exact ih { s with cur := some (givensAngle p s.covs i j).2 } h
      · next h1 =>
        set a := givensAngle p s.covs i j with ha
        refine ⟨(ih ⟨_, _, _, _, _⟩ (h.rotate a.1 hx.2.ne)).1, fun e => ?_⟩
        have e2 : a.2 = objective p (rotCovs a.1 i j s.covs) := by
          have := isfa_contrast_of_angle p s.covs (h.symm h0) i j hx.2 hx.1
          rw [← ha] at this
          rw [this, ← rotate_changed a.1 hx.2.ne]
        obtain ⟨e3, e4⟩ := (ih ⟨_, _, _, _, _⟩ (h.rotate a.1 hx.2.ne)).2 e2
        exact ⟨e3, le_trans e4 (not_lt.1 h1)⟩

/-- Without outer space no rotation is refused: the sweep ends with the right contrast, or with an angle of contrast zero. -/
theorem pairLoop_in (p : Par T) {c0 : Covs T n} (h0 : ∀ t a b, c0 t a b = c0 t b a) (l : List (Fin n × Fin n))
    (hl : ∀ x ∈ l, x.2.1 < p.R ∧ x.1 < x.2) : ∀ s : Sweep T n, Good c0 s.covs s.q → s.prev = objective p s.covs →
      (s.cur = some s.prev ∨ l ≠ []) →
      (pairLoop p s l).cur = some (pairLoop p s l).prev ∨ (pairLoop p s l).cur = some 0 := by
  induction l with
  | nil => intro s h e hs; left; rcases hs with hs | hs; · exact hs
           · exact absurd rfl hs
  | cons x l ih =>
    obtain ⟨i, j⟩ := x
    intro s h e _
    have hx := hl (i, j) (by simp)
    have ih := ih fun y hy => hl y (by simp [hy])
    have hi : i.1 < p.R := lt_trans hx.2 hx.1
    have e2 := isfa_contrast_of_angle p s.covs (h.symm h0) i j hx.2 hi
    have e3 := (isfa_best_angle p s.covs (h.symm h0) i j hx.2 hx.1).2 0
    have e4 : changed (plane 0 i j) s.covs = s.covs := by
      rw [plane_zero, changed_one]
    rw [e4, ← e2, ← e] at e3
    unfold pairLoop
    simp only []
    split
    · next hz => right; simp [hz]
    · split
      · next h1 => exact absurd h1 (not_lt.2 e3)
      · exact ih ⟨_, _, _, _, _⟩ (h.rotate _ hx.2.ne) (by rw [e2, ← rotate_changed _ hx.2.ne]) (Or.inl rfl)

end Mdp.Isfa
