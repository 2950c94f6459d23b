import Verif.Utils.Random
import Mathlib.LinearAlgebra.Matrix.SchurComplement
import Mathlib.LinearAlgebra.Matrix.Charpoly.Coeff
import Mathlib.Data.Complex.BigOperators
import Mathlib.Tactic.NormNum
import Mathlib.Tactic.Linarith
import Mathlib.Tactic.FieldSimp

/-!
# Random rotations and random symmetric matrices (C234, C235)
-/

namespace Mdp.Rand

open Matrix

/-! ## Specification -/

/-- A rotation: the rows are orthonormal and orientation is kept. -/
def IsRotation {n : Nat} (m : Matrix (Fin n) (Fin n) ℝ) : Prop := m * m.transpose = 1 ∧ m.det = 1

/-- The random numbers of all passes are as they are with probability one: the first number of a pass is not zero, and neither
are all the others. -/
def Generic (dim : Nat) (draw : Nat → Nat → ℝ) : Prop :=
  ∀ n, n + 1 < dim → draw n 0 ≠ 0 ∧ ∃ k, 0 < k ∧ k < dim - n ∧ draw n k ≠ 0

/-! ## Householder transformations -/

theorem sum_from (d n : Nat) (f : Nat → ℝ) :
    ∑ i : Fin d, (if n ≤ i.val then f (i.val - n) else 0) = ∑ k ∈ Finset.range (d - n), f k := by
  rw [Fin.sum_univ_eq_sum_range (fun i => if n ≤ i then f (i - n) else 0) d]
  by_cases h : n ≤ d
  · obtain ⟨m, rfl⟩ := Nat.exists_eq_add_of_le h
    rw [Finset.sum_range_add, Finset.sum_eq_zero, zero_add, Nat.add_sub_cancel_left]
    · apply Finset.sum_congr rfl
      intro k _
      rw [if_pos (Nat.le_add_right n k), Nat.add_sub_cancel_left]
    · intro k hk
      rw [if_neg (by have := Finset.mem_range.1 hk; omega)]
  · rw [Nat.sub_eq_zero_of_le (by omega), Finset.range_zero, Finset.sum_empty]
    apply Finset.sum_eq_zero
    intro k hk
    rw [if_neg (by have := Finset.mem_range.1 hk; omega)]

/-- The vector of the reflection among all coordinates. -/
def pad (dim n : Nat) (x : Nat → ℝ) (i : Fin dim) : ℝ := if n ≤ i.val then x (i.val - n) else 0

theorem pad_dot (dim n : Nat) (x : Nat → ℝ) :
    pad dim n x ⬝ᵥ pad dim n x = ∑ l ∈ Finset.range (dim - n), x l * x l := by
  rw [← sum_from dim n fun l => x l * x l]
  apply Finset.sum_congr rfl
  intro i _
  unfold pad
  split <;> simp

theorem house_eq (dim n : Nat) (x : Nat → ℝ) (h : pad dim n x ⬝ᵥ pad dim n x ≠ 0) :
    house dim n x = some (1 - (2 / (pad dim n x ⬝ᵥ pad dim n x)) • vecMulVec (pad dim n x) (pad dim n x)) := by
  unfold house
  simp only
  rw [← pad_dot, if_neg h]
  congr 1
  ext i j
  simp only [Matrix.of_apply, Matrix.sub_apply, Matrix.one_apply, Matrix.smul_apply, vecMulVec_apply, smul_eq_mul]
  generalize pad dim n x ⬝ᵥ pad dim n x = s
  unfold pad
  by_cases h1 : n ≤ i.val <;> by_cases h2 : n ≤ j.val <;> simp [h1, h2] <;> ring

theorem house_none (dim n : Nat) (x : Nat → ℝ) (h : pad dim n x ⬝ᵥ pad dim n x = 0) : house dim n x = none := by
  unfold house
  simp only
  rw [← pad_dot, if_pos h]

theorem reflect_orthogonal {n : Nat} (v : Fin n → ℝ) (h : v ⬝ᵥ v ≠ 0) :
    (1 - (2 / (v ⬝ᵥ v)) • vecMulVec v v) * (1 - (2 / (v ⬝ᵥ v)) • vecMulVec v v).transpose = 1 := by
  have ht : (vecMulVec v v).transpose = vecMulVec v v := by
    ext i j
    simp [vecMulVec_apply, mul_comm]
  have hm : vecMulVec v v * vecMulVec v v = (v ⬝ᵥ v) • vecMulVec v v := by
    ext i j
    simp only [Matrix.mul_apply, vecMulVec_apply, Matrix.smul_apply, smul_eq_mul, dotProduct, Finset.sum_mul]
    exact Finset.sum_congr rfl fun k _ => by ring
  rw [Matrix.transpose_sub, Matrix.transpose_one, Matrix.transpose_smul, ht, Matrix.mul_sub, Matrix.sub_mul,
    Matrix.sub_mul, Matrix.one_mul, Matrix.mul_one, Matrix.one_mul, Matrix.smul_mul, Matrix.mul_smul, hm, smul_smul,
    smul_smul]
  have : 2 / (v ⬝ᵥ v) * (2 / (v ⬝ᵥ v)) * (v ⬝ᵥ v) = 2 / (v ⬝ᵥ v) + 2 / (v ⬝ᵥ v) := by
    field_simp
    norm_num
  rw [this, add_smul]
  abel

theorem reflect_det {n : Nat} (v : Fin n → ℝ) (h : v ⬝ᵥ v ≠ 0) :
    (1 - (2 / (v ⬝ᵥ v)) • vecMulVec v v).det = -1 := by
  have : (1 - (2 / (v ⬝ᵥ v)) • vecMulVec v v) =
      1 + replicateCol Unit (-(2 / (v ⬝ᵥ v)) • v) * replicateRow Unit v := by
    rw [sub_eq_add_neg]
    congr 1
    ext i j
    simp [Matrix.mul_apply, vecMulVec_apply]
    ring
  rw [this, det_one_add_replicateCol_mul_replicateRow, dotProduct_smul, smul_eq_mul]
  field_simp
  norm_num

theorem shifted_dot (dim n : Nat) (x : Nat → ℝ) (hn : n + 1 < dim) (k : Nat) (h0 : 0 < k) (hk : k < dim - n)
    (hx : x k ≠ 0) : pad dim n (shifted (dim - n) x) ⬝ᵥ pad dim n (shifted (dim - n) x) ≠ 0 := by
  rw [pad_dot]
  apply ne_of_gt
  apply Finset.sum_pos'
  · intro i _
    exact mul_self_nonneg _
  · refine ⟨k, Finset.mem_range.2 hk, ?_⟩
    unfold shifted
    rw [if_neg (by omega)]
    exact mul_self_pos.2 hx

/-! ## The loop -/

theorem rotLoop_ok (dim : Nat) (draw : Nat → Nat → ℝ)
    (hg : ∀ n, n + 1 < dim → ∃ k, 0 < k ∧ k < dim - n ∧ draw n k ≠ 0) :
    ∀ k n H D, n + k < dim → H * H.transpose = 1 → ∃ H' D', rotLoop dim draw k n H D = some (H', D') ∧
      H' * H'.transpose = 1 ∧ H'.det = (-1) ^ k * H.det ∧
      ∀ i : Fin dim, D' i = if n ≤ i.val ∧ i.val < n + k then Real.sign (draw i.val 0) else D i := by
  intro k
  induction k with
  | zero =>
    intro n H D _ h
    exact ⟨H, D, rfl, h, by simp, fun i => by rw [if_neg (by omega)]⟩
  | succ k ih =>
    intro n H D hn h
    obtain ⟨l, h0, hl, hx⟩ := hg n (by omega)
    have hd := shifted_dot dim n (draw n) (by omega) l h0 hl hx
    simp only [rotLoop]
    rw [house_eq dim n _ hd, Option.bind_some]
    generalize hw : pad dim n (shifted (dim - n) (draw n)) = v at hd ⊢
    obtain ⟨H', D', he, ho, ht, hD⟩ := ih (n + 1) (H * (1 - (2 / (v ⬝ᵥ v)) • vecMulVec v v))
      (fun i => if i.val = n then Real.sign (draw n 0) else D i) (by omega) (by
        rw [Matrix.transpose_mul, Matrix.mul_assoc, ← Matrix.mul_assoc _ _ H.transpose, reflect_orthogonal v hd,
          Matrix.one_mul, h])
    refine ⟨H', D', he, ho, ?_, fun i => ?_⟩
    · rw [ht, Matrix.det_mul, reflect_det v hd, pow_succ]
      ring
    · rw [hD i]
      by_cases h1 : i.val = n
      · rw [if_neg (by omega), if_pos h1, if_pos (by omega), h1]
      · rw [if_neg h1]
        by_cases h2 : n + 1 ≤ i.val ∧ i.val < n + 1 + k
        · rw [if_pos h2, if_pos (by omega)]
        · rw [if_neg h2, if_neg (by omega)]

theorem sign_sq {a : ℝ} (h : a ≠ 0) : Real.sign a * Real.sign a = 1 := by
  rcases Real.sign_apply_eq_of_ne_zero a h with h | h <;> rw [h] <;> norm_num

theorem signs (dim : Nat) (k : Nat) : (-1 : ℝ) ^ (1 - (k + 1) % 2) * (-1) ^ k = 1 := by
  rcases Nat.mod_two_eq_zero_or_one k with h | h
  · have h1 : (k + 1) % 2 = 1 := by omega
    rw [h1, Nat.sub_self, pow_zero, one_mul]
    exact Even.neg_one_pow (Nat.even_iff.2 h)
  · have h1 : (k + 1) % 2 = 0 := by omega
    rw [h1, Nat.sub_zero, pow_one, Odd.neg_one_pow (Nat.odd_iff.2 h)]
    norm_num

/-- C234: `random_rot(dim)` returns a rotation, whatever random numbers are drawn, as long as they are generic. -/
theorem random_rot_rotation (dim : Nat) (draw : Nat → Nat → ℝ) (hd : dim ≠ 0) (hg : Generic dim draw) :
    ∃ m, randomRot dim draw = some m ∧ IsRotation m := by
  obtain ⟨k, rfl⟩ := Nat.exists_eq_succ_of_ne_zero hd
  obtain ⟨H, D, he, ho, ht, hD⟩ := rotLoop_ok (k + 1) draw (fun n hn => (hg n hn).2) k 0 1 (fun _ => 1) (by omega)
    (by simp)
  unfold randomRot
  rw [if_neg hd, Nat.succ_eq_add_one, Nat.add_sub_cancel, he]
  simp only [Option.map_some]
  refine ⟨_, rfl, ?_⟩
  have hsq : ∀ i, D i * D i = 1 := by
    intro i
    rw [hD i]
    split
    · rename_i h
      exact sign_sq (hg i.val (by omega)).1
    · norm_num
  have hlast : D (Fin.last k) = 1 := by
    rw [hD]
    simp
  have hP : (∏ j, D j) * ∏ j, D j = 1 := by
    rw [← Finset.prod_mul_distrib]
    exact Finset.prod_eq_one fun i _ => hsq i
  have hprod : ∏ j, D j = ∏ j : Fin k, D j.castSucc := by
    rw [Fin.prod_univ_castSucc, hlast, mul_one]
  generalize hE : (fun i : Fin (k + 1) => if i.val = k then (-1) ^ (1 - (k + 1) % 2) * ∏ j, D j else D i) = E
  have hEp : ∏ j, E j = (-1) ^ (1 - (k + 1) % 2) := by
    rw [Fin.prod_univ_castSucc, ← hE]
    simp only [Fin.val_castSucc, Fin.val_last, if_true]
    rw [Finset.prod_congr rfl (fun (j : Fin k) _ => if_neg (Nat.ne_of_lt j.isLt)), ← hprod, mul_comm, mul_assoc, hP, mul_one]
  have hEsq : ∀ i, E i * E i = 1 := by
    intro i
    rw [← hE]
    simp only
    split
    · have : ((-1 : ℝ) ^ (1 - (k + 1) % 2)) * (-1) ^ (1 - (k + 1) % 2) = 1 := by
        rw [← mul_pow]
        norm_num
      calc _ = ((-1 : ℝ) ^ (1 - (k + 1) % 2) * (-1) ^ (1 - (k + 1) % 2)) * ((∏ j, D j) * ∏ j, D j) := by ring
        _ = 1 := by rw [this, hP, mul_one]
    · exact hsq i
  have hM : (Matrix.of fun i j => E i * H i j) = Matrix.diagonal E * H := by
    ext i j
    rw [Matrix.diagonal_mul, Matrix.of_apply]
  have : (Matrix.of fun i j => (if i.val = k then (-1) ^ (1 - (k + 1) % 2) * ∏ j, D j else D i) * H i j) =
      Matrix.diagonal E * H := by
    rw [← hM, ← hE]
  rw [this]
  constructor
  · rw [Matrix.transpose_mul, Matrix.mul_assoc, ← Matrix.mul_assoc H, ho, Matrix.one_mul, Matrix.diagonal_transpose,
      Matrix.diagonal_mul_diagonal]
    rw [← Matrix.diagonal_one]
    congr 1
    funext i
    exact hEsq i
  · rw [Matrix.det_mul, Matrix.det_diagonal, hEp, ht, Matrix.det_one, mul_one]
    exact signs 0 k

/-- Random numbers for three dimensions. -/
example : Generic 3 (fun n k => (n : ℝ) + k + 1) := by
  intro n hn
  refine ⟨by positivity, 1, by omega, by omega, by positivity⟩

/-- C234: a first random number that is zero gives a matrix with determinant zero. -/
theorem random_rot_zero_violation (dim : Nat) (draw : Nat → Nat → ℝ) (n : Nat) (hn : n + 1 < dim) (h0 : draw n 0 = 0)
    (hg : ∀ n, n + 1 < dim → ∃ k, 0 < k ∧ k < dim - n ∧ draw n k ≠ 0) :
    ∃ m, randomRot dim draw = some m ∧ m.det = 0 := by
  obtain ⟨k, rfl⟩ := Nat.exists_eq_succ_of_ne_zero (show dim ≠ 0 by omega)
  obtain ⟨H, D, he, ho, ht, hD⟩ := rotLoop_ok (k + 1) draw hg k 0 1 (fun _ => 1) (by omega) (by simp)
  unfold randomRot
  rw [if_neg (by omega), Nat.succ_eq_add_one, Nat.add_sub_cancel, he]
  simp only [Option.map_some]
  refine ⟨_, rfl, ?_⟩
  apply Matrix.det_eq_zero_of_row_eq_zero (⟨n, by omega⟩ : Fin (k + 1))
  intro j
  rw [Matrix.of_apply]
  simp only
  rw [if_neg (by omega), hD, if_pos ⟨Nat.zero_le _, by show n < 0 + k; omega⟩]
  simp only [h0, Real.sign_zero, zero_mul]

example : ∃ draw : Nat → Nat → ℝ, draw 0 0 = 0 ∧ ∀ n, n + 1 < 3 → ∃ k, 0 < k ∧ k < 3 - n ∧ draw n k ≠ 0 :=
  ⟨fun _ k => k, by simp, fun n hn => ⟨1, by omega, by omega, by norm_num⟩⟩

/-- C234: `random_rot(0)` raises, and so does no other dimension. -/
theorem random_rot_empty (draw : Nat → Nat → ℝ) : randomRot 0 draw = none := by
  unfold randomRot
  rw [if_pos rfl]

/-! ## C235 -/

/-- C235: `mult_diag` is the product with the diagonal matrix, from the left or from the right. -/
theorem mult_diag_spec {n : Nat} (d : Fin n → ℝ) (m : Matrix (Fin n) (Fin n) ℝ) :
    multDiag d m true = Matrix.diagonal d * m ∧ multDiag d m false = m * Matrix.diagonal d := by
  constructor
  · ext i j
    simp [multDiag, Matrix.diagonal_mul]
  · ext i j
    simp [multDiag, Matrix.mul_diagonal, mul_comm]

theorem symrand_eq {n : Nat} (d : Fin n → ℝ) (draw : Nat → Nat → ℝ) :
    symrand d draw = (randomRot n draw).map fun v => v.transpose * Matrix.diagonal d * v := by
  unfold symrand
  congr 1
  funext v
  simp only [(mult_diag_spec d _).2]
  have : (v.transpose * Matrix.diagonal d * v).transpose = v.transpose * Matrix.diagonal d * v := by
    rw [Matrix.transpose_mul, Matrix.transpose_mul, Matrix.transpose_transpose, Matrix.diagonal_transpose,
      Matrix.mul_assoc]
  rw [this, ← two_smul ℝ, smul_smul]
  norm_num

/-- C235: `symrand(d)` is a symmetric matrix that a rotation takes to the diagonal matrix with the eigenvalues given. -/
theorem symrand_spec {n : Nat} (d : Fin n → ℝ) (draw : Nat → Nat → ℝ) (hn : n ≠ 0) (hg : Generic n draw) :
    ∃ h, symrand d draw = some h ∧ h.transpose = h ∧ h.charpoly = ∏ i, (Polynomial.X - Polynomial.C (d i)) ∧
      ∃ v, IsRotation v ∧ v * h * v.transpose = Matrix.diagonal d := by
  obtain ⟨v, hv, hr⟩ := random_rot_rotation n draw hn hg
  rw [symrand_eq, hv]
  simp only [Option.map_some]
  refine ⟨_, rfl, ?_, ?_, v, hr, ?_⟩
  · rw [Matrix.transpose_mul, Matrix.transpose_mul, Matrix.transpose_transpose, Matrix.diagonal_transpose,
      Matrix.mul_assoc]
  · rw [Matrix.mul_assoc, Matrix.charpoly_mul_comm, Matrix.mul_assoc, hr.1, Matrix.mul_one, Matrix.charpoly_diagonal]
  · rw [Matrix.mul_assoc, Matrix.mul_assoc, Matrix.mul_assoc, hr.1, Matrix.mul_one, ← Matrix.mul_assoc, hr.1,
      Matrix.one_mul]

/-- C235: with a complex dtype the result is Hermitian, and its trace is the sum of the eigenvalues given. -/
theorem symrand_complex_partial {n : Nat} (d d2 : Fin n → ℝ) (draw draw2 : Nat → Nat → ℝ) (hn : n ≠ 0)
    (hg : Generic n draw) (hg2 : Generic n draw2) :
    ∃ h, symrandC d d2 draw draw2 = some h ∧ h.conjTranspose = h ∧ h.trace = ((∑ i, d i : ℝ) : ℂ) := by
  obtain ⟨h, he, hs, hc, v, hr, hv⟩ := symrand_spec d draw hn hg
  obtain ⟨h2, he2, hs2, -, -⟩ := symrand_spec d2 draw2 hn hg2
  unfold symrandC
  rw [he, he2]
  simp only [Option.map_some, Option.bind_some]
  refine ⟨_, rfl, ?_, ?_⟩
  · ext i j
    have h1 : h j i = h i j := congrFun (congrFun hs i) j
    have h3 : h2 j i = h2 i j := congrFun (congrFun hs2 i) j
    rw [Matrix.conjTranspose_apply, Matrix.of_apply, Matrix.of_apply, h1, h3]
    simp only [star_add, star_mul', Complex.star_def, Complex.conj_ofReal, Complex.conj_I]
    push_cast
    ring
  · have : h.trace = ∑ i, d i := by
      rw [← Matrix.trace_diagonal d, ← hv, Matrix.mul_assoc, Matrix.trace_mul_comm, Matrix.mul_assoc,
        mul_eq_one_comm.1 hr.1, Matrix.mul_one]
    rw [← this]
    simp [Matrix.trace, Matrix.diag, Complex.ofReal_sum]

/-- C235 is false for complex dtypes: whenever the matrix of the imaginary part is not diagonal, the result does not have the
eigenvalues given: it is not similar to the diagonal matrix with them. -/
theorem symrand_complex_false {n : Nat} (d d2 : Fin n → ℝ) (draw draw2 : Nat → Nat → ℝ) (hn : n ≠ 0)
    (hg : Generic n draw) (h2 : Matrix (Fin n) (Fin n) ℝ) (he2 : symrand d2 draw2 = some h2) (hg2 : Generic n draw2)
    (i j : Fin n) (hij : i ≠ j) (hne : h2 i j ≠ 0) :
    ∃ h, symrandC d d2 draw draw2 = some h ∧
      ¬ ∃ u w, u * w = 1 ∧ h = u * Matrix.diagonal (fun i => (d i : ℂ)) * w := by
  obtain ⟨h, he, hs, hc, v, hr, hv⟩ := symrand_spec d draw hn hg
  obtain ⟨h2', he2', hs2, -, -⟩ := symrand_spec d2 draw2 hn hg2
  rw [he2] at he2'
  cases he2'
  unfold symrandC
  rw [he, he2]
  simp only [Option.map_some, Option.bind_some]
  refine ⟨_, rfl, ?_⟩
  rintro ⟨u, w, huw, e⟩
  have hwu : w * u = 1 := mul_eq_one_comm.1 huw
  -- the real parts of the squares
  have hsq : (h * h).trace = ∑ i, d i * d i := by
    have h1 : h = v.transpose * Matrix.diagonal d * v := by
      rw [← hv, Matrix.mul_assoc, Matrix.mul_assoc, mul_eq_one_comm.1 hr.1, Matrix.mul_one, ← Matrix.mul_assoc,
        mul_eq_one_comm.1 hr.1, Matrix.one_mul]
    have h3 : h * h = v.transpose * (Matrix.diagonal d * Matrix.diagonal d * v) := by
      rw [h1]
      simp only [Matrix.mul_assoc]
      rw [← Matrix.mul_assoc v v.transpose, hr.1, Matrix.one_mul]
    rw [h3, Matrix.trace_mul_comm, Matrix.mul_assoc, hr.1, Matrix.mul_one, Matrix.diagonal_mul_diagonal,
      Matrix.trace_diagonal]
  set g : Matrix (Fin n) (Fin n) ℂ := Matrix.of fun i j => (h i j : ℂ) + Complex.I *
      (((if i.val ≤ j.val then h2 i j else 0) - (if j.val ≤ i.val then h2 i j else 0) : ℝ) : ℂ) with hgdef
  have e1 : (g * g).trace = ((∑ i, d i * d i : ℝ) : ℂ) := by
    have : g * g = u * (Matrix.diagonal (fun i => (d i : ℂ)) * Matrix.diagonal (fun i => (d i : ℂ)) * w) := by
      rw [e]
      simp only [Matrix.mul_assoc]
      rw [← Matrix.mul_assoc w u, hwu, Matrix.one_mul]
    rw [this, Matrix.trace_mul_comm, Matrix.mul_assoc, hwu, Matrix.mul_one, Matrix.diagonal_mul_diagonal,
      Matrix.trace_diagonal]
    push_cast
    rfl
  have e2 : (g * g).trace.re = (h * h).trace + ∑ a, ∑ b, (if a = b then 0 else h2 a b * h2 a b) := by
    simp only [Matrix.trace, Matrix.diag, Matrix.mul_apply]
    rw [Complex.re_sum, ← Finset.sum_add_distrib]
    apply Finset.sum_congr rfl
    intro a _
    rw [Complex.re_sum, ← Finset.sum_add_distrib]
    apply Finset.sum_congr rfl
    intro b _
    have h3 : h2 b a = h2 a b := congrFun (congrFun hs2 a) b
    rw [hgdef, Matrix.of_apply, Matrix.of_apply, h3]
    by_cases hab : a = b
    · subst hab
      simp
    · have hval : a.val ≠ b.val := fun hh => hab (Fin.ext hh)
      rcases Nat.lt_or_gt_of_ne hval with hlt | hlt
      · rw [if_pos (Nat.le_of_lt hlt), if_neg (Nat.not_le_of_lt hlt), if_neg hab]
        simp
      · rw [if_pos (Nat.le_of_lt hlt), if_neg (Nat.not_le_of_lt hlt), if_neg hab]
        simp
  rw [e1, Complex.ofReal_re, hsq] at e2
  have hpos : 0 < ∑ a, ∑ b, (if a = b then 0 else h2 a b * h2 a b) := by
    apply Finset.sum_pos'
    · intro a _
      exact Finset.sum_nonneg fun b _ => by split <;> [exact le_rfl; exact mul_self_nonneg _]
    · refine ⟨i, Finset.mem_univ _, Finset.sum_pos' ?_ ⟨j, Finset.mem_univ _, ?_⟩⟩
      · intro b _
        split <;> [exact le_rfl; exact mul_self_nonneg _]
      · rw [if_neg hij]
        exact mul_self_pos.2 hne
  linarith

/-- Random numbers for two dimensions. -/
example : ∃ (draw : Nat → Nat → ℝ) (h : Matrix (Fin 2) (Fin 2) ℝ), Generic 2 draw ∧ symrand ![1, 2] draw = some h ∧
    h 0 1 ≠ 0 := by
  let draw : Nat → Nat → ℝ := fun _ k => if k = 0 then 3 else 4
  have hsq : Real.sqrt (∑ l ∈ Finset.range 2, draw 0 l * draw 0 l) = 5 := by
    rw [show (∑ l ∈ Finset.range 2, draw 0 l * draw 0 l) = 5 ^ 2 by
      simp only [draw, Finset.sum_range_succ, Finset.sum_range_zero]; norm_num]
    exact Real.sqrt_sq (by norm_num)
  have hsh : shifted 2 (draw 0) = fun k => if k = 0 then -2 else 4 := by
    funext k
    unfold shifted
    rw [hsq]
    by_cases hk : k = 0
    · simp only [hk, draw, if_true, Real.sign_of_pos (show (0 : ℝ) < 3 by norm_num)]
      norm_num
    · simp only [hk, draw, if_false]
  have hrot : randomRot 2 draw = some !![3 / 5, 4 / 5; -4 / 5, 3 / 5] := by
    unfold randomRot
    simp only [rotLoop, house, Nat.sub_zero, hsh, Nat.reduceSub]
    have hs : Real.sign (draw 0 0) = 1 := Real.sign_of_pos (by simp only [draw]; norm_num)
    rw [hs, if_neg (by norm_num), if_neg (by norm_num [Finset.sum_range_succ])]
    simp only [Option.bind_some, Option.map_some, Option.some.injEq]
    ext i j
    fin_cases i <;> fin_cases j <;> norm_num [Finset.sum_range_succ, Fin.prod_univ_two]
  refine ⟨draw, !![41 / 25, -12 / 25; -12 / 25, 34 / 25], ?_, ?_, ?_⟩
  · intro n hn
    obtain rfl : n = 0 := by omega
    exact ⟨by simp only [draw]; norm_num, 1, by omega, by omega, by simp only [draw]; norm_num⟩
  · rw [symrand_eq, hrot]
    simp only [Option.map_some, Option.some.injEq]
    ext i j
    fin_cases i <;> fin_cases j <;> norm_num [Matrix.mul_apply, Fin.sum_univ_two, Matrix.diagonal_apply]
  · norm_num

end Mdp.Rand
