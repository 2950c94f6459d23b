import Verif.Utils.Routines
import Verif.Utils.RandomProps
import Mathlib.Algebra.BigOperators.Field
import Mathlib.Analysis.SpecialFunctions.Exp
import Mathlib.Data.List.Forall2
import Mathlib.Data.List.Nodup
import Mathlib.LinearAlgebra.Matrix.PosDef
import Mathlib.Tactic.Positivity

/-!
# Rotations, swaps, covariances, maxima, roots, iterators and wavelets (C236-C242)
-/

namespace Mdp.Routines

open Matrix

/-! ## C236: rotate and permute -/

theorem rotate_entries {n m : Nat} (mat : Matrix (Fin n) (Fin m) ℝ) (phi : ℝ) {i j : Fin m} (h : i ≠ j) (k : Fin n)
    (l : Fin m) : rotate mat phi i j false k l =
      if l = i then Real.cos phi * mat k i - Real.sin phi * mat k j
      else if l = j then Real.sin phi * mat k i + Real.cos phi * mat k j
      else mat k l := by
  unfold rotate setCol
  simp only [Matrix.of_apply, Bool.false_eq_true, if_false]
  by_cases h1 : l = i
  · subst h1
    rw [if_neg h, if_pos rfl, if_pos rfl]
  · by_cases h2 : l = j
    · subst h2
      rw [if_pos rfl, if_neg h1, if_pos rfl, if_neg (Ne.symm h)]
    · rw [if_neg h2, if_neg h1, if_neg h1, if_neg h2]

/-- C236: `rotate` turns every row by the angle in the plane of the two columns, as documented; the other columns stay. -/
theorem rotate_spec {n m : Nat} (mat : Matrix (Fin n) (Fin m) ℝ) (phi : ℝ) {i j : Fin m} (h : i ≠ j) (k : Fin n) :
    ![rotate mat phi i j false k i, rotate mat phi i j false k j] =
      !![Real.cos phi, -Real.sin phi; Real.sin phi, Real.cos phi] *ᵥ ![mat k i, mat k j] ∧
    ∀ l, l ≠ i → l ≠ j → rotate mat phi i j false k l = mat k l := by
  constructor
  · rw [rotate_entries mat phi h, rotate_entries mat phi h, if_pos rfl, if_neg (Ne.symm h), if_pos rfl]
    ext a
    fin_cases a
    · simp [Matrix.mulVec, dotProduct, Fin.sum_univ_two]
      ring
    · simp [Matrix.mulVec, dotProduct, Fin.sum_univ_two]
  · intro l h1 h2
    rw [rotate_entries mat phi h, if_neg h1, if_neg h2]

/-- C236: rotations of the same plane add up. -/
theorem rotate_add {n m : Nat} (mat : Matrix (Fin n) (Fin m) ℝ) (phi psi : ℝ) {i j : Fin m} (h : i ≠ j) :
    rotate (rotate mat phi i j false) psi i j false = rotate mat (phi + psi) i j false := by
  ext k l
  rw [rotate_entries _ psi h, rotate_entries _ phi h, rotate_entries _ phi h, rotate_entries _ phi h,
    rotate_entries _ _ h, if_pos rfl, if_neg (Ne.symm h), if_pos rfl, Real.cos_add, Real.sin_add]
  by_cases h1 : l = i
  · rw [if_pos h1, if_pos h1]
    ring
  · rw [if_neg h1, if_neg h1, if_neg h1]
    by_cases h2 : l = j
    · rw [if_pos h2, if_pos h2]
      ring
    · rw [if_neg h2, if_neg h2, if_neg h2]

/-- C236: an angle in degrees is the angle in radians times 180/pi; a full turn gives the array back. -/
theorem rotate_degrees {n m : Nat} (mat : Matrix (Fin n) (Fin m) ℝ) (phi : ℝ) {i j : Fin m} (h : i ≠ j) :
    rotate mat (phi * 180 / Real.pi) i j true = rotate mat phi i j false ∧ rotate mat 360 i j true = mat := by
  have hd : ∀ a, rotate mat a i j true = rotate mat (a / 180 * Real.pi) i j false := by
    intro a
    unfold rotate
    simp
  constructor
  · rw [hd]
    congr 1
    have := Real.pi_ne_zero
    field_simp
  · rw [hd, show (360 : ℝ) / 180 * Real.pi = 2 * Real.pi by ring]
    ext k l
    rw [rotate_entries _ _ h, Real.cos_two_pi, Real.sin_two_pi]
    by_cases h1 : l = i
    · rw [if_pos h1, h1]
      ring
    · rw [if_neg h1]
      by_cases h2 : l = j
      · rw [if_pos h2, h2]
        ring
      · rw [if_neg h2]

example : (0 : Fin 3) ≠ 2 := by decide

theorem setRow_swap {n m : Nat} (x : Matrix (Fin n) (Fin m) ℝ) (i j k : Fin n) (l : Fin m) :
    setRow (setRow x i fun l => x j l) j (fun l => x i l) k l = x (Equiv.swap i j k) l := by
  unfold setRow
  simp only [Matrix.of_apply]
  by_cases h2 : k = j
  · rw [if_pos h2, h2, Equiv.swap_apply_right]
  · rw [if_neg h2]
    by_cases h1 : k = i
    · rw [if_pos h1, h1, Equiv.swap_apply_left]
    · rw [if_neg h1, Equiv.swap_apply_of_ne_of_ne h1 h2]

theorem setCol_swap {n m : Nat} (x : Matrix (Fin n) (Fin m) ℝ) (i j l : Fin m) (k : Fin n) :
    setCol (setCol x i fun k => x k j) j (fun k => x k i) k l = x k (Equiv.swap i j l) := by
  unfold setCol
  simp only [Matrix.of_apply]
  by_cases h2 : l = j
  · rw [if_pos h2, h2, Equiv.swap_apply_right]
  · rw [if_neg h2]
    by_cases h1 : l = i
    · rw [if_pos h1, h1, Equiv.swap_apply_left]
    · rw [if_neg h1, Equiv.swap_apply_of_ne_of_ne h1 h2]

/-- C236: `permute` swaps the two columns, the two rows, or both, and nothing else. -/
theorem permute_spec {n m : Nat} (x : Matrix (Fin n) (Fin m) ℝ) (i j : Fin n) (p q : Fin m) (k : Fin n) (l : Fin m) :
    permute x none (some (p, q)) k l = x k (Equiv.swap p q l) ∧
    permute x (some (i, j)) none k l = x (Equiv.swap i j k) l ∧
    permute x (some (i, j)) (some (p, q)) k l = x (Equiv.swap i j k) (Equiv.swap p q l) ∧
    permute x none none k l = x k l := by
  refine ⟨setCol_swap _ _ _ _ _, setRow_swap _ _ _ _ _, ?_, rfl⟩
  unfold permute
  simp only
  rw [setCol_swap, setRow_swap]

/-- C236: doing it twice gives the array back. -/
theorem permute_twice {n m : Nat} (x : Matrix (Fin n) (Fin m) ℝ) (i j : Fin n) (p q : Fin m) :
    permute (permute x (some (i, j)) (some (p, q))) (some (i, j)) (some (p, q)) = x := by
  ext k l
  rw [(permute_spec _ i j p q k l).2.2.1, (permute_spec _ i j p q _ _).2.2.1, Equiv.swap_apply_self,
    Equiv.swap_apply_self]

/-! ## C237: cov2 -/

/-- Mean of a column. -/
noncomputable def mean {n : Nat} (a : Fin n → ℝ) : ℝ := (∑ t, a t) / n

/-- Sample covariance of two columns. -/
noncomputable def covariance {n : Nat} (a b : Fin n → ℝ) : ℝ :=
  (∑ t, (a t - mean a) * (b t - mean b)) / ((n : ℝ) - 1)

/-- C237: `cov2` is the covariance plus the product of the means divided by the number of rows minus one; with fewer than two
rows there is no result. -/
theorem cov2_value {n p q : Nat} (x : Fin n → Fin p → ℝ) (y : Fin n → Fin q → ℝ) :
    (n < 2 → cov2 x y = none) ∧ (2 ≤ n → ∃ c, cov2 x y = some c ∧ ∀ i j, c i j =
      covariance (fun t => x t i) (fun t => y t j) + mean (fun t => x t i) * mean (fun t => y t j) / ((n : ℝ) - 1)) := by
  constructor
  · intro h
    unfold cov2
    rw [if_pos (by omega)]
  · intro h
    unfold cov2
    rw [if_neg (by omega)]
    refine ⟨_, rfl, fun i j => ?_⟩
    have h1 : (n : ℝ) - 1 ≠ 0 := by
      have : (2 : ℝ) ≤ n := by exact_mod_cast h
      intro h0
      linarith
    have h2 : (n : ℝ) ≠ 0 := by
      have : (2 : ℝ) ≤ n := by exact_mod_cast h
      intro h0
      linarith
    have e : ∑ t, (x t i - mean fun t => x t i) * (y t j - mean fun t => y t j) =
        ∑ t, x t i * y t j - n * ((mean fun t => x t i) * mean fun t => y t j) := by
      have hx : ∑ t, x t i = n * mean fun t => x t i := by
        unfold mean
        field_simp
      have hy : ∑ t, y t j = n * mean fun t => y t j := by
        unfold mean
        field_simp
      have : ∀ t, (x t i - mean fun t => x t i) * (y t j - mean fun t => y t j) =
          x t i * y t j - (mean fun t => x t i) * y t j - x t i * (mean fun t => y t j) +
            (mean fun t => x t i) * mean fun t => y t j := fun t => by ring
      rw [Finset.sum_congr rfl fun t _ => this t, Finset.sum_add_distrib, Finset.sum_sub_distrib,
        Finset.sum_sub_distrib, ← Finset.mul_sum, ← Finset.sum_mul, hx, hy, Finset.sum_const, Finset.card_univ,
        Fintype.card_fin, nsmul_eq_mul]
      ring
    unfold covariance
    rw [e]
    simp only [Matrix.of_apply]
    show _ - (mean fun t => x t i) * (mean fun t => y t j) = _
    generalize (mean fun t => x t i) * (mean fun t => y t j) = mm
    field_simp
    ring

/-- C237 holds if the first or the second variable has mean zero. -/
theorem cov2_partial {n p q : Nat} (x : Fin n → Fin p → ℝ) (y : Fin n → Fin q → ℝ) (hn : 2 ≤ n) :
    ∃ c, cov2 x y = some c ∧ ∀ i j, mean (fun t => x t i) = 0 ∨ mean (fun t => y t j) = 0 →
      c i j = covariance (fun t => x t i) (fun t => y t j) := by
  obtain ⟨c, h, hc⟩ := (cov2_value x y).2 hn
  refine ⟨c, h, fun i j h0 => ?_⟩
  rw [hc i j]
  rcases h0 with h0 | h0 <;> rw [h0] <;> simp

/-- C237 is false for all other variables. -/
theorem cov2_false {n p q : Nat} (x : Fin n → Fin p → ℝ) (y : Fin n → Fin q → ℝ) (hn : 2 ≤ n) :
    ∃ c, cov2 x y = some c ∧ ∀ i j, mean (fun t => x t i) ≠ 0 → mean (fun t => y t j) ≠ 0 →
      c i j ≠ covariance (fun t => x t i) (fun t => y t j) := by
  obtain ⟨c, h, hc⟩ := (cov2_value x y).2 hn
  refine ⟨c, h, fun i j h1 h2 h0 => ?_⟩
  rw [hc i j] at h0
  have h3 : (n : ℝ) - 1 ≠ 0 := by
    have : (2 : ℝ) ≤ n := by exact_mod_cast hn
    intro h0
    linarith
  exact (div_ne_zero (mul_ne_zero h1 h2) h3) (by linarith)

/-- A variable with a mean that is not zero, and one with mean zero. -/
example : mean (![1, 2, 3] : Fin 3 → ℝ) = 2 ∧ mean (![1, -2, 1] : Fin 3 → ℝ) = 0 := by
  constructor <;> simp [mean, Fin.sum_univ_three] <;> norm_num

/-! ## C238: cov_maxima -/

theorem foldl_max {α : Type} (f : α → ℝ) (l : List α) (b : α) :
    f b ≤ f (l.foldl (fun b c => if f b < f c then c else b) b) ∧
    ∀ c ∈ l, f c ≤ f (l.foldl (fun b c => if f b < f c then c else b) b) := by
  induction l generalizing b with
  | nil => exact ⟨le_rfl, fun c hc => absurd hc List.not_mem_nil⟩
  | cons a l ih =>
    obtain ⟨h1, h2⟩ := ih (if f b < f a then a else b)
    rw [List.foldl_cons]
    have h3 : f b ≤ f (if f b < f a then a else b) ∧ f a ≤ f (if f b < f a then a else b) := by
      split
      · rename_i h
        exact ⟨h.le, le_rfl⟩
      · rename_i h
        exact ⟨le_rfl, not_lt.1 h⟩
    refine ⟨h3.1.trans h1, fun c hc => ?_⟩
    rcases List.mem_cons.1 hc with rfl | hc
    · exact h3.2.trans h1
    · exact h2 c hc

theorem argmax_max {n : Nat} (a : Matrix (Fin (n + 1)) (Fin (n + 1)) ℝ) (i j : Fin (n + 1)) :
    a i j ≤ a (argmax a).1 (argmax a).2 :=
  (foldl_max (fun c : Fin (n + 1) × Fin (n + 1) => a c.1 c.2) (cells (n + 1)) (0, 0)).2 (i, j) (by
    unfold cells
    exact List.mem_flatMap.2 ⟨i, List.mem_finRange i, List.mem_map.2 ⟨j, List.mem_finRange j, rfl⟩⟩)

/-- C238: `cov_maxima` picks one element of each row and column: every time an element with the largest absolute value among
the rows and columns that are left. -/
theorem cov_maxima_spec (n : Nat) (cov : Matrix (Fin n) (Fin n) ℝ) :
    ∃ r c : Fin n → Fin n, Function.Injective r ∧ Function.Injective c ∧
      covMaxima n cov = List.ofFn (fun k => |cov (r k) (c k)|) ∧
      ∀ k i j, (∀ k' < k, i ≠ r k' ∧ j ≠ c k') → |cov i j| ≤ |cov (r k) (c k)| := by
  induction n with
  | zero => exact ⟨id, id, Function.injective_id, Function.injective_id, by simp [covMaxima], fun k => k.elim0⟩
  | succ n ih =>
    set a : Matrix (Fin (n + 1)) (Fin (n + 1)) ℝ := Matrix.of fun i j => |cov i j| with ha
    have hmax := argmax_max a
    set g := argmax a with hg
    obtain ⟨r, c, hr, hc, he, hk⟩ := ih (a.submatrix g.1.succAbove g.2.succAbove)
    let R : Fin (n + 1) → Fin (n + 1) := Fin.cons g.1 fun k => g.1.succAbove (r k)
    let C : Fin (n + 1) → Fin (n + 1) := Fin.cons g.2 fun k => g.2.succAbove (c k)
    refine ⟨R, C, ?_, ?_, ?_, ?_⟩
    · refine Fin.cons_injective_iff.2 ⟨?_, fun x y h => hr (Fin.succAbove_right_injective h)⟩
      rintro ⟨k, hk⟩
      exact Fin.succAbove_ne _ _ hk
    · refine Fin.cons_injective_iff.2 ⟨?_, fun x y h => hc (Fin.succAbove_right_injective h)⟩
      rintro ⟨k, hk⟩
      exact Fin.succAbove_ne _ _ hk
    · simp only [covMaxima]
      rw [List.ofFn_succ]
      simp only [R, C, Fin.cons_zero, Fin.cons_succ]
      rw [← ha, ← hg, he]
      congr 1
      congr 1
      funext k
      simp only [Matrix.submatrix_apply, ha, Matrix.of_apply, abs_abs]
    · intro k i j hij
      rcases Fin.eq_zero_or_eq_succ k with rfl | ⟨k, rfl⟩
      · exact hmax i j
      · obtain ⟨h1, h2⟩ := hij 0 (Fin.succ_pos k)
        simp only [R, C, Fin.cons_zero] at h1 h2
        obtain ⟨i', rfl⟩ := Fin.exists_succAbove_eq h1
        obtain ⟨j', rfl⟩ := Fin.exists_succAbove_eq h2
        have := hk k i' j' (fun k' hk' => by
          obtain ⟨h3, h4⟩ := hij k'.succ (Fin.succ_lt_succ_iff.2 hk')
          simp only [R, C, Fin.cons_succ] at h3 h4
          exact ⟨fun e => h3 (by rw [e]), fun e => h4 (by rw [e])⟩)
        simpa only [R, C, Fin.cons_succ, Matrix.submatrix_apply, ha, Matrix.of_apply, abs_abs] using this

/-- C238: there are as many maxima as rows; they do not increase; the first is the largest absolute value of all. -/
theorem cov_maxima_sorted (n : Nat) (cov : Matrix (Fin n) (Fin n) ℝ) :
    (covMaxima n cov).length = n ∧ (covMaxima n cov).Pairwise (· ≥ ·) ∧
    ∀ m ∈ (covMaxima n cov).head?, ∀ i j, |cov i j| ≤ m := by
  obtain ⟨r, c, hr, hc, he, hk⟩ := cov_maxima_spec n cov
  rw [he]
  refine ⟨List.length_ofFn, ?_, ?_⟩
  · rw [List.pairwise_ofFn]
    intro a b hab
    exact hk a (r b) (c b) fun k' hk' => ⟨fun e => (hk'.trans hab).ne' (hr e), fun e => (hk'.trans hab).ne' (hc e)⟩
  · intro m hm i j
    cases n with
    | zero => exact i.elim0
    | succ n =>
      rw [List.ofFn_succ, List.head?_cons, Option.mem_some] at hm
      subst hm
      exact hk 0 i j fun k' hk' => absurd hk' (Fin.not_lt_zero _)

/-- C238: if the matrix is, up to signs, a permutation matrix, then all maxima are one. -/
theorem cov_maxima_permutation (n : Nat) (cov : Matrix (Fin n) (Fin n) ℝ) (s : Equiv.Perm (Fin n))
    (h : ∀ i j, |cov i j| = if j = s i then 1 else 0) : covMaxima n cov = List.replicate n 1 := by
  obtain ⟨r, c, hr, hc, he, hk⟩ := cov_maxima_spec n cov
  rw [he, List.ofFn_const n (1 : ℝ) |>.symm]
  congr 1
  funext k
  -- by strong induction all earlier picks are on the permutation
  have main : ∀ m, ∀ k : Fin n, k.val = m → c k = s (r k) := by
    intro m
    induction m using Nat.strong_induction_on with
    | _ m ih =>
      intro k hm
      by_contra hne
      have h1 := hk k (r k) (s (r k)) (fun k' hk' => ⟨fun e => hk'.ne' (hr e), fun e => by
        have h2 : c k' = s (r k') := ih k'.val (by omega) k' rfl
        rw [h2] at e
        exact hk'.ne' (hr (s.injective e))⟩)
      rw [h, h, if_pos rfl, if_neg hne] at h1
      norm_num at h1
  rw [h, if_pos (main k.val k rfl)]

example : ∀ i j : Fin 2, |(!![0, -1; 1, 0] : Matrix (Fin 2) (Fin 2) ℝ) i j| = if j = Equiv.swap 0 1 i then 1 else 0 := by
  intro i j
  fin_cases i <;> fin_cases j <;> simp

/-! ## C239: sqrtm -/

/-- What `symeig` returns for a symmetric matrix: eigenvalues and orthonormal eigenvectors in the columns. -/
def Eigen {n : Nat} (a : Matrix (Fin n) (Fin n) ℝ) (eig : (Fin n → ℝ) × Matrix (Fin n) (Fin n) ℝ) : Prop :=
  eig.2.transpose * eig.2 = 1 ∧ a * eig.2 = eig.2 * Matrix.diagonal eig.1

/-- Positive semidefinite. -/
def Psd {n : Nat} (a : Matrix (Fin n) (Fin n) ℝ) : Prop := a.transpose = a ∧ ∀ v, 0 ≤ v ⬝ᵥ (a *ᵥ v)

/-- C239: for a positive semidefinite matrix `sqrtm` returns a positive semidefinite matrix whose square it is. -/
theorem sqrtm_spec {n : Nat} (a : Matrix (Fin n) (Fin n) ℝ) (ha : Psd a) (eig) (he : Eigen a eig) :
    ∃ r, sqrtm eig = some r ∧ Psd r ∧ r * r = a := by
  obtain ⟨d, v⟩ := eig
  obtain ⟨h1, h2⟩ := he
  simp only at h1 h2
  have h1' : v * v.transpose = 1 := mul_eq_one_comm.1 h1
  have hd : ∀ i, 0 ≤ d i := by
    intro i
    have h3 := ha.2 (fun k => v k i)
    have h4 : (a *ᵥ fun k => v k i) = fun k => d i * v k i := by
      funext k
      have := congrFun (congrFun h2 k) i
      rw [Matrix.mul_diagonal, mul_comm] at this
      exact this
    have h5 : (fun k => v k i) ⬝ᵥ (fun k => v k i) = 1 := by
      have := congrFun (congrFun h1 i) i
      rw [Matrix.one_apply_eq] at this
      exact this
    rw [h4, show (fun k => d i * v k i) = d i • (fun k => v k i) from rfl, dotProduct_smul, h5, smul_eq_mul, mul_one] at h3
    exact h3
  unfold sqrtm
  rw [if_pos hd]
  refine ⟨_, rfl, ⟨?_, ?_⟩, ?_⟩
  · rw [(Rand.mult_diag_spec _ _).1, Matrix.transpose_mul, Matrix.transpose_mul, Matrix.transpose_transpose,
      Matrix.diagonal_transpose, Matrix.mul_assoc]
  · intro w
    rw [(Rand.mult_diag_spec _ _).1, ← Matrix.mulVec_mulVec, ← Matrix.mulVec_mulVec, Matrix.dotProduct_mulVec,
      ← Matrix.mulVec_transpose]
    simp only
    generalize v.transpose *ᵥ w = u
    unfold dotProduct
    refine Finset.sum_nonneg fun i _ => ?_
    rw [Matrix.mulVec_diagonal]
    nlinarith [Real.sqrt_nonneg (d i), mul_self_nonneg (u i), mul_nonneg (Real.sqrt_nonneg (d i)) (mul_self_nonneg (u i))]
  · rw [(Rand.mult_diag_spec _ _).1]
    simp only
    have h6 : Matrix.diagonal (fun i => Real.sqrt (d i)) * Matrix.diagonal (fun i => Real.sqrt (d i)) =
        Matrix.diagonal d := by
      rw [Matrix.diagonal_mul_diagonal]
      congr 1
      funext i
      exact Real.mul_self_sqrt (hd i)
    calc _ = v * (Matrix.diagonal (fun i => Real.sqrt (d i)) * ((v.transpose * v) *
          (Matrix.diagonal (fun i => Real.sqrt (d i)) * v.transpose))) := by simp only [Matrix.mul_assoc]
      _ = v * Matrix.diagonal d * v.transpose := by
          rw [h1, Matrix.one_mul, ← Matrix.mul_assoc (Matrix.diagonal _), h6, Matrix.mul_assoc]
      _ = a := by rw [← h2, Matrix.mul_assoc, h1', Matrix.mul_one]

/-- C239: for other symmetric matrices there is no result. -/
theorem sqrtm_none {n : Nat} (a : Matrix (Fin n) (Fin n) ℝ) (hs : a.transpose = a) (ha : ¬ Psd a) (eig) (he : Eigen a eig) :
    sqrtm eig = none := by
  unfold sqrtm
  rw [if_neg]
  intro hd
  apply ha
  refine ⟨hs, fun w => ?_⟩
  obtain ⟨h1, h2⟩ := he
  have h3 : a = eig.2 * Matrix.diagonal eig.1 * eig.2.transpose := by
    rw [← h2, Matrix.mul_assoc, mul_eq_one_comm.1 h1, Matrix.mul_one]
  rw [h3, Matrix.mul_assoc, ← Matrix.mulVec_mulVec, ← Matrix.mulVec_mulVec, Matrix.dotProduct_mulVec,
    ← Matrix.mulVec_transpose]
  generalize eig.2.transpose *ᵥ w = u
  unfold dotProduct
  refine Finset.sum_nonneg fun i _ => ?_
  rw [Matrix.mulVec_diagonal]
  nlinarith [hd i, mul_self_nonneg (u i), mul_nonneg (hd i) (mul_self_nonneg (u i))]

example : Psd (Matrix.diagonal ![4, 9] : Matrix (Fin 2) (Fin 2) ℝ) ∧ Eigen (Matrix.diagonal ![4, 9]) (![4, 9], 1) := by
  refine ⟨⟨Matrix.diagonal_transpose _, fun v => ?_⟩, by simp [Eigen]⟩
  simp only [dotProduct, Matrix.mulVec_diagonal, Fin.sum_univ_two]
  simp only [Matrix.cons_val_zero, Matrix.cons_val_one]
  nlinarith [mul_self_nonneg (v 0), mul_self_nonneg (v 1)]

/-! ## C240: gabor -/

/-- C240: the value at a distance from the centre; `xr` and `yr` are the coordinates along the axes of the ellipse. The centre
(x, y) is column `x` and row `y`. -/
theorem gabor_value (w h : Nat) (alpha phi freq : ℝ) (sgm : ℝ × ℝ) (x y res ampl : ℝ) (p q : Nat) (xr yr : ℝ)
    (hx : xr = ((p : ℝ) - y) * Real.cos alpha - ((q : ℝ) - x) * Real.sin alpha)
    (hy : yr = ((p : ℝ) - y) * Real.sin alpha + ((q : ℝ) - x) * Real.cos alpha) :
    gabor w h alpha phi freq sgm (some (x, y)) res ampl p q =
      ampl * Real.exp (-(xr ^ 2 / sgm.1 ^ 2 + yr ^ 2 / sgm.2 ^ 2) / 2) * Real.cos (2 * Real.pi * (freq * res) * yr + phi) := by
  unfold gabor
  simp only [Option.getD_some]
  subst hx hy
  congr 1
  · congr 2
    rw [pow_two, pow_two, pow_two, pow_two]
    ring
  · rw [← Real.cos_neg]
    congr 1
    ring

/-- C240: no value exceeds the amplitude, and the centre has the amplitude times the cosine of the phase. -/
theorem gabor_centre (w h : Nat) (alpha phi freq : ℝ) (sgm : ℝ × ℝ) (x y : Nat) (res ampl : ℝ) :
    gabor w h alpha phi freq sgm (some ((x : ℝ), (y : ℝ))) res ampl y x = ampl * Real.cos phi ∧
    ∀ c p q, |gabor w h alpha phi freq sgm c res ampl p q| ≤ |ampl| := by
  constructor
  · rw [gabor_value w h alpha phi freq sgm x y res ampl y x 0 0 (by ring) (by ring)]
    simp
  · intro c p q
    unfold gabor
    simp only
    rw [abs_mul, abs_mul, Real.abs_exp]
    generalize -2 * Real.pi * _ - phi = t
    generalize hxr : ((p : ℝ) - _) * Real.cos alpha - _ = xr
    generalize hyr : ((p : ℝ) - _) * Real.sin alpha + _ = yr
    have h1 : Real.exp (-0.5 * (xr * xr / (sgm.1 * sgm.1) + yr * yr / (sgm.2 * sgm.2))) ≤ 1 := by
      rw [Real.exp_le_one_iff]
      have h2 : 0 ≤ xr * xr / (sgm.1 * sgm.1) := div_nonneg (mul_self_nonneg _) (mul_self_nonneg _)
      have h3 : 0 ≤ yr * yr / (sgm.2 * sgm.2) := div_nonneg (mul_self_nonneg _) (mul_self_nonneg _)
      linarith
    calc |ampl| * Real.exp _ * |Real.cos t| ≤ |ampl| * 1 * 1 := by
          apply mul_le_mul
          · exact mul_le_mul_of_nonneg_left h1 (abs_nonneg _)
          · exact Real.abs_cos_le_one t
          · exact abs_nonneg _
          · exact mul_nonneg (abs_nonneg _) zero_le_one
      _ = |ampl| := by ring

/-- C240: the default centre is the middle of a square array. -/
theorem gabor_default_partial (w h : Nat) (hw : w / 2 = h / 2) (alpha phi freq : ℝ) (sgm : ℝ × ℝ) (res ampl : ℝ) :
    gabor w h alpha phi freq sgm none res ampl (w / 2) (h / 2) = ampl * Real.cos phi := by
  have : gabor w h alpha phi freq sgm none res ampl (w / 2) (h / 2) =
      gabor w h alpha phi freq sgm (some (((h / 2 : Nat) : ℝ), ((w / 2 : Nat) : ℝ))) res ampl (w / 2) (h / 2) := by
    unfold gabor
    simp only [Option.getD_none, Option.getD_some, hw]
  rw [this]
  exact (gabor_centre w h alpha phi freq sgm (h / 2) (w / 2) res ampl).1

/-- C240 is false for other arrays: the value in the middle is not that of the centre of a wavelet. -/
theorem gabor_default_false (w h : Nat) (hw : w / 2 ≠ h / 2) (alpha freq : ℝ) (sgm : ℝ × ℝ) (h1 : sgm.1 ≠ 0) (h2 : sgm.2 ≠ 0)
    (res ampl : ℝ) (ha : ampl ≠ 0) :
    |gabor w h alpha 0 freq sgm none res ampl (w / 2) (h / 2)| < |ampl| := by
  unfold gabor
  simp only [Option.getD_none]
  generalize hp : (((w / 2 : Nat) : ℝ)) - ((h / 2 : Nat) : ℝ) = a
  have hq : (((h / 2 : Nat) : ℝ)) - ((w / 2 : Nat) : ℝ) = -a := by rw [← hp]; ring
  have ha0 : a ≠ 0 := by
    intro h0
    rw [h0] at hp
    exact hw (by exact_mod_cast sub_eq_zero.1 hp)
  rw [hq]
  generalize hxr : a * Real.cos alpha - -a * Real.sin alpha = xr
  generalize hyr : a * Real.sin alpha + -a * Real.cos alpha = yr
  have hsum : xr * xr + yr * yr = 2 * (a * a) := by
    rw [← hxr, ← hyr]
    linear_combination 2 * a * a * Real.sin_sq_add_cos_sq alpha
  have hexp : Real.exp (-0.5 * (xr * xr / (sgm.1 * sgm.1) + yr * yr / (sgm.2 * sgm.2))) < 1 := by
    rw [Real.exp_lt_one_iff]
    have h5 : 0 < sgm.1 * sgm.1 := mul_self_pos.2 h1
    have h6 : 0 < sgm.2 * sgm.2 := mul_self_pos.2 h2
    have h3 : 0 ≤ xr * xr / (sgm.1 * sgm.1) := div_nonneg (mul_self_nonneg _) h5.le
    have h4 : 0 ≤ yr * yr / (sgm.2 * sgm.2) := div_nonneg (mul_self_nonneg _) h6.le
    by_cases hx0 : xr = 0
    · have : yr ≠ 0 := by
        intro hy0
        rw [hx0, hy0] at hsum
        have := mul_self_pos.2 ha0
        linarith
      have : 0 < yr * yr / (sgm.2 * sgm.2) := div_pos (mul_self_pos.2 this) h6
      linarith
    · have : 0 < xr * xr / (sgm.1 * sgm.1) := div_pos (mul_self_pos.2 hx0) h5
      linarith
  rw [abs_mul, abs_mul, Real.abs_exp]
  generalize hE : Real.exp _ = E at hexp
  have hE0 : 0 < E := by rw [← hE]; exact Real.exp_pos _
  calc |ampl| * E * |Real.cos _| ≤ |ampl| * E * 1 :=
        mul_le_mul_of_nonneg_left (Real.abs_cos_le_one _) (mul_nonneg (abs_nonneg _) hE0.le)
    _ = |ampl| * E := mul_one _
    _ < |ampl| * 1 := by exact mul_lt_mul_of_pos_left hexp (abs_pos.2 ha)
    _ = |ampl| := mul_one _

example : (10 / 2 : Nat) ≠ 40 / 2 := by decide

/-! ## C241: izip_stretched -/

/-- The value an argument contributes to tuple number `n`. -/
def Arg.nth {α : Type} : Arg α → Nat → Option α
  | .iter l, n => l[n]?
  | .const a, _ => some a

/-- The argument after a value has been taken. -/
def Arg.tail {α : Type} : Arg α → Arg α
  | .iter l => .iter l.tail
  | .const a => .const a

theorem nexts_eq {α : Type} (s : List (Arg α)) :
    nexts s = (s.mapM fun a : Arg α => a.nth 0).map fun t => (t, s.map Arg.tail) := by
  induction s with
  | nil => rfl
  | cons a s ih =>
    cases a with
    | iter l =>
      cases l with
      | nil => simp [nexts, Arg.nth]
      | cons b l =>
        rw [nexts, ih, List.mapM_cons, show (Arg.iter (b :: l)).nth 0 = some b from rfl]
        generalize (s.mapM fun a : Arg α => a.nth 0) = o
        cases o <;> rfl
    | const b =>
      rw [nexts, ih, List.mapM_cons, show (Arg.const b).nth 0 = some b from rfl]
      generalize (s.mapM fun a : Arg α => a.nth 0) = o
      cases o <;> rfl

theorem nth_tail {α : Type} (a : Arg α) (n : Nat) : a.tail.nth n = a.nth (n + 1) := by
  cases a with
  | iter l => simp [Arg.tail, Arg.nth]
  | const b => rfl

theorem mapM_none_mono {α : Type} (s : List (Arg α)) (n : Nat) (h : (s.mapM fun a : Arg α => a.nth 0) = none) :
    (s.mapM fun a : Arg α => a.nth n) = none := by
  induction s with
  | nil => cases h
  | cons a s ih =>
    rw [List.mapM_cons] at h ⊢
    cases ha : a.nth 0 with
    | none =>
      have : a.nth n = none := by
        cases a with
        | iter l =>
          simp only [Arg.nth] at ha ⊢
          rw [List.getElem?_eq_none_iff] at ha ⊢
          omega
        | const b => cases ha
      rw [this]
      rfl
    | some b =>
      rw [ha] at h
      have : (s.mapM fun a : Arg α => a.nth 0) = none := by
        cases hs : s.mapM fun a : Arg α => a.nth 0 with
        | none => rfl
        | some t =>
          rw [hs] at h
          cases h
      rw [ih this]
      cases a.nth n <;> rfl

/-- C241: tuple number `n` has the elements number `n` of all sequences, with the single values repeated; there is one exactly if
all the sequences are long enough. -/
theorem izip_spec {α : Type} (s : List (Arg α)) (hs : s ≠ []) (k n : Nat) :
    (izipStretched k s)[n]? = if n < k then s.mapM fun a : Arg α => a.nth n else none := by
  induction k generalizing s n with
  | zero => simp [izipStretched]
  | succ k ih =>
    have he : s.isEmpty = false := by
      cases s with
      | nil => exact absurd rfl hs
      | cons => rfl
    simp only [izipStretched, he, Bool.false_eq_true, if_false, nexts_eq]
    cases h : s.mapM fun a : Arg α => a.nth 0 with
    | none =>
      simp only [Option.map_none]
      rw [mapM_none_mono s n h]
      simp
    | some t =>
      simp only [Option.map_some]
      cases n with
      | zero => simp [h]
      | succ n =>
        rw [List.getElem?_cons_succ, ih (s.map Arg.tail) (by simpa using hs) n]
        have : ((s.map Arg.tail).mapM fun a : Arg α => a.nth n) = s.mapM fun a : Arg α => a.nth (n + 1) := by
          clear h he ih hs
          induction s generalizing t with
          | nil => rfl
          | cons a s ih =>
            rw [List.map_cons, List.mapM_cons, List.mapM_cons, nth_tail, ih t]
        rw [this]
        simp only [Nat.add_lt_add_iff_right]

/-- C241: the documented example. -/
example : izipStretched 5 [Arg.iter [1, 2, 3], Arg.const (-1 : Int)] = [[1, -1], [2, -1], [3, -1]] := by decide

/-- C241: nothing comes from no arguments. -/
theorem izip_nothing {α : Type} (k : Nat) : izipStretched k ([] : List (Arg α)) = [] := by
  cases k <;> rfl

/-- C241: the generator ends exactly if one of the arguments is a sequence: then there are as many tuples as the shortest one has
elements. -/
theorem izip_length {α : Type} (s : List (Arg α)) (hs : s ≠ []) (m : Nat)
    (h1 : ∀ l, Arg.iter l ∈ s → m ≤ l.length) (h2 : ∃ l, Arg.iter l ∈ s ∧ l.length = m) (k : Nat) :
    (izipStretched k s).length = min k m := by
  have key : ∀ n, (s.mapM fun a : Arg α => a.nth n).isSome ↔ n < m := by
    intro n
    constructor
    · intro h
      obtain ⟨l, hl, hm⟩ := h2
      by_contra hn
      clear h1 hs
      induction s with
      | nil => cases hl
      | cons a s ih =>
        rw [List.mapM_cons] at h
        cases ha : a.nth n with
        | none =>
          rw [ha] at h
          cases h
        | some b =>
          rw [ha] at h
          rcases List.mem_cons.1 hl with rfl | hl
          · simp only [Arg.nth] at ha
            rw [List.getElem?_eq_none (by omega)] at ha
            cases ha
          · cases hx : s.mapM fun a : Arg α => a.nth n with
            | none =>
              rw [hx] at h
              cases h
            | some t => exact ih (by rw [hx]; rfl) hl
    · intro hn
      clear h2 hs
      induction s with
      | nil => rfl
      | cons a s ih =>
        have hi := ih fun l hl => h1 l (List.mem_cons_of_mem _ hl)
        obtain ⟨t, ht⟩ := Option.isSome_iff_exists.1 hi
        rw [List.mapM_cons, ht]
        cases a with
        | iter l =>
          have := h1 l List.mem_cons_self
          simp only [Arg.nth]
          rw [List.getElem?_eq_getElem (by omega)]
          rfl
        | const b => rfl
  have hlt : ∀ n, n < (izipStretched k s).length ↔ n < min k m := by
    intro n
    have e : n < (izipStretched k s).length ↔ (izipStretched k s)[n]?.isSome := by
      rw [← Option.ne_none_iff_isSome, ne_eq, List.getElem?_eq_none_iff]
      omega
    rw [e, izip_spec s hs]
    split
    · rw [key n]
      omega
    · simp
      omega
  have a := hlt (izipStretched k s).length
  have b := hlt (min k m)
  omega

/-- C241: without any sequence it never ends. -/
theorem izip_endless {α : Type} (l : List α) (hl : l ≠ []) (k : Nat) :
    izipStretched k (l.map Arg.const) = List.replicate k l := by
  induction k with
  | zero => rfl
  | succ k ih =>
    have he : (l.map Arg.const).isEmpty = false := by
      cases l with
      | nil => exact absurd rfl hl
      | cons => rfl
    have hm : ((l.map Arg.const).mapM fun a : Arg α => a.nth 0) = some l := by
      clear hl ih he
      induction l with
      | nil => rfl
      | cons a l ih => rw [List.map_cons, List.mapM_cons, ih]; rfl
    simp only [izipStretched, he, Bool.false_eq_true, if_false, nexts_eq, hm, Option.map_some, List.replicate_succ]
    have : (l.map Arg.const).map Arg.tail = l.map (Arg.const : α → Arg α) := by
      rw [List.map_map]
      rfl
    rw [this, ih]

/-! ## C242: orthogonal_permutations, signs -/

theorem mem_product {α : Type} (ls : List (List α)) (t : List α) :
    t ∈ product ls ↔ List.Forall₂ (fun l a => a ∈ l) ls t := by
  induction ls generalizing t with
  | nil => simp [product]
  | cons l ls ih =>
    simp only [product, List.mem_flatMap, List.mem_map]
    constructor
    · rintro ⟨a, ha, t, ht, rfl⟩
      exact .cons ha ((ih t).1 ht)
    · intro h
      cases h with
      | cons ha ht => exact ⟨_, ha, _, (ih _).2 ht, rfl⟩

theorem product_length {α : Type} (ls : List (List α)) : (product ls).length = (ls.map List.length).prod := by
  induction ls with
  | nil => rfl
  | cons l ls ih => simp [product, List.length_flatMap, ih]

theorem product_nodup {α : Type} (ls : List (List α)) (h : ∀ l ∈ ls, l.Nodup) : (product ls).Nodup := by
  induction ls with
  | nil => simp [product]
  | cons l ls ih =>
    have hn := ih fun l' hl => h l' (List.mem_cons_of_mem _ hl)
    simp only [product]
    rw [List.nodup_flatMap]
    refine ⟨fun a _ => hn.map fun x y e => (List.cons.inj e).2, ?_⟩
    refine (h l List.mem_cons_self).imp fun {a b} hab => ?_
    intro x hx hy
    obtain ⟨_, _, rfl⟩ := List.mem_map.1 hx
    obtain ⟨_, _, e⟩ := List.mem_map.1 hy
    exact hab (List.cons.inj e).1.symm

/-- C242: the dictionaries that `orthogonal_permutations` gives are those that have one of the values in the list for each key. -/
theorem orthogonal_permutations_mem {κ α : Type} (d : List (κ × List α)) (t : List (κ × α)) :
    t ∈ orthogonalPermutations d ↔ List.Forall₂ (fun p q => q.1 = p.1 ∧ q.2 ∈ p.2) d t := by
  unfold orthogonalPermutations
  rw [mem_product, List.forall₂_map_left_iff]
  constructor <;> refine fun h => h.imp fun p q hq => ?_
  · obtain ⟨a, ha, rfl⟩ := List.mem_map.1 hq
    exact ⟨rfl, ha⟩
  · exact List.mem_map.2 ⟨q.2, hq.2, by rw [← hq.1]⟩

/-- C242: there are as many as the product of the numbers of values, and none comes twice if no value is given twice. -/
theorem orthogonal_permutations_once {κ α : Type} (d : List (κ × List α)) :
    (orthogonalPermutations d).length = (d.map fun p => p.2.length).prod ∧
    ((∀ p ∈ d, p.2.Nodup) → (orthogonalPermutations d).Nodup) := by
  unfold orthogonalPermutations
  constructor
  · rw [product_length, List.map_map]
    congr 1
    exact List.map_congr_left fun p _ => by simp
  · intro h
    apply product_nodup
    intro l hl
    obtain ⟨p, hp, rfl⟩ := List.mem_map.1 hl
    exact (h p hp).map fun x y e => (Prod.mk.inj e).2

/-- C242: the documented example. -/
example : orthogonalPermutations [("a", [1, 2, 3]), ("b", [4, 5])] =
    [[("a", 1), ("b", 4)], [("a", 1), ("b", 5)], [("a", 2), ("b", 4)], [("a", 2), ("b", 5)], [("a", 3), ("b", 4)],
      [("a", 3), ("b", 5)]] := by decide

/-- C242: `sign_to_bool` undoes `bool_to_sign`; it is true for positive numbers, and for zero what `zero` says. -/
theorem sign_round_trip (b zero : Bool) : signToBool (boolToSign b) zero = b ∧ (boolToSign b = if b then 1 else -1) ∧
    ∀ x, (signToBool x zero = true ↔ 0 < x ∨ x = 0 ∧ zero = true) := by
  have h : boolToSign b = if b then 1 else -1 := by
    cases b
    · exact Real.sign_of_neg (by norm_num)
    · exact Real.sign_of_pos (by norm_num)
  refine ⟨?_, h, fun x => ?_⟩
  · rw [h]
    cases b <;> cases zero <;> simp [signToBool] <;> norm_num
  · cases zero
    · simp [signToBool]
    · rw [signToBool, if_pos rfl, decide_eq_true_iff, ge_iff_le, le_iff_lt_or_eq]
      exact or_congr Iff.rfl ⟨fun h => ⟨h.symm, rfl⟩, fun h => h.1.symm⟩

end Mdp.Routines
