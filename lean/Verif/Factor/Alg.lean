import Verif.Factor.Model
import Mathlib.Analysis.Matrix.PosDef
import Mathlib.Analysis.Matrix.Order
import Mathlib.LinearAlgebra.Matrix.SchurComplement

/-! # Linear algebra of factor analysis -/

namespace Mdp.Factor

open Matrix

noncomputable section

variable {m n : Type} [Fintype m] [Fintype n] [DecidableEq m] [DecidableEq n]

/-! ### Traces and determinants -/

theorem log_le (a : ℝ) (h : 0 < a) : Real.log a ≤ a - 1 := Real.log_le_sub_one_of_pos h

theorem posDef_trace {P : Matrix n n ℝ} (h : P.PosDef) : Real.log P.det ≤ P.trace - Fintype.card n := by
  rw [h.1.det_eq_prod_eigenvalues, h.1.trace_eq_sum_eigenvalues]
  simp only [RCLike.ofReal_real_eq_id, id]
  rw [Real.log_prod (fun i _ => (h.eigenvalues_pos i).ne')]
  have : ∑ i, Real.log (h.1.eigenvalues i) ≤ ∑ i, (h.1.eigenvalues i - 1) :=
    Finset.sum_le_sum fun i _ => log_le _ (h.eigenvalues_pos i)
  rw [Finset.sum_sub_distrib] at this
  simpa using this

theorem posDef_sqrt {V : Matrix n n ℝ} (h : V.PosDef) : ∃ U : Matrix n n ℝ, V = U * Uᵀ := by
  open scoped MatrixOrder in
  have hn : 0 ≤ V := nonneg_iff_posSemidef.2 h.posSemidef
  obtain ⟨U, hU⟩ := CStarAlgebra.nonneg_iff_eq_mul_star_self.1 hn
  exact ⟨U, by rw [hU, star_eq_conjTranspose, conjTranspose_eq_transpose_of_trivial]⟩

theorem posDef_trace_mul {W V : Matrix n n ℝ} (hW : W.PosDef) (hV : V.PosDef) :
    Real.log W.det + Real.log V.det ≤ (W * V).trace - Fintype.card n := by
  obtain ⟨U, hU⟩ := posDef_sqrt hV
  have hdet : U.det ≠ 0 := by
    intro h0
    have := hV.det_pos
    rw [hU, det_mul, h0, MulZeroClass.zero_mul] at this
    exact lt_irrefl _ this
  have hP : (Uᵀ * W * U).PosDef := by
    have := hW.conjTranspose_mul_mul_same (B := U) (by
      have hu : IsUnit U.det := isUnit_iff_ne_zero.2 hdet
      intro a b hab
      have := congrArg (fun v => U⁻¹ *ᵥ v) hab
      simpa [mulVec_mulVec, nonsing_inv_mul U hu] using this)
    rwa [conjTranspose_eq_transpose_of_trivial] at this
  have h := posDef_trace hP
  have ht : (Uᵀ * W * U).trace = (W * V).trace := by
    rw [hU, ← Matrix.mul_assoc, trace_mul_comm, ← Matrix.mul_assoc, ← trace_mul_comm, ← Matrix.mul_assoc]
  have hd : (Uᵀ * W * U).det = W.det * V.det := by
    rw [hU, det_mul, det_mul, det_mul, det_transpose]; ring
  rw [ht, hd, Real.log_mul hW.det_pos.ne' hV.det_pos.ne'] at h
  exact h

/-! ### The posterior of the factors -/

section
variable (A : Matrix m n ℝ) (σ : m → ℝ)

/-- The covariance of the observations. -/
def mcov : Matrix m m ℝ := A * Aᵀ + diagonal σ
/-- The inverse covariance of the factors given the observations. -/
def pinfo : Matrix n n ℝ := 1 + Aᵀ * diagonal σ⁻¹ * A
/-- The weights of the mean of the factors. -/
def pmean : Matrix n m ℝ := Aᵀ * (mcov A σ)⁻¹

variable {A σ} (hσ : ∀ i, 0 < σ i)

include hσ

theorem diag_inv : diagonal σ * diagonal σ⁻¹ = (1 : Matrix m m ℝ) := by
  rw [diagonal_mul_diagonal, ← diagonal_one]
  congr 1
  funext i
  exact mul_inv_cancel₀ (hσ i).ne'

theorem diag_inv' : diagonal σ⁻¹ * diagonal σ = (1 : Matrix m m ℝ) := by
  rw [diagonal_mul_diagonal, ← diagonal_one]
  congr 1
  funext i
  exact inv_mul_cancel₀ (hσ i).ne'

theorem mcov_posDef : (mcov A σ).PosDef := by
  unfold mcov
  rw [add_comm]
  refine (PosDef.diagonal hσ).add_posSemidef ?_
  have := posSemidef_self_mul_conjTranspose A
  rwa [conjTranspose_eq_transpose_of_trivial] at this

theorem pinfo_posDef : (pinfo A σ).PosDef := by
  unfold pinfo
  refine PosDef.one.add_posSemidef ?_
  have := (PosSemidef.diagonal (d := σ⁻¹) (fun i => (inv_pos.2 (hσ i)).le)).conjTranspose_mul_mul_same A
  rwa [conjTranspose_eq_transpose_of_trivial] at this

theorem mcov_unit : IsUnit (mcov A σ).det := isUnit_iff_ne_zero.2 (mcov_posDef hσ).det_pos.ne'
theorem pinfo_unit : IsUnit (pinfo A σ).det := isUnit_iff_ne_zero.2 (pinfo_posDef hσ).det_pos.ne'

theorem AAt : A * Aᵀ = mcov A σ - diagonal σ := by unfold mcov; abel

theorem pinfo_pmean : pinfo A σ * pmean A σ = Aᵀ * diagonal σ⁻¹ := by
  unfold pinfo pmean
  rw [Matrix.add_mul, Matrix.one_mul]
  have h : Aᵀ * diagonal σ⁻¹ * A * (Aᵀ * (mcov A σ)⁻¹) = Aᵀ * diagonal σ⁻¹ - Aᵀ * (mcov A σ)⁻¹ := by
    calc Aᵀ * diagonal σ⁻¹ * A * (Aᵀ * (mcov A σ)⁻¹) = Aᵀ * diagonal σ⁻¹ * (A * Aᵀ) * (mcov A σ)⁻¹ := by
          simp only [Matrix.mul_assoc]
      _ = Aᵀ * diagonal σ⁻¹ * (mcov A σ * (mcov A σ)⁻¹) - Aᵀ * (diagonal σ⁻¹ * diagonal σ) * (mcov A σ)⁻¹ := by
          rw [AAt hσ, Matrix.mul_sub, Matrix.sub_mul]; simp only [Matrix.mul_assoc]
      _ = _ := by rw [mul_nonsing_inv _ (mcov_unit hσ), diag_inv' hσ, Matrix.mul_one, Matrix.mul_one]
  rw [h]; abel

/-- The covariance of the factors given the observations. -/
theorem pvar_eq : 1 - pmean A σ * A = (pinfo A σ)⁻¹ := by
  symm
  apply inv_eq_right_inv
  rw [Matrix.mul_sub, Matrix.mul_one, ← Matrix.mul_assoc, pinfo_pmean hσ]
  unfold pinfo; abel

theorem pvar_posDef : (1 - pmean A σ * A).PosDef := by
  rw [pvar_eq hσ]
  exact (pinfo_posDef hσ).inv

theorem mcov_inv : (mcov A σ)⁻¹ = diagonal σ⁻¹ * (1 - A * pmean A σ) := by
  have h : A * pmean A σ + diagonal σ * (mcov A σ)⁻¹ = 1 := by
    unfold pmean
    rw [← Matrix.mul_assoc, AAt hσ, Matrix.sub_mul, mul_nonsing_inv _ (mcov_unit hσ)]
    abel
  rw [← h, add_sub_cancel_left, ← Matrix.mul_assoc, diag_inv' hσ, Matrix.one_mul]

theorem mcov_det : (mcov A σ).det = (∏ i, σ i) * (pinfo A σ).det := by
  have h : mcov A σ = diagonal σ * (1 + diagonal σ⁻¹ * A * Aᵀ) := by
    unfold mcov
    rw [Matrix.mul_add, Matrix.mul_one, ← Matrix.mul_assoc, ← Matrix.mul_assoc, diag_inv hσ, Matrix.one_mul, add_comm]
  rw [h, det_mul, det_diagonal, det_one_add_mul_comm]
  unfold pinfo
  rw [Matrix.mul_assoc]

end

/-! ### The bound -/

/-- The expected second moments of the factors. -/
def emom (C : Matrix m m ℝ) (G : Matrix n m ℝ) (V : Matrix n n ℝ) : Matrix n n ℝ := V + G * C * Gᵀ

/-- The residual of the expected observations. -/
def resid (C : Matrix m m ℝ) (G : Matrix n m ℝ) (V : Matrix n n ℝ) (A : Matrix m n ℝ) : Matrix m m ℝ :=
  C - A * G * C - C * Gᵀ * Aᵀ + A * emom C G V * Aᵀ

/-- Twice the negative mean log-likelihood without constant. -/
def nll (C : Matrix m m ℝ) (A : Matrix m n ℝ) (σ : m → ℝ) : ℝ := Real.log (mcov A σ).det + ((mcov A σ)⁻¹ * C).trace

/-- Its bound. -/
def bound (C : Matrix m m ℝ) (G : Matrix n m ℝ) (V : Matrix n n ℝ) (A : Matrix m n ℝ) (σ : m → ℝ) : ℝ :=
  ∑ i, (Real.log (σ i) + resid C G V A i i / σ i) + (emom C G V).trace - Real.log V.det - Fintype.card n

theorem trace_diag (M : Matrix m m ℝ) (σ : m → ℝ) : (diagonal σ⁻¹ * M).trace = ∑ i, M i i / σ i := by
  unfold Matrix.trace
  refine Finset.sum_congr rfl fun i _ => ?_
  rw [diag_apply, diagonal_mul, Pi.inv_apply, div_eq_inv_mul]

theorem nll_bound {C : Matrix m m ℝ} (hC : Cᵀ = C) {G : Matrix n m ℝ} {V : Matrix n n ℝ} {A : Matrix m n ℝ} {σ : m → ℝ}
    (hσ : ∀ i, 0 < σ i) :
    bound C G V A σ - nll C A σ =
      ((pinfo A σ * V).trace - Fintype.card n - Real.log (pinfo A σ).det - Real.log V.det) +
      (pinfo A σ * ((G - pmean A σ) * C * (G - pmean A σ)ᵀ)).trace := by
  have hdet : Real.log (mcov A σ).det = ∑ i, Real.log (σ i) + Real.log (pinfo A σ).det := by
    rw [mcov_det hσ, Real.log_mul (Finset.prod_ne_zero_iff.2 fun i _ => (hσ i).ne') (pinfo_posDef hσ).det_pos.ne',
      Real.log_prod (fun i _ => (hσ i).ne')]
  have e1 : (pinfo A σ * V).trace = V.trace + (diagonal σ⁻¹ * (A * V * Aᵀ)).trace := by
    unfold pinfo
    rw [Matrix.add_mul, Matrix.one_mul, trace_add, Matrix.mul_assoc, Matrix.mul_assoc, trace_mul_comm]
    simp only [Matrix.mul_assoc]
  have e2 : (pinfo A σ * (G * C * Gᵀ)).trace = (G * C * Gᵀ).trace + (diagonal σ⁻¹ * (A * (G * C * Gᵀ) * Aᵀ)).trace := by
    unfold pinfo
    simp only [Matrix.add_mul, Matrix.one_mul, trace_add, Matrix.mul_assoc]
    rw [trace_mul_comm (Aᵀ)]
    simp only [Matrix.mul_assoc]
  have e3 : (pinfo A σ * (pmean A σ * C * Gᵀ)).trace = (diagonal σ⁻¹ * (C * Gᵀ * Aᵀ)).trace := by
    rw [← Matrix.mul_assoc, ← Matrix.mul_assoc, pinfo_pmean hσ, Matrix.mul_assoc, Matrix.mul_assoc, trace_mul_comm (Aᵀ)]
    simp only [Matrix.mul_assoc]
  have hs : (pinfo A σ)ᵀ = pinfo A σ := by
    have := (pinfo_posDef (A := A) hσ).1
    rwa [IsHermitian, conjTranspose_eq_transpose_of_trivial] at this
  have e4 : (pinfo A σ * (G * C * (pmean A σ)ᵀ)).trace = (diagonal σ⁻¹ * (C * Gᵀ * Aᵀ)).trace := by
    rw [← e3, ← trace_transpose]
    simp only [transpose_mul, transpose_transpose, hC, hs]
    rw [trace_mul_comm]
    simp only [Matrix.mul_assoc]
  have e4' : (diagonal σ⁻¹ * (A * G * C)).trace = (diagonal σ⁻¹ * (C * Gᵀ * Aᵀ)).trace := by
    rw [← trace_transpose]
    simp only [transpose_mul, transpose_transpose, hC, diagonal_transpose]
    rw [trace_mul_comm]
    simp only [Matrix.mul_assoc]
  have e5 : (pinfo A σ * (pmean A σ * C * (pmean A σ)ᵀ)).trace = (diagonal σ⁻¹ * (A * pmean A σ * C)).trace := by
    rw [← Matrix.mul_assoc, ← Matrix.mul_assoc, pinfo_pmean hσ, ← trace_transpose]
    simp only [transpose_mul, transpose_transpose, hC, diagonal_transpose]
    rw [trace_mul_comm]
    simp only [Matrix.mul_assoc]
    rw [trace_mul_comm]
    simp only [Matrix.mul_assoc]
  have e6 : ((mcov A σ)⁻¹ * C).trace = (diagonal σ⁻¹ * C).trace - (diagonal σ⁻¹ * (A * pmean A σ * C)).trace := by
    rw [mcov_inv hσ, ← trace_sub, ← Matrix.mul_sub]
    congr 1
    rw [Matrix.mul_assoc, Matrix.sub_mul, Matrix.one_mul]
  have e7 : ∑ i, resid C G V A i i / σ i = (diagonal σ⁻¹ * C).trace - (diagonal σ⁻¹ * (A * G * C)).trace -
      (diagonal σ⁻¹ * (C * Gᵀ * Aᵀ)).trace + (diagonal σ⁻¹ * (A * V * Aᵀ)).trace +
      (diagonal σ⁻¹ * (A * (G * C * Gᵀ) * Aᵀ)).trace := by
    rw [← trace_diag]
    unfold resid emom
    rw [Matrix.mul_add, Matrix.mul_sub, Matrix.mul_sub, trace_add, trace_sub, trace_sub, Matrix.mul_add, Matrix.add_mul, Matrix.mul_add, trace_add]
    ring
  have e8 : (emom C G V).trace = V.trace + (G * C * Gᵀ).trace := by unfold emom; rw [trace_add]
  have e9 : (pinfo A σ * ((G - pmean A σ) * C * (G - pmean A σ)ᵀ)).trace =
      (pinfo A σ * (G * C * Gᵀ)).trace - (pinfo A σ * (G * C * (pmean A σ)ᵀ)).trace -
      (pinfo A σ * (pmean A σ * C * Gᵀ)).trace + (pinfo A σ * (pmean A σ * C * (pmean A σ)ᵀ)).trace := by
    rw [transpose_sub, Matrix.sub_mul, Matrix.sub_mul, Matrix.mul_sub, Matrix.mul_sub, Matrix.mul_sub, Matrix.mul_sub, Matrix.mul_sub, trace_sub, trace_sub, trace_sub]
    ring
  unfold bound nll
  rw [Finset.sum_add_distrib, e7, e8, e9, hdet, e1, e2, e3, e4, e5, e6, e4']
  ring

/-- The bound holds. -/
theorem nll_le_bound {C : Matrix m m ℝ} (hC : C.PosSemidef) {G : Matrix n m ℝ} {V : Matrix n n ℝ} (hV : V.PosDef)
    {A : Matrix m n ℝ} {σ : m → ℝ} (hσ : ∀ i, 0 < σ i) : nll C A σ ≤ bound C G V A σ := by
  have hCt : Cᵀ = C := by
    have := hC.1
    rwa [IsHermitian, conjTranspose_eq_transpose_of_trivial] at this
  have h := nll_bound hCt (G := G) (V := V) (A := A) hσ
  have h1 := posDef_trace_mul (pinfo_posDef (A := A) hσ) hV
  have h2 : 0 ≤ (pinfo A σ * ((G - pmean A σ) * C * (G - pmean A σ)ᵀ)).trace := by
    obtain ⟨U, hU⟩ := posDef_sqrt (pinfo_posDef (A := A) hσ)
    rw [hU, Matrix.mul_assoc, trace_mul_comm, Matrix.mul_assoc]
    have hp := hC.mul_mul_conjTranspose_same (Uᵀ * (G - pmean A σ))
    rw [conjTranspose_eq_transpose_of_trivial] at hp
    have := hp.trace_nonneg
    rw [transpose_mul, transpose_transpose] at this
    simpa only [Matrix.mul_assoc] using this
  linarith

/-- It is attained. -/
theorem bound_self {C : Matrix m m ℝ} (hC : Cᵀ = C) {A : Matrix m n ℝ} {σ : m → ℝ} (hσ : ∀ i, 0 < σ i) :
    bound C (pmean A σ) (1 - pmean A σ * A) A σ = nll C A σ := by
  have h := nll_bound hC (G := pmean A σ) (V := 1 - pmean A σ * A) (A := A) hσ
  rw [sub_self, Matrix.zero_mul, Matrix.zero_mul, Matrix.mul_zero, trace_zero, add_zero] at h
  have h1 : pinfo A σ * (1 - pmean A σ * A) = 1 := by
    rw [pvar_eq hσ, mul_nonsing_inv _ (pinfo_unit hσ)]
  have h2 : Real.log (1 - pmean A σ * A).det = - Real.log (pinfo A σ).det := by
    rw [pvar_eq hσ, det_nonsing_inv, Ring.inverse_eq_inv', Real.log_inv]
  rw [h1, h2, trace_one] at h
  linarith

/-! ### The M-step -/

section
variable {C : Matrix m m ℝ} {G : Matrix n m ℝ} {V : Matrix n n ℝ}

theorem emom_posDef (hC : C.PosSemidef) (hV : V.PosDef) : (emom C G V).PosDef := by
  unfold emom
  have := hC.mul_mul_conjTranspose_same G
  rw [conjTranspose_eq_transpose_of_trivial] at this
  exact hV.add_posSemidef this

/-- The new loading factors. -/
def newA (C : Matrix m m ℝ) (G : Matrix n m ℝ) (V : Matrix n n ℝ) : Matrix m n ℝ := (G * C)ᵀ * (emom C G V)⁻¹

theorem newA_emom (hC : C.PosSemidef) (hV : V.PosDef) : newA C G V * emom C G V = (G * C)ᵀ := by
  unfold newA
  rw [Matrix.mul_assoc, nonsing_inv_mul _ (isUnit_iff_ne_zero.2 (emom_posDef hC hV).det_pos.ne'), Matrix.mul_one]

theorem resid_newA (hC : C.PosSemidef) (hV : V.PosDef) : resid C G V (newA C G V) = C - newA C G V * (G * C) := by
  have hCt : Cᵀ = C := by
    have := hC.1
    rwa [IsHermitian, conjTranspose_eq_transpose_of_trivial] at this
  unfold resid
  rw [newA_emom hC hV, transpose_mul, hCt, Matrix.mul_assoc]
  abel

theorem resid_split (hC : C.PosSemidef) (hV : V.PosDef) (A : Matrix m n ℝ) :
    resid C G V A = resid C G V (newA C G V) + (A - newA C G V) * emom C G V * (A - newA C G V)ᵀ := by
  have hCt : Cᵀ = C := by
    have := hC.1
    rwa [IsHermitian, conjTranspose_eq_transpose_of_trivial] at this
  have hE : (emom C G V)ᵀ = emom C G V := by
    have := (emom_posDef (G := G) hC hV).1
    rwa [IsHermitian, conjTranspose_eq_transpose_of_trivial] at this
  have h1 := newA_emom (G := G) hC hV
  have h2 : emom C G V * (newA C G V)ᵀ = G * C := by
    have := congrArg transpose h1
    rwa [transpose_mul, hE, transpose_transpose] at this
  have h3 : newA C G V * emom C G V * Aᵀ = C * Gᵀ * Aᵀ := by rw [h1, transpose_mul, hCt]
  have h4 : A * emom C G V * (newA C G V)ᵀ = A * G * C := by rw [Matrix.mul_assoc, h2, Matrix.mul_assoc]
  rw [transpose_sub, Matrix.sub_mul, Matrix.sub_mul, Matrix.mul_sub, Matrix.mul_sub, h3, h4]
  unfold resid
  rw [Matrix.mul_assoc (newA C G V) G C, ← h2, ← Matrix.mul_assoc (newA C G V)]
  rw [show C * Gᵀ * (newA C G V)ᵀ = newA C G V * emom C G V * (newA C G V)ᵀ by rw [h1, transpose_mul, hCt]]
  abel

theorem resid_diag_le (hC : C.PosSemidef) (hV : V.PosDef) (A : Matrix m n ℝ) (i : m) :
    resid C G V (newA C G V) i i ≤ resid C G V A i i := by
  rw [resid_split hC hV A, Matrix.add_apply]
  have := (emom_posDef (G := G) hC hV).posSemidef.mul_mul_conjTranspose_same (A - newA C G V)
  rw [conjTranspose_eq_transpose_of_trivial] at this
  have := this.diag_nonneg (i := i)
  linarith

theorem resid_pos (hC : C.PosSemidef) (hV : V.PosDef) (hd : ∀ i, 0 < C i i) (A : Matrix m n ℝ) (i : m) :
    0 < resid C G V A i i := by
  have hCt : Cᵀ = C := by
    have := hC.1
    rwa [IsHermitian, conjTranspose_eq_transpose_of_trivial] at this
  have h : resid C G V A = (1 - A * G) * C * (1 - A * G)ᵀ + A * V * Aᵀ := by
    unfold resid emom
    rw [transpose_sub, transpose_one, transpose_mul, Matrix.sub_mul, Matrix.sub_mul, Matrix.mul_sub, Matrix.mul_sub, Matrix.mul_add, Matrix.add_mul]
    simp only [Matrix.one_mul, Matrix.mul_one, Matrix.mul_assoc]
    abel
  have h1 : 0 ≤ ((1 - A * G : Matrix m m ℝ) * C * (1 - A * G : Matrix m m ℝ)ᵀ) i i := by
    have := hC.mul_mul_conjTranspose_same (1 - A * G)
    rw [conjTranspose_eq_transpose_of_trivial] at this
    exact this.diag_nonneg
  have hq : (A * V * Aᵀ) i i = A i ⬝ᵥ V *ᵥ A i := by
    rw [Matrix.mul_assoc, mul_apply]
    simp only [dotProduct, mulVec, mul_apply, transpose_apply]
  rw [h, Matrix.add_apply, hq]
  by_cases ha : A i = 0
  · have h2 : ((1 - A * G : Matrix m m ℝ) * C * (1 - A * G : Matrix m m ℝ)ᵀ) i i = C i i := by
      have hrow : ∀ j, (1 - A * G : Matrix m m ℝ) i j = (1 : Matrix m m ℝ) i j := by
        intro j
        rw [Matrix.sub_apply, mul_apply]
        have : ∀ k, A i k = 0 := fun k => congrFun ha k
        simp [this]
      rw [Matrix.mul_assoc, mul_apply]
      simp only [hrow, mul_apply, transpose_apply, one_apply]
      simp
    rw [h2, ha]
    simpa using hd i
  · have := hV.dotProduct_mulVec_pos ha
    simp only [star_trivial] at this
    linarith

/-- The M-step does not increase the bound. -/
theorem bound_newA (hC : C.PosSemidef) (hV : V.PosDef) (hd : ∀ i, 0 < C i i) (A : Matrix m n ℝ) (σ : m → ℝ)
    (hσ : ∀ i, 0 < σ i) :
    bound C G V (newA C G V) (fun i => resid C G V (newA C G V) i i) ≤ bound C G V A σ := by
  unfold bound
  have : ∀ i, Real.log (resid C G V (newA C G V) i i) + resid C G V (newA C G V) i i / resid C G V (newA C G V) i i ≤
      Real.log (σ i) + resid C G V A i i / σ i := by
    intro i
    have hs := resid_pos (G := G) hC hV hd (newA C G V) i
    have hle := resid_diag_le (G := G) hC hV A i
    rw [div_self hs.ne']
    have h1 := log_le (resid C G V (newA C G V) i i / σ i) (div_pos hs (hσ i))
    rw [Real.log_div hs.ne' (hσ i).ne'] at h1
    have h2 : resid C G V (newA C G V) i i / σ i ≤ resid C G V A i i / σ i := div_le_div_of_nonneg_right hle (hσ i).le
    linarith
  have := Finset.sum_le_sum fun i (_ : i ∈ Finset.univ) => this i
  linarith

end

/-- An EM step does not decrease the likelihood. -/
theorem nll_step {C : Matrix m m ℝ} (hC : C.PosSemidef) (hd : ∀ i, 0 < C i i) (A : Matrix m n ℝ) (σ : m → ℝ)
    (hσ : ∀ i, 0 < σ i) :
    nll C (newA C (pmean A σ) (1 - pmean A σ * A))
      (fun i => resid C (pmean A σ) (1 - pmean A σ * A) (newA C (pmean A σ) (1 - pmean A σ * A)) i i) ≤ nll C A σ := by
  have hCt : Cᵀ = C := by
    have := hC.1
    rwa [IsHermitian, conjTranspose_eq_transpose_of_trivial] at this
  have hV := pvar_posDef (A := A) hσ
  rw [← bound_self hCt hσ]
  exact (nll_le_bound hC hV (fun i => resid_pos hC hV hd _ i)).trans (bound_newA hC hV hd A σ hσ)

end

end Mdp.Factor
