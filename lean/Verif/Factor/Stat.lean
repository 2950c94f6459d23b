import Verif.Factor.Alg
import Verif.Factor.Spec
import Verif.Num.CovProps

/-! # Data and their covariance matrix -/

namespace Mdp.Factor

open Matrix

noncomputable section

variable {d k : Nat}

/-- The covariance matrix of data. -/
def cmat (X : List (Fin d → ℝ)) : Matrix (Fin d) (Fin d) ℝ :=
  (X.length : ℝ)⁻¹ • (X.map fun x => vecMulVec (x - avg X) (x - avg X)).sum

theorem cmat_lin (X : List (Fin d → ℝ)) (φ : Matrix (Fin d) (Fin d) ℝ →ₗ[ℝ] ℝ) :
    φ (cmat X) = (X.map fun x => φ (vecMulVec (x - avg X) (x - avg X))).sum / X.length := by
  unfold cmat
  rw [map_smul, map_list_sum, List.map_map, smul_eq_mul, div_eq_inv_mul]
  rfl

theorem cmat_apply (X : List (Fin d → ℝ)) (i j : Fin d) :
    cmat X i j = (X.map fun x => (x i - avg X i) * (x j - avg X j)).sum / X.length := by
  have := cmat_lin X (Matrix.entryLinearMap ℝ ℝ i j)
  simp only [Matrix.entryLinearMap_apply, vecMulVec_apply] at this
  exact this

theorem cmat_symm (X : List (Fin d → ℝ)) : (cmat X)ᵀ = cmat X := by
  ext i j
  rw [transpose_apply, cmat_apply, cmat_apply]
  simp only [mul_comm]

/-- `mult(P, C, Q.T)`. -/
def sandwich {e f : Nat} (P : Matrix (Fin e) (Fin d) ℝ) (Q : Matrix (Fin f) (Fin d) ℝ) (i : Fin e) (j : Fin f) :
    Matrix (Fin d) (Fin d) ℝ →ₗ[ℝ] ℝ where
  toFun M := (P * M * Qᵀ) i j
  map_add' M N := by rw [Matrix.mul_add, Matrix.add_mul, Matrix.add_apply]
  map_smul' c M := by rw [Matrix.mul_smul, Matrix.smul_mul, Matrix.smul_apply]; rfl

theorem sandwich_vec {e f : Nat} (P : Matrix (Fin e) (Fin d) ℝ) (Q : Matrix (Fin f) (Fin d) ℝ) (i : Fin e) (j : Fin f)
    (r : Fin d → ℝ) : (P * vecMulVec r r * Qᵀ) i j = (P *ᵥ r) i * (Q *ᵥ r) j := by
  rw [mul_vecMulVec, vecMulVec_mul, vecMulVec_apply, vecMul_transpose]

theorem cmat_sandwich {e f : Nat} (X : List (Fin d → ℝ)) (P : Matrix (Fin e) (Fin d) ℝ) (Q : Matrix (Fin f) (Fin d) ℝ)
    (i : Fin e) (j : Fin f) :
    (P * cmat X * Qᵀ) i j = (X.map fun x => (P *ᵥ (x - avg X)) i * (Q *ᵥ (x - avg X)) j).sum / X.length := by
  have := cmat_lin X (sandwich P Q i j)
  simp only [sandwich, LinearMap.coe_mk, AddHom.coe_mk, sandwich_vec] at this
  exact this

theorem cmat_quad (X : List (Fin d → ℝ)) (v : Fin d → ℝ) :
    v ⬝ᵥ cmat X *ᵥ v = (X.map fun x => (v ⬝ᵥ (x - avg X)) ^ 2).sum / X.length := by
  have := cmat_sandwich X (Matrix.of fun (_ : Fin 1) => v) (Matrix.of fun (_ : Fin 1) => v) 0 0
  have h1 : (Matrix.of (fun (_ : Fin 1) => v) * cmat X * (Matrix.of fun (_ : Fin 1) => v)ᵀ) 0 0 = v ⬝ᵥ cmat X *ᵥ v := by
    rw [Matrix.mul_assoc, mul_apply]
    simp only [dotProduct, mulVec, mul_apply, transpose_apply, of_apply]
  rw [← h1, this]
  simp only [pow_two]
  rfl

theorem cmat_posSemidef (X : List (Fin d → ℝ)) : (cmat X).PosSemidef := by
  refine PosSemidef.of_dotProduct_mulVec_nonneg ?_ ?_
  · rw [IsHermitian, conjTranspose_eq_transpose_of_trivial, cmat_symm]
  · intro v
    rw [star_trivial, cmat_quad]
    refine div_nonneg (List.sum_nonneg ?_) (Nat.cast_nonneg _)
    intro a ha
    obtain ⟨x, _, rfl⟩ := List.mem_map.1 ha
    exact sq_nonneg _

theorem avg_const (X : List (Fin d → ℝ)) (hX : X ≠ []) (w : Fin d → ℝ) (c : ℝ) (h : ∀ x ∈ X, w ⬝ᵥ x = c) :
    w ⬝ᵥ avg X = c := by
  have hn : (X.length : ℝ) ≠ 0 := by simpa using hX
  have h1 : ∀ Y : List (Fin d → ℝ), ∑ i, w i * (Y.map fun x => x i).sum = (Y.map fun x => w ⬝ᵥ x).sum := by
    intro Y
    induction Y with
    | nil => simp
    | cons y Y ih =>
      simp only [List.map_cons, List.sum_cons, mul_add, Finset.sum_add_distrib, ih]
      rfl
  have h2 : (X.map fun x => w ⬝ᵥ x) = X.map fun _ => c := List.map_congr_left h
  have h3 : w ⬝ᵥ avg X = (X.map fun x => w ⬝ᵥ x).sum / X.length := by
    rw [← h1, Finset.sum_div]
    refine Finset.sum_congr rfl fun i _ => ?_
    unfold avg
    ring
  rw [h3, h2, List.map_const', List.sum_replicate, nsmul_eq_mul]
  field_simp

theorem sum_sq_zero {α : Type} (X : List α) (f : α → ℝ) : (X.map fun x => f x ^ 2).sum = 0 ↔ ∀ x ∈ X, f x = 0 := by
  induction X with
  | nil => simp
  | cons a X ih =>
    have h0 : 0 ≤ (X.map fun x => f x ^ 2).sum := List.sum_nonneg fun a ha => by
      obtain ⟨x, _, rfl⟩ := List.mem_map.1 ha
      exact sq_nonneg _
    simp only [List.map_cons, List.sum_cons, List.mem_cons, forall_eq_or_imp, ← ih]
    constructor
    · intro h
      have h1 := sq_nonneg (f a)
      refine ⟨?_, by linarith⟩
      have : f a ^ 2 = 0 := by linarith
      exact pow_eq_zero_iff (two_ne_zero) |>.1 this
    · rintro ⟨h1, h2⟩
      rw [h1, h2]; norm_num

theorem cmat_quad_zero (X : List (Fin d → ℝ)) (hX : X ≠ []) (w : Fin d → ℝ) :
    w ⬝ᵥ cmat X *ᵥ w = 0 ↔ ∃ c, ∀ x ∈ X, w ⬝ᵥ x = c := by
  have hn : (X.length : ℝ) ≠ 0 := by simpa using hX
  rw [cmat_quad, div_eq_zero_iff, or_iff_left hn, sum_sq_zero]
  constructor
  · intro h
    refine ⟨w ⬝ᵥ avg X, fun x hx => ?_⟩
    have := h x hx
    rw [dotProduct_sub] at this
    linarith
  · rintro ⟨c, hc⟩ x hx
    rw [dotProduct_sub, avg_const X hX w c hc, hc x hx, sub_self]

theorem cmat_singular (X : List (Fin d → ℝ)) (hX : X ≠ []) : (cmat X).det = 0 ↔ Degenerate X := by
  rw [← exists_mulVec_eq_zero_iff]
  unfold Degenerate
  refine exists_congr fun w => and_congr_right fun _ => ?_
  rw [← cmat_quad_zero X hX]
  have := (cmat_posSemidef X).dotProduct_mulVec_zero_iff w
  rw [star_trivial] at this
  exact this.symm

theorem cmat_diag_zero (X : List (Fin d → ℝ)) (hX : X ≠ []) (i : Fin d) : cmat X i i = 0 ↔ ∃ c, ∀ x ∈ X, x i = c := by
  have := cmat_quad_zero X hX (Pi.single i 1)
  simpa using this

theorem cmat_det_nonneg (X : List (Fin d → ℝ)) : 0 ≤ (cmat X).det := (cmat_posSemidef X).det_nonneg

theorem constant_degenerate (X : List (Fin d → ℝ)) (h : ConstantColumn X) : Degenerate X := by
  obtain ⟨i, c, h⟩ := h
  refine ⟨Pi.single i 1, ?_, c, ?_⟩
  · intro h0
    have := congrFun h0 i
    simp at this
  · intro x hx
    simpa using h x hx

/-! ### Likelihoods -/

theorem sum_map_sub {α : Type} (X : List α) (c : ℝ) (f : α → ℝ) :
    (X.map fun x => c - f x).sum = X.length * c - (X.map f).sum := by
  induction X with
  | nil => simp
  | cons a X ih => simp only [List.map_cons, List.sum_cons, List.length_cons, ih]; push_cast; ring

theorem trace_vec (M : Matrix (Fin d) (Fin d) ℝ) (r : Fin d → ℝ) : (M * vecMulVec r r).trace = r ⬝ᵥ M *ᵥ r := by
  rw [mul_vecMulVec, trace_vecMulVec, dotProduct_comm]

theorem cmat_trace (X : List (Fin d → ℝ)) (M : Matrix (Fin d) (Fin d) ℝ) :
    (M * cmat X).trace = (X.map fun x => (x - avg X) ⬝ᵥ M *ᵥ (x - avg X)).sum / X.length := by
  have := cmat_lin X { toFun := fun N => (M * N).trace
                       map_add' := fun N N' => by rw [Matrix.mul_add, trace_add]
                       map_smul' := fun c N => by rw [Matrix.mul_smul, trace_smul]; rfl }
  simp only [LinearMap.coe_mk, AddHom.coe_mk, trace_vec] at this
  exact this

theorem logLik_eq (X : List (Fin d → ℝ)) (hX : X ≠ []) (A : Matrix (Fin d) (Fin k) ℝ) (σ : Fin d → ℝ) :
    logLik X A σ = -(d : ℝ) / 2 * Real.log (2 * Real.pi) - nll (cmat X) A σ / 2 := by
  have hn : (X.length : ℝ) ≠ 0 := by simpa using hX
  unfold logLik nll logDensity
  rw [cmat_trace, sum_map_sub]
  have : ∀ Y : List (Fin d → ℝ), (Y.map fun x => (x - avg X) ⬝ᵥ (A * Aᵀ + diagonal σ)⁻¹ *ᵥ (x - avg X) / 2).sum =
      (Y.map fun x => (x - avg X) ⬝ᵥ (A * Aᵀ + diagonal σ)⁻¹ *ᵥ (x - avg X)).sum / 2 := by
    intro Y
    induction Y with
    | nil => simp
    | cons a Y ih => simp only [List.map_cons, List.sum_cons, ih]; ring
  rw [this]
  unfold mcov
  field_simp
  ring

theorem postVar_eq {A : Matrix (Fin d) (Fin k) ℝ} {σ : Fin d → ℝ} (hσ : ∀ i, 0 < σ i) :
    postVar A σ = 1 - pmean A σ * A := (pvar_eq hσ).symm

theorem postMean_eq {A : Matrix (Fin d) (Fin k) ℝ} {σ : Fin d → ℝ} (hσ : ∀ i, 0 < σ i) (r : Fin d → ℝ) :
    postMean A σ r = pmean A σ *ᵥ r := by
  have : postVar A σ * pinfo A σ = 1 := nonsing_inv_mul _ (pinfo_unit hσ)
  unfold postMean
  rw [Matrix.mul_assoc, ← pinfo_pmean hσ, ← Matrix.mul_assoc]
  rw [this, Matrix.one_mul]

theorem resid_mean (X : List (Fin d → ℝ)) (hX : X ≠ []) {A : Matrix (Fin d) (Fin k) ℝ} {σ : Fin d → ℝ} (hσ : ∀ i, 0 < σ i)
    (A' : Matrix (Fin d) (Fin k) ℝ) (i : Fin d) :
    resid (cmat X) (pmean A σ) (1 - pmean A σ * A) A' i i =
      (X.map fun x => (x i - avg X i - A' i ⬝ᵥ postMean A σ (x - avg X)) ^ 2 + A' i ⬝ᵥ postVar A σ *ᵥ A' i).sum / X.length := by
  have hn : (X.length : ℝ) ≠ 0 := by simpa using hX
  have h : resid (cmat X) (pmean A σ) (1 - pmean A σ * A) A' =
      (1 - A' * pmean A σ) * cmat X * (1 - A' * pmean A σ)ᵀ + A' * postVar A σ * A'ᵀ := by
    rw [postVar_eq hσ]
    generalize 1 - pmean A σ * A = V
    unfold resid emom
    rw [transpose_sub, transpose_one, transpose_mul, Matrix.sub_mul, Matrix.sub_mul, Matrix.mul_sub, Matrix.mul_sub,
      Matrix.mul_add, Matrix.add_mul]
    simp only [Matrix.one_mul, Matrix.mul_one, Matrix.mul_assoc]
    abel
  have hq : (A' * postVar A σ * A'ᵀ) i i = A' i ⬝ᵥ postVar A σ *ᵥ A' i := by
    rw [Matrix.mul_assoc, mul_apply]
    simp only [dotProduct, mulVec, mul_apply, transpose_apply]
  rw [h, Matrix.add_apply, hq, cmat_sandwich]
  have h2 : ∀ x, ((1 - A' * pmean A σ) *ᵥ (x - avg X)) i = x i - avg X i - A' i ⬝ᵥ postMean A σ (x - avg X) := by
    intro x
    rw [postMean_eq hσ, Matrix.sub_mulVec, Matrix.one_mulVec, ← mulVec_mulVec]
    rfl
  simp only [h2, ← pow_two]
  have : ∀ (Y : List (Fin d → ℝ)) (f : (Fin d → ℝ) → ℝ) (c : ℝ), (Y.map fun x => f x + c).sum = (Y.map f).sum + Y.length * c := by
    intro Y f c
    induction Y with
    | nil => simp
    | cons a Y ih => simp only [List.map_cons, List.sum_cons, List.length_cons, ih]; push_cast; ring
  rw [this]
  field_simp

theorem list_sum_comm {α ι : Type} [Fintype ι] (X : List α) (f : α → ι → ℝ) :
    (X.map fun x => ∑ i, f x i).sum = ∑ i, (X.map fun x => f x i).sum := by
  induction X with
  | nil => simp
  | cons a X ih => simp only [List.map_cons, List.sum_cons, ih, Finset.sum_add_distrib]

theorem expectedLik_eq (X : List (Fin d → ℝ)) (hX : X ≠ []) {A : Matrix (Fin d) (Fin k) ℝ} {σ : Fin d → ℝ}
    (hσ : ∀ i, 0 < σ i) (A' : Matrix (Fin d) (Fin k) ℝ) (σ' : Fin d → ℝ) :
    expectedLik X A σ A' σ' =
      - (∑ i, (Real.log (σ' i) + resid (cmat X) (pmean A σ) (1 - pmean A σ * A) A' i i / σ' i)) / 2 := by
  have hn : (X.length : ℝ) ≠ 0 := by simpa using hX
  unfold expectedLik
  rw [list_sum_comm, Finset.sum_div, ← Finset.sum_neg_distrib, Finset.sum_div]
  refine Finset.sum_congr rfl fun i _ => ?_
  rw [resid_mean X hX hσ, sum_map_sub]
  have : ∀ (Y : List (Fin d → ℝ)) (f : (Fin d → ℝ) → ℝ) (c : ℝ), (Y.map fun x => f x / c).sum = (Y.map f).sum / c := by
    intro Y f c
    induction Y with
    | nil => simp
    | cons a Y ih => simp only [List.map_cons, List.sum_cons, ih, add_div]
  rw [this]
  field_simp
  ring

/-- The formulas of the EM step. -/
theorem em_formula (X : List (Fin d → ℝ)) (hX : X ≠ []) (hd : ∀ i, 0 < cmat X i i) (A : Matrix (Fin d) (Fin k) ℝ)
    (σ : Fin d → ℝ) (hσ : ∀ i, 0 < σ i) :
    EmStep X A σ (newA (cmat X) (pmean A σ) (1 - pmean A σ * A))
      (fun i => resid (cmat X) (pmean A σ) (1 - pmean A σ * A) (newA (cmat X) (pmean A σ) (1 - pmean A σ * A)) i i) := by
  have hC := cmat_posSemidef X
  have hV := pvar_posDef (A := A) hσ
  generalize hG : pmean A σ = G at *
  generalize hVV : 1 - G * A = V at *
  refine ⟨fun i => resid_pos hC hV hd _ i, ?_⟩
  intro A'' σ'' h'' hne
  rw [expectedLik_eq X hX hσ, expectedLik_eq X hX hσ, hG, hVV]
  have hle : ∀ i, Real.log (resid (cmat X) G V (newA (cmat X) G V) i i) +
      resid (cmat X) G V (newA (cmat X) G V) i i / resid (cmat X) G V (newA (cmat X) G V) i i ≤
      Real.log (σ'' i) + resid (cmat X) G V A'' i i / σ'' i := by
    intro i
    have hs := resid_pos (G := G) hC hV hd (newA (cmat X) G V) i
    have hle := resid_diag_le (G := G) hC hV A'' i
    rw [div_self hs.ne']
    have h1 := log_le (resid (cmat X) G V (newA (cmat X) G V) i i / σ'' i) (div_pos hs (h'' i))
    rw [Real.log_div hs.ne' (h'' i).ne'] at h1
    have h2 := div_le_div_of_nonneg_right hle (h'' i).le
    linarith
  suffices ∃ i, Real.log (resid (cmat X) G V (newA (cmat X) G V) i i) +
      resid (cmat X) G V (newA (cmat X) G V) i i / resid (cmat X) G V (newA (cmat X) G V) i i <
      Real.log (σ'' i) + resid (cmat X) G V A'' i i / σ'' i by
    obtain ⟨i, hi⟩ := this
    have := Finset.sum_lt_sum (fun i (_ : i ∈ Finset.univ) => hle i) ⟨i, Finset.mem_univ i, hi⟩
    linarith
  by_cases hA : A'' = newA (cmat X) G V
  · have : ∃ i, σ'' i ≠ resid (cmat X) G V (newA (cmat X) G V) i i := by
      by_contra hcon
      push Not at hcon
      exact hne (by rw [hA, funext hcon])
    obtain ⟨i, hi⟩ := this
    refine ⟨i, ?_⟩
    have hs := resid_pos (G := G) hC hV hd (newA (cmat X) G V) i
    rw [div_self hs.ne', hA]
    have h1 := Real.log_lt_sub_one_of_pos (div_pos hs (h'' i)) (by rw [Ne, div_eq_one_iff_eq (h'' i).ne']; exact fun h => hi h.symm)
    rw [Real.log_div hs.ne' (h'' i).ne'] at h1
    linarith
  · have : ∃ i, (A'' - newA (cmat X) G V) i ≠ 0 := by
      by_contra hcon
      push Not at hcon
      exact hA (sub_eq_zero.1 (funext hcon))
    obtain ⟨i, hi⟩ := this
    refine ⟨i, ?_⟩
    have hs := resid_pos (G := G) hC hV hd (newA (cmat X) G V) i
    rw [div_self hs.ne']
    have h1 := log_le (resid (cmat X) G V (newA (cmat X) G V) i i / σ'' i) (div_pos hs (h'' i))
    rw [Real.log_div hs.ne' (h'' i).ne'] at h1
    have hlt : resid (cmat X) G V (newA (cmat X) G V) i i < resid (cmat X) G V A'' i i := by
      rw [resid_split hC hV A'', Matrix.add_apply]
      have hp := (emom_posDef (G := G) hC hV).dotProduct_mulVec_pos hi
      rw [star_trivial] at hp
      have hq : ((A'' - newA (cmat X) G V) * emom (cmat X) G V * (A'' - newA (cmat X) G V)ᵀ) i i =
          (A'' - newA (cmat X) G V) i ⬝ᵥ emom (cmat X) G V *ᵥ (A'' - newA (cmat X) G V) i := by
        rw [Matrix.mul_assoc, mul_apply]
        simp only [dotProduct, mulVec, mul_apply, transpose_apply]
      rw [hq]
      linarith
    have h2 := div_lt_div_of_pos_right hlt (h'' i)
    linarith

/-- The mean of the factors minimises the energy. -/
theorem energy_split (μ : Fin d → ℝ) (A : Matrix (Fin d) (Fin k) ℝ) (σ : Fin d → ℝ) (hσ : ∀ i, 0 < σ i) (x : Fin d → ℝ)
    (y : Fin k → ℝ) :
    energy μ A σ x y = energy μ A σ x (pmean A σ *ᵥ (x - μ)) +
      ((y - pmean A σ *ᵥ (x - μ)) ⬝ᵥ pinfo A σ *ᵥ (y - pmean A σ *ᵥ (x - μ))) / 2 := by
  have he : ∀ y, energy μ A σ x y = (y ⬝ᵥ y + (x - μ - A *ᵥ y) ⬝ᵥ diagonal σ⁻¹ *ᵥ (x - μ - A *ᵥ y)) / 2 := by
    intro y
    unfold energy
    rw [← Finset.sum_div, dotProduct, dotProduct, add_div]
    congr 1
    · simp only [pow_two]
    · rw [Finset.sum_div]
      refine Finset.sum_congr rfl fun i _ => ?_
      rw [mulVec_diagonal]
      have : (A *ᵥ y) i = A i ⬝ᵥ y := rfl
      simp only [Pi.sub_apply, this, Pi.inv_apply]
      have := (hσ i).ne'
      field_simp
  have hW : ∀ u, u ⬝ᵥ pinfo A σ *ᵥ u = u ⬝ᵥ u + (A *ᵥ u) ⬝ᵥ diagonal σ⁻¹ *ᵥ (A *ᵥ u) := by
    intro u
    unfold pinfo
    rw [Matrix.add_mulVec, Matrix.one_mulVec, dotProduct_add]
    congr 1
    rw [← mulVec_mulVec, ← mulVec_mulVec, dotProduct_mulVec, vecMul_transpose]
  have hG : pinfo A σ *ᵥ (pmean A σ *ᵥ (x - μ)) = Aᵀ *ᵥ (diagonal σ⁻¹ *ᵥ (x - μ)) := by
    rw [mulVec_mulVec, pinfo_pmean hσ, mulVec_mulVec]
  generalize pmean A σ *ᵥ (x - μ) = z at *
  generalize x - μ = r at *
  obtain ⟨u, rfl⟩ : ∃ u, y = z + u := ⟨y - z, by simp⟩
  rw [add_sub_cancel_left, he, he, hW]
  have hc : u ⬝ᵥ (pinfo A σ *ᵥ z) = u ⬝ᵥ z + (A *ᵥ u) ⬝ᵥ diagonal σ⁻¹ *ᵥ (A *ᵥ z) := by
    unfold pinfo
    rw [Matrix.add_mulVec, Matrix.one_mulVec, dotProduct_add]
    congr 1
    rw [← mulVec_mulVec, ← mulVec_mulVec, dotProduct_mulVec, vecMul_transpose]
  rw [hG, dotProduct_mulVec, vecMul_transpose] at hc
  have hsym : ∀ a b : Fin d → ℝ, a ⬝ᵥ diagonal σ⁻¹ *ᵥ b = b ⬝ᵥ diagonal σ⁻¹ *ᵥ a := by
    intro a b
    simp only [dotProduct, mulVec_diagonal]
    exact Finset.sum_congr rfl fun i _ => by ring
  have hsplit : r - A *ᵥ (z + u) = (r - A *ᵥ z) - A *ᵥ u := by rw [Matrix.mulVec_add]; abel
  rw [hsplit]
  generalize hw : r - A *ᵥ z = w
  have hz : r = w + A *ᵥ z := by rw [← hw]; abel
  rw [hz, Matrix.mulVec_add, dotProduct_add] at hc
  rw [Matrix.mulVec_sub, dotProduct_sub, sub_dotProduct, sub_dotProduct, add_dotProduct, dotProduct_add, dotProduct_add,
    hsym w (A *ᵥ u), dotProduct_comm z u]
  linarith

end

end Mdp.Factor
