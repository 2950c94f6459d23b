import Mathlib.Data.Matrix.Mul
import Mathlib.Data.List.Sort
import Mathlib.LinearAlgebra.Matrix.Notation
import Mathlib.LinearAlgebra.Matrix.NonsingularInverse
import Mathlib.Analysis.SpecialFunctions.Trigonometric.Deriv
import Mathlib.Analysis.Calculus.Deriv.Comp
import Mathlib.Analysis.Calculus.DerivativeTest
import Mathlib.Analysis.SpecialFunctions.Trigonometric.Basic

/-!
# Model of `QuadraticForm.get_invariances` (mdp/utils/quad_forms.py 133-158), C281

Numbers are real. The routines `qr` and `eig` and sorting are parameters.
-/

namespace Mdp.QuadInv

open Matrix

variable {m : Nat}

/-- The numerical library: `qr`, `eig` (eigenvalues with the columns of the matrix of eigenvectors), `argsort`. -/
structure Env (m : Nat) where
  qr : Matrix (Fin (m + 1)) (Fin (m + 1)) ℝ → Matrix (Fin (m + 1)) (Fin (m + 1)) ℝ × Matrix (Fin (m + 1)) (Fin (m + 1)) ℝ
  eig : Matrix (Fin m) (Fin m) ℝ → List (ℝ × (Fin m → ℝ))
  sortBy : (ℝ × (Fin m → ℝ) → ℝ) → List (ℝ × (Fin m → ℝ)) → List (ℝ × (Fin m → ℝ))

/-- `_eig_sort` (53-59). -/
def Env.eigSort (E : Env m) (x : Matrix (Fin m) (Fin m) ℝ) : List (ℝ × (Fin m → ℝ)) := E.sortBy (fun p => p.1) (E.eig x)

/-- `P` (144-145): the unit matrix with the first column replaced. -/
def frame (x : Fin (m + 1) → ℝ) : Matrix (Fin (m + 1)) (Fin (m + 1)) ℝ := fun i j => if j = 0 then x i else if i = j then 1 else 0

/-- `B = Q[:, 1:]` (146-148). -/
def Env.tangent (E : Env m) (x : Fin (m + 1) → ℝ) : Matrix (Fin (m + 1)) (Fin m) ℝ := fun i j => (E.qr (frame x)).1 i j.succ

/-- `get_invariances` (133-158); `norm2(xstar)` is the square root of the sum of squares. The result is the list of the pairs
of an entry of `nu` and a column of `w`. -/
noncomputable def Env.invariances (E : Env m) (H : Matrix (Fin (m + 1)) (Fin (m + 1)) ℝ) (f x : Fin (m + 1) → ℝ) :
    List (ℝ × (Fin (m + 1) → ℝ)) :=
  let r := √(x ⬝ᵥ x)
  let B := E.tangent x
  let Ht := Bᵀ * (H * B)
  let l := (E.eigSort Ht).map fun p => (p.1 - ((H *ᵥ x) ⬝ᵥ x + f ⬝ᵥ x) / (r * r), p.2)
  (E.sortBy (fun p => |p.1|) l).map fun p => (p.1, B *ᵥ p.2)

/-! ## Specification -/

/-- What the documentation of the numerical library promises. -/
structure Exact (E : Env m) : Prop where
  qr_mul : ∀ P, (E.qr P).1 * (E.qr P).2 = P
  qr_orthogonal : ∀ P, (E.qr P).1ᵀ * (E.qr P).1 = 1
  qr_triangular : ∀ P i j, j < i → (E.qr P).2 i j = 0
  eig_length : ∀ A, Aᵀ = A → (E.eig A).length = m
  eig_eigen : ∀ A, Aᵀ = A → ∀ p ∈ E.eig A, A *ᵥ p.2 = p.1 • p.2
  eig_unit : ∀ A, Aᵀ = A → ∀ p ∈ E.eig A, p.2 ⬝ᵥ p.2 = 1
  eig_orthogonal : ∀ A, Aᵀ = A → (E.eig A).Pairwise fun p q => p.2 ⬝ᵥ q.2 = 0
  perm : ∀ k l, (E.sortBy k l).Perm l
  sorted : ∀ k l, (E.sortBy k l).Pairwise fun p q => k p ≤ k q

/-- The quadratic form. -/
noncomputable def form {n : Nat} (H : Matrix (Fin n) (Fin n) ℝ) (f : Fin n → ℝ) (c : ℝ) (x : Fin n → ℝ) : ℝ :=
  1 / 2 * (x ⬝ᵥ H *ᵥ x) + f ⬝ᵥ x + c

/-- The curve on the sphere through `x` in the direction `w`, by length. -/
noncomputable def circle {n : Nat} (x w : Fin n → ℝ) (t : ℝ) : Fin n → ℝ :=
  Real.cos (t / √(x ⬝ᵥ x)) • x + (√(x ⬝ᵥ x) * Real.sin (t / √(x ⬝ᵥ x))) • w

/-- Second derivative of the form along that curve. -/
noncomputable def curvature {n : Nat} (H : Matrix (Fin n) (Fin n) ℝ) (f : Fin n → ℝ) (c : ℝ) (x w : Fin n → ℝ) : ℝ :=
  deriv (deriv fun t => form H f c (circle x w t)) 0

/-! ## Proofs -/

theorem dot_pos {n : Nat} {x : Fin n → ℝ} (hx : x ≠ 0) : 0 < x ⬝ᵥ x := by
  obtain ⟨i, hi⟩ := Function.ne_iff.1 hx
  exact Finset.sum_pos' (fun j _ => mul_self_nonneg _) ⟨i, Finset.mem_univ _, mul_self_pos.2 hi⟩

theorem symm_dot {n : Nat} {H : Matrix (Fin n) (Fin n) ℝ} (hH : Hᵀ = H) (a b : Fin n → ℝ) : a ⬝ᵥ H *ᵥ b = b ⬝ᵥ H *ᵥ a := by
  rw [dotProduct_mulVec, ← mulVec_transpose, hH, dotProduct_comm]

theorem form_line {n : Nat} {H : Matrix (Fin n) (Fin n) ℝ} (hH : Hᵀ = H) (f : Fin n → ℝ) (c a b : ℝ) (x w : Fin n → ℝ) :
    form H f c (a • x + b • w) = 1 / 2 * (a * a * (x ⬝ᵥ H *ᵥ x) + 2 * a * b * (x ⬝ᵥ H *ᵥ w) + b * b * (w ⬝ᵥ H *ᵥ w)) + (a * (f ⬝ᵥ x) + b * (f ⬝ᵥ w)) + c := by
  have e := symm_dot hH x w
  simp only [form, mulVec_add, mulVec_smul, dotProduct_add, add_dotProduct, dotProduct_smul, smul_dotProduct, smul_eq_mul]
  rw [← e]
  ring

/-- The curve stays on the sphere. -/
theorem circle_norm {n : Nat} {x w : Fin n → ℝ} (hw : w ⬝ᵥ w = 1) (hxw : x ⬝ᵥ w = 0) (t : ℝ) : circle x w t ⬝ᵥ circle x w t = x ⬝ᵥ x := by
  have hxx : 0 ≤ x ⬝ᵥ x := Finset.sum_nonneg fun j _ => mul_self_nonneg _
  have h2 : w ⬝ᵥ x = 0 := by rw [dotProduct_comm, hxw]
  simp only [circle, dotProduct_add, add_dotProduct, dotProduct_smul, smul_dotProduct, smul_eq_mul, hw, hxw, h2]
  generalize t / √(x ⬝ᵥ x) = s
  have := Real.mul_self_sqrt hxx
  have h3 := Real.sin_sq_add_cos_sq s
  calc _ = Real.cos s ^ 2 * (x ⬝ᵥ x) + Real.sin s ^ 2 * (√(x ⬝ᵥ x) * √(x ⬝ᵥ x)) := by ring
    _ = x ⬝ᵥ x := by rw [this, ← add_mul, add_comm, h3, one_mul]

theorem curvature_eq {n : Nat} {H : Matrix (Fin n) (Fin n) ℝ} (hH : Hᵀ = H) (f : Fin n → ℝ) (c : ℝ) {x : Fin n → ℝ} (hx : x ≠ 0) (w : Fin n → ℝ) :
    curvature H f c x w = w ⬝ᵥ H *ᵥ w - (x ⬝ᵥ H *ᵥ x + f ⬝ᵥ x) / (x ⬝ᵥ x) := by
  have hp := dot_pos hx
  have hr : √(x ⬝ᵥ x) ≠ 0 := (Real.sqrt_pos.2 hp).ne'
  have hrr := Real.mul_self_sqrt hp.le
  unfold curvature circle
  simp only [form_line hH]
  generalize √(x ⬝ᵥ x) = r at hr hrr ⊢
  rw [← hrr]
  generalize x ⬝ᵥ H *ᵥ x = a
  generalize x ⬝ᵥ H *ᵥ w = b
  generalize w ⬝ᵥ H *ᵥ w = d
  generalize f ⬝ᵥ x = e
  generalize f ⬝ᵥ w = k
  have hc : ∀ t : ℝ, HasDerivAt (fun t => Real.cos (t / r)) (-Real.sin (t / r) * (1 / r)) t := fun t => ((hasDerivAt_id t).div_const r).cos
  have hs : ∀ t : ℝ, HasDerivAt (fun t => Real.sin (t / r)) (Real.cos (t / r) * (1 / r)) t := fun t => ((hasDerivAt_id t).div_const r).sin
  have h1 : (deriv fun t => 1 / 2 * (Real.cos (t / r) * Real.cos (t / r) * a + 2 * Real.cos (t / r) * (r * Real.sin (t / r)) * b + r * Real.sin (t / r) * (r * Real.sin (t / r)) * d) +
      (Real.cos (t / r) * e + r * Real.sin (t / r) * k) + c) =
      fun t => (-(Real.sin (t / r) * Real.cos (t / r)) * a / r + (Real.cos (t / r) * Real.cos (t / r) - Real.sin (t / r) * Real.sin (t / r)) * b + r * (Real.sin (t / r) * Real.cos (t / r)) * d) +
        (-Real.sin (t / r) * e / r + Real.cos (t / r) * k) := by
    funext t
    refine HasDerivAt.deriv ?_
    have := (((((((hc t).mul (hc t)).mul_const a).add ((((hc t).const_mul 2).mul ((hs t).const_mul r)).mul_const b)).add
      ((((hs t).const_mul r).mul ((hs t).const_mul r)).mul_const d)).const_mul (1 / 2)).add (((hc t).mul_const e).add (((hs t).const_mul r).mul_const k))).add_const c
    refine this.congr_deriv ?_
    field_simp
    ring
  rw [h1]
  refine HasDerivAt.deriv ?_
  have := ((((((hs 0).mul (hc 0)).neg.mul_const a).div_const r).add ((((hc 0).mul (hc 0)).sub ((hs 0).mul (hs 0))).mul_const b)).add
    ((((hs 0).mul (hc 0)).const_mul r).mul_const d)).add ((((hs 0).neg.mul_const e).div_const r).add ((hc 0).mul_const k))
  refine this.congr_deriv ?_
  simp only [zero_div, Real.sin_zero, Real.cos_zero]
  field_simp
  ring

section
variable {E : Env m} (hE : Exact E)
include hE

/-- The columns of `B` are orthonormal and orthogonal to `xstar`. -/
theorem tangent_spec {x : Fin (m + 1) → ℝ} (hx : x ≠ 0) : (E.tangent x)ᵀ * E.tangent x = 1 ∧ ∀ u, x ⬝ᵥ E.tangent x *ᵥ u = 0 := by
  have ho := hE.qr_orthogonal (frame x)
  have hcol : ∀ i, x i = (E.qr (frame x)).1 i 0 * (E.qr (frame x)).2 0 0 := by
    intro i
    have := congrFun (congrFun (hE.qr_mul (frame x)) i) 0
    rw [mul_apply, Fin.sum_univ_succ, Finset.sum_eq_zero fun j _ => by rw [hE.qr_triangular _ _ _ (Fin.succ_pos j), mul_zero], add_zero] at this
    rw [this]; simp [frame]
  constructor
  · ext i j
    have := congrFun (congrFun ho i.succ) j.succ
    rw [mul_apply] at this ⊢
    simp only [transpose_apply, one_apply, Fin.succ_inj] at this ⊢
    exact this
  · intro u
    rw [dotProduct_mulVec, show x ᵥ* E.tangent x = 0 from ?_, zero_dotProduct]
    ext j
    have h := congrFun (congrFun ho 0) j.succ
    rw [mul_apply, one_apply_ne (Fin.succ_ne_zero j).symm] at h
    simp only [transpose_apply] at h
    simp only [vecMul, dotProduct, Pi.zero_apply, Env.tangent]
    rw [Finset.sum_congr rfl fun i _ => by rw [hcol i]]
    calc _ = (E.qr (frame x)).2 0 0 * ∑ i, (E.qr (frame x)).1 i 0 * (E.qr (frame x)).1 i j.succ := by
            rw [Finset.mul_sum]; exact Finset.sum_congr rfl fun i _ => by ring
      _ = 0 := by rw [h, mul_zero]

theorem isometry {x : Fin (m + 1) → ℝ} (hx : x ≠ 0) (u v : Fin m → ℝ) : (E.tangent x *ᵥ u) ⬝ᵥ (E.tangent x *ᵥ v) = u ⬝ᵥ v := by
  rw [dotProduct_mulVec, vecMul_mulVec, (tangent_spec hE hx).1, vecMul_one]

variable {H : Matrix (Fin (m + 1)) (Fin (m + 1)) ℝ} (hH : Hᵀ = H)
include hH

theorem restricted_symm (x : Fin (m + 1) → ℝ) : ((E.tangent x)ᵀ * (H * E.tangent x))ᵀ = (E.tangent x)ᵀ * (H * E.tangent x) := by
  rw [transpose_mul, transpose_mul, transpose_transpose, hH, Matrix.mul_assoc]

/-- **C281**: there are as many invariances as dimensions of the sphere; the directions are orthogonal to `xstar`, of length one and orthogonal to
one another; `nu` are the second derivatives of the quadratic form along the circles of the sphere in these directions, in the order of their
absolute value. -/
theorem invariances_spec (f : Fin (m + 1) → ℝ) (c : ℝ) {x : Fin (m + 1) → ℝ} (hx : x ≠ 0) :
    (E.invariances H f x).length = m ∧
    (∀ p ∈ E.invariances H f x, x ⬝ᵥ p.2 = 0 ∧ p.2 ⬝ᵥ p.2 = 1 ∧ p.1 = curvature H f c x p.2) ∧
    (E.invariances H f x).Pairwise (fun p q => p.2 ⬝ᵥ q.2 = 0) ∧
    (E.invariances H f x).Pairwise (fun p q => |p.1| ≤ |q.1|) := by
  have hs := restricted_symm hE hH x
  have hmem : ∀ p ∈ E.invariances H f x, ∃ q ∈ E.eig ((E.tangent x)ᵀ * (H * E.tangent x)), p = (q.1 - ((H *ᵥ x) ⬝ᵥ x + f ⬝ᵥ x) / (√(x ⬝ᵥ x) * √(x ⬝ᵥ x)), E.tangent x *ᵥ q.2) := by
    intro p hp
    simp only [Env.invariances, List.mem_map] at hp
    obtain ⟨a, ha, rfl⟩ := hp
    obtain ⟨q, hq, rfl⟩ := List.mem_map.1 ((hE.perm _ _).mem_iff.1 ha)
    exact ⟨q, (hE.perm _ _).mem_iff.1 hq, rfl⟩
  refine ⟨?_, ?_, ?_, ?_⟩
  · simp only [Env.invariances, List.length_map, (hE.perm _ _).length_eq, Env.eigSort]
    exact hE.eig_length _ hs
  · intro p hp
    obtain ⟨q, hq, rfl⟩ := hmem p hp
    have hu := hE.eig_unit _ hs q hq
    refine ⟨(tangent_spec hE hx).2 _, by rw [isometry hE hx]; exact hu, ?_⟩
    rw [curvature_eq hH f c hx, Real.mul_self_sqrt (dot_pos hx).le, dotProduct_comm (H *ᵥ x) x]
    refine congrArg (· - (x ⬝ᵥ H *ᵥ x + f ⬝ᵥ x) / (x ⬝ᵥ x)) (?_ : q.1 = (E.tangent x *ᵥ q.2) ⬝ᵥ H *ᵥ E.tangent x *ᵥ q.2)
    have he := congrArg (q.2 ⬝ᵥ ·) (hE.eig_eigen _ hs q hq)
    simp only [dotProduct_smul, hu, smul_eq_mul, mul_one] at he
    rw [← he, ← mulVec_mulVec, ← mulVec_mulVec, mulVec_transpose, dotProduct_comm, ← dotProduct_mulVec]
    exact dotProduct_comm _ _
  · simp only [Env.invariances, List.pairwise_map]
    have : ∀ l : List (ℝ × (Fin m → ℝ)), (l.Pairwise fun p q => p.2 ⬝ᵥ q.2 = 0) → ∀ l' : List (ℝ × (Fin m → ℝ)), l'.Perm l → l'.Pairwise fun p q => p.2 ⬝ᵥ q.2 = 0 :=
      fun l hl l' hp => (hp.pairwise_iff fun {a b} h => by rw [dotProduct_comm]; exact h).2 hl
    refine List.Pairwise.imp (fun h => by rw [isometry hE hx]; exact h) (this _ ?_ _ (hE.perm _ _))
    rw [List.pairwise_map]
    exact this _ (hE.eig_orthogonal _ hs) _ (hE.perm _ _)
  · simp only [Env.invariances, List.pairwise_map]
    exact hE.sorted (fun p => |p.1|) _

/-- Different directions do not interact. -/
theorem invariances_conjugate (f : Fin (m + 1) → ℝ) {x : Fin (m + 1) → ℝ} : (E.invariances H f x).Pairwise fun p q => p.2 ⬝ᵥ H *ᵥ q.2 = 0 := by
  have hs := restricted_symm hE hH x
  simp only [Env.invariances, List.pairwise_map]
  have key : ∀ u v : Fin m → ℝ, (E.tangent x *ᵥ u) ⬝ᵥ H *ᵥ E.tangent x *ᵥ v = u ⬝ᵥ ((E.tangent x)ᵀ * (H * E.tangent x)) *ᵥ v := by
    intro u v
    rw [← mulVec_mulVec, ← mulVec_mulVec, mulVec_transpose, dotProduct_comm u, ← dotProduct_mulVec]
    exact dotProduct_comm _ _
  have : ∀ l : List (ℝ × (Fin m → ℝ)), (l.Pairwise fun p q => p.2 ⬝ᵥ ((E.tangent x)ᵀ * (H * E.tangent x)) *ᵥ q.2 = 0) →
      ∀ l' : List (ℝ × (Fin m → ℝ)), l'.Perm l → l'.Pairwise fun p q => p.2 ⬝ᵥ ((E.tangent x)ᵀ * (H * E.tangent x)) *ᵥ q.2 = 0 :=
    fun l hl l' hp => (hp.pairwise_iff fun {a b} h => by rw [symm_dot hs]; exact h).2 hl
  refine List.Pairwise.imp (fun h => by rw [key]; exact h) (this _ ?_ _ (hE.perm _ _))
  rw [List.pairwise_map]
  refine this _ ?_ _ (hE.perm _ _)
  refine (hE.eig_orthogonal _ hs).imp_of_mem fun {a b} ha hb h => ?_
  rw [hE.eig_eigen _ hs b hb, dotProduct_smul, h, smul_zero]

omit hE hH in
theorem quad_sum {n : Nat} {H : Matrix (Fin n) (Fin n) ℝ} (hH : Hᵀ = H) (a : ℝ × (Fin n → ℝ) → ℝ) (l : List (ℝ × (Fin n → ℝ)))
    (hl : l.Pairwise fun p q => p.2 ⬝ᵥ H *ᵥ q.2 = 0) :
    (l.map fun p => a p • p.2).sum ⬝ᵥ H *ᵥ (l.map fun p => a p • p.2).sum = (l.map fun p => a p ^ 2 * (p.2 ⬝ᵥ H *ᵥ p.2)).sum := by
  induction l with
  | nil => simp
  | cons p l ih =>
    rw [List.pairwise_cons] at hl
    have h0 : p.2 ⬝ᵥ H *ᵥ (l.map fun p => a p • p.2).sum = 0 := by
      have : ∀ l' : List (ℝ × (Fin n → ℝ)), (∀ q ∈ l', p.2 ⬝ᵥ H *ᵥ q.2 = 0) → p.2 ⬝ᵥ H *ᵥ (l'.map fun p => a p • p.2).sum = 0 := by
        intro l' h
        induction l' with
        | nil => simp
        | cons q l' ih =>
          rw [List.map_cons, List.sum_cons, mulVec_add, dotProduct_add, mulVec_smul, dotProduct_smul, h q (by simp), smul_zero, zero_add]
          exact ih fun q hq => h q (by simp [hq])
      exact this l hl.1
    simp only [List.map_cons, List.sum_cons, mulVec_add, dotProduct_add, add_dotProduct, mulVec_smul, dotProduct_smul, smul_dotProduct, smul_eq_mul]
    rw [ih hl.2, symm_dot hH (l.map fun p => a p • p.2).sum p.2, h0]
    ring

/-- The directions span all directions on the sphere. -/
theorem invariances_span (f : Fin (m + 1) → ℝ) {x : Fin (m + 1) → ℝ} (hx : x ≠ 0) {v : Fin (m + 1) → ℝ} (hv : x ⬝ᵥ v = 0) :
    v = ((E.invariances H f x).map fun p => (v ⬝ᵥ p.2) • p.2).sum := by
  obtain ⟨h1, h2, h3, -⟩ := invariances_spec hE hH f 0 hx
  generalize E.invariances H f x = l at h1 h2 h3
  have hp := dot_pos hx
  obtain ⟨G, g0, g1⟩ : ∃ G : Matrix (Fin (m + 1)) (Fin (m + 1)) ℝ, (∀ i, G i 0 = (√(x ⬝ᵥ x))⁻¹ * x i) ∧ ∀ i (k : Fin m), G i k.succ = (l.get (Fin.cast h1.symm k)).2 i :=
    ⟨Matrix.of fun i j => Fin.cases ((√(x ⬝ᵥ x))⁻¹ * x i) (fun k : Fin m => (l.get (Fin.cast h1.symm k)).2 i) j, fun _ => rfl, fun _ _ => rfl⟩
  have hG : Gᵀ * G = 1 := by
    ext a b
    rw [mul_apply]
    simp only [transpose_apply]
    refine Fin.cases ?_ (fun k => ?_) a <;> refine Fin.cases ?_ (fun k' => ?_) b
    · simp only [g0, one_apply_eq]
      have : ∑ i, (√(x ⬝ᵥ x))⁻¹ * x i * ((√(x ⬝ᵥ x))⁻¹ * x i) = (√(x ⬝ᵥ x) * √(x ⬝ᵥ x))⁻¹ * (x ⬝ᵥ x) := by
        rw [dotProduct, Finset.mul_sum]
        refine Finset.sum_congr rfl fun i _ => ?_
        rw [mul_inv]; ring
      rw [this, Real.mul_self_sqrt hp.le, inv_mul_cancel₀ hp.ne']
    · simp only [g0, g1]
      rw [one_apply_ne (Fin.succ_ne_zero k').symm, Finset.sum_congr rfl fun i _ => mul_assoc _ _ _, ← Finset.mul_sum]
      rw [show ∑ i, x i * (l.get (Fin.cast h1.symm k')).2 i = 0 from (h2 _ (List.get_mem l (Fin.cast h1.symm k'))).1, mul_zero]
    · simp only [g0, g1]
      rw [one_apply_ne (Fin.succ_ne_zero k), Finset.sum_congr rfl fun i _ => mul_comm _ _, Finset.sum_congr rfl fun i _ => mul_assoc _ _ _, ← Finset.mul_sum]
      rw [show ∑ i, x i * (l.get (Fin.cast h1.symm k)).2 i = 0 from (h2 _ (List.get_mem l (Fin.cast h1.symm k))).1, mul_zero]
    · simp only [g1, one_apply, Fin.succ_inj]
      split
      · rename_i e
        subst e
        exact (h2 _ (List.get_mem l (Fin.cast h1.symm k))).2.1
      · rename_i e
        rw [List.pairwise_iff_get] at h3
        rcases lt_or_gt_of_ne e with e | e
        · exact h3 (Fin.cast h1.symm k) (Fin.cast h1.symm k') e
        · have := h3 (Fin.cast h1.symm k') (Fin.cast h1.symm k) e
          rw [dotProduct_comm] at this
          exact this
  have hG' : G * Gᵀ = 1 := mul_eq_one_comm.1 hG
  have : v = (G * Gᵀ) *ᵥ v := by rw [hG', one_mulVec]
  rw [← mulVec_mulVec] at this
  conv_lhs => rw [this]
  ext i
  rw [mulVec, dotProduct, Fin.sum_univ_succ]
  have h0 : (Gᵀ *ᵥ v) 0 = 0 := by
    change ∑ i, G i 0 * v i = 0
    simp only [g0]
    rw [Finset.sum_congr rfl fun i _ => mul_assoc _ _ _, ← Finset.mul_sum, show ∑ i, x i * v i = 0 from hv, mul_zero]
  rw [h0, mul_zero, zero_add]
  rw [show (l.map fun p => (v ⬝ᵥ p.2) • p.2).sum = ∑ k, (v ⬝ᵥ (l.get (Fin.cast h1.symm k)).2) • (l.get (Fin.cast h1.symm k)).2 from ?_]
  · rw [Finset.sum_apply]
    refine Finset.sum_congr rfl fun k _ => ?_
    rw [g1, Pi.smul_apply, smul_eq_mul, mul_comm, dotProduct_comm]
    congr 1
    change ∑ i, G i k.succ * v i = _
    simp only [g1]
    rfl
  · rw [← List.sum_ofFn]
    congr 1
    apply List.ext_get <;> simp [h1]

/-- The second derivative in any direction is the average of `nu`, weighted with the squares of the components. -/
theorem curvature_average (f : Fin (m + 1) → ℝ) (c : ℝ) {x : Fin (m + 1) → ℝ} (hx : x ≠ 0) {v : Fin (m + 1) → ℝ} (hv : x ⬝ᵥ v = 0) (hv1 : v ⬝ᵥ v = 1) :
    curvature H f c x v = ((E.invariances H f x).map fun p => (v ⬝ᵥ p.2) ^ 2 * p.1).sum ∧ ((E.invariances H f x).map fun p => (v ⬝ᵥ p.2) ^ 2).sum = 1 := by
  have hs := invariances_span hE hH f hx hv
  obtain ⟨-, h2, h3, -⟩ := invariances_spec hE hH f c hx
  have h4 := invariances_conjugate hE hH f (x := x)
  generalize E.invariances H f x = l at hs h2 h3 h4
  have e1 : (l.map fun p => (v ⬝ᵥ p.2) ^ 2).sum = 1 := by
    have := quad_sum (H := (1 : Matrix (Fin (m + 1)) (Fin (m + 1)) ℝ)) (transpose_one) (fun p => v ⬝ᵥ p.2) l (by simpa using h3)
    rw [← hs] at this
    simp only [one_mulVec, hv1] at this
    rw [this]
    congr 1
    exact List.map_congr_left fun p hp => by rw [(h2 p hp).2.1, mul_one]
  refine ⟨?_, e1⟩
  have e2 := quad_sum hH (fun p => v ⬝ᵥ p.2) l h4
  rw [← hs] at e2
  rw [curvature_eq hH f c hx, e2]
  have : ∀ l' : List (ℝ × (Fin (m + 1) → ℝ)), (∀ p ∈ l', p.1 = curvature H f c x p.2) →
      (l'.map fun p => (v ⬝ᵥ p.2) ^ 2 * (p.2 ⬝ᵥ H *ᵥ p.2)).sum - (l'.map fun p => (v ⬝ᵥ p.2) ^ 2).sum * ((x ⬝ᵥ H *ᵥ x + f ⬝ᵥ x) / (x ⬝ᵥ x)) =
      (l'.map fun p => (v ⬝ᵥ p.2) ^ 2 * p.1).sum := by
    intro l' h
    induction l' with
    | nil => simp
    | cons p l' ih =>
      have ih := ih fun q hq => h q (by simp [hq])
      simp only [List.map_cons, List.sum_cons]
      rw [← ih, h p (by simp), curvature_eq hH f c hx]
      ring
  rw [← this l fun p hp => (h2 p hp).2.2, e1, one_mul]

omit hE in
theorem curvature_max (f : Fin (m + 1) → ℝ) (c : ℝ) {x : Fin (m + 1) → ℝ} (hmax : ∀ y, y ⬝ᵥ y = x ⬝ᵥ x → form H f c y ≤ form H f c x)
    {v : Fin (m + 1) → ℝ} (hv : x ⬝ᵥ v = 0) (hv1 : v ⬝ᵥ v = 1) : curvature H f c x v ≤ 0 := by
  by_contra hlt
  rw [not_le] at hlt
  have h0 : circle x v 0 = x := by simp [circle]
  have hle : ∀ t, form H f c (circle x v t) ≤ form H f c (circle x v 0) := fun t => by rw [h0]; exact hmax _ (circle_norm hv1 hv t)
  have hmx : IsLocalMax (fun t => form H f c (circle x v t)) 0 := Filter.Eventually.of_forall hle
  have hmn : IsLocalMin (fun t => form H f c (circle x v t)) 0 := by
    refine isLocalMin_of_deriv_deriv_pos hlt hmx.deriv_eq_zero ?_
    refine Continuous.continuousAt ?_
    have : (fun t => form H f c (circle x v t)) = fun t => 1 / 2 * (Real.cos (t / √(x ⬝ᵥ x)) * Real.cos (t / √(x ⬝ᵥ x)) * (x ⬝ᵥ H *ᵥ x) +
        2 * Real.cos (t / √(x ⬝ᵥ x)) * (√(x ⬝ᵥ x) * Real.sin (t / √(x ⬝ᵥ x))) * (x ⬝ᵥ H *ᵥ v) +
        (√(x ⬝ᵥ x) * Real.sin (t / √(x ⬝ᵥ x))) * (√(x ⬝ᵥ x) * Real.sin (t / √(x ⬝ᵥ x))) * (v ⬝ᵥ H *ᵥ v)) +
        (Real.cos (t / √(x ⬝ᵥ x)) * (f ⬝ᵥ x) + √(x ⬝ᵥ x) * Real.sin (t / √(x ⬝ᵥ x)) * (f ⬝ᵥ v)) + c := by
      funext t
      exact form_line hH f c _ _ x v
    rw [this]
    fun_prop
  have heq : (fun t => form H f c (circle x v t)) =ᶠ[nhds 0] fun _ => form H f c (circle x v 0) := hmn.mono fun t ht => le_antisymm (hle t) ht
  have h2 := heq.deriv.deriv_eq
  simp only [deriv_const', deriv_const] at h2
  unfold curvature at hlt
  rw [h2] at hlt
  exact lt_irrefl _ hlt

omit hE in
theorem form_neg (f : Fin (m + 1) → ℝ) (c : ℝ) (y : Fin (m + 1) → ℝ) : form (-H) (-f) (-c) y = -form H f c y := by
  simp only [form, neg_mulVec, dotProduct_neg, neg_dotProduct]
  ring

omit hE in
theorem curvature_min (f : Fin (m + 1) → ℝ) (c : ℝ) {x : Fin (m + 1) → ℝ} (hx : x ≠ 0) (hmin : ∀ y, y ⬝ᵥ y = x ⬝ᵥ x → form H f c x ≤ form H f c y)
    {v : Fin (m + 1) → ℝ} (hv : x ⬝ᵥ v = 0) (hv1 : v ⬝ᵥ v = 1) : 0 ≤ curvature H f c x v := by
  have hH' : (-H)ᵀ = -H := by rw [transpose_neg, hH]
  have := curvature_max hH' (-f) (-c) (x := x) (fun y hy => by rw [form_neg hH, form_neg hH]; exact neg_le_neg (hmin y hy)) hv hv1
  rw [curvature_eq hH' _ _ hx] at this
  rw [curvature_eq hH f c hx]
  simp only [neg_mulVec, dotProduct_neg, neg_dotProduct] at this
  have e : (-(x ⬝ᵥ H *ᵥ x) + -(f ⬝ᵥ x)) / (x ⬝ᵥ x) = -((x ⬝ᵥ H *ᵥ x + f ⬝ᵥ x) / (x ⬝ᵥ x)) := by ring
  rw [e] at this
  linarith

omit hE hH in
theorem weighted_bound {n : Nat} (a : ℝ × (Fin n → ℝ) → ℝ) (b : ℝ) (l : List (ℝ × (Fin n → ℝ))) (h : ∀ p ∈ l, b ≤ p.1) :
    b * (l.map fun p => a p ^ 2).sum ≤ (l.map fun p => a p ^ 2 * p.1).sum := by
  induction l with
  | nil => simp
  | cons p l ih =>
    have ih := ih fun q hq => h q (by simp [hq])
    have := mul_le_mul_of_nonneg_left (h p (by simp)) (sq_nonneg (a p))
    simp only [List.map_cons, List.sum_cons]
    nlinarith

/-- **C282**: at a maximum on the sphere all `nu` are at most zero, at a minimum at least zero, and the first direction is one of least change:
no direction on the sphere has a second derivative of smaller absolute value. -/
theorem invariances_extremum (f : Fin (m + 1) → ℝ) (c : ℝ) {x : Fin (m + 1) → ℝ} (hx : x ≠ 0)
    (hext : (∀ y, y ⬝ᵥ y = x ⬝ᵥ x → form H f c y ≤ form H f c x) ∨ ∀ y, y ⬝ᵥ y = x ⬝ᵥ x → form H f c x ≤ form H f c y) :
    ((∀ y, y ⬝ᵥ y = x ⬝ᵥ x → form H f c y ≤ form H f c x) → ∀ p ∈ E.invariances H f x, p.1 ≤ 0) ∧
    ((∀ y, y ⬝ᵥ y = x ⬝ᵥ x → form H f c x ≤ form H f c y) → ∀ p ∈ E.invariances H f x, 0 ≤ p.1) ∧
    ∀ p l, E.invariances H f x = p :: l → ∀ v, x ⬝ᵥ v = 0 → v ⬝ᵥ v = 1 → |p.1| ≤ |curvature H f c x v| := by
  obtain ⟨-, h2, -, h4⟩ := invariances_spec hE hH f c hx
  have hneg : (∀ y, y ⬝ᵥ y = x ⬝ᵥ x → form H f c y ≤ form H f c x) → ∀ p ∈ E.invariances H f x, p.1 ≤ 0 := by
    intro hm p hp
    obtain ⟨a, b, e⟩ := h2 p hp
    rw [e]
    exact curvature_max hH f c hm a b
  have hpos : (∀ y, y ⬝ᵥ y = x ⬝ᵥ x → form H f c x ≤ form H f c y) → ∀ p ∈ E.invariances H f x, 0 ≤ p.1 := by
    intro hm p hp
    obtain ⟨a, b, e⟩ := h2 p hp
    rw [e]
    exact curvature_min hH f c hx hm a b
  refine ⟨hneg, hpos, fun p l hl v hv hv1 => ?_⟩
  obtain ⟨e1, e2⟩ := curvature_average hE hH f c hx hv hv1
  have hb : ∀ q ∈ E.invariances H f x, |p.1| ≤ |q.1| := by
    rw [hl] at h4 ⊢
    intro q hq
    rcases List.mem_cons.1 hq with rfl | hq
    · exact le_refl _
    · exact (List.pairwise_cons.1 h4).1 q hq
  rcases hext with hm | hm
  · have hn := hneg hm
    have : |p.1| * ((E.invariances H f x).map fun q => (v ⬝ᵥ q.2) ^ 2).sum ≤ -((E.invariances H f x).map fun q => (v ⬝ᵥ q.2) ^ 2 * q.1).sum := by
      have := weighted_bound (fun q => v ⬝ᵥ q.2) |p.1| ((E.invariances H f x).map fun q => (-q.1, q.2)) fun q hq => by
        obtain ⟨q', hq', rfl⟩ := List.mem_map.1 hq
        simp only
        rw [← abs_of_nonpos (hn q' hq')]
        exact hb q' hq'
      simp only [List.map_map, Function.comp_def] at this
      refine this.trans (le_of_eq ?_)
      generalize E.invariances H f x = l'
      induction l' with
      | nil => simp
      | cons q l' ih =>
        simp only [List.map_cons, List.sum_cons, ih]
        ring
    rw [e2, mul_one, ← e1] at this
    exact this.trans (neg_le_abs _)
  · have hn := hpos hm
    have := weighted_bound (fun q => v ⬝ᵥ q.2) |p.1| (E.invariances H f x) fun q hq => by
      rw [← abs_of_nonneg (hn q hq)]
      exact hb q hq
    rw [e2, mul_one, ← e1] at this
    exact this.trans (le_abs_self _)

end

/-! ## A case: two dimensions -/

open Classical in
/-- A library for two dimensions. -/
noncomputable def env2 : Env 1 where
  qr P :=
    let Q : Matrix (Fin 2) (Fin 2) ℝ := if P 0 0 ^ 2 + P 1 0 ^ 2 = 0 then 1 else
      !![P 0 0 / √(P 0 0 ^ 2 + P 1 0 ^ 2), -(P 1 0 / √(P 0 0 ^ 2 + P 1 0 ^ 2)); P 1 0 / √(P 0 0 ^ 2 + P 1 0 ^ 2), P 0 0 / √(P 0 0 ^ 2 + P 1 0 ^ 2)]
    (Q, Qᵀ * P)
  eig A := [(A 0 0, fun _ => 1)]
  sortBy k l := l.insertionSort fun a b => k a ≤ k b

theorem env2_exact : Exact env2 := by
  classical
  have hq : ∀ P, (env2.qr P).1ᵀ * (env2.qr P).1 = 1 := by
    intro P
    simp only [env2]
    split
    · simp
    · rename_i h
      have hp : 0 < P 0 0 ^ 2 + P 1 0 ^ 2 := lt_of_le_of_ne (by positivity) (Ne.symm h)
      have hs := Real.mul_self_sqrt hp.le
      have h0 : √(P 0 0 ^ 2 + P 1 0 ^ 2) ≠ 0 := (Real.sqrt_pos.2 hp).ne'
      generalize √(P 0 0 ^ 2 + P 1 0 ^ 2) = r at hs h0
      ext i j
      fin_cases i <;> fin_cases j <;> simp [mul_apply, Fin.sum_univ_two] <;> field_simp <;> nlinarith
  refine ⟨fun P => ?_, hq, fun P i j hij => ?_, fun A _ => rfl, fun A _ p hp => ?_, fun A _ p hp => ?_, fun A _ => by simp [env2], fun k l => List.perm_insertionSort _ l, fun k l => ?_⟩
  · change (env2.qr P).1 * ((env2.qr P).1ᵀ * P) = P
    rw [← Matrix.mul_assoc, mul_eq_one_comm.1 (hq P), Matrix.one_mul]
  · obtain ⟨rfl, rfl⟩ : i = 1 ∧ j = 0 := by
      revert hij; revert i j; decide
    change ((env2.qr P).1ᵀ * P) 1 0 = 0
    simp only [env2]
    split
    · rename_i h
      simp only [transpose_one, Matrix.one_mul]
      nlinarith [sq_nonneg (P 0 0), sq_nonneg (P 1 0)]
    · rw [mul_apply, Fin.sum_univ_succ, Fin.sum_univ_succ]
      simp
      ring
  · simp only [env2, List.mem_singleton] at hp
    subst hp
    ext i
    fin_cases i
    simp [mulVec, dotProduct]
  · simp only [env2, List.mem_singleton] at hp
    subst hp
    simp [dotProduct]
  · haveI : Std.Total (fun a b : ℝ × (Fin 1 → ℝ) => k a ≤ k b) := ⟨fun _ _ => le_total _ _⟩
    haveI : IsTrans (ℝ × (Fin 1 → ℝ)) (fun a b => k a ≤ k b) := ⟨fun _ _ _ => le_trans⟩
    exact List.pairwise_insertionSort _ l

/-- C281, C282 for the form `x² + y² / 2`: at `(1, 0)`, a maximum on the circle, the second derivative is negative. -/
example : (env2.invariances !![2, 0; 0, 1] 0 ![1, 0]).length = 1 ∧ ∀ p ∈ env2.invariances !![2, 0; 0, 1] 0 ![1, 0], p.1 ≤ 0 := by
  have hH : (!![2, 0; 0, 1] : Matrix (Fin 2) (Fin 2) ℝ)ᵀ = !![2, 0; 0, 1] := by
    ext i j; fin_cases i <;> fin_cases j <;> rfl
  have hx : (![1, 0] : Fin 2 → ℝ) ≠ 0 := fun h => by simpa using congrFun h 0
  have hm : ∀ y : Fin 2 → ℝ, y ⬝ᵥ y = ![1, 0] ⬝ᵥ ![1, 0] → form !![2, 0; 0, 1] 0 0 y ≤ form !![2, 0; 0, 1] 0 0 ![1, 0] := by
    intro y hy
    simp [form, dotProduct, mulVec, Fin.sum_univ_two] at hy ⊢
    nlinarith [sq_nonneg (y 1)]
  exact ⟨(invariances_spec env2_exact hH 0 0 hx).1, (invariances_extremum env2_exact hH 0 0 hx (Or.inl hm)).1 hm⟩

end Mdp.QuadInv
