import Verif.Nodes.Pca
import Verif.Num.CovProps
import Mathlib.LinearAlgebra.Matrix.NonsingularInverse
import Mathlib.Algebra.Order.BigOperators.Ring.Finset
import Mathlib.Algebra.BigOperators.Field
import Mathlib.Tactic.Linarith

/-!
# Specification for principal components, and algebra of sample covariances
-/

namespace Mdp.Pca

open Mdp.Cov

variable {F : Type} [Field F] {d : Nat}

/-! ## Specification -/

/-- The scalar product. -/
def dot (a b : Row F d) : F := ∑ k, a k * b k

/-- Sample variance of a list of numbers, normalised by `n - 1`. -/
def variance (l : List F) : F := cov false (l.map fun a => (a, a))

/-- The sample covariance of the components `i` and `j`. -/
def covOf (rows : List (Row F d)) (i j : Fin d) : F := cov false (rows.map fun x => (x i, x j))

/-- The sum of the variances of the components. -/
def totalVariance (rows : List (Row F d)) : F := ∑ i, variance (rows.map fun x => x i)

/-- Pairwise orthogonal unit vectors. -/
def Orthonormal {m : Nat} (w : Fin m → Row F d) : Prop := ∀ a b, dot (w a) (w b) = if a = b then 1 else 0

/-- `lam` are the eigenvalues of `C` in descending order, `v` are eigenvectors of length one, pairwise orthogonal. -/
structure Spectrum [LinearOrder F] (C : Mat F d d) (lam : Fin d → F) (v : Fin d → Row F d) : Prop where
  eigen : ∀ i k, ∑ l, C k l * v i l = lam i * v i k
  ortho : Orthonormal v
  desc : ∀ i j, i ≤ j → lam j ≤ lam i

/-! ## Sums -/

theorem sum_swap {α ι : Type} [Fintype ι] (l : List α) (g : ι → α → F) :
    (l.map fun x => ∑ k, g k x).sum = ∑ k, (l.map (g k)).sum := by
  induction l with
  | nil => simp
  | cons a l ih => simp only [List.map_cons, List.sum_cons, ih, Finset.sum_add_distrib]

theorem sum_map_mul {α : Type} (l : List α) (f : α → F) (c : F) : (l.map fun x => c * f x).sum = c * (l.map f).sum := by
  induction l with
  | nil => simp
  | cons a l ih => simp only [List.map_cons, List.sum_cons, ih, mul_add]

theorem mean_dot (rows : List (Row F d)) (w : Row F d) :
    mean (rows.map fun x => dot x w) = ∑ k, mean (rows.map fun x => x k) * w k := by
  simp only [mean, List.length_map, dot]
  rw [sum_swap, Finset.sum_div]
  refine Finset.sum_congr rfl fun k _ => ?_
  have : (rows.map fun x => x k * w k) = rows.map fun x => w k * x k := by
    refine List.map_congr_left fun x _ => mul_comm _ _
  rw [this, sum_map_mul]
  ring

theorem dev_dot (rows : List (Row F d)) (w x : Row F d) :
    dot x w - mean (rows.map fun x => dot x w) = ∑ k, (x k - mean (rows.map fun x => x k)) * w k := by
  rw [mean_dot, dot, ← Finset.sum_sub_distrib]
  exact Finset.sum_congr rfl fun k _ => by ring

/-- Covariance of two linear images. -/
theorem cov_dot (rows : List (Row F d)) (w u : Row F d) :
    cov false (rows.map fun x => (dot x w, dot x u)) = ∑ k, ∑ l, w k * covOf rows k l * u l := by
  have key : codev (rows.map fun x => (dot x w, dot x u)) =
      ∑ k, ∑ l, w k * codev (rows.map fun x => (x k, x l)) * u l := by
    simp only [codev, List.map_map, Function.comp_def, dev_dot]
    have h1 : ∀ x : Row F d, (∑ k, (x k - mean (rows.map fun x => x k)) * w k) *
        (∑ k, (x k - mean (rows.map fun x => x k)) * u k) =
        ∑ k, ∑ l, (w k * u l) * ((x k - mean (rows.map fun x => x k)) * (x l - mean (rows.map fun x => x l))) := by
      intro x
      rw [Finset.sum_mul_sum]
      exact Finset.sum_congr rfl fun k _ => Finset.sum_congr rfl fun l _ => by ring
    simp only [h1]
    rw [sum_swap]
    refine Finset.sum_congr rfl fun k _ => ?_
    rw [sum_swap]
    refine Finset.sum_congr rfl fun l _ => ?_
    rw [sum_map_mul]
    ring
  simp only [cov, Bool.false_eq_true, if_false, covOf, List.length_map] at key ⊢
  rw [key, Finset.sum_div]
  refine Finset.sum_congr rfl fun k _ => ?_
  rw [Finset.sum_div]
  exact Finset.sum_congr rfl fun l _ => by ring

theorem variance_dot (rows : List (Row F d)) (w : Row F d) :
    variance (rows.map fun x => dot x w) = ∑ k, ∑ l, w k * covOf rows k l * w l := by
  rw [← cov_dot]
  simp only [variance, List.map_map, Function.comp_def]

section Ordered
variable [LinearOrder F] [IsStrictOrderedRing F]

theorem variance_nonneg (l : List F) (h : 2 ≤ l.length) : 0 ≤ variance l := by
  simp only [variance, cov, Bool.false_eq_true, if_false, codev, List.map_map, Function.comp_def, List.length_map]
  refine div_nonneg ?_ ?_
  · refine List.sum_nonneg fun a ha => ?_
    obtain ⟨x, _, rfl⟩ := List.mem_map.1 ha
    exact mul_self_nonneg _
  · have : (2 : F) ≤ l.length := by exact_mod_cast h
    linarith

/-! ## Eigenvectors -/

variable {C : Mat F d d} {lam : Fin d → F} {v : Fin d → Row F d}

theorem Orthonormal.complete (h : Orthonormal v) (k l : Fin d) : ∑ i, v i k * v i l = if k = l then 1 else 0 := by
  have h1 : Matrix.of v * (Matrix.of v).transpose = 1 := by
    ext a b
    rw [Matrix.mul_apply, Matrix.one_apply]
    exact h a b
  have h2 := (mul_eq_one_comm).1 h1
  have h3 := congrFun (congrFun h2 k) l
  rw [Matrix.mul_apply, Matrix.one_apply] at h3
  exact h3

theorem Orthonormal.expand (h : Orthonormal v) (w : Row F d) (k : Fin d) : w k = ∑ i, dot w (v i) * v i k := by
  have : ∀ i, dot w (v i) * v i k = ∑ l, w l * (v i l * v i k) := by
    intro i
    rw [dot, Finset.sum_mul]
    exact Finset.sum_congr rfl fun l _ => by ring
  simp only [this]
  rw [Finset.sum_comm]
  have : ∀ l, ∑ i, w l * (v i l * v i k) = if l = k then w l else 0 := by
    intro l
    rw [← Finset.mul_sum, h.complete]
    split <;> simp
  simp only [this, Finset.sum_ite_eq', Finset.mem_univ, if_true]

theorem Orthonormal.parseval (h : Orthonormal v) (w : Row F d) : ∑ i, dot w (v i) ^ 2 = dot w w := by
  have : dot w w = ∑ k, w k * ∑ i, dot w (v i) * v i k := by
    exact Finset.sum_congr rfl fun k _ => by rw [← h.expand]
  rw [this]
  simp only [Finset.mul_sum]
  rw [Finset.sum_comm]
  refine Finset.sum_congr rfl fun i _ => ?_
  rw [sq]
  conv_lhs => rw [dot, Finset.sum_mul]
  refine Finset.sum_congr rfl fun k _ => ?_
  simp only [dot]
  ring

theorem Spectrum.quad (h : Spectrum C lam v) (w : Row F d) (i : Fin d) :
    ∑ k, ∑ l, w k * C k l * v i l = lam i * dot w (v i) := by
  have : ∀ k, ∑ l, w k * C k l * v i l = lam i * (w k * v i k) := by
    intro k
    have h1 : ∑ l, w k * C k l * v i l = w k * ∑ l, C k l * v i l := by
      rw [Finset.mul_sum]; exact Finset.sum_congr rfl fun l _ => by ring
    rw [h1, h.eigen]
    ring
  simp only [this, ← Finset.mul_sum, dot]

theorem Spectrum.quad_self (h : Spectrum C lam v) (w : Row F d) :
    ∑ k, ∑ l, w k * C k l * w l = ∑ i, lam i * dot w (v i) ^ 2 := by
  have h1 : ∀ k, ∑ l, w k * C k l * w l = ∑ i, dot w (v i) * ∑ l, w k * C k l * v i l := by
    intro k
    simp only [Finset.mul_sum]
    rw [Finset.sum_comm]
    refine Finset.sum_congr rfl fun l _ => ?_
    conv_lhs => rw [h.ortho.expand w l, Finset.mul_sum]
    exact Finset.sum_congr rfl fun i _ => by ring
  simp only [h1]
  rw [Finset.sum_comm]
  refine Finset.sum_congr rfl fun i _ => ?_
  rw [← Finset.mul_sum, h.quad]
  ring

theorem Spectrum.trace (h : Spectrum C lam v) : ∑ i, lam i = ∑ k, C k k := by
  have h1 : ∀ i, lam i = ∑ k, ∑ l, v i k * C k l * v i l := by
    intro i
    rw [h.quad, h.ortho i i]
    simp
  conv_lhs => arg 2; ext i; rw [h1 i]
  rw [Finset.sum_comm]
  refine Finset.sum_congr rfl fun k _ => ?_
  rw [Finset.sum_comm]
  have : ∀ l, ∑ i, v i k * C k l * v i l = if k = l then C k l else 0 := by
    intro l
    have : ∑ i, v i k * C k l * v i l = C k l * ∑ i, v i k * v i l := by
      rw [Finset.mul_sum]; exact Finset.sum_congr rfl fun i _ => by ring
    rw [this, h.ortho.complete]
    split <;> simp
  simp only [this, Finset.sum_ite_eq, Finset.mem_univ, if_true]

theorem bessel {m : Nat} {w : Fin m → Row F d} (h : Orthonormal w) (u : Row F d) :
    ∑ a, dot (w a) u ^ 2 ≤ dot u u := by
  have key : ∑ k, (u k - ∑ a, dot (w a) u * w a k) ^ 2 = dot u u - ∑ a, dot (w a) u ^ 2 := by
    have e1 : ∀ k, (u k - ∑ a, dot (w a) u * w a k) ^ 2 = u k * u k - 2 * (∑ a, dot (w a) u * (w a k * u k))
        + ∑ a, ∑ b, dot (w a) u * dot (w b) u * (w a k * w b k) := by
      intro k
      have h1 : ∑ a, dot (w a) u * (w a k * u k) = (∑ a, dot (w a) u * w a k) * u k := by
        rw [Finset.sum_mul]; exact Finset.sum_congr rfl fun _ _ => by ring
      have h2 : ∑ a, ∑ b, dot (w a) u * dot (w b) u * (w a k * w b k)
          = (∑ a, dot (w a) u * w a k) * (∑ a, dot (w a) u * w a k) := by
        rw [Finset.sum_mul_sum]
        exact Finset.sum_congr rfl fun _ _ => Finset.sum_congr rfl fun _ _ => by ring
      rw [h1, h2]
      ring
    simp only [e1, Finset.sum_add_distrib, Finset.sum_sub_distrib, ← Finset.mul_sum]
    have e2 : ∑ k, ∑ a, dot (w a) u * (w a k * u k) = ∑ a, dot (w a) u ^ 2 := by
      rw [Finset.sum_comm]
      refine Finset.sum_congr rfl fun a _ => ?_
      rw [← Finset.mul_sum, sq]
      rfl
    have e3 : ∑ k, ∑ a, ∑ b, dot (w a) u * dot (w b) u * (w a k * w b k) = ∑ a, dot (w a) u ^ 2 := by
      rw [Finset.sum_comm]
      refine Finset.sum_congr rfl fun a _ => ?_
      rw [Finset.sum_comm]
      have : ∀ b, ∑ k, dot (w a) u * dot (w b) u * (w a k * w b k) = if a = b then dot (w a) u * dot (w b) u else 0 := by
        intro b
        rw [← Finset.mul_sum]
        have := h a b
        rw [dot] at this
        rw [this]
        split <;> simp
      simp only [this, Finset.sum_ite_eq, Finset.mem_univ, if_true, sq]
    rw [e2, e3]
    simp only [dot]
    ring
  have : 0 ≤ ∑ k, (u k - ∑ a, dot (w a) u * w a k) ^ 2 := Finset.sum_nonneg fun _ _ => sq_nonneg _
  rw [key] at this
  linarith

theorem orthonormal_le {m : Nat} {w : Fin m → Row F d} (hw : Orthonormal w) (hv : Orthonormal v) : m ≤ d := by
  have h1 : ∑ i, ∑ a, dot (w a) (v i) ^ 2 = (m : F) := by
    rw [Finset.sum_comm]
    simp only [hv.parseval]
    have : ∀ a, dot (w a) (w a) = 1 := fun a => by rw [hw a a]; simp
    simp [this]
  have h2 : ∑ i, ∑ a, dot (w a) (v i) ^ 2 ≤ ∑ i : Fin d, (1 : F) := by
    refine Finset.sum_le_sum fun i _ => ?_
    refine (bessel hw (v i)).trans ?_
    rw [hv i i]
    simp
  rw [h1] at h2
  simp at h2
  exact_mod_cast h2

/-- The first `m` eigenvalues bound the variance in any `m` orthogonal directions. -/
theorem Spectrum.optimal (h : Spectrum C lam v) {m : Nat} {w : Fin m → Row F d} (hw : Orthonormal w) :
    ∑ a, ∑ k, ∑ l, w a k * C k l * w a l ≤ ∑ i : Fin d, if i.1 < m then lam i else 0 := by
  have hm := orthonormal_le hw h.ortho
  simp only [h.quad_self]
  rw [Finset.sum_comm]
  cases m with
  | zero => simp
  | succ m =>
    have hc : ∀ i, ∑ a, dot (w a) (v i) ^ 2 ≤ 1 := fun i => by
      have := bessel hw (v i)
      rwa [h.ortho i i, if_pos rfl] at this
    have hc0 : ∀ i, 0 ≤ ∑ a, dot (w a) (v i) ^ 2 := fun i => Finset.sum_nonneg fun _ _ => sq_nonneg _
    have hsum : ∑ i, ∑ a, dot (w a) (v i) ^ 2 = ((m + 1 : Nat) : F) := by
      rw [Finset.sum_comm]
      simp only [h.ortho.parseval]
      have : ∀ a, dot (w a) (w a) = 1 := fun a => by rw [hw a a]; simp
      simp [this]
    simp only [← Finset.mul_sum]
    have hterm : ∀ i : Fin d, lam i * ∑ a, dot (w a) (v i) ^ 2 ≤ (if i.1 < m + 1 then lam i else 0)
        - lam ⟨m, hm⟩ * ((if i.1 < m + 1 then 1 else 0) - ∑ a, dot (w a) (v i) ^ 2) := by
      intro i
      have h1 := hc i
      have h0 := hc0 i
      generalize ∑ a, dot (w a) (v i) ^ 2 = c at *
      by_cases hi : i.1 < m + 1
      · simp only [hi, if_true]
        have := h.desc i ⟨m, hm⟩ (by rw [Fin.le_def]; simp only; omega)
        nlinarith
      · simp only [hi, if_false]
        have := h.desc ⟨m, hm⟩ i (by rw [Fin.le_def]; simp only; omega)
        nlinarith
    refine (Finset.sum_le_sum fun i _ => hterm i).trans ?_
    rw [Finset.sum_sub_distrib, ← Finset.mul_sum, Finset.sum_sub_distrib, hsum]
    have hcard : ∑ i : Fin d, (if i.1 < m + 1 then (1 : F) else 0) = ((m + 1 : Nat) : F) := by
      rw [Finset.sum_boole]
      congr 1
      have h2 : (Finset.univ.filter fun i : Fin d => i.1 < m + 1) = Finset.univ.map (Fin.castLEEmb hm) := by
        ext i
        simp only [Finset.mem_filter, Finset.mem_univ, true_and, Finset.mem_map]
        constructor
        · intro hi; exact ⟨⟨i.1, hi⟩, rfl⟩
        · rintro ⟨j, rfl⟩; exact j.2
      rw [h2]
      simp
    rw [hcard]
    simp

end Ordered

end Mdp.Pca
