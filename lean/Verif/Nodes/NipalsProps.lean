import Verif.Nodes.Nipals
import Mathlib.Algebra.Order.BigOperators.Ring.Finset
import Mathlib.Algebra.Order.Chebyshev
import Mathlib.Tactic.FieldSimp
import Mathlib.Tactic.LinearCombination
import Mathlib.Tactic.Linarith
import Mathlib.Tactic.NormNum
import Mathlib.Tactic.FinCases
import Mathlib.LinearAlgebra.Matrix.Notation
import Mathlib.LinearAlgebra.Matrix.NonsingularInverse

/-!
# Components of a NIPALS node (C243-C246)
-/

namespace Mdp.Nipals

open Matrix

variable {n m : Nat}

/-! ## Specification -/

/-- Output of a component with loading `p` for row `a` of the training data. -/
noncomputable def score (X : Matrix (Fin n) (Fin (m + 1)) ℝ) (p : Fin (m + 1) → ℝ) (a : Fin n) : ℝ :=
  ∑ j, (X a j - (∑ b, X b j) / n) * p j

/-- Sample variance of a column of the data. -/
noncomputable def colVariance (X : Matrix (Fin n) (Fin (m + 1)) ℝ) (j : Fin (m + 1)) : ℝ :=
  (∑ a, (X a j - (∑ b, X b j) / n) ^ 2) / ((n : ℝ) - 1)

/-- Sum of the squares of all elements. -/
def fro (X : Matrix (Fin n) (Fin (m + 1)) ℝ) : ℝ := ∑ a, ∑ j, X a j ^ 2

/-! ## Vectors -/

theorem dot_self_nonneg {k : Nat} (v : Fin k → ℝ) : 0 ≤ v ⬝ᵥ v := Finset.sum_nonneg fun _ _ => mul_self_nonneg _

theorem dot_self_zero {k : Nat} {v : Fin k → ℝ} (h : v ⬝ᵥ v = 0) : v = 0 := by
  funext i
  have := (Finset.sum_eq_zero_iff_of_nonneg fun i _ => mul_self_nonneg (v i)).1 h i (Finset.mem_univ i)
  exact mul_self_eq_zero.1 this

theorem dot_sq_le {k : Nat} (u v : Fin k → ℝ) : (u ⬝ᵥ v) ^ 2 ≤ (u ⬝ᵥ u) * (v ⬝ᵥ v) := by
  have := Finset.sum_mul_sq_le_sq_mul_sq Finset.univ u v
  simpa only [dotProduct, pow_two] using this

theorem fro_nonneg (X : Matrix (Fin n) (Fin (m + 1)) ℝ) : 0 ≤ fro X :=
  Finset.sum_nonneg fun _ _ => Finset.sum_nonneg fun _ _ => sq_nonneg _

theorem transpose_mulVec_le (X : Matrix (Fin n) (Fin (m + 1)) ℝ) (u : Fin n → ℝ) :
    (X.transpose *ᵥ u) ⬝ᵥ (X.transpose *ᵥ u) ≤ fro X * (u ⬝ᵥ u) := by
  have h : ∀ j, (X.transpose *ᵥ u) j * (X.transpose *ᵥ u) j ≤ (∑ a, X a j ^ 2) * (u ⬝ᵥ u) := by
    intro j
    have := dot_sq_le (fun a => X a j) u
    rw [pow_two] at this
    refine this.trans (le_of_eq ?_)
    congr 1
    exact Finset.sum_congr rfl fun a _ => (pow_two _).symm
  calc _ = ∑ j, (X.transpose *ᵥ u) j * (X.transpose *ᵥ u) j := rfl
    _ ≤ ∑ j, (∑ a, X a j ^ 2) * (u ⬝ᵥ u) := Finset.sum_le_sum fun j _ => h j
    _ = fro X * (u ⬝ᵥ u) := by rw [← Finset.sum_mul, Finset.sum_comm]; rfl

theorem dot_transpose (X : Matrix (Fin n) (Fin (m + 1)) ℝ) (u : Fin n → ℝ) (q : Fin (m + 1) → ℝ) :
    (X.transpose *ᵥ u) ⬝ᵥ q = u ⬝ᵥ (X *ᵥ q) := by
  rw [Matrix.mulVec_transpose, Matrix.dotProduct_mulVec]

theorem outer_mulVec (t : Fin n → ℝ) (p q : Fin (m + 1) → ℝ) : vecMulVec t p *ᵥ q = (p ⬝ᵥ q) • t := by
  funext a
  simp only [Matrix.mulVec, vecMulVec_apply, dotProduct, Pi.smul_apply, smul_eq_mul, Finset.sum_mul]
  exact Finset.sum_congr rfl fun j _ => by ring

theorem outer_transpose_mulVec (t u : Fin n → ℝ) (p : Fin (m + 1) → ℝ) :
    (vecMulVec t p).transpose *ᵥ u = (t ⬝ᵥ u) • p := by
  funext j
  simp only [Matrix.mulVec, Matrix.transpose_apply, vecMulVec_apply, dotProduct, Pi.smul_apply, smul_eq_mul, Finset.sum_mul]
  exact Finset.sum_congr rfl fun a _ => by ring

/-! ## The inner loop -/

/-- What is known about a loading and its scores: the loading has length one, it is orthogonal to every vector the data are orthogonal
to, and it is close to being an eigenvector. -/
structure Good (conv : ℝ) (X : Matrix (Fin n) (Fin (m + 1)) ℝ) (p : Fin (m + 1) → ℝ) (t : Fin n → ℝ) : Prop where
  score : t = X *ᵥ p
  unit : p ⬝ᵥ p = 1
  rows : ∀ q, X *ᵥ q = 0 → p ⬝ᵥ q = 0
  near : ∃ (c : ℝ) (u : Fin n → ℝ), X.transpose *ᵥ t = c • p + X.transpose *ᵥ u ∧ u ⬝ᵥ u ≤ conv

theorem power_good (conv : ℝ) (X : Matrix (Fin n) (Fin (m + 1)) ℝ) (r : Nat) (t0 : Fin n → ℝ) (p t)
    (h : power conv X r t0 = .done p t) : Good conv X p t := by
  induction r generalizing t0 with
  | zero => cases h
  | succ r ih =>
    simp only [power] at h
    split at h
    · cases h
    rename_i ht
    split at h
    · cases h
    rename_i hp
    split at h
    · exact ih _ h
    rename_i hd
    have hpos : 0 < Real.sqrt (((t0 ⬝ᵥ t0)⁻¹ • (X.transpose *ᵥ t0)) ⬝ᵥ ((t0 ⬝ᵥ t0)⁻¹ • (X.transpose *ᵥ t0))) :=
      Real.sqrt_pos.2 (lt_of_le_of_ne (dot_self_nonneg _) (Ne.symm hp))
    have hsq := Real.mul_self_sqrt (dot_self_nonneg ((t0 ⬝ᵥ t0)⁻¹ • (X.transpose *ᵥ t0)))
    cases h
    generalize hp0 : (t0 ⬝ᵥ t0)⁻¹ • (X.transpose *ᵥ t0) = p0 at hp hd hpos hsq ⊢
    generalize Real.sqrt (p0 ⬝ᵥ p0) = s at hd hpos hsq ⊢
    have hs : s ≠ 0 := hpos.ne'
    refine ⟨rfl, ?_, ?_, ?_⟩
    · rw [smul_dotProduct, dotProduct_smul, smul_eq_mul, smul_eq_mul, ← hsq]
      field_simp
    · intro q hq
      rw [smul_dotProduct, ← hp0, smul_dotProduct, dot_transpose, hq, dotProduct_zero, smul_zero, smul_zero]
    · refine ⟨(t0 ⬝ᵥ t0) * s, X *ᵥ (s⁻¹ • p0) - t0, ?_, not_lt.1 hd⟩
      rw [Matrix.mulVec_sub, smul_smul, mul_assoc, mul_inv_cancel₀ hs, mul_one]
      have : X.transpose *ᵥ t0 = (t0 ⬝ᵥ t0) • p0 := by rw [← hp0, smul_smul, mul_inv_cancel₀ ht, one_smul]
      rw [this]
      abel

/-! ## One component -/

section step

variable {conv : ℝ} {X : Matrix (Fin n) (Fin (m + 1)) ℝ} {p : Fin (m + 1) → ℝ} {t : Fin n → ℝ}

theorem deflate_self (h : Good conv X p t) : (X - vecMulVec t p) *ᵥ p = 0 := by
  rw [Matrix.sub_mulVec, outer_mulVec, h.unit, one_smul, ← h.score, sub_self]

theorem deflate_orth (q : Fin (m + 1) → ℝ) (hq : p ⬝ᵥ q = 0) : (X - vecMulVec t p) *ᵥ q = X *ᵥ q := by
  rw [Matrix.sub_mulVec, outer_mulVec, hq, zero_smul, sub_zero]

theorem deflate_fro (h : Good conv X p t) : fro (X - vecMulVec t p) = fro X - t ⬝ᵥ t := by
  have h1 : ∀ a, ∑ j, (X - vecMulVec t p) a j ^ 2 = ∑ j, X a j ^ 2 - t a * t a := by
    intro a
    have e1 : ∑ j, X a j * p j = t a := by rw [h.score]; rfl
    have e2 : ∑ j, p j * p j = 1 := h.unit
    have : ∀ j, (X - vecMulVec t p) a j ^ 2 = X a j ^ 2 - 2 * t a * (X a j * p j) + t a * t a * (p j * p j) := by
      intro j
      rw [Matrix.sub_apply, vecMulVec_apply]
      ring
    rw [Finset.sum_congr rfl fun j _ => this j, Finset.sum_add_distrib, Finset.sum_sub_distrib, ← Finset.mul_sum,
      ← Finset.mul_sum, e1, e2]
    ring
  unfold fro
  rw [Finset.sum_congr rfl fun a _ => h1 a, Finset.sum_sub_distrib]
  rfl

theorem deflate_scores (h : Good conv X p t) :
    ((X - vecMulVec t p).transpose *ᵥ t) ⬝ᵥ ((X - vecMulVec t p).transpose *ᵥ t) ≤ conv * fro X := by
  obtain ⟨c, u, hu, hc⟩ := h.near
  have e1 : (X - vecMulVec t p).transpose *ᵥ t = X.transpose *ᵥ t - (t ⬝ᵥ t) • p := by
    rw [Matrix.transpose_sub, Matrix.sub_mulVec, outer_transpose_mulVec]
  have e2 : (X.transpose *ᵥ t) ⬝ᵥ p = t ⬝ᵥ t := by rw [dot_transpose, ← h.score]
  -- the part along p is lost
  generalize hw : X.transpose *ᵥ u = w at hu
  have e3 : X.transpose *ᵥ t - (t ⬝ᵥ t) • p = w - (w ⬝ᵥ p) • p := by
    have : t ⬝ᵥ t = c + w ⬝ᵥ p := by
      rw [← e2, hu, add_dotProduct, smul_dotProduct, h.unit, smul_eq_mul, mul_one]
    rw [hu, this, add_smul]
    abel
  rw [e1, e3]
  have e4 : (w - (w ⬝ᵥ p) • p) ⬝ᵥ (w - (w ⬝ᵥ p) • p) = w ⬝ᵥ w - (w ⬝ᵥ p) ^ 2 := by
    rw [sub_dotProduct, dotProduct_sub, dotProduct_sub, smul_dotProduct, dotProduct_smul, smul_dotProduct, dotProduct_smul,
      h.unit, dotProduct_comm p w]
    simp only [smul_eq_mul]
    ring
  rw [e4]
  have e5 := transpose_mulVec_le X u
  rw [hw] at e5
  have e6 := mul_le_mul_of_nonneg_left hc (fro_nonneg X)
  nlinarith [sq_nonneg (w ⬝ᵥ p)]

end step

/-! ## The outer loop -/

/-- What is known about the components found in the data `X`. -/
structure Sound (conv : ℝ) (X : Matrix (Fin n) (Fin (m + 1)) ℝ) (l : List ((Fin (m + 1) → ℝ) × ℝ)) : Prop where
  rows : ∀ c ∈ l, ∀ q, X *ᵥ q = 0 → c.1 ⬝ᵥ q = 0
  unit : ∀ c ∈ l, c.1 ⬝ᵥ c.1 = 1
  orth : l.Pairwise fun c c' => c.1 ⬝ᵥ c'.1 = 0
  var : ∀ c ∈ l, c.2 = ((X *ᵥ c.1) ⬝ᵥ (X *ᵥ c.1)) / ((n : ℝ) - 1)
  unc : l.Pairwise fun c c' => ((X *ᵥ c.1) ⬝ᵥ (X *ᵥ c'.1)) ^ 2 ≤ conv * fro X
  eig : ∀ (i : Nat) (c : (Fin (m + 1) → ℝ) × ℝ), l[i]? = some c →
    (X.transpose *ᵥ (X *ᵥ c.1) - ((X *ᵥ c.1) ⬝ᵥ (X *ᵥ c.1)) • c.1) ⬝ᵥ
      (X.transpose *ᵥ (X *ᵥ c.1) - ((X *ᵥ c.1) ⬝ᵥ (X *ᵥ c.1)) • c.1) ≤ (i + 1) * (conv * fro X)
  total : ∃ Z : Matrix (Fin n) (Fin (m + 1)) ℝ, (l.map fun c => (X *ᵥ c.1) ⬝ᵥ (X *ᵥ c.1)).sum + fro Z = fro X ∧
    (∀ c ∈ l, Z *ᵥ c.1 = 0) ∧ ∀ q, X *ᵥ q = 0 → Z *ᵥ q = 0

theorem Sound.nil (conv : ℝ) (X : Matrix (Fin n) (Fin (m + 1)) ℝ) : Sound conv X [] where
  rows := by intro c hc; cases hc
  unit := by intro c hc; cases hc
  orth := .nil
  var := by intro c hc; cases hc
  unc := .nil
  eig := by intro i c hc; simp at hc
  total := ⟨X, by simp, (by intro c hc; cases hc), fun _ h => h⟩

theorem Sound.cons {conv : ℝ} (hconv : 0 ≤ conv) {X : Matrix (Fin n) (Fin (m + 1)) ℝ} {p t}
    {l : List ((Fin (m + 1) → ℝ) × ℝ)} (h : Good conv X p t) (hl : Sound conv (X - vecMulVec t p) l) :
    Sound conv X ((p, ((vecMulVec t p *ᵥ p) ⬝ᵥ (vecMulVec t p *ᵥ p)) / ((n : ℝ) - 1)) :: l) := by
  have hpc : ∀ c ∈ l, p ⬝ᵥ c.1 = 0 := fun c hc => by
    rw [dotProduct_comm]
    exact hl.rows c hc p (deflate_self h)
  have hX : ∀ c ∈ l, (X - vecMulVec t p) *ᵥ c.1 = X *ᵥ c.1 := fun c hc => deflate_orth c.1 (hpc c hc)
  have hfro := deflate_fro h
  have hfro' : fro (X - vecMulVec t p) ≤ fro X := by
    rw [hfro]
    linarith [dot_self_nonneg t]
  have hcf : conv * fro (X - vecMulVec t p) ≤ conv * fro X := mul_le_mul_of_nonneg_left hfro' hconv
  have hunc : ∀ c ∈ l, ((X *ᵥ p) ⬝ᵥ (X *ᵥ c.1)) ^ 2 ≤ conv * fro X := by
    intro c hc
    rw [← hX c hc, ← h.score, ← dot_transpose]
    refine (dot_sq_le _ _).trans ?_
    rw [hl.unit c hc, mul_one]
    exact deflate_scores h
  constructor
  · intro c hc q hq
    rcases List.mem_cons.1 hc with rfl | hc
    · exact h.rows q hq
    · exact hl.rows c hc q (by rw [deflate_orth q (h.rows q hq), hq])
  · intro c hc
    rcases List.mem_cons.1 hc with rfl | hc
    · exact h.unit
    · exact hl.unit c hc
  · exact .cons hpc hl.orth
  · intro c hc
    rcases List.mem_cons.1 hc with rfl | hc
    · simp only
      rw [outer_mulVec, h.unit, one_smul, ← h.score]
    · rw [hl.var c hc, hX c hc]
  · refine .cons hunc ?_
    have := hl.unc.imp_of_mem (S := fun c c' => ((X *ᵥ c.1) ⬝ᵥ (X *ᵥ c'.1)) ^ 2 ≤ conv * fro X) (fun {c c'} hc hc' hh => by
      rw [hX c hc, hX c' hc'] at hh
      exact hh.trans hcf)
    exact this
  · intro i c hc
    cases i with
    | zero =>
      simp only [List.getElem?_cons_zero, Option.some.injEq] at hc
      subst hc
      simp only
      have e : X.transpose *ᵥ (X *ᵥ p) - ((X *ᵥ p) ⬝ᵥ (X *ᵥ p)) • p = (X - vecMulVec t p).transpose *ᵥ t := by
        rw [Matrix.transpose_sub, Matrix.sub_mulVec, outer_transpose_mulVec, ← h.score]
      rw [e]
      refine (deflate_scores h).trans (le_of_eq ?_)
      push_cast
      ring
    | succ i =>
      rw [List.getElem?_cons_succ] at hc
      have hm : c ∈ l := List.mem_of_getElem? hc
      have h1 := hl.eig i c hc
      have h2 := hunc c hm
      rw [hX c hm] at h1
      generalize hy : X *ᵥ c.1 = y at h1 h2 ⊢
      have e : X.transpose *ᵥ y - (y ⬝ᵥ y) • c.1 =
          ((X - vecMulVec t p).transpose *ᵥ y - (y ⬝ᵥ y) • c.1) + (t ⬝ᵥ y) • p := by
        rw [Matrix.transpose_sub, Matrix.sub_mulVec, outer_transpose_mulVec]
        abel
      have e0 : ((X - vecMulVec t p).transpose *ᵥ y - (y ⬝ᵥ y) • c.1) ⬝ᵥ p = 0 := by
        rw [sub_dotProduct, dot_transpose, deflate_self h, dotProduct_zero, smul_dotProduct, dotProduct_comm c.1 p, hpc c hm,
          smul_zero, sub_zero]
      rw [e]
      generalize (X - vecMulVec t p).transpose *ᵥ y - (y ⬝ᵥ y) • c.1 = r at h1 e0 ⊢
      rw [add_dotProduct, dotProduct_add, dotProduct_add, dotProduct_smul, smul_dotProduct, smul_dotProduct,
        dotProduct_smul, e0, dotProduct_comm p r, e0, h.unit]
      simp only [smul_eq_mul]
      rw [← h.score] at h2
      push_cast
      have h3 : ((i : ℝ) + 1) * (conv * fro (X - vecMulVec t p)) ≤ ((i : ℝ) + 1) * (conv * fro X) :=
        mul_le_mul_of_nonneg_left hcf (by positivity)
      nlinarith
  · obtain ⟨Z, hZ, hZ0, hZ1⟩ := hl.total
    have hsum : (l.map fun c => ((X - vecMulVec t p) *ᵥ c.1) ⬝ᵥ ((X - vecMulVec t p) *ᵥ c.1)) =
        l.map fun c => (X *ᵥ c.1) ⬝ᵥ (X *ᵥ c.1) := List.map_congr_left fun c hc => by rw [hX c hc]
    rw [hsum, hfro] at hZ
    refine ⟨Z, ?_, ?_, fun q hq => hZ1 q (by rw [deflate_orth q (h.rows q hq), hq])⟩
    · rw [List.map_cons, List.sum_cons, ← h.score]
      linarith
    · intro c hc
      rcases List.mem_cons.1 hc with rfl | hc
      · exact hZ1 p (deflate_self h)
      · exact hZ0 c hc

theorem components_sound {conv : ℝ} (hconv : 0 ≤ conv) (maxIt : Nat) (var : ℝ) (des : Option ℝ) (k : Nat) :
    ∀ (i : Nat) (X : Matrix (Fin n) (Fin (m + 1)) ℝ) (e : ℝ) (f : Found m), components conv maxIt var des k i X e = .ok f →
      Sound conv X f.good := by
  induction k with
  | zero =>
    intro i X e f h
    cases h
    exact Sound.nil conv X
  | succ k ih =>
    intro i X e f h
    simp only [components] at h
    split at h
    · cases h
    · cases h
      exact Sound.nil conv X
    · rename_i p t hp
      have hg := power_good _ _ _ _ _ _ hp
      split at h
      · cases h
        exact Sound.cons hconv hg (Sound.nil _ _)
      · split at h
        · cases h
        · rename_i f' hf
          cases h
          exact Sound.cons hconv hg (ih _ _ _ _ hf)

/-- What the outer loop says about its own end. -/
structure Counted (var : ℝ) (des : Option ℝ) (k i : Nat) (e : ℝ) (f : Found m) : Prop where
  exact_nans : (∀ x, f.expVar = some x → f.nans = 0 ∧ x = e + (f.good.map fun c => c.2 / var).sum) ∧ (f.expVar = none → 0 < f.nans)
  full : f.outputDim = none → f.good.length + f.nans = k ∧
    ∀ v, des = some v → ∀ j, 1 ≤ j → j ≤ f.good.length → e + ((f.good.take j).map fun c => c.2 / var).sum < v
  early : ∀ o, f.outputDim = some o → f.nans = 0 ∧ o = i + f.good.length ∧ 1 ≤ f.good.length ∧ f.good.length ≤ k ∧
    ∃ v, des = some v ∧ v ≤ e + (f.good.map fun c => c.2 / var).sum ∧
      ∀ j, 1 ≤ j → j < f.good.length → e + ((f.good.take j).map fun c => c.2 / var).sum < v

theorem components_counted {conv : ℝ} (maxIt : Nat) (var : ℝ) (des : Option ℝ) (k : Nat) :
    ∀ (i : Nat) (X : Matrix (Fin n) (Fin (m + 1)) ℝ) (e : ℝ) (f : Found m), components conv maxIt var des k i X e = .ok f →
      Counted var des k i e f := by
  induction k with
  | zero =>
    intro i X e f h
    cases h
    refine ⟨⟨?_, ?_⟩, ?_, ?_⟩
    · intro x hx
      cases hx
      simp
    · intro hx
      cases hx
    · intro _
      refine ⟨rfl, ?_⟩
      intro v _ j h1 h2
      simp only [List.length_nil] at h2
      omega
    · intro o ho
      cases ho
  | succ k ih =>
    intro i X e f h
    simp only [components] at h
    split at h
    · cases h
    · cases h
      refine ⟨⟨?_, ?_⟩, ?_, ?_⟩
      · intro x hx
        cases hx
      · intro _
        exact Nat.succ_pos k
      · intro _
        refine ⟨by simp, ?_⟩
        intro v _ j h1 h2
        simp only [List.length_nil] at h2
        omega
      · intro o ho
        cases ho
    · rename_i p t hp
      split at h
      · rename_i hd
        cases h
        refine ⟨⟨?_, ?_⟩, ?_, ?_⟩
        · intro x hx
          cases hx
          simp
        · intro hx
          cases hx
        · intro hx
          cases hx
        · intro o ho
          cases ho
          refine ⟨rfl, rfl, Nat.le_refl 1, by simp, ?_⟩
          cases des with
          | none => cases hd
          | some v =>
            refine ⟨v, rfl, ?_, ?_⟩
            · simpa using hd
            · intro j h1 h2
              simp only [List.length_singleton] at h2
              omega
      · rename_i hd
        split at h
        · cases h
        · rename_i f' hf
          cases h
          obtain ⟨⟨h1, h1'⟩, h2, h3⟩ := ih _ _ _ _ hf
          have hbelow : ∀ v, des = some v → e + ((vecMulVec t p *ᵥ p) ⬝ᵥ (vecMulVec t p *ᵥ p)) / ((n : ℝ) - 1) / var < v := by
            intro v hv
            subst hv
            simpa using hd
          refine ⟨⟨?_, h1'⟩, ?_, ?_⟩
          · intro x hx
            obtain ⟨a, b⟩ := h1 x hx
            refine ⟨a, ?_⟩
            rw [b]
            simp only [List.map_cons, List.sum_cons]
            ring
          · intro ho
            obtain ⟨a, b⟩ := h2 ho
            refine ⟨by simp only [List.length_cons]; omega, ?_⟩
            intro v hv j hj hj'
            cases j with
            | zero => omega
            | succ j =>
              simp only [List.take_succ_cons, List.map_cons, List.sum_cons]
              cases j with
              | zero => simpa using hbelow v hv
              | succ j =>
                have := b v hv (j + 1) (by omega) (by simp only [List.length_cons] at hj'; omega)
                linarith
          · intro o ho
            obtain ⟨a, b, c, d, v, hv, hr, hb⟩ := h3 o ho
            refine ⟨a, by simp only [List.length_cons]; omega, by simp, by simp only [List.length_cons]; omega, v, hv, ?_, ?_⟩
            · simp only [List.map_cons, List.sum_cons]
              linarith
            · intro j hj hj'
              cases j with
              | zero => omega
              | succ j =>
                simp only [List.take_succ_cons, List.map_cons, List.sum_cons]
                cases j with
                | zero => simpa using hbelow v hv
                | succ j =>
                  have := hb (j + 1) (by omega) (by simp only [List.length_cons] at hj'; omega)
                  linarith

/-! ## The node -/

theorem score_eq (X : Matrix (Fin n) (Fin (m + 1)) ℝ) (p : Fin (m + 1) → ℝ) (a : Fin n) : (centred X *ᵥ p) a = score X p a := rfl

theorem comps_get {l : List ((Fin (m + 1) → ℝ) × ℝ)} {k o i : Nat} {c}
    (h : ((l.map some ++ List.replicate k none).take o)[i]? = some (some c)) : l[i]? = some c := by
  rw [List.getElem?_take] at h
  split at h
  · rw [List.getElem?_append] at h
    split at h
    · rw [List.getElem?_map] at h
      cases hl : l[i]? with
      | none => rw [hl] at h; cases h
      | some c' =>
        rw [hl] at h
        cases h
        rfl
    · rw [List.getElem?_replicate] at h
      split at h <;> cases h
  · cases h

theorem fro_centred (hn : 2 ≤ n) (X : Matrix (Fin n) (Fin (m + 1)) ℝ) :
    fro (centred X) = ((n : ℝ) - 1) * ∑ j, colVariance X j := by
  have h2 : (2 : ℝ) ≤ n := by exact_mod_cast hn
  have hne : (n : ℝ) - 1 ≠ 0 := by intro hh; linarith
  unfold fro
  rw [Finset.sum_comm, Finset.mul_sum]
  refine Finset.sum_congr rfl fun j _ => ?_
  unfold colVariance
  rw [mul_div_cancel₀ _ hne]
  rfl

theorem stop_found {conv : ℝ} {maxIt : Nat} {od des} {X : Matrix (Fin n) (Fin (m + 1)) ℝ} {T : Trained m}
    (h : stopTraining conv maxIt od des X = .ok T) :
    ∃ f : Found m, components conv maxIt (totalVar (centred X)) des (m + 1) 0 (centred X) 0 = .ok f ∧ T.avg = avg X ∧
      T.totalVariance = totalVar (centred X) ∧ T.explainedVariance = f.expVar ∧
      T.comps = (f.good.map some ++ List.replicate f.nans none).take (f.outputDim.getD (od.getD (m + 1))) := by
  simp only [stopTraining] at h
  split at h
  · cases h
  · rename_i f hf
    cases h
    refine ⟨f, hf, rfl, rfl, rfl, ?_⟩
    cases f.outputDim <;> cases od <;> rfl

theorem score_sum (hn : 2 ≤ n) (X : Matrix (Fin n) (Fin (m + 1)) ℝ) (p : Fin (m + 1) → ℝ) : ∑ a, score X p a = 0 := by
  have h2 : (2 : ℝ) ≤ n := by exact_mod_cast hn
  have hne : (n : ℝ) ≠ 0 := by intro hh; linarith
  unfold score
  rw [Finset.sum_comm]
  refine Finset.sum_eq_zero fun j _ => ?_
  rw [← Finset.sum_mul, Finset.sum_sub_distrib, Finset.sum_const, Finset.card_univ, Fintype.card_fin, nsmul_eq_mul,
    mul_div_cancel₀ _ hne, sub_self, zero_mul]

/-- C243: the loadings are orthonormal, whatever the convergence threshold. -/
theorem nipals_orthonormal {conv : ℝ} (hconv : 0 ≤ conv) {maxIt : Nat} {od des} {X : Matrix (Fin n) (Fin (m + 1)) ℝ} {T : Trained m}
    (h : stopTraining conv maxIt od des X = .ok T) {i j : Nat} {c c'} (hi : T.comps[i]? = some (some c))
    (hj : T.comps[j]? = some (some c')) : ∑ l, c.1 l * c'.1 l = if i = j then 1 else 0 := by
  obtain ⟨f, hf, -, -, -, hc⟩ := stop_found h
  have hs := components_sound hconv _ _ _ _ _ _ _ _ hf
  rw [hc] at hi hj
  have hi := comps_get hi
  have hj := comps_get hj
  obtain ⟨hi1, hi2⟩ := List.getElem?_eq_some_iff.1 hi
  obtain ⟨hj1, hj2⟩ := List.getElem?_eq_some_iff.1 hj
  have ho := List.pairwise_iff_getElem.1 hs.orth
  rcases lt_trichotomy i j with hij | rfl | hij
  · rw [if_neg hij.ne, ← hi2, ← hj2]
    exact ho i j hi1 hj1 hij
  · rw [if_pos rfl]
    rw [hi] at hj
    cases hj
    exact hs.unit c (List.mem_of_getElem? hi)
  · rw [if_neg hij.ne', ← hi2, ← hj2]
    exact (dotProduct_comm _ _).trans (ho j i hj1 hi1 hij)

/-- C243: outputs have mean zero, and `d` is their sample variance. -/
theorem nipals_variance {conv : ℝ} (hconv : 0 ≤ conv) (hn : 2 ≤ n) {maxIt : Nat} {od des} {X : Matrix (Fin n) (Fin (m + 1)) ℝ}
    {T : Trained m} (h : stopTraining conv maxIt od des X = .ok T) {i : Nat} {c} (hi : T.comps[i]? = some (some c)) :
    ∑ a, score X c.1 a = 0 ∧ c.2 = (∑ a, score X c.1 a ^ 2) / ((n : ℝ) - 1) := by
  obtain ⟨f, hf, -, -, -, hc⟩ := stop_found h
  have hs := components_sound hconv _ _ _ _ _ _ _ _ hf
  rw [hc] at hi
  have hi := comps_get hi
  refine ⟨score_sum hn X c.1, ?_⟩
  rw [hs.var c (List.mem_of_getElem? hi)]
  congr 1
  exact Finset.sum_congr rfl fun a _ => (pow_two _).symm

/-- C243: values that are not numbers only come after all the others. -/
theorem nipals_nan_last {conv : ℝ} {maxIt : Nat} {od des} {X : Matrix (Fin n) (Fin (m + 1)) ℝ} {T : Trained m}
    (h : stopTraining conv maxIt od des X = .ok T) {i j : Nat} (hi : T.comps[i]? = some none) (hij : i ≤ j) (hj : j < T.comps.length) :
    T.comps[j]? = some none := by
  obtain ⟨f, hf, -, -, -, hc⟩ := stop_found h
  rw [hc] at hi hj ⊢
  rw [List.length_take, List.length_append, List.length_map, List.length_replicate] at hj
  have h1 : f.good.length ≤ i := by
    by_contra hlt
    rw [List.getElem?_take] at hi
    split at hi
    · rw [List.getElem?_append_left (by simpa using hlt), List.getElem?_map, List.getElem?_eq_getElem (by omega)] at hi
      cases hi
    · cases hi
  rw [List.getElem?_take, if_pos (by omega), List.getElem?_append_right (by simp; omega), List.getElem?_replicate,
    if_pos (by simp; omega)]

/-- C244: outputs are uncorrelated up to the threshold. -/
theorem nipals_uncorrelated {conv : ℝ} (hconv : 0 ≤ conv) (hn : 2 ≤ n) {maxIt : Nat} {od des} {X : Matrix (Fin n) (Fin (m + 1)) ℝ}
    {T : Trained m} (h : stopTraining conv maxIt od des X = .ok T) {i j : Nat} {c c'} (hi : T.comps[i]? = some (some c))
    (hj : T.comps[j]? = some (some c')) (hij : i ≠ j) :
    (∑ a, score X c.1 a * score X c'.1 a) ^ 2 ≤ conv * (((n : ℝ) - 1) * ∑ l, colVariance X l) := by
  obtain ⟨f, hf, -, -, -, hc⟩ := stop_found h
  have hs := components_sound hconv _ _ _ _ _ _ _ _ hf
  rw [hc] at hi hj
  obtain ⟨hi1, hi2⟩ := List.getElem?_eq_some_iff.1 (comps_get hi)
  obtain ⟨hj1, hj2⟩ := List.getElem?_eq_some_iff.1 (comps_get hj)
  have ho := List.pairwise_iff_getElem.1 hs.unc
  rw [← fro_centred hn]
  rcases lt_or_gt_of_ne hij with hij | hij
  · rw [← hi2, ← hj2]
    exact ho i j hi1 hj1 hij
  · rw [← hi2, ← hj2]
    have := ho j i hj1 hi1 hij
    rw [dotProduct_comm] at this
    exact this

/-- C244: with threshold zero, outputs are uncorrelated. -/
theorem nipals_uncorrelated_exact (hn : 2 ≤ n) {maxIt : Nat} {od des} {X : Matrix (Fin n) (Fin (m + 1)) ℝ}
    {T : Trained m} (h : stopTraining 0 maxIt od des X = .ok T) {i j : Nat} {c c'} (hi : T.comps[i]? = some (some c))
    (hj : T.comps[j]? = some (some c')) (hij : i ≠ j) : ∑ a, score X c.1 a * score X c'.1 a = 0 := by
  have := nipals_uncorrelated (le_refl 0) hn h hi hj hij
  rw [zero_mul] at this
  exact pow_eq_zero_iff (two_ne_zero) |>.1 (le_antisymm this (sq_nonneg _))

/-- Sample covariance of two columns of the data. -/
noncomputable def colCov (X : Matrix (Fin n) (Fin (m + 1)) ℝ) (j l : Fin (m + 1)) : ℝ :=
  (∑ a, (X a j - (∑ b, X b j) / n) * (X a l - (∑ b, X b l) / n)) / ((n : ℝ) - 1)

/-- C244: loadings are eigenvectors of the covariance matrix up to the threshold, the variances the eigenvalues. -/
theorem nipals_eigenvectors {conv : ℝ} (hconv : 0 ≤ conv) (hn : 2 ≤ n) {maxIt : Nat} {od des}
    {X : Matrix (Fin n) (Fin (m + 1)) ℝ} {T : Trained m} (h : stopTraining conv maxIt od des X = .ok T) {i : Nat} {c}
    (hi : T.comps[i]? = some (some c)) :
    ∑ j, (∑ l, colCov X j l * c.1 l - c.2 * c.1 j) ^ 2 ≤ (i + 1) * conv * (∑ j, colVariance X j) / ((n : ℝ) - 1) := by
  obtain ⟨f, hf, -, -, -, hc⟩ := stop_found h
  have hs := components_sound hconv _ _ _ _ _ _ _ _ hf
  rw [hc] at hi
  have hi := comps_get hi
  have he := hs.eig i c hi
  have hv := hs.var c (List.mem_of_getElem? hi)
  rw [fro_centred hn] at he
  have h2 : (2 : ℝ) ≤ n := by exact_mod_cast hn
  have hpos : 0 < (n : ℝ) - 1 := by linarith
  have hentry : ∀ j, (centred X).transpose.mulVec (centred X *ᵥ c.1) j - ((centred X *ᵥ c.1) ⬝ᵥ (centred X *ᵥ c.1)) * c.1 j =
      ((n : ℝ) - 1) * (∑ l, colCov X j l * c.1 l - c.2 * c.1 j) := by
    intro j
    have e1 : (centred X *ᵥ c.1) ⬝ᵥ (centred X *ᵥ c.1) = ((n : ℝ) - 1) * c.2 := by
      rw [hv, mul_div_cancel₀ _ hpos.ne']
    have e2 : (centred X).transpose.mulVec (centred X *ᵥ c.1) j = ((n : ℝ) - 1) * ∑ l, colCov X j l * c.1 l := by
      simp only [Matrix.mulVec, dotProduct, Matrix.transpose_apply, Finset.mul_sum]
      rw [Finset.sum_comm]
      refine Finset.sum_congr rfl fun l _ => ?_
      unfold colCov
      rw [← mul_assoc, mul_div_cancel₀ _ hpos.ne', Finset.sum_mul]
      exact Finset.sum_congr rfl fun a _ => by rw [mul_assoc]; rfl
    rw [e1, e2]
    ring
  have hlhs : ((centred X).transpose *ᵥ (centred X *ᵥ c.1) - ((centred X *ᵥ c.1) ⬝ᵥ (centred X *ᵥ c.1)) • c.1) ⬝ᵥ
      ((centred X).transpose *ᵥ (centred X *ᵥ c.1) - ((centred X *ᵥ c.1) ⬝ᵥ (centred X *ᵥ c.1)) • c.1) =
      ((n : ℝ) - 1) ^ 2 * ∑ j, (∑ l, colCov X j l * c.1 l - c.2 * c.1 j) ^ 2 := by
    rw [Finset.mul_sum]
    refine Finset.sum_congr rfl fun j _ => ?_
    rw [Pi.sub_apply, Pi.smul_apply, smul_eq_mul, hentry j]
    ring
  rw [hlhs] at he
  rw [le_div_iff₀ hpos]
  have : ((n : ℝ) - 1) * ((∑ j, (∑ l, colCov X j l * c.1 l - c.2 * c.1 j) ^ 2) * ((n : ℝ) - 1)) ≤
      ((n : ℝ) - 1) * ((i + 1) * conv * ∑ j, colVariance X j) := by linarith
  exact le_of_mul_le_mul_left this hpos

theorem orth_length {conv : ℝ} {X : Matrix (Fin n) (Fin (m + 1)) ℝ} {l : List ((Fin (m + 1) → ℝ) × ℝ)} (hs : Sound conv X l)
    (hl : l.length = m + 1) (Z : Matrix (Fin n) (Fin (m + 1)) ℝ) (hZ : ∀ c ∈ l, Z *ᵥ c.1 = 0) : Z = 0 := by
  let P : Matrix (Fin (m + 1)) (Fin (m + 1)) ℝ := Matrix.of fun j i => (l[i.val]'(by omega)).1 j
  have h1 : P.transpose * P = 1 := by
    ext i j
    have ho := List.pairwise_iff_getElem.1 hs.orth
    show (l[i.val]'_).1 ⬝ᵥ (l[j.val]'_).1 = _
    rcases lt_trichotomy i j with hij | rfl | hij
    · rw [Matrix.one_apply_ne hij.ne]
      exact ho _ _ _ _ hij
    · rw [Matrix.one_apply_eq]
      exact hs.unit _ (List.getElem_mem _)
    · rw [Matrix.one_apply_ne hij.ne', dotProduct_comm]
      exact ho _ _ _ _ hij
  have h2 : P * P.transpose = 1 := mul_eq_one_comm.1 h1
  have h3 : Z * P = 0 := by
    ext a i
    show (fun j => Z a j) ⬝ᵥ (l[i.val]'_).1 = 0
    exact congrFun (hZ _ (List.getElem_mem _)) a
  calc Z = Z * (P * P.transpose) := by rw [h2, Matrix.mul_one]
    _ = 0 := by rw [← Matrix.mul_assoc, h3, Matrix.zero_mul]

theorem sound_total {conv : ℝ} (hn : 2 ≤ n) {X : Matrix (Fin n) (Fin (m + 1)) ℝ} {l : List ((Fin (m + 1) → ℝ) × ℝ)}
    (hs : Sound conv (centred X) l) : (l.map Prod.snd).sum ≤ ∑ j, colVariance X j ∧
      (l.length = m + 1 → (l.map Prod.snd).sum = ∑ j, colVariance X j) := by
  obtain ⟨Z, hZ, hZ0, -⟩ := hs.total
  have h2 : (2 : ℝ) ≤ n := by exact_mod_cast hn
  have hpos : 0 < (n : ℝ) - 1 := by linarith
  have hsum : (l.map fun c => (centred X *ᵥ c.1) ⬝ᵥ (centred X *ᵥ c.1)).sum = ((n : ℝ) - 1) * (l.map Prod.snd).sum := by
    rw [← List.sum_map_mul_left]
    congr 1
    refine List.map_congr_left fun c hc => ?_
    rw [hs.var c hc, mul_div_cancel₀ _ hpos.ne']
  rw [hsum, fro_centred hn] at hZ
  refine ⟨?_, fun hl => ?_⟩
  · have := fro_nonneg Z
    exact le_of_mul_le_mul_left (by linarith) hpos
  · have hz := orth_length hs hl Z hZ0
    have : fro Z = 0 := by
      rw [hz]
      simp [fro]
    rw [this, add_zero] at hZ
    exact mul_left_cancel₀ hpos.ne' hZ

/-- Variances of the components that are numbers. -/
def variances (l : List (Option ((Fin (m + 1) → ℝ) × ℝ))) : List ℝ := l.filterMap (Option.map Prod.snd)

theorem variances_comps (l : List ((Fin (m + 1) → ℝ) × ℝ)) (k o : Nat) :
    variances ((l.map some ++ List.replicate k none).take o) = (l.take o).map Prod.snd := by
  unfold variances
  rw [List.take_append, List.filterMap_append, List.take_replicate, ← List.map_take, List.filterMap_map]
  have h1 : ∀ j : Nat, (List.replicate j (none : Option ((Fin (m + 1) → ℝ) × ℝ))).filterMap (Option.map Prod.snd) = [] := by
    intro j
    simp
  rw [h1, List.append_nil]
  induction l.take o with
  | nil => rfl
  | cons c r ih =>
    rw [List.map_cons, ← ih]
    rfl

theorem take_sum_le (l : List ℝ) (o : Nat) (h : ∀ x ∈ l, 0 ≤ x) : (l.take o).sum ≤ l.sum := by
  conv_rhs => rw [← List.take_append_drop o l, List.sum_append]
  have : 0 ≤ (l.drop o).sum := List.sum_nonneg fun x hx => h x (List.mem_of_mem_drop hx)
  linarith

/-- C245: the variances of the outputs add up to the total variance at most, and to the total variance if there are as many components as
inputs. -/
theorem nipals_total {conv : ℝ} (hconv : 0 ≤ conv) (hn : 2 ≤ n) {maxIt : Nat} {od des} {X : Matrix (Fin n) (Fin (m + 1)) ℝ}
    {T : Trained m} (h : stopTraining conv maxIt od des X = .ok T) :
    (variances T.comps).sum ≤ ∑ j, colVariance X j ∧
      (T.comps.length = m + 1 → none ∉ T.comps → (variances T.comps).sum = ∑ j, colVariance X j) := by
  obtain ⟨f, hf, -, -, -, hc⟩ := stop_found h
  have hs := components_sound hconv _ _ _ _ _ _ _ _ hf
  have hk := components_counted _ _ _ _ _ _ _ _ hf
  obtain ⟨h1, h2⟩ := sound_total hn hs
  have h3 : (2 : ℝ) ≤ n := by exact_mod_cast hn
  have hpos : 0 < (n : ℝ) - 1 := by linarith
  have hv : variances T.comps = (f.good.map Prod.snd).take (f.outputDim.getD (od.getD (m + 1))) := by
    rw [hc, variances_comps, List.map_take]
  refine ⟨?_, ?_⟩
  · rw [hv]
    refine (take_sum_le _ _ ?_).trans h1
    intro x hx
    obtain ⟨c, hcm, rfl⟩ := List.mem_map.1 hx
    rw [hs.var c hcm]
    exact div_nonneg (dot_self_nonneg _) hpos.le
  · intro hl hnone
    generalize f.outputDim.getD (od.getD (m + 1)) = o at hc hv
    have hgl : f.good.length + f.nans ≤ m + 1 := by
      cases ho : f.outputDim with
      | none => exact (hk.full ho).1.le
      | some o =>
        obtain ⟨a, b, c, d, -⟩ := hk.early o ho
        omega
    have hlen : T.comps.length = min o (f.good.length + f.nans) := by
      rw [hc, List.length_take, List.length_append, List.length_map, List.length_replicate]
    have hge : f.good.length = m + 1 := by
      by_contra hlt
      apply hnone
      rw [hc]
      refine List.mem_of_getElem? (i := f.good.length) ?_
      rw [List.getElem?_take, if_pos (by omega), List.getElem?_append_right (by simp), List.getElem?_replicate,
        if_pos (by simp; omega)]
    rw [hv, List.take_of_length_le (by rw [List.length_map]; omega)]
    exact h2 hge

theorem totalVar_centred (hn : 2 ≤ n) (X : Matrix (Fin n) (Fin (m + 1)) ℝ) :
    totalVar (centred X) = ((n : ℝ) - 1) / n * ∑ j, colVariance X j := by
  have h2 : (2 : ℝ) ≤ n := by exact_mod_cast hn
  have hne : (n : ℝ) ≠ 0 := by intro hh; linarith
  have hne' : (n : ℝ) - 1 ≠ 0 := by intro hh; linarith
  have h0 : ∀ j, avg (centred X) j = 0 := by
    intro j
    simp only [avg, centred, Matrix.of_apply]
    rw [Finset.sum_sub_distrib, Finset.sum_const, Finset.card_univ, Fintype.card_fin, nsmul_eq_mul,
      mul_div_cancel₀ _ hne, sub_self, zero_div]
  unfold totalVar
  rw [Finset.mul_sum]
  refine Finset.sum_congr rfl fun j _ => ?_
  simp only [h0, sub_zero]
  unfold colVariance
  have : ∑ a, centred X a j * centred X a j = ∑ a, (X a j - (∑ b, X b j) / n) ^ 2 :=
    Finset.sum_congr rfl fun a _ => (pow_two _).symm
  rw [this]
  generalize ∑ a, (X a j - (∑ b, X b j) / n) ^ 2 = q
  field_simp

theorem explained_value (hn : 2 ≤ n) {X : Matrix (Fin n) (Fin (m + 1)) ℝ} (l : List ((Fin (m + 1) → ℝ) × ℝ)) :
    (0 : ℝ) + (l.map fun c => c.2 / totalVar (centred X)).sum = n / ((n : ℝ) - 1) * ((l.map Prod.snd).sum / ∑ j, colVariance X j) := by
  have h2 : (2 : ℝ) ≤ n := by exact_mod_cast hn
  have hne : (n : ℝ) ≠ 0 := by intro hh; linarith
  have hne' : (n : ℝ) - 1 ≠ 0 := by intro hh; linarith
  have : (l.map fun c => c.2 / totalVar (centred X)) = l.map fun c => c.2 * (totalVar (centred X))⁻¹ := by
    simp only [div_eq_mul_inv]
  rw [zero_add, this, List.sum_map_mul_right, totalVar_centred hn]
  rw [mul_inv, inv_div]
  rw [div_eq_mul_inv (List.map Prod.snd l).sum]
  ring

theorem comps_whole {var : ℝ} {des : Option ℝ} {e : ℝ} {f : Found m} (hk : Counted var des (m + 1) 0 e f) :
    (f.good.map some ++ List.replicate f.nans none).take (f.outputDim.getD (m + 1)) = f.good.map some ++ List.replicate f.nans none := by
  refine List.take_of_length_le ?_
  rw [List.length_append, List.length_map, List.length_replicate]
  cases ho : f.outputDim with
  | none => exact (hk.full ho).1.le
  | some o =>
    obtain ⟨a, b, -⟩ := hk.early o ho
    simp only [Option.getD_some]
    omega

theorem variances_prefix (l : List ((Fin (m + 1) → ℝ) × ℝ)) (j : Nat) (hj : j ≤ l.length) :
    variances ((l.map some).take j) = (l.take j).map Prod.snd := by
  have := variances_comps l 0 j
  rwa [List.replicate_zero, List.append_nil] at this

/-- C246 (restricted): without a number of components given, the explained variance is the variance of the outputs over the total variance,
times `n / (n - 1)`. -/
theorem nipals_explained_partial {conv : ℝ} (hn : 2 ≤ n) {maxIt : Nat} {des} {X : Matrix (Fin n) (Fin (m + 1)) ℝ}
    {T : Trained m} (h : stopTraining conv maxIt none des X = .ok T) {x : ℝ} (hx : T.explainedVariance = some x) :
    none ∉ T.comps ∧ x = n / ((n : ℝ) - 1) * ((variances T.comps).sum / ∑ j, colVariance X j) := by
  obtain ⟨f, hf, -, -, he, hc⟩ := stop_found h
  have hk := components_counted _ _ _ _ _ _ _ _ hf
  rw [he] at hx
  obtain ⟨h1, h2⟩ := hk.exact_nans.1 x hx
  simp only [Option.getD_none] at hc
  rw [comps_whole hk, h1, List.replicate_zero, List.append_nil] at hc
  refine ⟨?_, ?_⟩
  · rw [hc]
    simp
  · rw [h2, explained_value hn, hc]
    have := variances_prefix f.good f.good.length (Nat.le_refl _)
    rw [List.take_of_length_le (by simp), List.take_of_length_le (Nat.le_refl _)] at this
    rw [this]

/-- C246 (violated): whatever number of components is asked for, the explained variance is `n / (n - 1)`, more than one. -/
theorem nipals_explained_false {conv : ℝ} (hconv : 0 ≤ conv) (hn : 2 ≤ n) {maxIt : Nat} {od} {X : Matrix (Fin n) (Fin (m + 1)) ℝ}
    {T : Trained m} (hX : ∑ j, colVariance X j ≠ 0) (h : stopTraining conv maxIt od none X = .ok T) {x : ℝ}
    (hx : T.explainedVariance = some x) : x = n / ((n : ℝ) - 1) ∧ 1 < x := by
  obtain ⟨f, hf, -, -, he, hc⟩ := stop_found h
  have hs := components_sound hconv _ _ _ _ _ _ _ _ hf
  have hk := components_counted _ _ _ _ _ _ _ _ hf
  rw [he] at hx
  obtain ⟨h1, h2⟩ := hk.exact_nans.1 x hx
  have ho : f.outputDim = none := by
    cases ho : f.outputDim with
    | none => rfl
    | some o =>
      obtain ⟨-, -, -, -, v, hv, -⟩ := hk.early o ho
      cases hv
  have hl := (hk.full ho).1
  have hsum := (sound_total hn hs).2 (by omega)
  have h3 : (2 : ℝ) ≤ n := by exact_mod_cast hn
  have hpos : 0 < (n : ℝ) - 1 := by linarith
  have hxe : x = n / ((n : ℝ) - 1) := by
    rw [h2, explained_value hn, hsum, div_self hX, mul_one]
  refine ⟨hxe, ?_⟩
  rw [hxe, lt_div_iff₀ hpos]
  linarith

/-- C246 (restricted): if a fraction of the variance is asked for, the components stop at the first for which `n / (n - 1)` times the
fraction reached is enough. -/
theorem nipals_desired_partial {conv : ℝ} (hn : 2 ≤ n) {maxIt : Nat} {v : ℝ} {X : Matrix (Fin n) (Fin (m + 1)) ℝ}
    {T : Trained m} (h : stopTraining conv maxIt none (some v) X = .ok T) {x : ℝ} (hx : T.explainedVariance = some x) :
    (v ≤ x ∨ T.comps.length = m + 1) ∧ ∀ j, 1 ≤ j → j < T.comps.length →
      n / ((n : ℝ) - 1) * ((variances (T.comps.take j)).sum / ∑ l, colVariance X l) < v := by
  obtain ⟨f, hf, -, -, he, hc⟩ := stop_found h
  have hk := components_counted _ _ _ _ _ _ _ _ hf
  rw [he] at hx
  obtain ⟨h1, h2⟩ := hk.exact_nans.1 x hx
  simp only [Option.getD_none] at hc
  rw [comps_whole hk, h1, List.replicate_zero, List.append_nil] at hc
  have hlen : T.comps.length = f.good.length := by rw [hc, List.length_map]
  have hpre : ∀ j, j < T.comps.length → n / ((n : ℝ) - 1) * ((variances (T.comps.take j)).sum / ∑ l, colVariance X l) =
      0 + ((f.good.take j).map fun c => c.2 / totalVar (centred X)).sum := by
    intro j hj
    rw [explained_value hn, hc, variances_prefix _ _ (by omega)]
  cases ho : f.outputDim with
  | none =>
    obtain ⟨a, b⟩ := hk.full ho
    refine ⟨Or.inr (by omega), fun j hj hj' => ?_⟩
    rw [hpre j hj']
    exact b v rfl j hj (by omega)
  | some o =>
    obtain ⟨-, -, -, -, v', hv, hr, hb⟩ := hk.early o ho
    cases hv
    refine ⟨Or.inl (by rw [h2]; exact hr), fun j hj hj' => ?_⟩
    rw [hpre j hj']
    exact hb j hj (by omega)

/-! ## The first input -/

theorem constant_nan {conv : ℝ} {maxIt : Nat} (hm : 1 ≤ maxIt) {var e : ℝ} {des : Option ℝ} {k i : Nat}
    {X : Matrix (Fin n) (Fin (m + 1)) ℝ} (hX : ∀ a, X a 0 = 0) :
    components conv maxIt var des (k + 1) i X e = .ok ⟨[], k + 1, none, none⟩ := by
  obtain ⟨r, rfl⟩ : ∃ r, maxIt = r + 1 := ⟨maxIt - 1, by omega⟩
  have : power conv X (r + 1) (fun a => X a 0) = .nan := by
    simp only [power]
    rw [if_pos]
    simp [dotProduct, hX]
  simp only [components, this]

/-- C247 (violated): with a first input that is constant, every component is nan. -/
theorem nipals_constant_violation {conv : ℝ} {maxIt : Nat} (hm : 1 ≤ maxIt) (hn : 2 ≤ n) {des} {X : Matrix (Fin n) (Fin (m + 1)) ℝ} (x : ℝ)
    (hX : ∀ a, X a 0 = x) : ∃ T, stopTraining conv maxIt none des X = .ok T ∧ T.comps = List.replicate (m + 1) none ∧
      T.explainedVariance = none := by
  have h2 : (2 : ℝ) ≤ n := by exact_mod_cast hn
  have hne : (n : ℝ) ≠ 0 := by intro hh; linarith
  have h0 : ∀ a, centred X a 0 = 0 := by
    intro a
    simp only [centred, Matrix.of_apply, avg, hX]
    rw [Finset.sum_const, Finset.card_univ, Fintype.card_fin, nsmul_eq_mul, mul_div_cancel_left₀ _ hne, sub_self]
  simp only [stopTraining, constant_nan hm h0]
  refine ⟨_, rfl, ?_, rfl⟩
  simp

theorem decorrelated_step {conv : ℝ} (hconv : 0 ≤ conv) {maxIt : Nat} (hm : 1 ≤ maxIt)
    {X : Matrix (Fin n) (Fin (m + 1)) ℝ} (h0 : ∑ a, X a 0 * X a 0 ≠ 0) (hX : ∀ j, j ≠ 0 → ∑ a, X a 0 * X a j = 0) :
    power conv X maxIt (fun a => X a 0) = .done (Pi.single 0 1) (fun a => X a 0) := by
  obtain ⟨r, rfl⟩ : ∃ r, maxIt = r + 1 := ⟨maxIt - 1, by omega⟩
  have h1 : ((fun a => X a 0) ⬝ᵥ (fun a => X a 0))⁻¹ • (X.transpose *ᵥ fun a => X a 0) = Pi.single 0 1 := by
    funext j
    rw [Pi.smul_apply, smul_eq_mul]
    by_cases hj : j = 0
    · subst hj
      rw [Pi.single_eq_same]
      exact inv_mul_cancel₀ h0
    · rw [Pi.single_eq_of_ne hj]
      have : (X.transpose *ᵥ fun a => X a 0) j = 0 := by
        rw [← hX j hj]
        simp only [Matrix.mulVec, dotProduct, Matrix.transpose_apply]
        exact Finset.sum_congr rfl fun a _ => mul_comm (X a j) (X a 0)
      rw [this, mul_zero]
  have h2 : (Pi.single 0 1 : Fin (m + 1) → ℝ) ⬝ᵥ Pi.single 0 1 = 1 := by simp
  have h3 : X *ᵥ Pi.single 0 1 = fun a => X a 0 := by
    funext a
    simp [Matrix.mulVec]
  simp only [power, h1, h2]
  rw [if_neg (show ¬((fun a => X a 0) ⬝ᵥ fun a => X a 0) = 0 from h0), if_neg one_ne_zero, Real.sqrt_one, inv_one, one_smul, h3, if_neg]
  simp only [sub_self, dotProduct_zero, gt_iff_lt, not_lt]
  exact hconv

theorem decorrelated_components {conv : ℝ} (hconv : 0 ≤ conv) {maxIt : Nat} (hm : 1 ≤ maxIt) {var e : ℝ} {des : Option ℝ} {k i : Nat}
    {X : Matrix (Fin n) (Fin (m + 1)) ℝ} (h0 : ∑ a, X a 0 * X a 0 ≠ 0) (hX : ∀ j, j ≠ 0 → ∑ a, X a 0 * X a j = 0) :
    components conv maxIt var des (k + 2) i X e =
      let d := (∑ a, X a 0 * X a 0) / ((n : ℝ) - 1)
      if (des.elim false fun v => decide (e + d / var ≥ v)) then .ok ⟨[(Pi.single 0 1, d)], 0, some (e + d / var), some (i + 1)⟩
      else .ok ⟨[(Pi.single 0 1, d)], k + 1, none, none⟩ := by
  have h1 : vecMulVec (fun a => X a 0) (Pi.single 0 1 : Fin (m + 1) → ℝ) *ᵥ Pi.single 0 1 = fun a => X a 0 := by
    rw [outer_mulVec]
    simp
  have h2 : ∀ a, (X - vecMulVec (fun a => X a 0) (Pi.single 0 1 : Fin (m + 1) → ℝ)) a 0 = 0 := by
    intro a
    rw [Matrix.sub_apply, vecMulVec_apply, Pi.single_eq_same, mul_one, sub_self]
  rw [components]
  simp only [decorrelated_step hconv hm h0 hX, h1, constant_nan hm h2]
  rfl

/-- C247 (violated): with a first input that is uncorrelated with the others, the first component is this input, whatever its variance, and
every other component is nan. -/
theorem nipals_uncorrelated_violation {conv : ℝ} (hconv : 0 ≤ conv) {maxIt : Nat} (hm : 1 ≤ maxIt)
    {X : Matrix (Fin n) (Fin (m + 2)) ℝ} (h0 : colVariance X 0 ≠ 0) (hX : ∀ j, j ≠ 0 → colCov X 0 j = 0) :
    ∃ T, stopTraining conv maxIt none none X = .ok T ∧
      T.comps = some (Pi.single 0 1, colVariance X 0) :: List.replicate (m + 1) none ∧ T.explainedVariance = none := by
  have hne : (n : ℝ) - 1 ≠ 0 := by
    intro hh
    apply h0
    rw [colVariance, hh, div_zero]
  have e0 : ∑ a, centred X a 0 * centred X a 0 = ∑ a, (X a 0 - (∑ b, X b 0) / n) ^ 2 :=
    Finset.sum_congr rfl fun a _ => (pow_two _).symm
  have h0' : ∑ a, centred X a 0 * centred X a 0 ≠ 0 := by
    intro hh
    apply h0
    rw [colVariance, ← e0, hh, zero_div]
  have hX' : ∀ j, j ≠ 0 → ∑ a, centred X a 0 * centred X a j = 0 := by
    intro j hj
    have := hX j hj
    rw [colCov, div_eq_zero_iff] at this
    exact this.resolve_right hne
  have := decorrelated_components hconv hm (var := totalVar (centred X)) (e := 0) (des := none) (k := m) (i := 0) h0' hX'
  simp only [Option.elim_none, Bool.false_eq_true, if_false] at this
  simp only [stopTraining, this, e0]
  refine ⟨_, rfl, ?_, rfl⟩
  simp [colVariance]

/-- Four points at the corners of a rectangle. -/
def rectangle (w : ℝ) : Matrix (Fin 4) (Fin 2) ℝ := !![1, w; 1, -w; -1, w; -1, -w]

/-- C247 (violated): components are not in order of variance: the second input has a larger variance. -/
theorem nipals_order_false : ∃ T, stopTraining (1 / 10 ^ 8) 100000 none none (rectangle 2) = .ok T ∧
    T.comps = [some (Pi.single 0 1, 4 / 3), none] ∧ colVariance (rectangle 2) 1 = 16 / 3 := by
  have hv : colVariance (rectangle 2) 0 = 4 / 3 := by
    simp [colVariance, rectangle, Fin.sum_univ_four]
    norm_num
  have hc : ∀ j, j ≠ 0 → colCov (rectangle 2) 0 j = 0 := by
    intro j hj
    fin_cases j
    · exact absurd rfl hj
    · simp [colCov, rectangle, Fin.sum_univ_four]
  obtain ⟨T, h1, h2, -⟩ := nipals_uncorrelated_violation (conv := 1 / 10 ^ 8) (maxIt := 100000) (by norm_num) (by norm_num) (X := rectangle 2)
    (by rw [hv]; norm_num) hc
  refine ⟨T, h1, ?_, ?_⟩
  · rw [h2, hv]
    rfl
  · simp [colVariance, rectangle, Fin.sum_univ_four]
    norm_num

/-- C246 (violated): three fifths of the variance are asked for, and a single component with half of it is returned. -/
theorem nipals_desired_false : ∃ T x, stopTraining (1 / 10 ^ 8) 100000 none (some (3 / 5)) (rectangle 1) = .ok T ∧
    T.comps.length = 1 ∧ T.explainedVariance = some x ∧ x = 2 / 3 ∧
    (variances T.comps).sum / ∑ j, colVariance (rectangle 1) j = 1 / 2 := by
  have hc : centred (rectangle 1) = rectangle 1 := by
    ext a j
    simp only [centred, avg, Matrix.of_apply]
    fin_cases a <;> fin_cases j <;> simp [rectangle, Fin.sum_univ_four]
  have ha : ∀ j, avg (rectangle 1) j = 0 := by
    intro j
    fin_cases j <;> simp [avg, rectangle, Fin.sum_univ_four]
  have ht : totalVar (rectangle 1) = 2 := by
    simp only [totalVar, ha]
    simp [rectangle, Fin.sum_univ_four]
    norm_num
  have hs : ∑ a, rectangle 1 a 0 * rectangle 1 a 0 = 4 := by
    simp [rectangle, Fin.sum_univ_four]
    norm_num
  have := decorrelated_components (conv := 1 / 10 ^ 8) (by norm_num) (maxIt := 100000) (by norm_num) (var := 2) (e := 0)
    (des := some (3 / 5)) (k := 0) (i := 0) (X := rectangle 1) (by rw [hs]; norm_num) (by
      intro j hj
      fin_cases j
      · exact absurd rfl hj
      · simp [rectangle, Fin.sum_univ_four])
  rw [hs] at this
  simp only [Option.elim_some, decide_eq_true_eq] at this
  rw [if_pos (by norm_num)] at this
  simp only [stopTraining, hc, ht, this]
  refine ⟨_, _, rfl, rfl, rfl, by norm_num, ?_⟩
  have hv : ∀ j, colVariance (rectangle 1) j = 4 / 3 := by
    intro j
    fin_cases j <;> simp [colVariance, rectangle, Fin.sum_univ_four] <;> norm_num
  simp [variances, hv]
  norm_num

theorem power_nan {conv : ℝ} {X : Matrix (Fin n) (Fin (m + 1)) ℝ} (r : Nat) (q : Fin (m + 1) → ℝ) (hq : (X *ᵥ q) ⬝ᵥ (X *ᵥ q) ≠ 0) :
    power conv X r (X *ᵥ q) ≠ .nan := by
  induction r generalizing q with
  | zero => exact fun h => nomatch h
  | succ r ih =>
    simp only [power]
    rw [if_neg hq]
    have hne : X.transpose *ᵥ (X *ᵥ q) ≠ 0 := by
      intro hh
      apply hq
      rw [← dot_transpose, hh, zero_dotProduct]
    have hp : (((X *ᵥ q) ⬝ᵥ (X *ᵥ q))⁻¹ • (X.transpose *ᵥ (X *ᵥ q))) ⬝ᵥ
        (((X *ᵥ q) ⬝ᵥ (X *ᵥ q))⁻¹ • (X.transpose *ᵥ (X *ᵥ q))) ≠ 0 := by
      intro hh
      rcases smul_eq_zero.1 (dot_self_zero hh) with h | h
      · exact hq (inv_eq_zero.1 h)
      · exact hne h
    rw [if_neg hp]
    split
    · refine ih _ ?_
      intro hh
      have hz := dot_self_zero hh
      have hs : (Real.sqrt ((((X *ᵥ q) ⬝ᵥ (X *ᵥ q))⁻¹ • (X.transpose *ᵥ (X *ᵥ q))) ⬝ᵥ
        (((X *ᵥ q) ⬝ᵥ (X *ᵥ q))⁻¹ • (X.transpose *ᵥ (X *ᵥ q)))))⁻¹ ≠ 0 :=
        inv_ne_zero (Real.sqrt_ne_zero'.2 (lt_of_le_of_ne (dot_self_nonneg _) (Ne.symm hp)))
      rw [Matrix.mulVec_smul, Matrix.mulVec_smul] at hz
      have hz := ((smul_eq_zero.1 hz).resolve_left hs)
      have hz := (smul_eq_zero.1 hz).resolve_left (inv_ne_zero hq)
      apply hne
      refine dot_self_zero ?_
      rw [dot_transpose, hz, dotProduct_zero]
    · exact fun h => nomatch h

theorem components_nan {conv : ℝ} (hconv : 0 ≤ conv) (maxIt : Nat) (var : ℝ) (des : Option ℝ) (k : Nat) :
    ∀ (i : Nat) (X : Matrix (Fin n) (Fin (m + 1)) ℝ) (e : ℝ) (f : Found m), components conv maxIt var des k i X e = .ok f →
      0 < f.nans → ∀ a, X a 0 = (f.good.map fun c => (X *ᵥ c.1) a * c.1 0).sum := by
  induction k with
  | zero =>
    intro i X e f h hn
    cases h
    exact absurd hn (Nat.lt_irrefl 0)
  | succ k ih =>
    intro i X e f h hn
    have hs := components_sound hconv _ _ _ _ _ _ _ _ h
    simp only [components] at h
    split at h
    · cases h
    · rename_i hp
      cases h
      intro a
      have hcol : (fun a => X a 0) = X *ᵥ Pi.single 0 1 := by
        funext a
        simp [Matrix.mulVec]
      rw [hcol] at hp
      by_contra hne
      refine power_nan _ _ ?_ hp
      intro hz
      have := congrFun (dot_self_zero hz) a
      rw [← hcol] at this
      exact hne (by simpa using this)
    · rename_i p t hp
      have hg := power_good _ _ _ _ _ _ hp
      split at h
      · cases h
        exact absurd hn (Nat.lt_irrefl 0)
      · split at h
        · cases h
        · rename_i f' hf
          cases h
          intro a
          have h1 := ih _ _ _ _ hf hn a
          have h2 : ∀ c ∈ f'.good, (X - vecMulVec t p) *ᵥ c.1 = X *ᵥ c.1 := fun c hc =>
            deflate_orth c.1 ((List.pairwise_cons.1 hs.orth).1 c hc)
          have h3 : (f'.good.map fun c => ((X - vecMulVec t p) *ᵥ c.1) a * c.1 0) = f'.good.map fun c => (X *ᵥ c.1) a * c.1 0 :=
            List.map_congr_left fun c hc => by rw [h2 c hc]
          rw [h3, Matrix.sub_apply, vecMulVec_apply] at h1
          simp only [List.map_cons, List.sum_cons]
          rw [← h1, ← hg.score]
          ring

/-- C247 (restricted): there are values that are not numbers only if the first input is, on the training data, given by the outputs found
before. -/
theorem nipals_nan_partial {conv : ℝ} (hconv : 0 ≤ conv) {maxIt : Nat} {des} {X : Matrix (Fin n) (Fin (m + 1)) ℝ}
    {T : Trained m} (h : stopTraining conv maxIt none des X = .ok T) (hn : none ∈ T.comps) (a : Fin n) :
    X a 0 = (∑ b, X b 0) / n + ((T.comps.filterMap id).map fun c => score X c.1 a * c.1 0).sum := by
  obtain ⟨f, hf, -, -, he, hc⟩ := stop_found h
  have hk := components_counted _ _ _ _ _ _ _ _ hf
  simp only [Option.getD_none] at hc
  rw [comps_whole hk] at hc
  have hpos : 0 < f.nans := by
    rw [hc, List.mem_append] at hn
    rcases hn with hn | hn
    · simp at hn
    · exact Nat.pos_of_ne_zero (List.mem_replicate.1 hn).1
  have h1 := components_nan hconv _ _ _ _ _ _ _ _ hf hpos a
  have h2 : T.comps.filterMap id = f.good := by
    rw [hc, List.filterMap_append]
    simp
  rw [h2]
  have h3 : centred X a 0 = X a 0 - (∑ b, X b 0) / n := rfl
  rw [h3] at h1
  have h4 : (f.good.map fun c => (centred X *ᵥ c.1) a * c.1 0) = f.good.map fun c => score X c.1 a * c.1 0 := rfl
  rw [h4] at h1
  linarith

/-! ## Instances -/

/-- Four points with mean zero. -/
noncomputable def four : Matrix (Fin 4) (Fin 2) ℝ := !![2, 3 / 2; -2, -(3 / 2); 0, 1; 0, -1]

theorem four_centred : centred four = four := by
  ext a j
  simp only [centred, avg, Matrix.of_apply]
  fin_cases a <;> fin_cases j <;> simp [four, Fin.sum_univ_four]

theorem four_power : power 100 four 1 (fun a => four a 0) = .done ![4 / 5, 3 / 5] (four *ᵥ ![4 / 5, 3 / 5]) := by
  have h1 : (fun a => four a 0) ⬝ᵥ (fun a => four a 0) = 8 := by
    simp [dotProduct, four, Fin.sum_univ_four]
    norm_num
  have h2 : (8 : ℝ)⁻¹ • (four.transpose *ᵥ fun a => four a 0) = ![1, 3 / 4] := by
    funext j
    fin_cases j <;> simp [four, Matrix.mulVec, dotProduct, Fin.sum_univ_four] <;> norm_num
  have h3 : (![1, 3 / 4] : Fin 2 → ℝ) ⬝ᵥ ![1, 3 / 4] = (5 / 4) ^ 2 := by
    simp
    norm_num
  have h4 : (5 / 4 : ℝ)⁻¹ • (![1, 3 / 4] : Fin 2 → ℝ) = ![4 / 5, 3 / 5] := by
    funext j
    fin_cases j <;> simp <;> norm_num
  simp only [power, h1, h2, h3]
  rw [if_neg (by norm_num), if_neg (by norm_num), Real.sqrt_sq (by norm_num), h4, if_neg]
  simp [four, Matrix.mulVec, dotProduct, Fin.sum_univ_four]
  norm_num

theorem four_rest_power : power 100 (four - vecMulVec (four *ᵥ ![4 / 5, 3 / 5]) ![4 / 5, 3 / 5]) 1
    (fun a => (four - vecMulVec (four *ᵥ ![4 / 5, 3 / 5]) ![4 / 5, 3 / 5]) a 0) =
      .done ![3 / 5, -(4 / 5)] ((four - vecMulVec (four *ᵥ ![4 / 5, 3 / 5]) ![4 / 5, 3 / 5]) *ᵥ ![3 / 5, -(4 / 5)]) := by
  have hY : four - vecMulVec (four *ᵥ ![4 / 5, 3 / 5]) ![4 / 5, 3 / 5] =
      !![0, 0; 0, 0; -(12 / 25), 16 / 25; 12 / 25, -(16 / 25)] := by
    ext a j
    fin_cases a <;> fin_cases j <;> simp [four, vecMulVec, Matrix.mulVec, dotProduct] <;> norm_num
  rw [hY]
  generalize hZ : (!![0, 0; 0, 0; -(12 / 25), 16 / 25; 12 / 25, -(16 / 25)] : Matrix (Fin 4) (Fin 2) ℝ) = Z
  have h1 : (fun a => Z a 0) ⬝ᵥ (fun a => Z a 0) = 288 / 625 := by
    subst hZ
    simp [dotProduct, Fin.sum_univ_four]
    norm_num
  have h2 : (288 / 625 : ℝ)⁻¹ • (Z.transpose *ᵥ fun a => Z a 0) = ![1, -(4 / 3)] := by
    subst hZ
    funext j
    fin_cases j <;> simp [Matrix.mulVec, dotProduct, Fin.sum_univ_four] <;> norm_num
  have h3 : (![1, -(4 / 3)] : Fin 2 → ℝ) ⬝ᵥ ![1, -(4 / 3)] = (5 / 3) ^ 2 := by
    simp
    norm_num
  have h4 : (5 / 3 : ℝ)⁻¹ • (![1, -(4 / 3)] : Fin 2 → ℝ) = ![3 / 5, -(4 / 5)] := by
    funext j
    fin_cases j <;> simp <;> norm_num
  simp only [power, h1, h2, h3]
  rw [if_neg (by norm_num), if_neg (by norm_num), Real.sqrt_sq (by norm_num), h4, if_neg]
  subst hZ
  simp [Matrix.mulVec, dotProduct, Fin.sum_univ_four]
  norm_num

/-- Two components are found. -/
theorem four_trained (od : Option Nat) : ∃ T d d', stopTraining 100 1 od none four = .ok T ∧ T.comps =
    ([some (![4 / 5, 3 / 5], d), some (![3 / 5, -(4 / 5)], d')]).take (od.getD 2) ∧ ∃ x, T.explainedVariance = some x := by
  have hr : ∀ v e, ∃ d x, components 100 1 v none 1 1 (four - vecMulVec (four *ᵥ ![4 / 5, 3 / 5]) ![4 / 5, 3 / 5]) e =
      .ok ⟨[(![3 / 5, -(4 / 5)], d)], 0, some x, none⟩ := by
    intro v e
    rw [components]
    rw [four_rest_power]
    exact ⟨_, _, rfl⟩
  have hf : ∀ v e, ∃ d d' x, components 100 1 v none 2 0 four e =
      .ok ⟨[(![4 / 5, 3 / 5], d), (![3 / 5, -(4 / 5)], d')], 0, some x, none⟩ := by
    intro v e
    rw [components]
    rw [four_power]
    obtain ⟨d, x, h⟩ := hr v (e + ((vecMulVec (four *ᵥ ![4 / 5, 3 / 5]) ![4 / 5, 3 / 5] *ᵥ ![4 / 5, 3 / 5]) ⬝ᵥ
      (vecMulVec (four *ᵥ ![4 / 5, 3 / 5]) ![4 / 5, 3 / 5] *ᵥ ![4 / 5, 3 / 5])) / (((4 : Nat) : ℝ) - 1) / v)
    simp only [Option.elim_none, Bool.false_eq_true, if_false]
    rw [h]
    exact ⟨_, _, _, rfl⟩
  obtain ⟨d, d', x, h⟩ := hf (totalVar four) 0
  simp only [stopTraining, four_centred]
  rw [h]
  refine ⟨_, d, d', rfl, ?_, ?_⟩
  · cases od <;> rfl
  · exact ⟨_, rfl⟩

example : ∃ T c c', stopTraining 100 1 none none four = .ok T ∧ T.comps[0]? = some (some c) ∧ T.comps[1]? = some (some c') := by
  obtain ⟨T, d, d', h, hc, -⟩ := four_trained none
  exact ⟨T, _, _, h, by rw [hc]; rfl, by rw [hc]; rfl⟩

/-- One component is asked for; the explained variance is four thirds. -/
example : ∃ T, stopTraining 100 1 (some 1) none four = .ok T ∧ T.comps.length = 1 ∧ T.explainedVariance = some (4 / 3) := by
  obtain ⟨T, d, d', h, hc, x, hx⟩ := four_trained (some 1)
  refine ⟨T, h, by rw [hc]; rfl, ?_⟩
  obtain ⟨h1, -⟩ := nipals_explained_false (by norm_num) (by norm_num) (by
    simp [colVariance, four, Fin.sum_univ_four]
    norm_num) h hx
  rw [hx, h1]
  norm_num

/-- A fraction of the variance is asked for. -/
example : ∃ T x, stopTraining (1 / 10 ^ 8) 100000 none (some (3 / 5)) (rectangle 1) = .ok T ∧ T.explainedVariance = some x := by
  obtain ⟨T, x, h, -, hx, -⟩ := nipals_desired_false
  exact ⟨T, x, h, hx⟩

/-- A first input that is constant. -/
example : ∃ T, stopTraining (1 / 10 ^ 8) 100000 none none (!![1, 2; 1, 3] : Matrix (Fin 2) (Fin 2) ℝ) = .ok T ∧
    T.comps = [none, none] := by
  obtain ⟨T, h, hc, -⟩ := nipals_constant_violation (conv := 1 / 10 ^ 8) (maxIt := 100000) (by norm_num) (le_refl 2) (des := none)
    (X := (!![1, 2; 1, 3] : Matrix (Fin 2) (Fin 2) ℝ)) 1 (by intro a; fin_cases a <;> rfl)
  exact ⟨T, h, hc⟩

end Mdp.Nipals
