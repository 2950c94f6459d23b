import Verif.Isfa.Model
import Verif.Ica.Cubica
import Verif.Num.CovProps
import Mathlib.Tactic.Ring
import Mathlib.Tactic.LinearCombination

/-!
# The angles of ISFA (C269, C270)
-/

namespace Mdp.Isfa

open Mdp.Ica

variable {n T : Nat}

/-! ## Specification -/

/-- The rotation by `phi` in the plane of the axes `i` and `j`. -/
noncomputable def plane (phi : ℝ) (i j : Fin n) : Matrix (Fin n) (Fin n) ℝ := fun a b =>
  if a = i ∧ b = i then Real.cos phi else if a = j ∧ b = j then Real.cos phi
  else if a = i ∧ b = j then Real.sin phi else if a = j ∧ b = i then -Real.sin phi
  else if a = b then 1 else 0

/-- The matrices after a change of the coordinates. -/
noncomputable def changed (g : Matrix (Fin n) (Fin n) ℝ) (c : Fin T → Fin n → Fin n → ℝ) : Fin T → Fin n → Fin n → ℝ := fun t => g.transpose * Matrix.of (c t) * g

/-- The objective of ISFA: the weighted sums of the squares on the diagonal and of the squares off the diagonal, for the first
`R` components. -/
noncomputable def objective (p : Par T) (c : Fin T → Fin n → Fin n → ℝ) : ℝ :=
  p.bsfa * ∑ t, p.sfa t * ∑ i, (if i.1 < p.R then c t i i ^ 2 else 0)
    + p.bica * ∑ t, p.ica t * ∑ i, ∑ j, (if i.1 < p.R ∧ j.1 < p.R ∧ i ≠ j then c t i j ^ 2 else 0)

/-! ## Sums -/

theorem diagSq_eq (R : Nat) (c : Cov.Mat ℝ n n) : diagSq R c = ∑ i : Fin n, (if i.1 < R then c i i ^ 2 else 0) := by
  unfold diagSq top
  rw [Finset.sum_filter]
  simp only [sq]

/-- The squares off the diagonal. -/
noncomputable def offSq (R : Nat) (c : Cov.Mat ℝ n n) : ℝ := ∑ i ∈ top R n, ∑ j ∈ top R n, if i ≠ j then c i j ^ 2 else 0

theorem offSq_eq (R : Nat) (c : Cov.Mat ℝ n n) :
    offSq R c = ∑ i : Fin n, ∑ j : Fin n, (if i.1 < R ∧ j.1 < R ∧ i ≠ j then c i j ^ 2 else 0) := by
  unfold offSq top
  rw [Finset.sum_filter]
  refine Finset.sum_congr rfl fun i _ => ?_
  rw [Finset.sum_filter]
  split
  · next h => exact Finset.sum_congr rfl fun j _ => by by_cases h2 : j.1 < R <;> simp [h, h2]
  · next h => symm; exact Finset.sum_eq_zero fun j _ => by simp [h]

theorem triuSq_eq (R : Nat) (c : Cov.Mat ℝ n n) (hc : ∀ i j, c i j = c j i) : 2 * triuSq R c = offSq R c := by
  have e : offSq R c = triuSq R c + ∑ i ∈ top R n, ∑ j ∈ top R n, if j < i then c i j * c i j else 0 := by
    unfold offSq triuSq
    rw [← Finset.sum_add_distrib]
    refine Finset.sum_congr rfl fun i _ => ?_
    rw [← Finset.sum_add_distrib]
    refine Finset.sum_congr rfl fun j _ => ?_
    rcases lt_trichotomy i j with h | h | h
    · simp [h, h.ne, not_lt_of_gt h, sq]
    · subst h; simp
    · simp [h, h.ne', not_lt_of_gt h, sq]
  have e2 : (∑ i ∈ top R n, ∑ j ∈ top R n, if j < i then c i j * c i j else 0) = triuSq R c := by
    rw [Finset.sum_comm]
    unfold triuSq
    refine Finset.sum_congr rfl fun i _ => Finset.sum_congr rfl fun j _ => ?_
    rw [hc j i]
  rw [e, e2]; ring

theorem contrast_eq (p : Par T) (c : Covs T n) (hc : ∀ t i j, c t i j = c t j i) :
    (contrast p c).1 + (contrast p c).2 = objective p c := by
  unfold contrast objective
  simp only [Finset.mul_sum, diagSq_eq, triuSq_eq _ _ (hc _), offSq_eq, mul_assoc]

/-! ## Rotations -/

/-- A rotation of two components of a vector. -/
def turn2 (c s : ℝ) (i j : Fin n) (f : Fin n → ℝ) : Fin n → ℝ := fun b =>
  if b = j then s * f i + c * f j else if b = i then c * f i - s * f j else f b

theorem rotate_turn (c s : ℝ) {i j : Fin n} (h : i ≠ j) (m : Cov.Mat ℝ n n) (a b : Fin n) :
    Cov.rotate c s i j m a b = turn2 c s i j (fun k => turn2 c s i j (m k) b) a := by
  unfold Cov.rotate turn2
  simp only [h.symm, if_false]

theorem plane_givens (phi : ℝ) {i j : Fin n} (h : i ≠ j) : plane phi i j = Cov.givens (Real.cos phi) (Real.sin phi) i j := by
  funext a b
  unfold plane Cov.givens
  split_ifs <;> simp_all

theorem congr2_mul (g m : Matrix (Fin n) (Fin n) ℝ) : Cov.congr2 g m = g.transpose * m * g := by
  funext a b
  unfold Cov.congr2
  simp only [Matrix.mul_apply, Matrix.transpose_apply, Finset.sum_mul]
  rw [Finset.sum_comm]

theorem rotate_plane (phi : ℝ) {i j : Fin n} (h : i ≠ j) (m : Matrix (Fin n) (Fin n) ℝ) :
    Cov.rotate (Real.cos phi) (Real.sin phi) i j m = (plane phi i j).transpose * m * plane phi i j := by
  rw [← congr2_mul, plane_givens phi h]
  exact Cov.rotate_eq _ _ _ _ h m

theorem turn2_sq (c s : ℝ) (hcs : c ^ 2 + s ^ 2 = 1) {i j : Fin n} (h : i ≠ j) (S : Finset (Fin n)) (hi : i ∈ S) (hj : j ∈ S) (f : Fin n → ℝ) :
    ∑ b ∈ S, turn2 c s i j f b ^ 2 = ∑ b ∈ S, f b ^ 2 := by
  have hj' : j ∈ S.erase i := Finset.mem_erase.2 ⟨h.symm, hj⟩
  rw [← Finset.add_sum_erase _ _ hi, ← Finset.add_sum_erase _ _ hj', ← Finset.add_sum_erase S _ hi, ← Finset.add_sum_erase _ _ hj']
  have : ∑ b ∈ (S.erase i).erase j, turn2 c s i j f b ^ 2 = ∑ b ∈ (S.erase i).erase j, f b ^ 2 := by
    refine Finset.sum_congr rfl fun b hb => ?_
    have h1 := (Finset.mem_erase.1 hb).1
    have h2 := (Finset.mem_erase.1 (Finset.mem_erase.1 hb).2).1
    simp [turn2, h1, h2]
  rw [this]
  simp only [turn2, h, if_true, if_false]
  linear_combination (f i ^ 2 + f j ^ 2) * hcs

theorem frob_rotate (c s : ℝ) (hcs : c ^ 2 + s ^ 2 = 1) {i j : Fin n} (h : i ≠ j) (S : Finset (Fin n)) (hi : i ∈ S) (hj : j ∈ S)
    (m : Cov.Mat ℝ n n) :
    ∑ a ∈ S, ∑ b ∈ S, Cov.rotate c s i j m a b ^ 2 = ∑ a ∈ S, ∑ b ∈ S, m a b ^ 2 := by
  simp only [rotate_turn c s h]
  rw [Finset.sum_comm]
  rw [Finset.sum_congr rfl fun b _ => turn2_sq c s hcs h S hi hj (fun k => turn2 c s i j (m k) b)]
  rw [Finset.sum_comm]
  exact Finset.sum_congr rfl fun a _ => turn2_sq c s hcs h S hi hj (m a)

theorem frob_split (R : Nat) (m : Cov.Mat ℝ n n) :
    ∑ a ∈ top R n, ∑ b ∈ top R n, m a b ^ 2 = diagSq R m + offSq R m := by
  unfold diagSq offSq
  rw [← Finset.sum_add_distrib]
  refine Finset.sum_congr rfl fun i hi => ?_
  rw [← Finset.add_sum_erase _ _ hi, ← Finset.add_sum_erase _ (fun j => if i ≠ j then m i j ^ 2 else 0) hi]
  simp only [ne_eq, not_true_eq_false, if_false, zero_add, sq]
  congr 1
  refine Finset.sum_congr rfl fun b hb => ?_
  rw [if_pos (Ne.symm (Finset.mem_erase.1 hb).1)]

theorem rotate_symm (c s : ℝ) {i j : Fin n} (h : i ≠ j) (m : Cov.Mat ℝ n n) (hm : ∀ a b, m a b = m b a) (a b : Fin n) :
    Cov.rotate c s i j m a b = Cov.rotate c s i j m b a := by
  rw [Cov.rotate_eq _ _ _ _ h]
  exact Cov.congr2_symmetric _ _ hm _ _

theorem rotate_ii (c s : ℝ) {i j : Fin n} (h : i ≠ j) (m : Cov.Mat ℝ n n) (hm : ∀ a b, m a b = m b a) :
    Cov.rotate c s i j m i i = c ^ 2 * m i i - 2 * c * s * m i j + s ^ 2 * m j j := by
  rw [rotate_turn c s h]
  simp only [turn2, h, if_true, if_false]
  rw [hm j i]; ring

theorem rotate_jj (c s : ℝ) {i j : Fin n} (h : i ≠ j) (m : Cov.Mat ℝ n n) (hm : ∀ a b, m a b = m b a) :
    Cov.rotate c s i j m j j = s ^ 2 * m i i + 2 * c * s * m i j + c ^ 2 * m j j := by
  rw [rotate_turn c s h]
  simp only [turn2, if_true]
  rw [hm j i]; ring

theorem rotate_other (c s : ℝ) {i j : Fin n} (h : i ≠ j) (m : Cov.Mat ℝ n n) {a b : Fin n} (ai : a ≠ i) (aj : a ≠ j) (bi : b ≠ i) (bj : b ≠ j) :
    Cov.rotate c s i j m a b = m a b := by
  rw [rotate_turn c s h]; simp [turn2, ai, aj, bi, bj]

theorem rotate_ai (c s : ℝ) {i j : Fin n} (h : i ≠ j) (m : Cov.Mat ℝ n n) {a : Fin n} (ai : a ≠ i) (aj : a ≠ j) :
    Cov.rotate c s i j m a i = c * m a i - s * m a j := by
  rw [rotate_turn c s h]; simp [turn2, ai, aj, h]

theorem mem_top {R : Nat} {i : Fin n} : i ∈ top R n ↔ i.1 < R := by simp [top]

theorem diag_rotate1 (c s : ℝ) {i j : Fin n} (h : i ≠ j) {R : Nat} (hi : i.1 < R) (hj : j.1 < R) (m : Cov.Mat ℝ n n) (hm : ∀ a b, m a b = m b a) :
    diagSq R (Cov.rotate c s i j m) = diagSq R m - m i i ^ 2 - m j j ^ 2
      + (c ^ 2 * m i i - 2 * c * s * m i j + s ^ 2 * m j j) ^ 2 + (s ^ 2 * m i i + 2 * c * s * m i j + c ^ 2 * m j j) ^ 2 := by
  unfold diagSq
  have hj' : j ∈ (top R n).erase i := Finset.mem_erase.2 ⟨h.symm, mem_top.2 hj⟩
  have hi' : i ∈ top R n := mem_top.2 hi
  rw [← Finset.add_sum_erase _ _ hi', ← Finset.add_sum_erase _ _ hj', ← Finset.add_sum_erase (top R n) _ hi', ← Finset.add_sum_erase _ _ hj']
  have : ∑ b ∈ ((top R n).erase i).erase j, Cov.rotate c s i j m b b * Cov.rotate c s i j m b b = ∑ b ∈ ((top R n).erase i).erase j, m b b * m b b := by
    refine Finset.sum_congr rfl fun b hb => ?_
    have h1 := (Finset.mem_erase.1 hb).1
    have h2 := (Finset.mem_erase.1 (Finset.mem_erase.1 hb).2).1
    rw [rotate_other c s h m h2 h1 h2 h1]
  rw [this, rotate_ii c s h m hm, rotate_jj c s h m hm]
  ring

theorem off_rotate1 (c s : ℝ) (hcs : c ^ 2 + s ^ 2 = 1) {i j : Fin n} (h : i ≠ j) {R : Nat} (hi : i.1 < R) (hj : j.1 < R) (m : Cov.Mat ℝ n n) :
    offSq R (Cov.rotate c s i j m) = offSq R m + diagSq R m - diagSq R (Cov.rotate c s i j m) := by
  have h1 := frob_rotate c s hcs h (top R n) (mem_top.2 hi) (mem_top.2 hj) m
  rw [frob_split, frob_split] at h1
  linarith

theorem diag_rotate2 (c s : ℝ) {i j : Fin n} (h : i ≠ j) {R : Nat} (hi : i.1 < R) (hj : ¬j.1 < R) (m : Cov.Mat ℝ n n) (hm : ∀ a b, m a b = m b a) :
    diagSq R (Cov.rotate c s i j m) = diagSq R m - m i i ^ 2 + (c ^ 2 * m i i - 2 * c * s * m i j + s ^ 2 * m j j) ^ 2 := by
  unfold diagSq
  have hi' : i ∈ top R n := mem_top.2 hi
  rw [← Finset.add_sum_erase _ _ hi', ← Finset.add_sum_erase (top R n) _ hi']
  have : ∑ b ∈ (top R n).erase i, Cov.rotate c s i j m b b * Cov.rotate c s i j m b b = ∑ b ∈ (top R n).erase i, m b b * m b b := by
    refine Finset.sum_congr rfl fun b hb => ?_
    have h2 := (Finset.mem_erase.1 hb).1
    have h1 : b ≠ j := fun e => hj (e ▸ mem_top.1 (Finset.mem_erase.1 hb).2)
    rw [rotate_other c s h m h2 h1 h2 h1]
  rw [this, rotate_ii c s h m hm]
  ring

/-- The squares above the diagonal in the row and column of `i`, and the others. -/
theorem triu_split (R : Nat) (m : Cov.Mat ℝ n n) (hm : ∀ a b, m a b = m b a) {i : Fin n} (hi : i.1 < R) :
    triuSq R m = (∑ a ∈ top R n, ∑ b ∈ top R n, if a < b ∧ a ≠ i ∧ b ≠ i then m a b * m a b else 0)
      + ∑ a ∈ (top R n).erase i, m a i ^ 2 := by
  have hi' : i ∈ top R n := mem_top.2 hi
  unfold triuSq
  rw [← Finset.add_sum_erase _ _ hi', ← Finset.add_sum_erase _ (fun a => ∑ b ∈ top R n, if a < b ∧ a ≠ i ∧ b ≠ i then m a b * m a b else 0) hi']
  have e0 : (∑ b ∈ top R n, if i < b ∧ i ≠ i ∧ b ≠ i then m i b * m i b else 0) = 0 := by simp
  have e1 : (∑ b ∈ top R n, if i < b then m i b * m i b else 0) = ∑ b ∈ (top R n).erase i, if i < b then m b i ^ 2 else 0 := by
    rw [← Finset.add_sum_erase _ _ hi']
    simp only [lt_self_iff_false, if_false, zero_add]
    exact Finset.sum_congr rfl fun b _ => by rw [hm i b, sq]
  have e2 : ∀ a ∈ (top R n).erase i, (∑ b ∈ top R n, if a < b then m a b * m a b else 0)
      = (∑ b ∈ top R n, if a < b ∧ a ≠ i ∧ b ≠ i then m a b * m a b else 0) + if a < i then m a i ^ 2 else 0 := by
    intro a ha
    have hai := (Finset.mem_erase.1 ha).1
    rw [← Finset.add_sum_erase _ _ hi', ← Finset.add_sum_erase _ (fun b => if a < b ∧ a ≠ i ∧ b ≠ i then m a b * m a b else 0) hi']
    have : ∑ b ∈ (top R n).erase i, (if a < b ∧ a ≠ i ∧ b ≠ i then m a b * m a b else 0) = ∑ b ∈ (top R n).erase i, if a < b then m a b * m a b else 0 :=
      Finset.sum_congr rfl fun b hb => by simp [hai, (Finset.mem_erase.1 hb).1]
    rw [this]
    simp only [ne_eq, not_true_eq_false, and_false, if_false, zero_add, sq]
    ring
  rw [e0, e1, Finset.sum_congr rfl e2, Finset.sum_add_distrib]
  have e3 : ∑ a ∈ (top R n).erase i, m a i ^ 2 = (∑ b ∈ (top R n).erase i, if i < b then m b i ^ 2 else 0) + ∑ x ∈ (top R n).erase i, if x < i then m x i ^ 2 else 0 := by
    rw [← Finset.sum_add_distrib]
    refine Finset.sum_congr rfl fun a ha => ?_
    rcases lt_or_gt_of_ne (Finset.mem_erase.1 ha).1 with h | h
    · simp [h, not_lt_of_gt h]
    · simp [h, not_lt_of_gt h]
  rw [e3]; ring

theorem triu_rotate2 (c s : ℝ) {i j : Fin n} (h : i ≠ j) {R : Nat} (hi : i.1 < R) (hj : ¬j.1 < R) (m : Cov.Mat ℝ n n) (hm : ∀ a b, m a b = m b a) :
    triuSq R (Cov.rotate c s i j m) = (∑ a ∈ top R n, ∑ b ∈ top R n, if a < b ∧ a ≠ i ∧ b ≠ i then m a b * m a b else 0)
      + (c ^ 2 * ∑ a ∈ (top R n).erase i, m a i * m a i - 2 * c * s * ∑ a ∈ (top R n).erase i, m a i * m a j
        + s ^ 2 * ∑ a ∈ (top R n).erase i, m a j * m a j) := by
  rw [triu_split R _ (rotate_symm c s h m hm) hi]
  have hn : ∀ a ∈ top R n, a ≠ j := fun a ha e => hj (e ▸ mem_top.1 ha)
  congr 1
  · refine Finset.sum_congr rfl fun a ha => Finset.sum_congr rfl fun b hb => ?_
    by_cases h1 : a < b ∧ a ≠ i ∧ b ≠ i
    · rw [if_pos h1, if_pos h1, rotate_other c s h m h1.2.1 (hn a ha) h1.2.2 (hn b hb)]
    · rw [if_neg h1, if_neg h1]
  · simp only [Finset.mul_sum]
    rw [← Finset.sum_sub_distrib, ← Finset.sum_add_distrib]
    refine Finset.sum_congr rfl fun a ha => ?_
    rw [rotate_ai c s h m (Finset.mem_erase.1 ha).1 (hn a (Finset.mem_erase.1 ha).2)]
    ring

/-! ## The contrast that is returned -/

/-- The angle in case 1 for the two coefficients. -/
noncomputable def best1 (s24 c24 : ℝ) : ℝ :=
  if 0 ≤ arctan2 s24 c24 then -0.25 * (arctan2 s24 c24 - Real.pi) else -0.25 * (arctan2 s24 c24 + Real.pi)

/-- The contrast after a rotation. -/
noncomputable def after (p : Par T) (c : Covs T n) (i j : Fin n) (phi : ℝ) : ℝ :=
  (contrast p (rotCovs phi i j c)).1 + (contrast p (rotCovs phi i j c)).2

theorem angle1_spec (p : Par T) (c : Covs T n) (hc : ∀ t a b, c t a b = c t b a) {i j : Fin n} (h : i ≠ j) (hi : i.1 < p.R) (hj : j.1 < p.R) :
    ∃ a20 c24 s24 : ℝ, (angle1 p c i j).1 = best1 s24 c24 ∧
      (angle1 p c i j).2 = a20 + c24 * Real.cos (-4 * best1 s24 c24) + s24 * Real.sin (-4 * best1 s24 c24) ∧
      ∀ phi, after p c i j phi = a20 + c24 * Real.cos (-4 * phi) + s24 * Real.sin (-4 * phi) := by
  refine ⟨_, _, _, rfl, rfl, fun phi => ?_⟩
  have hcs : Real.cos phi ^ 2 + Real.sin phi ^ 2 = 1 := by rw [add_comm]; exact Real.sin_sq_add_cos_sq phi
  rw [show -4 * phi = -(4 * phi) by ring, Real.cos_neg, Real.sin_neg, cos_four, sin_four]
  unfold after contrast rotCovs
  simp only []
  have e1 : ∀ t, 2 * triuSq p.R (Cov.rotate (Real.cos phi) (Real.sin phi) i j (c t)) =
      2 * triuSq p.R (c t) + diagSq p.R (c t) - diagSq p.R (Cov.rotate (Real.cos phi) (Real.sin phi) i j (c t)) := by
    intro t
    rw [triuSq_eq _ _ (rotate_symm _ _ h _ (hc t)), triuSq_eq _ _ (hc t)]
    exact off_rotate1 _ _ hcs h hi hj _
  simp only [e1, diag_rotate1 _ _ h hi hj _ (hc _)]
  generalize Real.cos phi = C at *
  generalize Real.sin phi = S at *
  simp only [Finset.mul_sum, Finset.sum_mul, ← Finset.sum_add_distrib, ← Finset.sum_sub_distrib, ← Finset.sum_neg_distrib]
  refine Finset.sum_congr rfl fun t _ => ?_
  have hS : S ^ 2 = 1 - C ^ 2 := by linarith
  generalize c t i i = x
  generalize c t j j = y
  generalize c t i j = z
  have q1 : S ^ 4 = (1 - C ^ 2) ^ 2 := by rw [← hS]; ring
  have q3 : S ^ 3 = (1 - C ^ 2) * S := by rw [← hS]; ring
  ring_nf
  simp only [q1, q3, hS]
  ring

theorem sum_erase_top {R : Nat} {i : Fin n} (hi : i.1 < R) (f : Fin n → ℝ) : ∑ a ∈ (top R n).erase i, f a = ∑ a ∈ top R n, f a - f i := by
  rw [← Finset.add_sum_erase _ _ (mem_top.2 hi)]; ring

theorem angle2_sum (p : Par T) (c : Covs T n) (hc : ∀ t a b, c t a b = c t b a) {i j : Fin n} (h : i ≠ j) (hi : i.1 < p.R) (hj : ¬j.1 < p.R) :
    ∃ a20 c22 s22 c24 s24 : ℝ, (angle2 p c i j).1 = search c22 s22 c24 s24 ∧
      (angle2 p c i j).2 = a20 + c22 * Real.cos (-2 * search c22 s22 c24 s24) + s22 * Real.sin (-2 * search c22 s22 c24 s24)
        + c24 * Real.cos (-4 * search c22 s22 c24 s24) + s24 * Real.sin (-4 * search c22 s22 c24 s24) ∧
      ∀ phi, after p c i j phi = a20 + wave c22 s22 c24 s24 phi := by
  refine ⟨_, _, _, _, _, rfl, rfl, fun phi => ?_⟩
  have hcs : Real.cos phi ^ 2 + Real.sin phi ^ 2 = 1 := by rw [add_comm]; exact Real.sin_sq_add_cos_sq phi
  unfold wave
  rw [show -4 * phi = -(4 * phi) by ring, show -2 * phi = -(2 * phi) by ring, Real.cos_neg, Real.sin_neg, Real.cos_neg, Real.sin_neg,
    cos_four, sin_four, Real.cos_two_mul, Real.sin_two_mul]
  unfold after contrast rotCovs
  simp only []
  simp only [triu_rotate2 _ _ h hi hj _ (hc _), diag_rotate2 _ _ h hi hj _ (hc _), sum_erase_top hi]
  generalize Real.cos phi = C at *
  generalize Real.sin phi = S at *
  have e : ∀ t, c t j i = c t i j := fun t => hc t j i
  generalize hU : (fun t => ∑ a ∈ top p.R n, c t a i * c t a i) = U
  generalize hV : (fun t => ∑ a ∈ top p.R n, c t a i * c t a j) = V
  generalize hW : (fun t => ∑ a ∈ top p.R n, c t a j * c t a j) = W
  generalize hE : (fun t => ∑ a ∈ top p.R n, ∑ b ∈ top p.R n, if a < b ∧ a ≠ i ∧ b ≠ i then c t a b * c t a b else 0) = E
  have hU' := fun t => congrFun hU t
  have hV' := fun t => congrFun hV t
  have hW' := fun t => congrFun hW t
  have hE' := fun t => congrFun hE t
  beta_reduce at hU' hV' hW' hE'
  simp only [hU', hV', hW', hE']
  simp only [Finset.mul_sum, Finset.sum_mul, ← Finset.sum_add_distrib, ← Finset.sum_sub_distrib, ← Finset.sum_neg_distrib]
  refine Finset.sum_congr rfl fun t _ => ?_
  have hS : S ^ 2 = 1 - C ^ 2 := by linarith
  generalize c t i i = x
  generalize c t j j = y
  generalize c t i j = z
  generalize U t = U
  generalize V t = V
  generalize W t = W
  generalize E t = E
  have q1 : S ^ 4 = (1 - C ^ 2) ^ 2 := by rw [← hS]; ring
  have q3 : S ^ 3 = (1 - C ^ 2) * S := by rw [← hS]; ring
  ring_nf
  simp only [q1, q3, hS]
  ring

theorem angle2_spec (p : Par T) (c : Covs T n) (hc : ∀ t a b, c t a b = c t b a) {i j : Fin n} (h : i ≠ j) (hi : i.1 < p.R) (hj : ¬j.1 < p.R) :
    ∃ a20 c22 s22 c24 s24 : ℝ, (angle2 p c i j).1 = search c22 s22 c24 s24 ∧
      (angle2 p c i j).2 = a20 + wave c22 s22 c24 s24 (search c22 s22 c24 s24) ∧
      ∀ phi, after p c i j phi = a20 + wave c22 s22 c24 s24 phi := by
  obtain ⟨a, b, d, e, f, h1, h2, h3⟩ := angle2_sum p c hc h hi hj
  exact ⟨a, b, d, e, f, h1, by rw [h2]; unfold wave; ring, h3⟩

/-- The contrast after a rotation is the objective of the rotated matrices. -/
theorem after_eq (p : Par T) (c : Covs T n) (hc : ∀ t a b, c t a b = c t b a) {i j : Fin n} (h : i ≠ j) (phi : ℝ) :
    after p c i j phi = objective p (changed (plane phi i j) c) := by
  unfold after
  rw [contrast_eq p (rotCovs phi i j c) fun t => rotate_symm _ _ h _ (hc t)]
  congr 1
  funext t
  exact rotate_plane phi h (c t)

/-- **C269** (isfa_contrast_of_angle): for symmetric covariance matrices the contrast that comes with an angle is the objective of the
matrices rotated by that angle, for both kinds of pairs of axes. -/
theorem isfa_contrast_of_angle (p : Par T) (c : Covs T n) (hc : ∀ t a b, c t a b = c t b a) (i j : Fin n) (hij : i < j) (hi : i.1 < p.R) :
    (givensAngle p c i j).2 =
      objective p (changed (plane (givensAngle p c i j).1 i j) c) := by
  rw [← after_eq p c hc hij.ne]
  unfold givensAngle
  split
  · next hj =>
    obtain ⟨a, c24, s24, h1, h2, h3⟩ := angle1_spec p c hc hij.ne hi hj
    rw [h3, h1, h2]
  · next hj =>
    obtain ⟨a, c22, s22, c24, s24, h1, h2, h3⟩ := angle2_spec p c hc hij.ne hi hj
    rw [h3, h1, h2]

theorem best1_min (s24 c24 phi : ℝ) : c24 * Real.cos (-4 * best1 s24 c24) + s24 * Real.sin (-4 * best1 s24 c24)
    ≤ c24 * Real.cos (-4 * phi) + s24 * Real.sin (-4 * phi) := by
  have h := arctan2_max c24 s24 (-4 * phi + Real.pi)
  rw [Real.cos_add_pi, Real.sin_add_pi] at h
  have e : c24 * Real.cos (-4 * best1 s24 c24) + s24 * Real.sin (-4 * best1 s24 c24)
      = -(c24 * Real.cos (arctan2 s24 c24) + s24 * Real.sin (arctan2 s24 c24)) := by
    unfold best1
    split
    · rw [show -4 * (-0.25 * (arctan2 s24 c24 - Real.pi)) = arctan2 s24 c24 - Real.pi by ring, Real.cos_sub_pi, Real.sin_sub_pi]; ring
    · rw [show -4 * (-0.25 * (arctan2 s24 c24 + Real.pi)) = arctan2 s24 c24 + Real.pi by ring, Real.cos_add_pi, Real.sin_add_pi]; ring
  linarith

/-- **C270** (isfa_best_angle): for two axes of the output space the angle is at most 45 degrees and no rotation in their plane has a
smaller objective. -/
theorem isfa_best_angle (p : Par T) (c : Covs T n) (hc : ∀ t a b, c t a b = c t b a) (i j : Fin n) (hij : i < j) (hj : j.1 < p.R) :
    |(givensAngle p c i j).1| ≤ Real.pi / 4 ∧
    ∀ phi, (objective p (changed (plane (givensAngle p c i j).1 i j) c))
      ≤ objective p (changed (plane phi i j) c) := by
  have hi : i.1 < p.R := lt_trans hij hj
  have hg : givensAngle p c i j = angle1 p c i j := if_pos hj
  obtain ⟨a, c24, s24, h1, h2, h3⟩ := angle1_spec p c hc hij.ne hi hj
  constructor
  · rw [hg, h1]
    unfold best1
    have l1 := Complex.neg_pi_lt_arg ⟨c24, s24⟩
    have l2 := Complex.arg_le_pi ⟨c24, s24⟩
    change -Real.pi < arctan2 s24 c24 at l1
    change arctan2 s24 c24 ≤ Real.pi at l2
    rw [abs_le]
    split
    · constructor <;> linarith
    · constructor <;> linarith
  · intro phi
    rw [← after_eq p c hc hij.ne, ← after_eq p c hc hij.ne, hg, h3, h3, h1]
    have := best1_min s24 c24 phi
    linarith

end Mdp.Isfa
