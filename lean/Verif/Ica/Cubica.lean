import Verif.Ica.Model
import Mathlib.LinearAlgebra.Matrix.NonsingularInverse
import Mathlib.Data.Nat.Sqrt
import Mathlib.Tactic

/-!
# Theorems about `CuBICANode.core`
-/

namespace Mdp.Ica

open Matrix

variable {m : Nat}

/-! ## Specification -/

/-- The arithmetic mean. -/
noncomputable def mean (l : List ℝ) : ℝ := l.sum / l.length

/-- The contrast function of CuBICA for two signals rotated by an angle: the sums of squares of the third and fourth order cumulants of
both signals (for white data), divided by `3!` and `4!`. -/
noncomputable def contrast (x : List (Vec m)) (i j : Fin m) (phi : ℝ) : ℝ :=
  let y1 := x.map fun r => Real.cos phi * r i - Real.sin phi * r j
  let y2 := x.map fun r => Real.sin phi * r i + Real.cos phi * r j
  (mean (y1.map (· ^ 3)) ^ 2 + mean (y2.map (· ^ 3)) ^ 2) / 6 +
  ((mean (y1.map (· ^ 4)) - 3) ^ 2 + (mean (y2.map (· ^ 4)) - 3) ^ 2) / 24

/-- All cumulants of two signals together, of order three and four, vanish. -/
def Separated (x : List (Vec m)) (i j : Fin m) : Prop :=
  mean (x.map fun r => r i ^ 2 * r j) = 0 ∧ mean (x.map fun r => r i * r j ^ 2) = 0 ∧ mean (x.map fun r => r i ^ 3 * r j) = 0 ∧
  mean (x.map fun r => r i * r j ^ 3) = 0 ∧ mean (x.map fun r => r i ^ 2 * r j ^ 2) = 1

/-! ## Rotations -/

theorem rotRow_dot (phi : ℝ) {i j : Fin m} (h : i ≠ j) (a b : Vec m) : rotRow phi i j a ⬝ᵥ rotRow phi i j b = a ⬝ᵥ b := by
  have h1 : ∑ k, (rotRow phi i j a k * rotRow phi i j b k - a k * b k) =
      (rotRow phi i j a i * rotRow phi i j b i - a i * b i) + (rotRow phi i j a j * rotRow phi i j b j - a j * b j) := by
    apply Fintype.sum_eq_add i j h
    intro k hk
    simp [rotRow, hk.1, hk.2]
  have h2 := Real.sin_sq_add_cos_sq phi
  have h3 : ∑ k, (rotRow phi i j a k * rotRow phi i j b k - a k * b k) = 0 := by
    rw [h1]
    simp only [rotRow, h, if_true, if_false]
    linear_combination (a i * b i + a j * b j) * h2
  rw [Finset.sum_sub_distrib] at h3
  simp only [dotProduct]
  linarith

theorem rotateM_orthogonal (phi : ℝ) {i j : Fin m} (h : i ≠ j) {q : Matrix (Fin m) (Fin m) ℝ} (hq : qᵀ * q = 1) :
    (rotateM phi i j q)ᵀ * rotateM phi i j q = 1 := by
  rw [mul_eq_one_comm] at hq ⊢
  ext a b
  have := congrFun (congrFun hq a) b
  simp only [mul_apply', transpose_apply] at this ⊢
  rw [← this]
  exact rotRow_dot phi h _ _

theorem rotRow_mul (phi : ℝ) (i j : Fin m) (r : Vec m) (q : Matrix (Fin m) (Fin m) ℝ) :
    rotRow phi i j (r ᵥ* q) = r ᵥ* rotateM phi i j q := by
  funext k
  simp only [rotRow, rotateM, vecMul, dotProduct]
  split_ifs
  · simp only [Finset.mul_sum, ← Finset.sum_add_distrib]; exact Finset.sum_congr rfl fun a _ => by ring
  · simp only [Finset.mul_sum, ← Finset.sum_sub_distrib]; exact Finset.sum_congr rfl fun a _ => by ring
  · rfl

theorem pairs_ne {p : Fin m × Fin m} (h : p ∈ pairs m) : p.1 < p.2 := by
  simp only [pairs, List.mem_flatMap, List.mem_map, List.mem_filter, List.mem_finRange, true_and, decide_eq_true_eq] at h
  obtain ⟨i, j, hij, rfl⟩ := h
  exact hij

/-- What holds during the computation: the matrix is orthogonal and the data are the given ones, multiplied with it. -/
def CuSt.Ok (data : List (Vec m)) (s : CuSt m) : Prop := s.qᵀ * s.q = 1 ∧ s.x = data.map fun r => r ᵥ* s.q

theorem pair_ok {data : List (Vec m)} {s : CuSt m} (h : s.Ok data) {p : Fin m × Fin m} (hp : p.1 ≠ p.2) : (s.pair p).Ok data := by
  refine ⟨rotateM_orthogonal _ hp h.1, ?_⟩
  simp only [CuSt.pair]
  generalize angle s.x p.1 p.2 = phi
  rw [h.2, List.map_map]
  exact List.map_congr_left fun r _ => rotRow_mul _ _ _ _ _

theorem fold_ok {data : List (Vec m)} (l : List (Fin m × Fin m)) (hl : ∀ p ∈ l, p.1 ≠ p.2) :
    ∀ s : CuSt m, s.Ok data → (l.foldl CuSt.pair s).Ok data := by
  induction l with
  | nil => exact fun s h => h
  | cons p l ih => exact fun s h => ih (fun p hp => hl p (by simp [hp])) _ (pair_ok h (hl p (by simp)))

theorem sweep_ok {data : List (Vec m)} {s : CuSt m} (h : s.Ok data) : s.sweep.Ok data :=
  fold_ok _ (fun _ hp => (pairs_ne hp).ne) _ h

theorem sweeps_ok {data : List (Vec m)} (limit : ℝ) (n : Nat) : ∀ s : CuSt m, s.Ok data → (s.sweeps limit n).1.Ok data := by
  induction n with
  | zero => exact fun s h => h
  | succ n ih =>
    intro s h
    simp only [CuSt.sweeps]
    split_ifs
    · exact sweep_ok h
    · exact ih _ (sweep_ok h)

theorem sweeps_angles (limit : ℝ) (n : Nat) : ∀ s : CuSt m, 0 < n → (s.sweeps limit n).2.length ≤ n ∧
    (∀ a ∈ (s.sweeps limit n).2.dropLast, limit < a) ∧ (s.sweeps limit n).2.getLast? = some (s.sweeps limit n).1.maxangle ∧
    ((s.sweeps limit n).2.length < n → (s.sweeps limit n).1.maxangle ≤ limit) := by
  induction n with
  | zero => intro s h; omega
  | succ n ih =>
    intro s _
    simp only [CuSt.sweeps]
    split_ifs with h
    · simp [h]
    · rcases Nat.eq_zero_or_pos n with rfl | hn
      · simp [CuSt.sweeps]
      · obtain ⟨h1, h2, h3, h4⟩ := ih s.sweep hn
        have hne : (s.sweep.sweeps limit n).2 ≠ [] := by intro h0; rw [h0] at h3; simp at h3
        refine ⟨by simpa using h1, ?_, ?_, fun h5 => h4 (by simpa using h5)⟩
        · intro a ha
          rw [List.dropLast_cons_of_ne_nil hne] at ha
          rcases List.mem_cons.1 ha with rfl | ha
          · exact not_le.1 h
          · exact h2 a ha
        · rw [List.getLast?_cons, h3]; rfl

/-- The filters of `CuBICANode` are orthogonal for all data and thresholds. -/
theorem cubica_orthogonal (limit : ℝ) (data : List (Vec m)) :
    (cubica limit data).1.qᵀ * (cubica limit data).1.q = 1 ∧ (cubica limit data).1.q * (cubica limit data).1.qᵀ = 1 := by
  have h := (sweeps_ok (data := data) limit (numSweeps m) ⟨data, 1, 0⟩ ⟨by simp, by simp⟩).1
  exact ⟨h, mul_eq_one_comm.1 h⟩

/-- The data that the algorithm has rotated in place are the given ones multiplied with the filters: the cumulants it computes are
those of the outputs. -/
theorem cubica_data (limit : ℝ) (data : List (Vec m)) :
    (cubica limit data).1.x = data.map fun r => r ᵥ* (cubica limit data).1.q :=
  (sweeps_ok (data := data) limit (numSweeps m) ⟨data, 1, 0⟩ ⟨by simp, by simp⟩).2

/-- The number of sweeps is at most one plus the rounded square root of the number of signals; the value returned is the largest angle
of the last sweep; the angles of the sweeps before are above the threshold; with fewer sweeps the threshold is reached. -/
theorem cubica_sweeps (limit : ℝ) (data : List (Vec m)) :
    ∃ n : Nat, ((n : ℝ) - 1 - Real.sqrt m ≤ 1 / 2 ∧ Real.sqrt m - ((n : ℝ) - 1) ≤ 1 / 2) ∧ (cubica limit data).2.length ≤ n ∧
      (∀ a ∈ (cubica limit data).2.dropLast, limit < a) ∧ (cubica limit data).2.getLast? = some (cubica limit data).1.maxangle ∧
      ((cubica limit data).2.length < n → (cubica limit data).1.maxangle ≤ limit) := by
  refine ⟨numSweeps m, ?_, sweeps_angles limit (numSweeps m) _ (by simp [numSweeps])⟩
  have h1 : m.sqrt * m.sqrt ≤ m := Nat.sqrt_le m
  have h2 : m < (m.sqrt + 1) * (m.sqrt + 1) := Nat.lt_succ_sqrt m
  have hr : 0 ≤ Real.sqrt m := Real.sqrt_nonneg _
  have hq : Real.sqrt m * Real.sqrt m = m := Real.mul_self_sqrt (Nat.cast_nonneg m)
  generalize Real.sqrt m = r at hr hq ⊢
  rw [show ((numSweeps m : Nat) : ℝ) = 1 + ((m.sqrt : ℝ) + if m.sqrt * m.sqrt + m.sqrt < m then 1 else 0) by
    simp only [numSweeps]; push_cast; rfl]
  generalize m.sqrt = k at h1 h2 ⊢
  have h1' : (k : ℝ) * k ≤ m := by exact_mod_cast h1
  have h2' : (m : ℝ) < (k + 1) * (k + 1) := by exact_mod_cast h2
  have hk : (0 : ℝ) ≤ k := Nat.cast_nonneg k
  split_ifs with h3
  · have h3' : (k : ℝ) * k + k + 1 ≤ m := by exact_mod_cast h3
    constructor <;> nlinarith
  · have h3' : (m : ℝ) ≤ k * k + k := by exact_mod_cast not_lt.1 h3
    constructor <;> nlinarith

/-! ## The angle -/

theorem third (x : List (Vec m)) (i j : Fin m) (c s : ℝ) : mean (x.map fun r => (c * r i - s * r j) ^ 3) =
    c ^ 3 * moment x i j 3 0 - 3 * c ^ 2 * s * moment x i j 2 1 + 3 * c * s ^ 2 * moment x i j 1 2 - s ^ 3 * moment x i j 0 3 := by
  have : (x.map fun r => (c * r i - s * r j) ^ 3).sum = c ^ 3 * (x.map fun r => r i ^ 3 * r j ^ 0).sum
      - 3 * c ^ 2 * s * (x.map fun r => r i ^ 2 * r j ^ 1).sum + 3 * c * s ^ 2 * (x.map fun r => r i ^ 1 * r j ^ 2).sum
      - s ^ 3 * (x.map fun r => r i ^ 0 * r j ^ 3).sum := by
    induction x with
    | nil => simp
    | cons r x ih => simp only [List.map_cons, List.sum_cons, ih]; ring
  simp only [mean, moment, this, List.length_map]
  ring

theorem fourth_order (x : List (Vec m)) (i j : Fin m) (c s : ℝ) : mean (x.map fun r => (c * r i - s * r j) ^ 4) =
    c ^ 4 * moment x i j 4 0 - 4 * c ^ 3 * s * moment x i j 3 1 + 6 * c ^ 2 * s ^ 2 * moment x i j 2 2
      - 4 * c * s ^ 3 * moment x i j 1 3 + s ^ 4 * moment x i j 0 4 := by
  have : (x.map fun r => (c * r i - s * r j) ^ 4).sum = c ^ 4 * (x.map fun r => r i ^ 4 * r j ^ 0).sum
      - 4 * c ^ 3 * s * (x.map fun r => r i ^ 3 * r j ^ 1).sum + 6 * c ^ 2 * s ^ 2 * (x.map fun r => r i ^ 2 * r j ^ 2).sum
      - 4 * c * s ^ 3 * (x.map fun r => r i ^ 1 * r j ^ 3).sum + s ^ 4 * (x.map fun r => r i ^ 0 * r j ^ 4).sum := by
    induction x with
    | nil => simp
    | cons r x ih => simp only [List.map_cons, List.sum_cons, ih]; ring
  simp only [mean, moment, this, List.length_map]
  ring

theorem cos_four (p : ℝ) : Real.cos (4 * p) = (Real.cos p ^ 2 - Real.sin p ^ 2) ^ 2 - 4 * Real.cos p ^ 2 * Real.sin p ^ 2 := by
  rw [show 4 * p = 2 * (2 * p) by ring, Real.cos_two_mul', Real.cos_two_mul', Real.sin_two_mul]; ring

theorem sin_four (p : ℝ) : Real.sin (4 * p) = 4 * Real.cos p * Real.sin p * (Real.cos p ^ 2 - Real.sin p ^ 2) := by
  rw [show 4 * p = 2 * (2 * p) by ring, Real.sin_two_mul, Real.cos_two_mul', Real.sin_two_mul]; ring

theorem arctan2_max (a b t : ℝ) : a * Real.cos t + b * Real.sin t ≤
    a * Real.cos (arctan2 b a) + b * Real.sin (arctan2 b a) := by
  set z : ℂ := ⟨a, b⟩
  have h1 : ‖z‖ * Real.cos (arctan2 b a) = a := Complex.norm_mul_cos_arg z
  have h2 : ‖z‖ * Real.sin (arctan2 b a) = b := Complex.norm_mul_sin_arg z
  generalize arctan2 b a = th at h1 h2
  have h3 : a * Real.cos t + b * Real.sin t = ‖z‖ * Real.cos (th - t) := by
    rw [Real.cos_sub]; linear_combination (-Real.cos t) * h1 - Real.sin t * h2
  have h4 : a * Real.cos th + b * Real.sin th = ‖z‖ := by
    have := Real.sin_sq_add_cos_sq th
    linear_combination ‖z‖ * this - Real.cos th * h1 - Real.sin th * h2
  rw [h3, h4]
  exact mul_le_of_le_one_right (norm_nonneg z) (Real.cos_le_one _)

theorem poly_third (p q r s C S : ℝ) (h : S ^ 2 + C ^ 2 = 1) :
    ((C ^ 3 * p - 3 * C ^ 2 * S * q + 3 * C * S ^ 2 * r - S ^ 3 * s) ^ 2 +
      (S ^ 3 * p - 3 * S ^ 2 * -C * q + 3 * S * (-C) ^ 2 * r - (-C) ^ 3 * s) ^ 2) / 6 =
    (p * p + s * s) / 6 - 1 / 16 * ((p * p + s * s) - 3 * (q * q + r * r) - 2 * (p * r + q * s))
    + 1 / 16 * ((p * p + s * s) - 3 * (q * q + r * r) - 2 * (p * r + q * s)) * ((C ^ 2 - S ^ 2) ^ 2 - 4 * C ^ 2 * S ^ 2)
    - 1 / 4 * (p * q - r * s) * (4 * C * S * (C ^ 2 - S ^ 2)) := by
  have : ((C ^ 3 * p - 3 * C ^ 2 * S * q + 3 * C * S ^ 2 * r - S ^ 3 * s) ^ 2 +
      (S ^ 3 * p - 3 * S ^ 2 * -C * q + 3 * S * (-C) ^ 2 * r - (-C) ^ 3 * s) ^ 2) / 6 =
    ((p * p + s * s) / 6 - 1 / 16 * ((p * p + s * s) - 3 * (q * q + r * r) - 2 * (p * r + q * s))) * (S ^ 2 + C ^ 2) ^ 3
    + (1 / 16 * ((p * p + s * s) - 3 * (q * q + r * r) - 2 * (p * r + q * s)) * ((C ^ 2 - S ^ 2) ^ 2 - 4 * C ^ 2 * S ^ 2)
    - 1 / 4 * (p * q - r * s) * (4 * C * S * (C ^ 2 - S ^ 2))) * (S ^ 2 + C ^ 2) := by ring
  rw [this, h]
  ring

theorem poly_fourth (a b c d e C S : ℝ) (h : S ^ 2 + C ^ 2 = 1) :
    ((C ^ 4 * (a + 3) - 4 * C ^ 3 * S * b + 6 * C ^ 2 * S ^ 2 * (c + 1) - 4 * C * S ^ 3 * d + S ^ 4 * (e + 3) - 3) ^ 2 +
      (S ^ 4 * (a + 3) - 4 * S ^ 3 * -C * b + 6 * S ^ 2 * (-C) ^ 2 * (c + 1) - 4 * S * (-C) ^ 3 * d + (-C) ^ 4 * (e + 3) - 3) ^ 2) / 24 =
    (a * a + e * e) / 24 - 1 / 384 * (7 * (a * a + e * e) - 16 * (b * b + d * d) - 12 * (a * c + c * e) - 36 * (c * c)
      - 32 * (b * d) - 2 * (a * e)) - (((a - 6 * c + e) / 8) ^ 2 - ((b - d) / 2) ^ 2) / 24
    + 1 / 384 * (7 * (a * a + e * e) - 16 * (b * b + d * d) - 12 * (a * c + c * e) - 36 * (c * c) - 32 * (b * d) - 2 * (a * e))
      * ((C ^ 2 - S ^ 2) ^ 2 - 4 * C ^ 2 * S ^ 2)
    - 1 / 96 * (7 * (a * b - d * e) + 6 * (b * c - c * d) + (a * d - b * e)) * (4 * C * S * (C ^ 2 - S ^ 2))
    + (((a - 6 * c + e) / 8) ^ 2 - ((b - d) / 2) ^ 2) / 24 *
      (((C ^ 2 - S ^ 2) ^ 2 - 4 * C ^ 2 * S ^ 2) ^ 2 - (4 * C * S * (C ^ 2 - S ^ 2)) ^ 2)
    - 2 * ((a - 6 * c + e) / 8) * ((b - d) / 2) / 24 *
      (2 * (4 * C * S * (C ^ 2 - S ^ 2)) * ((C ^ 2 - S ^ 2) ^ 2 - 4 * C ^ 2 * S ^ 2)) := by
  have e1 : C ^ 4 * (a + 3) - 4 * C ^ 3 * S * b + 6 * C ^ 2 * S ^ 2 * (c + 1) - 4 * C * S ^ 3 * d + S ^ 4 * (e + 3) - 3 =
      C ^ 4 * a - 4 * C ^ 3 * S * b + 6 * C ^ 2 * S ^ 2 * c - 4 * C * S ^ 3 * d + S ^ 4 * e := by
    linear_combination 3 * (S ^ 2 + C ^ 2 + 1) * h
  have e2 : S ^ 4 * (a + 3) - 4 * S ^ 3 * -C * b + 6 * S ^ 2 * (-C) ^ 2 * (c + 1) - 4 * S * (-C) ^ 3 * d + (-C) ^ 4 * (e + 3) - 3 =
      S ^ 4 * a + 4 * S ^ 3 * C * b + 6 * S ^ 2 * C ^ 2 * c + 4 * S * C ^ 3 * d + C ^ 4 * e := by
    linear_combination 3 * (S ^ 2 + C ^ 2 + 1) * h
  rw [e1, e2]
  have : ((C ^ 4 * a - 4 * C ^ 3 * S * b + 6 * C ^ 2 * S ^ 2 * c - 4 * C * S ^ 3 * d + S ^ 4 * e) ^ 2 +
      (S ^ 4 * a + 4 * S ^ 3 * C * b + 6 * S ^ 2 * C ^ 2 * c + 4 * S * C ^ 3 * d + C ^ 4 * e) ^ 2) / 24 =
    ((a * a + e * e) / 24 - 1 / 384 * (7 * (a * a + e * e) - 16 * (b * b + d * d) - 12 * (a * c + c * e) - 36 * (c * c)
      - 32 * (b * d) - 2 * (a * e)) - (((a - 6 * c + e) / 8) ^ 2 - ((b - d) / 2) ^ 2) / 24) * (S ^ 2 + C ^ 2) ^ 4
    + (1 / 384 * (7 * (a * a + e * e) - 16 * (b * b + d * d) - 12 * (a * c + c * e) - 36 * (c * c) - 32 * (b * d) - 2 * (a * e))
      * ((C ^ 2 - S ^ 2) ^ 2 - 4 * C ^ 2 * S ^ 2)
    - 1 / 96 * (7 * (a * b - d * e) + 6 * (b * c - c * d) + (a * d - b * e)) * (4 * C * S * (C ^ 2 - S ^ 2))) * (S ^ 2 + C ^ 2) ^ 2
    + ((((a - 6 * c + e) / 8) ^ 2 - ((b - d) / 2) ^ 2) / 24 *
      (((C ^ 2 - S ^ 2) ^ 2 - 4 * C ^ 2 * S ^ 2) ^ 2 - (4 * C * S * (C ^ 2 - S ^ 2)) ^ 2)
    - 2 * ((a - 6 * c + e) / 8) * ((b - d) / 2) / 24 *
      (2 * (4 * C * S * (C ^ 2 - S ^ 2)) * ((C ^ 2 - S ^ 2) ^ 2 - 4 * C ^ 2 * S ^ 2))) := by ring
  rw [this, h]
  ring

/-- The contrast function is a trigonometric polynomial of the angle with frequencies four and eight; the angle that the node takes
maximises the part of frequency four. Missing: the part of frequency eight, which the algorithm neglects (`cubica_angle_false`). -/
theorem cubica_angle_partial (x : List (Vec m)) (i j : Fin m) : ∃ K A B D E : ℝ,
    (∀ phi, contrast x i j phi = K + (A * Real.cos (4 * phi) + B * Real.sin (4 * phi)) +
      (D * Real.cos (8 * phi) + E * Real.sin (8 * phi))) ∧
    ∀ phi, A * Real.cos (4 * phi) + B * Real.sin (4 * phi) ≤
      A * Real.cos (4 * angle x i j) + B * Real.sin (4 * angle x i j) := by
  set p := moment x i j 3 0 with hp
  set q := moment x i j 2 1 with hq
  set r := moment x i j 1 2 with hr
  set s := moment x i j 0 3 with hs
  set a := moment x i j 4 0 - 3 with ha
  set b := moment x i j 3 1 with hb
  set c := moment x i j 2 2 - 1 with hc
  set d := moment x i j 1 3 with hd
  set e := moment x i j 0 4 - 3 with he
  set c3 := 1 / 16 * ((p * p + s * s) - 3 * (q * q + r * r) - 2 * (p * r + q * s)) with hc3
  set s3 := 1 / 4 * (p * q - r * s) with hs3
  set c4 := 1 / 384 * (7 * (a * a + e * e) - 16 * (b * b + d * d) - 12 * (a * c + c * e) - 36 * (c * c) - 32 * (b * d)
    - 2 * (a * e)) with hc4
  set s4 := 1 / 96 * (7 * (a * b - d * e) + 6 * (b * c - c * d) + (a * d - b * e)) with hs4
  set u := (a - 6 * c + e) / 8 with hu
  set v := (b - d) / 2 with hv
  have hang : angle x i j = -(1 / 4) * arctan2 (s3 + s4) (c3 + c4) := by
    simp only [angle]
    norm_num
    rfl
  refine ⟨(p * p + s * s) / 6 - c3 + (a * a + e * e) / 24 - c4 - (u ^ 2 - v ^ 2) / 24, c3 + c4, -(s3 + s4), (u ^ 2 - v ^ 2) / 24,
    -(2 * u * v) / 24, ?_, ?_⟩
  · intro phi
    have e1 := third x i j (Real.cos phi) (Real.sin phi)
    have e2 := third x i j (Real.sin phi) (-Real.cos phi)
    have e3 := fourth_order x i j (Real.cos phi) (Real.sin phi)
    have e4 := fourth_order x i j (Real.sin phi) (-Real.cos phi)
    simp only [neg_mul, sub_neg_eq_add] at e2 e4
    have f4 : moment x i j 4 0 = a + 3 := by rw [ha]; ring
    have f2 : moment x i j 2 2 = c + 1 := by rw [hc]; ring
    have f0 : moment x i j 0 4 = e + 3 := by rw [he]; ring
    rw [f4, f2, f0] at e3 e4
    simp only [contrast, List.map_map, Function.comp_def]
    rw [e1, e2, e3, e4, show 8 * phi = 2 * (4 * phi) by ring, Real.cos_two_mul', Real.sin_two_mul, cos_four, sin_four]
    have h1 := Real.sin_sq_add_cos_sq phi
    generalize Real.cos phi = C at *
    generalize Real.sin phi = S at *
    rw [poly_third p q r s C S h1, poly_fourth a b c d e C S h1]
    simp only [hc3, hs3, hc4, hs4, hu, hv]
    ring
  · intro phi
    have := arctan2_max (c3 + c4) (s3 + s4) (-(4 * phi))
    rw [hang]
    rw [show 4 * (-(1 / 4) * arctan2 (s3 + s4) (c3 + c4)) = -arctan2 (s3 + s4) (c3 + c4) by ring, Real.cos_neg, Real.sin_neg]
    rw [Real.cos_neg, Real.sin_neg] at this
    linarith

theorem angle_separated {x : List (Vec m)} {i j : Fin m} (h : Separated x i j) : angle x i j = 0 := by
  obtain ⟨h1, h2, h3, h4, h5⟩ := h
  have e1 : moment x i j 2 1 = 0 := by rw [← h1]; simp [moment, mean]
  have e2 : moment x i j 1 2 = 0 := by rw [← h2]; simp [moment, mean]
  have e3 : moment x i j 3 1 = 0 := by rw [← h3]; simp [moment, mean]
  have e4 : moment x i j 1 3 = 0 := by rw [← h4]; simp [moment, mean]
  have e5 : moment x i j 2 2 = 1 := by rw [← h5]; simp [moment, mean]
  simp only [angle, e1, e2, e3, e4, e5]
  generalize moment x i j 3 0 = a
  generalize moment x i j 0 3 = b
  generalize moment x i j 4 0 - 3 = c
  generalize moment x i j 0 4 - 3 = d
  have : arctan2 (0.25 * (a * 0 - 0 * b) + 1 / 96 * (7 * (c * 0 - 0 * d) + 6 * (0 * (1 - 1) - (1 - 1) * 0) + (c * 0 - 0 * d)))
      (0.0625 * ((a * a + b * b) - 3 * (0 * 0 + 0 * 0) - 2 * (a * 0 + 0 * b)) + 1 / 384 * (7 * (c * c + d * d) - 16 * (0 * 0 + 0 * 0)
        - 12 * (c * (1 - 1) + (1 - 1) * d) - 36 * ((1 - 1) * (1 - 1)) - 32 * (0 * 0) - 2 * (c * d))) = 0 := by
    have e : ∀ t : ℝ, 0 ≤ t → arctan2 0 t = 0 := fun t ht => Complex.arg_ofReal_of_nonneg ht
    rw [show (0.25 * (a * 0 - 0 * b) + 1 / 96 * (7 * (c * 0 - 0 * d) + 6 * (0 * (1 - 1) - (1 - 1) * 0) + (c * 0 - 0 * d)) : ℝ) = 0 by
      ring]
    apply e
    nlinarith [mul_self_nonneg a, mul_self_nonneg b, mul_self_nonneg (c - d), mul_self_nonneg c, mul_self_nonneg d]
  rw [this, mul_zero]

theorem rotRow_zero (i j : Fin m) (r : Vec m) : rotRow 0 i j r = r := by
  funext k
  simp only [rotRow, Real.sin_zero, Real.cos_zero]
  split_ifs with h1 h2
  · subst h1; ring
  · subst h2; ring
  · rfl

/-- Signals that are separated already (all common cumulants of order three and four vanish) are left as they are, and convergence
is reported. -/
theorem cubica_separated (limit : ℝ) (hl : 0 ≤ limit) (data : List (Vec m)) (h : ∀ i j, i < j → Separated data i j) :
    (cubica limit data).1.q = 1 ∧ (cubica limit data).1.maxangle = 0 ∧ (cubica limit data).2.length = 1 := by
  have h1 : ∀ l : List (Fin m × Fin m), (∀ p ∈ l, p.1 < p.2) → l.foldl CuSt.pair ⟨data, 1, 0⟩ = ⟨data, 1, 0⟩ := by
    intro l hl
    induction l with
    | nil => rfl
    | cons p l ih =>
      have hp := angle_separated (h _ _ (hl p (by simp)))
      have e : CuSt.pair ⟨data, 1, 0⟩ p = ⟨data, 1, 0⟩ := by
        simp only [CuSt.pair, hp, rotateM]
        congr 1
        · conv_rhs => rw [← List.map_id data]
          exact List.map_congr_left fun r _ => rotRow_zero _ _ r
        · funext a; exact rotRow_zero _ _ _
        · simp
      rw [List.foldl_cons, e]
      exact ih fun p hp => hl p (by simp [hp])
  have h2 : (⟨data, 1, 0⟩ : CuSt m).sweep = ⟨data, 1, 0⟩ := h1 _ fun p hp => pairs_ne hp
  have h3 : numSweeps m = (numSweeps m - 1) + 1 := by simp [numSweeps]; omega
  simp only [cubica]
  rw [h3]
  simp only [CuSt.sweeps, h2, hl, if_true]
  simp

/-- Two independent signals with the values one and minus one. -/
def binary : List (Vec 2) := [![1, 1], ![1, -1], ![-1, 1], ![-1, -1]]

theorem binary_separated : ∀ i j, i < j → Separated binary i j := by
  intro i j h
  obtain ⟨rfl, rfl⟩ : i = 0 ∧ j = 1 := by revert i j; decide
  simp only [Separated, mean, binary, List.map_cons, List.map_nil, List.sum_cons, List.sum_nil, List.length_cons, List.length_nil,
    Matrix.cons_val_zero, Matrix.cons_val_one]
  norm_num

example : (cubica (1 / 1000) binary).1.q = 1 := (cubica_separated _ (by norm_num) _ binary_separated).1

/-- The eight samples of the counterexample: the corners of a square, turned by `pi / 8`, and the origin. They have mean zero and
variance one and are uncorrelated. -/
noncomputable def turned : List (Vec 2) :=
  let c := Real.cos (Real.pi / 8)
  let s := Real.sin (Real.pi / 8)
  [![2 * c, 2 * s], ![-(2 * s), 2 * c], ![-(2 * c), -(2 * s)], ![2 * s, -(2 * c)], 0, 0, 0, 0]

/-- The angle does not maximise the contrast function: for these white data it is zero, where the contrast is zero, and turning the
signals by `pi / 8` would give a positive contrast. -/
theorem cubica_angle_false : angle turned 0 1 = 0 ∧ contrast turned 0 1 (angle turned 0 1) = 0 ∧
    contrast turned 0 1 (-(Real.pi / 8)) = 1 / 12 ∧
    mean (turned.map fun r => r 0) = 0 ∧ mean (turned.map fun r => r 1) = 0 ∧ mean (turned.map fun r => r 0 * r 1) = 0 ∧
    mean (turned.map fun r => r 0 ^ 2) = 1 ∧ mean (turned.map fun r => r 1 ^ 2) = 1 := by
  have h1 := Real.sin_sq_add_cos_sq (Real.pi / 8)
  have h2 : Real.sin (Real.pi / 8) ^ 2 * Real.cos (Real.pi / 8) ^ 2 = 1 / 8 := by
    have e1 : Real.sin (2 * (Real.pi / 8)) ^ 2 = 1 / 2 := by
      rw [show 2 * (Real.pi / 8) = Real.pi / 4 by ring, Real.sin_pi_div_four]
      rw [div_pow, Real.sq_sqrt (by norm_num)]; norm_num
    rw [Real.sin_two_mul] at e1
    linarith [e1]
  have ha : angle turned 0 1 = 0 := by
    have e0 : arctan2 0 0 = 0 := Complex.arg_ofReal_of_nonneg le_rfl
    have e : moment turned 0 1 3 0 = 0 ∧ moment turned 0 1 2 1 = 0 ∧ moment turned 0 1 1 2 = 0 ∧ moment turned 0 1 0 3 = 0 ∧
        moment turned 0 1 4 0 = 3 ∧ moment turned 0 1 2 2 = 1 ∧ moment turned 0 1 0 4 = 3 ∧
        moment turned 0 1 1 3 = -moment turned 0 1 3 1 := by
      simp only [moment, turned]
      generalize Real.cos (Real.pi / 8) = c at *
      generalize Real.sin (Real.pi / 8) = s at *
      have h3 : c ^ 4 + s ^ 4 = 3 / 4 := by linear_combination (s ^ 2 + c ^ 2 + 1) * h1 - 2 * h2
      simp only [List.map_cons, List.map_nil, List.sum_cons, List.sum_nil, List.length_cons, List.length_nil, Matrix.cons_val_zero,
        Matrix.cons_val_one, Pi.zero_apply]
      refine ⟨?_, ?_, ?_, ?_, ?_, ?_, ?_, ?_⟩
      · ring
      · ring
      · ring
      · ring
      · norm_num; linear_combination 4 * h3
      · norm_num; linear_combination 8 * h2
      · norm_num; linear_combination 4 * h3
      · ring
    obtain ⟨e1, e2, e3, e4, e5, e6, e7, e8⟩ := e
    simp only [angle, e1, e2, e3, e4, e5, e6, e7, e8]
    have f1 : ∀ y x : ℝ, y = 0 → x = 0 → -0.25 * arctan2 y x = 0 := by
      rintro y x rfl rfl; rw [e0]; ring
    apply f1 <;> ring
  rw [ha]
  refine ⟨rfl, ?_⟩
  simp only [contrast, turned, Real.cos_zero, Real.sin_zero, Real.cos_neg, Real.sin_neg]
  generalize Real.cos (Real.pi / 8) = c at *
  generalize Real.sin (Real.pi / 8) = s at *
  have h3 : c ^ 4 + s ^ 4 = 3 / 4 := by linear_combination (s ^ 2 + c ^ 2 + 1) * h1 - 2 * h2
  simp only [mean, List.map_cons, List.map_nil, List.sum_cons, List.sum_nil, List.length_cons, List.length_nil, Matrix.cons_val_zero,
      Matrix.cons_val_one, Pi.zero_apply]
  refine ⟨?_, ?_, ?_, ?_, ?_, ?_, ?_⟩
  · have k : ((2 * c) ^ 4 + ((2 * s) ^ 4 + ((2 * c) ^ 4 + (2 * s) ^ 4))) / 8 - 3 = 0 := by linear_combination 4 * h3
    norm_num
    have k' : ((2 * s) ^ 4 + ((2 * c) ^ 4 + ((2 * s) ^ 4 + (2 * c) ^ 4))) / 8 - 3 = 0 := by linear_combination 4 * h3
    rw [k, k']
    ring
  · have t1 : c * (2 * c) - -s * (2 * s) = 2 := by linear_combination 2 * h1
    have t2 : c * -(2 * s) - -s * (2 * c) = 0 := by ring
    have t3 : c * -(2 * c) - -s * -(2 * s) = -2 := by linear_combination -2 * h1
    have t4 : c * (2 * s) - -s * -(2 * c) = 0 := by ring
    have t5 : -s * (2 * c) + c * (2 * s) = 0 := by ring
    have t6 : -s * -(2 * s) + c * (2 * c) = 2 := by linear_combination 2 * h1
    have t7 : -s * -(2 * c) + c * -(2 * s) = 0 := by ring
    have t8 : -s * (2 * s) + c * -(2 * c) = -2 := by linear_combination -2 * h1
    rw [t1, t2, t3, t4, t5, t6, t7, t8]
    norm_num
  · ring
  · ring
  · ring
  · linear_combination h1
  · linear_combination h1

end Mdp.Ica
