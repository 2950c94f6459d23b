import Verif.Ica.Cubica

/-!
# Theorems about `JADENode.core`
-/

namespace Mdp.Ica

open Matrix

variable {m : Nat}

/-! ## Specification -/

/-- The joint diagonality of matrices in the basis of the columns of `v`: the sum of the squares of all diagonal entries. -/
noncomputable def diagonality (cs : List (Matrix (Fin m) (Fin m) ℝ)) (v : Matrix (Fin m) (Fin m) ℝ) : ℝ :=
  (cs.map fun c => ∑ k, (v.col k ⬝ᵥ c *ᵥ v.col k) ^ 2).sum

/-- The rotation of the plane of two signals: the columns `p` and `q` of the unit matrix turned by an angle. -/
noncomputable def turn (phi : ℝ) (p q : Fin m) : Matrix (Fin m) (Fin m) ℝ := fun a k =>
  if k = p then (if a = p then Real.cos phi else if a = q then Real.sin phi else 0)
  else if k = q then (if a = p then -Real.sin phi else if a = q then Real.cos phi else 0)
  else if a = k then 1 else 0

/-- The fourth order cumulant of four white signals. -/
noncomputable def cumulant (x : List (Vec m)) (i j k l : Fin m) : ℝ :=
  let d : Fin m → Fin m → ℝ := fun a b => if a = b then 1 else 0
  mean (x.map fun r => r i * r j * r k * r l) - d i j * d k l - d i k * d j l - d i l * d j k

/-! ## Rotations -/

theorem colG_eq (theta : ℝ) {p q : Fin m} (h : p ≠ q) (c : Matrix (Fin m) (Fin m) ℝ) : colG theta p q c = c * turn theta p q := by
  ext a k
  rw [mul_apply]
  by_cases h1 : k = p
  · subst h1
    rw [Fintype.sum_eq_add k q h]
    · simp [colG, turn, h.symm]
    · rintro b ⟨hb1, hb2⟩; simp [turn, hb1, hb2]
  · by_cases h2 : k = q
    · subst h2
      rw [Fintype.sum_eq_add p k h]
      · simp [colG, turn, h.symm]
      · rintro b ⟨hb1, hb2⟩; simp [turn, hb1, hb2, h1]
    · rw [Fintype.sum_eq_single k]
      · simp [colG, turn, h1, h2]
      · intro b hb; simp [turn, h1, h2, hb]

theorem rowG_eq (theta : ℝ) {p q : Fin m} (h : p ≠ q) (c : Matrix (Fin m) (Fin m) ℝ) :
    rowG theta p q c = (turn theta p q)ᵀ * c := by
  have h1 : rowG theta p q c = (colG theta p q cᵀ)ᵀ := by
    ext k a
    simp only [rowG, colG, transpose_apply]
    split_ifs <;> ring
  rw [h1, colG_eq _ h, transpose_mul, transpose_transpose]

theorem colG_rotate (theta : ℝ) {p q : Fin m} (h : p ≠ q) (c : Matrix (Fin m) (Fin m) ℝ) :
    colG theta p q c = rotateM (-theta) p q c := by
  ext a k
  simp only [colG, rotateM, rotRow, Real.sin_neg, Real.cos_neg]
  by_cases h1 : k = p
  · subst h1; simp [h]; ring
  · by_cases h2 : k = q
    · simp [h1, h2, h.symm]; ring
    · simp [h1, h2]

theorem turn_orthogonal (theta : ℝ) {p q : Fin m} (h : p ≠ q) : (turn theta p q)ᵀ * turn theta p q = 1 := by
  rw [← one_mul (turn theta p q), ← colG_eq theta h, colG_rotate theta h]
  exact rotateM_orthogonal _ h (by simp)

/-! ## The invariant of the sweeps -/

/-- What holds during the computation: `V` is orthogonal and the matrices are the given ones in the basis of its columns. -/
def JSt.Ok (cs : List (Matrix (Fin m) (Fin m) ℝ)) (s : JSt m) : Prop := s.vᵀ * s.v = 1 ∧ s.cm = cs.map fun c => s.vᵀ * c * s.v

theorem jpair_ok {cs : List (Matrix (Fin m) (Fin m) ℝ)} (seuil : ℝ) {s : JSt m} (h : s.Ok cs) {p : Fin m × Fin m} (hp : p.1 ≠ p.2) :
    (s.pair seuil p).Ok cs := by
  simp only [JSt.pair]
  split_ifs with h1
  · constructor
    · simp only [colG_eq _ hp, transpose_mul]
      rw [mul_assoc, ← mul_assoc s.vᵀ, h.1, one_mul, turn_orthogonal _ hp]
    · simp only [h.2, List.map_map]
      refine List.map_congr_left fun c _ => ?_
      simp only [Function.comp_apply, colG_eq _ hp, rowG_eq _ hp, transpose_mul, mul_assoc]
  · exact h

theorem jfold_ok {cs : List (Matrix (Fin m) (Fin m) ℝ)} (seuil : ℝ) (l : List (Fin m × Fin m)) (hl : ∀ p ∈ l, p.1 ≠ p.2) :
    ∀ s : JSt m, s.Ok cs → (l.foldl (JSt.pair seuil) s).Ok cs := by
  induction l with
  | nil => exact fun s h => h
  | cons p l ih => exact fun s h => ih (fun p hp => hl p (by simp [hp])) _ (jpair_ok seuil h (hl p (by simp)))

theorem jsweep_ok {cs : List (Matrix (Fin m) (Fin m) ℝ)} (seuil : ℝ) {s : JSt m} (h : s.Ok cs) : (s.sweep seuil).Ok cs :=
  jfold_ok seuil _ (fun _ hp => (pairs_ne hp).ne) _ h

theorem jpair_upds (seuil : ℝ) (s : JSt m) (p : Fin m × Fin m) : s.upds ≤ (s.pair seuil p).upds := by
  simp only [JSt.pair]; split_ifs <;> simp

theorem jfold_upds (seuil : ℝ) (l : List (Fin m × Fin m)) : ∀ s : JSt m, s.upds ≤ (l.foldl (JSt.pair seuil) s).upds := by
  induction l with
  | nil => exact fun s => le_rfl
  | cons p l ih => exact fun s => (jpair_upds seuil s p).trans (ih _)

/-- A sweep without rotations changes nothing, and all its angles are below the threshold. -/
theorem jfold_quiet (seuil : ℝ) (l : List (Fin m × Fin m)) : ∀ s : JSt m, (l.foldl (JSt.pair seuil) s).upds = s.upds →
    (l.foldl (JSt.pair seuil) s).v = s.v ∧ (l.foldl (JSt.pair seuil) s).cm = s.cm ∧ ∀ p ∈ l, |givens s.cm p.1 p.2| ≤ seuil := by
  induction l with
  | nil => exact fun s _ => ⟨rfl, rfl, by simp⟩
  | cons p l ih =>
    intro s h
    rw [List.foldl_cons] at h ⊢
    by_cases h1 : seuil < |givens s.cm p.1 p.2|
    · have := jfold_upds seuil l (s.pair seuil p)
      rw [h] at this
      simp only [JSt.pair, h1, if_true] at this
      omega
    · have e : s.pair seuil p = { s with theta := givens s.cm p.1 p.2 } := by simp [JSt.pair, h1]
      rw [e] at h ⊢
      obtain ⟨a, b, c⟩ := ih _ h
      refine ⟨a, b, fun p' hp' => ?_⟩
      rcases List.mem_cons.1 hp' with rfl | hp'
      · exact not_lt.1 h1
      · exact c p' hp'

theorem jfold_theta (seuil : ℝ) (l : List (Fin m × Fin m)) : ∀ s : JSt m, (l.foldl (JSt.pair seuil) s).upds = s.upds →
    (l.foldl (JSt.pair seuil) s).theta = match l.getLast? with | none => s.theta | some p => givens s.cm p.1 p.2 := by
  induction l with
  | nil => exact fun s _ => rfl
  | cons p l ih =>
    intro s h
    rw [List.foldl_cons] at h ⊢
    by_cases h1 : seuil < |givens s.cm p.1 p.2|
    · have := jfold_upds seuil l (s.pair seuil p)
      rw [h] at this
      simp only [JSt.pair, h1, if_true] at this
      omega
    · have e : s.pair seuil p = { s with theta := givens s.cm p.1 p.2 } := by simp [JSt.pair, h1]
      rw [e] at h ⊢
      rw [ih _ h, List.getLast?_cons]
      cases l.getLast? <;> rfl

theorem mem_pairs {p q : Fin m} (h : p < q) : (p, q) ∈ pairs m := by
  simp only [pairs, List.mem_flatMap, List.mem_map, List.mem_filter, List.mem_finRange, true_and, decide_eq_true_eq]
  exact ⟨p, q, h, rfl⟩

theorem jloop_ok {cs : List (Matrix (Fin m) (Fin m) ℝ)} (seuil : ℝ) (maxIt n : Nat) : ∀ (u : Nat) (s t : JSt m), s.Ok cs →
    s.loop seuil maxIt n u = .ok t → t.Ok cs ∧ ∀ p q, p < q → |givens t.cm p q| ≤ seuil := by
  induction n with
  | zero => intro u s t _ h; simp [JSt.loop] at h
  | succ n ih =>
    intro u s t hs h
    simp only [JSt.loop] at h
    split_ifs at h with h1 h2
    · injection h with h
      subst h
      refine ⟨jsweep_ok seuil hs, fun p q hpq => ?_⟩
      obtain ⟨_, b, c⟩ := jfold_quiet seuil (pairs m) { s with upds := 0 } h2
      have := c _ (mem_pairs hpq)
      rw [JSt.sweep, b]
      exact this
    · exact ih _ _ _ (jsweep_ok seuil hs) h

theorem jloop_fuel (seuil : ℝ) (maxIt n : Nat) : ∀ (u : Nat) (s : JSt m), u ≤ maxIt → maxIt < u + n →
    s.loop seuil maxIt n u ≠ .error .fuel ∧ (∀ e, s.loop seuil maxIt n u = .error e → e = .convergence ∨ e = .fuel) := by
  induction n with
  | zero => intro u s h1 h2; omega
  | succ n ih =>
    intro u s h0 h
    simp only [JSt.loop]
    split_ifs with h1 h2
    · simp
    · simp
    · exact ih _ _ (by omega) (by omega)

/-! ## The angle -/

theorem diagonality_eq (cs : List (Matrix (Fin m) (Fin m) ℝ)) (v : Matrix (Fin m) (Fin m) ℝ) :
    diagonality cs v = (cs.map fun c => ∑ k, (vᵀ * c * v) k k ^ 2).sum := by
  simp only [diagonality]
  congr 1
  refine List.map_congr_left fun c _ => Finset.sum_congr rfl fun k _ => ?_
  rw [mul_assoc, mul_apply]
  rfl

theorem diagonality_mul (cs : List (Matrix (Fin m) (Fin m) ℝ)) (v w : Matrix (Fin m) (Fin m) ℝ) :
    diagonality cs (v * w) = diagonality (cs.map fun c => vᵀ * c * v) w := by
  rw [diagonality_eq, diagonality_eq, List.map_map]
  congr 1
  refine List.map_congr_left fun c _ => Finset.sum_congr rfl fun k _ => ?_
  simp only [Function.comp_apply, transpose_mul, mul_assoc]

/-- The quantities `ton` and `toff`, as sums over the matrices. -/
noncomputable def tonOf (cs : List (Matrix (Fin m) (Fin m) ℝ)) (p q : Fin m) : ℝ :=
  (cs.map fun c => (c p p - c q q) ^ 2 - (c p q + c q p) ^ 2).sum

noncomputable def toffOf (cs : List (Matrix (Fin m) (Fin m) ℝ)) (p q : Fin m) : ℝ :=
  (cs.map fun c => 2 * ((c p p - c q q) * (c p q + c q p))).sum

theorem givens_eq (cs : List (Matrix (Fin m) (Fin m) ℝ)) (p q : Fin m) : givens cs p q =
    1 / 2 * arctan2 (toffOf cs p q) (tonOf cs p q + Real.sqrt (tonOf cs p q * tonOf cs p q + toffOf cs p q * toffOf cs p q)) := by
  have h1 : ∀ f g : Matrix (Fin m) (Fin m) ℝ → ℝ, (List.zipWith (· * ·) (cs.map f) (cs.map g)).sum = (cs.map fun c => f c * g c).sum := by
    intro f g
    induction cs with
    | nil => rfl
    | cons c cs ih => simp [ih]
  have e1 : tonOf cs p q = (cs.map fun c => (c p p - c q q) * (c p p - c q q)).sum - (cs.map fun c => (c p q + c q p) * (c p q + c q p)).sum := by
    simp only [tonOf]
    clear h1
    induction cs with
    | nil => simp
    | cons c cs ih => simp only [List.map_cons, List.sum_cons]; rw [ih]; ring
  have e2 : toffOf cs p q = (cs.map fun c => (c p p - c q q) * (c p q + c q p)).sum + (cs.map fun c => (c p q + c q p) * (c p p - c q q)).sum := by
    simp only [toffOf]
    clear e1 h1
    induction cs with
    | nil => simp
    | cons c cs ih => simp only [List.map_cons, List.sum_cons]; rw [ih]; ring
  simp only [givens, h1, ← e1, ← e2]
  norm_num

theorem diagonality_turn (cs : List (Matrix (Fin m) (Fin m) ℝ)) {p q : Fin m} (h : p ≠ q) (phi : ℝ) :
    diagonality cs (turn phi p q) = diagonality cs 1 +
      (tonOf cs p q * Real.cos (4 * phi) + toffOf cs p q * Real.sin (4 * phi) - tonOf cs p q) / 4 := by
  simp only [diagonality_eq, tonOf, toffOf]
  induction cs with
  | nil => simp
  | cons c cs ih =>
    simp only [List.map_cons, List.sum_cons, ih]
    have h1 : ∑ k, (((turn phi p q)ᵀ * c * turn phi p q) k k ^ 2 - c k k ^ 2) =
        (((c p p - c q q) ^ 2 - (c p q + c q p) ^ 2) * Real.cos (4 * phi) + 2 * ((c p p - c q q) * (c p q + c q p)) * Real.sin (4 * phi) -
          ((c p p - c q q) ^ 2 - (c p q + c q p) ^ 2)) / 4 := by
      rw [← rowG_eq _ h, ← colG_eq _ h]
      rw [Fintype.sum_eq_add p q h]
      · simp only [colG, rowG, if_true, h.symm, if_false]
        rw [cos_four, sin_four]
        have h2 := Real.sin_sq_add_cos_sq phi
        generalize Real.sin phi = S at *
        generalize Real.cos phi = C at *
        linear_combination (c p p ^ 2 + c q q ^ 2 - ((c p p - c q q) ^ 2 - (c p q + c q p) ^ 2) / 4) * (S ^ 2 + C ^ 2 + 1) * h2
      · rintro k ⟨k1, k2⟩
        simp [colG, rowG, k1, k2]
    rw [Finset.sum_sub_distrib] at h1
    simp only [transpose_one, one_mul, mul_one]
    linarith

/-- The angle of JADE maximises the joint diagonality in the plane of the two signals, over all angles, except when `toff` is zero and
`ton` negative. -/
theorem jade_angle_partial (cs : List (Matrix (Fin m) (Fin m) ℝ)) (v : Matrix (Fin m) (Fin m) ℝ) {p q : Fin m} (h : p ≠ q)
    (hnd : ¬ ((cs.map fun c => ((vᵀ * c * v) p p - (vᵀ * c * v) q q) * ((vᵀ * c * v) p q + (vᵀ * c * v) q p)).sum = 0 ∧
      (cs.map fun c => ((vᵀ * c * v) p p - (vᵀ * c * v) q q) ^ 2).sum < (cs.map fun c => ((vᵀ * c * v) p q + (vᵀ * c * v) q p) ^ 2).sum))
    (phi : ℝ) :
    diagonality cs (v * turn phi p q) ≤ diagonality cs (v * turn (givens (cs.map fun c => vᵀ * c * v) p q) p q) := by
  rw [diagonality_mul, diagonality_mul, diagonality_turn _ h, diagonality_turn _ h]
  rw [givens_eq]
  have hnd' : ¬ (toffOf (cs.map fun c => vᵀ * c * v) p q = 0 ∧ tonOf (cs.map fun c => vᵀ * c * v) p q < 0) := by
    rintro ⟨h1, h2⟩
    apply hnd
    simp only [toffOf, tonOf, List.map_map] at h1 h2
    constructor
    · rw [show ((fun c : Matrix (Fin m) (Fin m) ℝ => 2 * ((c p p - c q q) * (c p q + c q p))) ∘ fun c => vᵀ * c * v) = fun c =>
        2 * (((vᵀ * c * v) p p - (vᵀ * c * v) q q) * ((vᵀ * c * v) p q + (vᵀ * c * v) q p)) from rfl, List.sum_map_mul_left] at h1
      linarith
    · have e : ∀ l : List (Matrix (Fin m) (Fin m) ℝ), (l.map ((fun c : Matrix (Fin m) (Fin m) ℝ => (c p p - c q q) ^ 2 - (c p q + c q p) ^ 2) ∘ fun c => vᵀ * c * v)).sum =
          (l.map fun c => ((vᵀ * c * v) p p - (vᵀ * c * v) q q) ^ 2).sum - (l.map fun c => ((vᵀ * c * v) p q + (vᵀ * c * v) q p) ^ 2).sum := by
        intro l
        induction l with
        | nil => simp
        | cons c l ih => simp only [List.map_cons, List.sum_cons, ih, Function.comp_apply]; ring
      rw [e] at h2
      linarith
  generalize tonOf (cs.map fun c => vᵀ * c * v) p q = a at *
  generalize toffOf (cs.map fun c => vᵀ * c * v) p q = b at *
  have h1 : a * Real.cos (4 * phi) + b * Real.sin (4 * phi) ≤ Real.sqrt (a * a + b * b) := by
    apply Real.le_sqrt_of_sq_le
    have := Real.sin_sq_add_cos_sq (4 * phi)
    nlinarith [sq_nonneg (a * Real.sin (4 * phi) - b * Real.cos (4 * phi))]
  have h2 : a * Real.cos (4 * (1 / 2 * arctan2 b (a + Real.sqrt (a * a + b * b)))) +
      b * Real.sin (4 * (1 / 2 * arctan2 b (a + Real.sqrt (a * a + b * b)))) = Real.sqrt (a * a + b * b) := by
    have hr0 : 0 ≤ Real.sqrt (a * a + b * b) := Real.sqrt_nonneg _
    have hr : Real.sqrt (a * a + b * b) * Real.sqrt (a * a + b * b) = a * a + b * b := Real.mul_self_sqrt (by nlinarith [mul_self_nonneg a, mul_self_nonneg b])
    generalize Real.sqrt (a * a + b * b) = r at *
    have e1 : ‖(⟨a + r, b⟩ : ℂ)‖ * Real.cos (arctan2 b (a + r)) = a + r := Complex.norm_mul_cos_arg _
    have e2 : ‖(⟨a + r, b⟩ : ℂ)‖ * Real.sin (arctan2 b (a + r)) = b := Complex.norm_mul_sin_arg _
    rw [show 4 * (1 / 2 * arctan2 b (a + r)) = 2 * arctan2 b (a + r) by ring, Real.cos_two_mul', Real.sin_two_mul]
    have e3 := Real.sin_sq_add_cos_sq (arctan2 b (a + r))
    generalize arctan2 b (a + r) = t at *
    generalize ‖(⟨a + r, b⟩ : ℂ)‖ = w at *
    have e4 : w * w = 2 * r * (a + r) := by
      have : w * w * (Real.sin t ^ 2 + Real.cos t ^ 2) = (a + r) ^ 2 + b ^ 2 := by
        linear_combination (w * Real.cos t + (a + r)) * e1 + (w * Real.sin t + b) * e2
      rw [e3] at this
      linear_combination this + hr.symm
    by_cases hw : a + r = 0
    · have hb : b = 0 := by
        have : b * b = 0 := by linear_combination -hr + (r - a) * hw
        exact mul_self_eq_zero.1 this
      have ha : 0 ≤ a := not_lt.1 fun ha => hnd' ⟨hb, ha⟩
      have : r = 0 := by linarith
      have : a = 0 := by linarith
      simp [*]
    · rcases eq_or_ne r 0 with r0 | r0
      · have : a * a + b * b = 0 := by rw [← hr, r0]; ring
        have ha : a = 0 := by nlinarith [mul_self_nonneg a, mul_self_nonneg b]
        rw [ha, r0] at hw; simp at hw
      · have hw2 : w * w ≠ 0 := by rw [e4]; exact mul_ne_zero (mul_ne_zero two_ne_zero r0) hw
        apply mul_left_cancel₀ hw2
        have k1 : w * w * Real.cos t ^ 2 = (a + r) ^ 2 := by linear_combination (w * Real.cos t + (a + r)) * e1
        have k2 : w * w * Real.sin t ^ 2 = b ^ 2 := by linear_combination (w * Real.sin t + b) * e2
        have k3 : w * w * (Real.sin t * Real.cos t) = b * (a + r) := by linear_combination (w * Real.sin t) * e1 + (a + r) * e2
        linear_combination a * k1 - a * k2 + 2 * b * k3 - r * e4 - (a + 2 * r) * hr
  linarith

/-! ## The algorithm -/

theorem jade_cases {limit : ℝ} {maxIt : Nat} {order : Matrix (Fin m) (Fin m) ℝ → Equiv.Perm (Fin m)} {data : List (Vec m)}
    {f : Matrix (Fin m) (Fin m) ℝ} {theta : ℝ} (h : jade limit maxIt order data = .ok (f, theta)) : ∃ s : JSt m,
    JSt.loop (limit * limit / Real.sqrt data.length) maxIt (maxIt + 1) 0 ⟨1, cumMatrices data, 0, 0⟩ = .ok s ∧ theta = s.theta ∧
    s.Ok (cumMatrices data) ∧ (∀ p q, p < q → |givens s.cm p q| ≤ limit * limit / Real.sqrt data.length) ∧
    f = fun a k => signOf (if h : 0 < m then s.v ⟨0, h⟩ (order s.v k) else 0) * s.v a (order s.v k) := by
  simp only [jade] at h
  cases hl : JSt.loop (limit * limit / Real.sqrt data.length) maxIt (maxIt + 1) 0 ⟨1, cumMatrices data, 0, 0⟩ with
  | error e => rw [hl] at h; simp at h
  | ok s =>
    rw [hl] at h
    simp only [Except.ok.injEq] at h
    have h := Prod.mk.inj h
    obtain ⟨h1, h2⟩ := jloop_ok (cs := cumMatrices data) _ _ _ _ _ _ ⟨by simp, by simp⟩ hl
    exact ⟨s, rfl, h.2.symm, h1, h2, h.1.symm⟩

theorem signOf_sq (b : ℝ) : signOf b * signOf b = 1 := by
  simp only [signOf]; split_ifs <;> norm_num

theorem reorder_orthogonal {v : Matrix (Fin m) (Fin m) ℝ} (hv : vᵀ * v = 1) (s : Equiv.Perm (Fin m)) {e : Fin m → ℝ}
    (he : ∀ k, e k * e k = 1) : (Matrix.of fun a k => e k * v a (s k))ᵀ * (Matrix.of fun a k => e k * v a (s k)) = 1 := by
  ext k l
  have := congrFun (congrFun hv (s k)) (s l)
  simp only [mul_apply, transpose_apply, one_apply, EmbeddingLike.apply_eq_iff_eq, of_apply] at this ⊢
  rw [← Finset.sum_congr rfl fun a _ => (show e k * e l * (v a (s k) * v a (s l)) = _ by ring), ← Finset.mul_sum, this]
  split_ifs with hkl
  · subst hkl; rw [he]; ring
  · ring

/-- The filters of `JADENode` are orthogonal, and their first entries are not negative. -/
theorem jade_orthogonal {limit : ℝ} {maxIt : Nat} {order : Matrix (Fin m) (Fin m) ℝ → Equiv.Perm (Fin m)} {data : List (Vec m)}
    {f : Matrix (Fin m) (Fin m) ℝ} {theta : ℝ} (h : jade limit maxIt order data = .ok (f, theta)) :
    fᵀ * f = 1 ∧ f * fᵀ = 1 ∧ ∀ a : Fin m, a.val = 0 → ∀ k, 0 ≤ f a k := by
  obtain ⟨s, _, _, hok, _, rfl⟩ := jade_cases h
  have h1 := reorder_orthogonal hok.1 (order s.v) (fun k => signOf_sq (if h : 0 < m then s.v ⟨0, h⟩ (order s.v k) else 0))
  refine ⟨h1, mul_eq_one_comm.1 h1, fun a ha k => ?_⟩
  have hm : 0 < m := a.pos
  have : a = ⟨0, hm⟩ := Fin.ext ha
  subst this
  simp only [hm, dif_pos, signOf]
  split_ifs with hn
  · linarith
  · linarith [not_lt.1 hn]

/-- `JADENode.core` ends after at most `max_it + 1` sweeps: with the filters, or with the exception that reports that there is no
convergence. -/
theorem jade_ends (limit : ℝ) (maxIt : Nat) (order : Matrix (Fin m) (Fin m) ℝ → Equiv.Perm (Fin m)) (data : List (Vec m)) :
    (∃ r, jade limit maxIt order data = .ok r) ∨ jade limit maxIt order data = .error .convergence := by
  simp only [jade]
  have := jloop_fuel (limit * limit / Real.sqrt data.length) maxIt (maxIt + 1) 0 (⟨1, cumMatrices data, 0, 0⟩ : JSt m) (Nat.zero_le _) (by omega)
  cases hl : JSt.loop (limit * limit / Real.sqrt data.length) maxIt (maxIt + 1) 0 ⟨1, cumMatrices data, 0, 0⟩ with
  | error e =>
    rw [hl] at this
    rcases this.2 e rfl with rfl | rfl
    · exact .inr rfl
    · exact absurd rfl this.1
  | ok s => exact .inl ⟨_, rfl⟩

/-- When `JADENode.core` returns, its filters are, up to order and signs, an orthogonal basis in which the optimal rotation of any two
signals, with respect to the joint diagonality of the matrices, is below the threshold; except for pairs in the degenerate case. -/
theorem jade_stationary_partial {limit : ℝ} {maxIt : Nat} {order : Matrix (Fin m) (Fin m) ℝ → Equiv.Perm (Fin m)} {data : List (Vec m)}
    {f : Matrix (Fin m) (Fin m) ℝ} {theta : ℝ} (h : jade limit maxIt order data = .ok (f, theta)) :
    ∃ v : Matrix (Fin m) (Fin m) ℝ, vᵀ * v = 1 ∧
      (∃ (s : Equiv.Perm (Fin m)) (e : Fin m → ℝ), (∀ k, e k = 1 ∨ e k = -1) ∧ ∀ a k, f a k = e k * v a (s k)) ∧
      ∀ p q, p < q → ∃ t, |t| ≤ limit ^ 2 / Real.sqrt data.length ∧
        (¬ (((cumMatrices data).map fun c => ((vᵀ * c * v) p p - (vᵀ * c * v) q q) * ((vᵀ * c * v) p q + (vᵀ * c * v) q p)).sum = 0 ∧
          ((cumMatrices data).map fun c => ((vᵀ * c * v) p p - (vᵀ * c * v) q q) ^ 2).sum <
            ((cumMatrices data).map fun c => ((vᵀ * c * v) p q + (vᵀ * c * v) q p) ^ 2).sum) →
          ∀ phi, diagonality (cumMatrices data) (v * turn phi p q) ≤ diagonality (cumMatrices data) (v * turn t p q)) := by
  obtain ⟨s, _, _, hok, hq, rfl⟩ := jade_cases h
  refine ⟨s.v, hok.1, ⟨order s.v, _, fun k => ?_, fun a k => rfl⟩, fun p q hpq => ⟨givens s.cm p q, ?_, fun hnd phi => ?_⟩⟩
  · simp only [signOf]; split_ifs <;> simp
  · rw [sq]; exact hq p q hpq
  · rw [hok.2]; exact jade_angle_partial _ _ hpq.ne hnd phi

/-! ## The matrices -/

theorem fourth_eq (x : List (Vec m)) (i j k l : Fin m) : fourth x i j k l = mean (x.map fun r => r i * r j * r k * r l) := by
  simp [fourth, mean]

/-- The matrices for two equal indices are the fourth order cumulants. -/
theorem jade_matrices_partial (x : List (Vec m)) (i k l : Fin m) : cumMatrix x i i k l = cumulant x i i k l := by
  simp only [cumMatrix, if_true, cumulant, Matrix.sub_apply, Matrix.smul_apply, fourth_eq, unitOuter, one_apply]
  by_cases h1 : k = l <;> by_cases h2 : k = i <;> by_cases h3 : l = i <;> simp_all [eq_comm]
  all_goals ring

/-- The difference of the matrix for two different indices to the fourth order cumulants multiplied by `sqrt(2)`. -/
theorem jade_matrices_diff (x : List (Vec m)) {i j : Fin m} (h : i ≠ j) (k l : Fin m) :
    cumMatrix x i j k l - Real.sqrt 2 * cumulant x i j k l =
      (Real.sqrt 2 - 1) * (if (k = i ∧ l = j) ∨ (k = j ∧ l = i) then 1 else 0) := by
  simp only [cumMatrix, h, if_false, cumulant, Matrix.sub_apply, Matrix.smul_apply, fourth_eq, unitOuter]
  by_cases h1 : k = i <;> by_cases h2 : k = j <;> by_cases h3 : l = i <;> by_cases h4 : l = j <;> simp_all [eq_comm]
  all_goals ring

/-- The matrices for two different indices are, for no data, the fourth order cumulants multiplied by `sqrt(2)`. -/
theorem jade_matrices_false (x : List (Vec m)) {i j : Fin m} (h : i ≠ j) :
    cumMatrix x i j ≠ fun k l => Real.sqrt 2 * cumulant x i j k l := by
  intro h1
  have h2 := jade_matrices_diff x h i j
  rw [h1, sub_self] at h2
  simp only [and_self, true_or, if_true, mul_one] at h2
  have : Real.sqrt 2 = 1 := by linarith
  rw [Real.sqrt_eq_one] at this
  norm_num at this

/-! ## Separated and mixed signals -/

theorem jfold_zero {seuil : ℝ} (hs : 0 ≤ seuil) (l : List (Fin m × Fin m)) : ∀ s : JSt m, s.theta = 0 →
    (∀ p ∈ l, givens s.cm p.1 p.2 = 0) → l.foldl (JSt.pair seuil) s = s := by
  induction l with
  | nil => exact fun s _ _ => rfl
  | cons p l ih =>
    intro s h0 h
    have e : s.pair seuil p = s := by
      have := h p (by simp)
      simp only [JSt.pair, this, abs_zero, not_lt.2 hs, if_false]
      cases s; simp_all
    rw [List.foldl_cons, e]
    exact ih s h0 fun p hp => h p (by simp [hp])

/-- When no pair is to be rotated, the filters are a permutation of the signals. -/
theorem jade_quiet (limit : ℝ) (maxIt : Nat) (order : Matrix (Fin m) (Fin m) ℝ → Equiv.Perm (Fin m)) (data : List (Vec m))
    (h : ∀ p q, p < q → givens (cumMatrices data) p q = 0) :
    jade limit maxIt order data = .ok (fun a k => if a = order 1 k then 1 else 0, 0) := by
  have hs : 0 ≤ limit * limit / Real.sqrt data.length := div_nonneg (mul_self_nonneg _) (Real.sqrt_nonneg _)
  have h1 : JSt.sweep (limit * limit / Real.sqrt data.length) (⟨1, cumMatrices data, 0, 0⟩ : JSt m) = ⟨1, cumMatrices data, 0, 0⟩ :=
    jfold_zero hs _ _ rfl fun p hp => h _ _ (pairs_ne hp)
  simp only [jade, JSt.loop, h1]
  simp only [Nat.add_zero, Nat.not_lt_zero, if_false, if_true]
  congr 2
  funext a k
  have : ∀ b : ℝ, 0 ≤ b → signOf b = 1 := fun b hb => by simp [signOf, not_lt.2 hb]
  rw [this, one_mul, one_apply]
  split_ifs
  · rw [one_apply]; split_ifs <;> norm_num
  · exact le_rfl

theorem arctan2_zero {a : ℝ} (h : 0 ≤ a) : arctan2 0 a = 0 := Complex.arg_ofReal_of_nonneg h

theorem givens_zero (cs : List (Matrix (Fin m) (Fin m) ℝ)) {p q : Fin m} (h : toffOf cs p q = 0) : givens cs p q = 0 := by
  rw [givens_eq, h, arctan2_zero, mul_zero]
  rw [mul_zero, add_zero, Real.sqrt_mul_self_eq_abs]
  linarith [neg_abs_le (tonOf cs p q)]

theorem mem_cumMatrices {x : List (Vec m)} {c : Matrix (Fin m) (Fin m) ℝ} (h : c ∈ cumMatrices x) :
    (∃ i, c = cumMatrix x i i) ∨ ∃ i j, i ≠ j ∧ c = cumMatrix x i j := by
  simp only [cumMatrices, List.mem_flatMap, List.mem_finRange, true_and, List.mem_cons, List.mem_map, List.mem_filter,
    decide_eq_true_eq] at h
  obtain ⟨i, rfl | ⟨j, hj, rfl⟩⟩ := h
  · exact .inl ⟨i, rfl⟩
  · exact .inr ⟨i, j, hj.ne', rfl⟩

/-- Signals whose common cumulants of order four vanish are returned as they are, up to their order, by `JADENode`. -/
theorem jade_separated (limit : ℝ) (maxIt : Nat) (order : Matrix (Fin m) (Fin m) ℝ → Equiv.Perm (Fin m)) (data : List (Vec m))
    (h : ∀ i j k l, ¬ (i = j ∧ j = k ∧ k = l) → cumulant data i j k l = 0) :
    ∃ s : Equiv.Perm (Fin m), jade limit maxIt order data = .ok (fun a k => if a = s k then 1 else 0, 0) := by
  refine ⟨order 1, jade_quiet _ _ _ _ fun p q hpq => givens_zero _ ?_⟩
  simp only [toffOf]
  apply List.sum_eq_zero
  intro t ht
  obtain ⟨c, hc, rfl⟩ := List.mem_map.1 ht
  rcases mem_cumMatrices hc with ⟨i, rfl⟩ | ⟨i, j, hij, rfl⟩
  · rw [jade_matrices_partial, jade_matrices_partial, jade_matrices_partial, jade_matrices_partial, h i i p q (by rintro ⟨_, _, rfl⟩; exact lt_irrefl _ hpq),
      h i i q p (by rintro ⟨_, _, rfl⟩; exact lt_irrefl _ hpq)]
    ring
  · have e : ∀ k, cumMatrix data i j k k = 0 := by
      intro k
      have := jade_matrices_diff data hij k k
      rw [h i j k k fun hh => hij hh.1, if_neg] at this
      · linarith
      · rintro (⟨rfl, rfl⟩ | ⟨rfl, rfl⟩) <;> exact hij rfl
    rw [e, e]
    ring

/-- Two independent binary signals, mixed by a rotation of 45 degrees. -/
noncomputable def mixed : List (Vec 2) := [![0, Real.sqrt 2], ![Real.sqrt 2, 0], ![-Real.sqrt 2, 0], ![0, -Real.sqrt 2]]

theorem matrices_two (x : List (Vec 2)) : cumMatrices x = [cumMatrix x 0 0, cumMatrix x 1 1, cumMatrix x 1 0] := by
  rfl

/-- The angle of JADE is not always the best one, and signals stay mixed: two independent binary signals mixed by a rotation of 45
degrees are returned unchanged (up to their order), with no angle left, although the rotation by 45 degrees gives the independent signals
and a larger diagonality. -/
theorem jade_angle_false (limit : ℝ) (maxIt : Nat) (order : Matrix (Fin 2) (Fin 2) ℝ → Equiv.Perm (Fin 2)) :
    (∃ s : Equiv.Perm (Fin 2), jade limit maxIt order mixed = .ok (fun a k => if a = s k then 1 else 0, 0)) ∧
    diagonality (cumMatrices mixed) 1 < diagonality (cumMatrices mixed) (turn (Real.pi / 4) 0 1) ∧
    mixed.map (fun r => r ᵥ* turn (Real.pi / 4) 0 1) = binary := by
  have h2 : Real.sqrt 2 * Real.sqrt 2 = 2 := Real.mul_self_sqrt (by norm_num)
  have e : ∀ i j k l : Fin 2, fourth mixed i j k l = if i = j ∧ j = k ∧ k = l then 2 else 0 := by
    intro i j k l
    simp only [fourth, mixed, List.map_cons, List.map_nil, List.sum_cons, List.sum_nil, List.length_cons, List.length_nil]
    generalize Real.sqrt 2 = w at h2 ⊢
    have h4 : w ^ 4 = 4 := by linear_combination (w * w + 2) * h2
    revert i j k l
    simp only [Fin.forall_fin_two]
    norm_num
    linear_combination (1 / 2) * h4
  have e1 : toffOf (cumMatrices mixed) 0 1 = 0 := by
    simp only [toffOf, matrices_two, List.map_cons, List.map_nil, List.sum_cons, List.sum_nil, cumMatrix, Matrix.sub_apply,
      Matrix.smul_apply, e, unitOuter, one_apply, Fin.isValue, one_ne_zero, zero_ne_one, if_true, if_false, and_true, and_false,
      smul_eq_mul, true_and, false_and]
    norm_num
  have e2 : tonOf (cumMatrices mixed) 0 1 = -4 := by
    simp only [tonOf, matrices_two, List.map_cons, List.map_nil, List.sum_cons, List.sum_nil, cumMatrix, Matrix.sub_apply,
      Matrix.smul_apply, e, unitOuter, one_apply, Fin.isValue, one_ne_zero, zero_ne_one, if_true, if_false, and_true, and_false,
      smul_eq_mul, true_and, false_and]
    norm_num
  refine ⟨⟨order 1, jade_quiet _ _ _ _ fun p q hpq => ?_⟩, ?_, ?_⟩
  · obtain ⟨rfl, rfl⟩ : p = 0 ∧ q = 1 := by revert p q; decide
    exact givens_zero _ e1
  · rw [diagonality_turn _ (by decide), e1, e2, show 4 * (Real.pi / 4) = Real.pi by ring, Real.cos_pi]
    linarith
  · have hc : Real.cos (Real.pi / 4) * Real.sqrt 2 = 1 := by rw [Real.cos_pi_div_four]; linarith
    have hs : Real.sin (Real.pi / 4) * Real.sqrt 2 = 1 := by rw [Real.sin_pi_div_four]; linarith
    have e : ∀ r : Vec 2, r ᵥ* turn (Real.pi / 4) 0 1 = ![r 0 * Real.cos (Real.pi / 4) + r 1 * Real.sin (Real.pi / 4),
        r 0 * -Real.sin (Real.pi / 4) + r 1 * Real.cos (Real.pi / 4)] := by
      intro r
      funext k
      fin_cases k <;> simp [vecMul, dotProduct, Fin.sum_univ_two, turn]
    simp only [e, mixed, binary, List.map_cons, List.map_nil, Matrix.cons_val_zero, Matrix.cons_val_one, zero_mul, zero_add, add_zero]
    have k1 : Real.sqrt 2 * Real.cos (Real.pi / 4) = 1 := by linarith
    have k2 : Real.sqrt 2 * Real.sin (Real.pi / 4) = 1 := by linarith
    simp only [neg_mul, mul_neg, k1, k2, neg_neg]

/-- The matrices of JADE for separated signals are not best diagonalised by the signals themselves when the kurtosis is small. -/
theorem jade_criterion_false (data : List (Vec 2)) (h : ∀ i j k l, ¬ (i = j ∧ j = k ∧ k = l) → cumulant data i j k l = 0)
    (hk : cumulant data 0 0 0 0 ^ 2 + cumulant data 1 1 1 1 ^ 2 < 4 * (Real.sqrt 2 - 1) ^ 2) :
    diagonality (cumMatrices data) 1 < diagonality (cumMatrices data) (turn (Real.pi / 4) 0 1) := by
  rw [diagonality_turn _ (by decide), show 4 * (Real.pi / 4) = Real.pi by ring, Real.cos_pi, Real.sin_pi]
  have e : tonOf (cumMatrices data) 0 1 = cumulant data 0 0 0 0 ^ 2 + cumulant data 1 1 1 1 ^ 2 - 4 * (Real.sqrt 2 - 1) ^ 2 := by
    have d : ∀ k l, cumMatrix data 1 0 k l = (Real.sqrt 2 - 1) * (if (k = 1 ∧ l = 0) ∨ (k = 0 ∧ l = 1) then 1 else 0) := by
      intro k l
      have := jade_matrices_diff data (show (1 : Fin 2) ≠ 0 by decide) k l
      rw [h 1 0 k l (by simp)] at this
      linarith
    simp only [tonOf, matrices_two, List.map_cons, List.map_nil, List.sum_cons, List.sum_nil, jade_matrices_partial, d]
    rw [h 0 0 1 1 (by decide), h 0 0 0 1 (by decide), h 0 0 1 0 (by decide), h 1 1 0 0 (by decide), h 1 1 0 1 (by decide),
      h 1 1 1 0 (by decide)]
    simp
    ring
  rw [e]
  linarith

/-- Separated signals with a negative kurtosis, about one half in absolute value. -/
noncomputable def weak : List (Vec 2) :=
  let w := Real.sqrt 2
  [![w, w], ![w, -w], ![-w, w], ![-w, -w], ![24 / 13, 0], ![-24 / 13, 0], ![10 / 13, 0], ![-10 / 13, 0],
    ![0, 24 / 13], ![0, -24 / 13], ![0, 10 / 13], ![0, -10 / 13], 0, 0, 0, 0]

example : diagonality (cumMatrices weak) 1 < diagonality (cumMatrices weak) (turn (Real.pi / 4) 0 1) ∧
    cumulant weak 0 0 0 0 < -1 / 2 ∧ cumulant weak 1 1 1 1 < -1 / 2 := by
  have h2 : Real.sqrt 2 * Real.sqrt 2 = 2 := Real.mul_self_sqrt (by norm_num)
  have h4 : Real.sqrt 2 ^ 4 = 4 := by linear_combination (Real.sqrt 2 * Real.sqrt 2 + 2) * h2
  have e : ∀ i j k l, cumulant weak i j k l = if i = j ∧ j = k ∧ k = l then (16 + 2 * (24 / 13) ^ 4 + 2 * (10 / 13) ^ 4) / 16 - 3 else 0 := by
    intro i j k l
    simp only [cumulant, mean, weak, List.map_cons, List.map_nil, List.sum_cons, List.sum_nil, List.length_cons, List.length_nil]
    generalize Real.sqrt 2 = w at h2 h4 ⊢
    revert i j k l
    simp only [Fin.forall_fin_two]
    norm_num
    refine ⟨⟨?_, ?_⟩, ?_, ?_⟩ <;> linear_combination (1 / 4) * h4
  have g : (141 / 100 : ℝ) < Real.sqrt 2 := by
    rw [Real.lt_sqrt (by norm_num)]; norm_num
  refine ⟨jade_criterion_false _ (fun i j k l h => by rw [e, if_neg h]) ?_, ?_, ?_⟩
  · rw [e, e]; norm_num; nlinarith
  · rw [e]; norm_num
  · rw [e]; norm_num

example (order : Matrix (Fin 2) (Fin 2) ℝ → Equiv.Perm (Fin 2)) :
    ∃ s : Equiv.Perm (Fin 2), jade (1 / 1000) 1000 order binary = .ok (fun a k => if a = s k then 1 else 0, 0) := by
  apply jade_separated
  simp only [cumulant, mean, binary, List.map_cons, List.map_nil, List.sum_cons, List.sum_nil, List.length_cons, List.length_nil,
    Fin.forall_fin_two]
  norm_num

end Mdp.Ica
