import Verif.Nodes.QuadMaxProps

/-!
# The search for extrema of a quadratic form ends (C120)

Properties of the model of `Nodes/QuadMax.lean` (quad_forms.py:60-132). No definitions are added.
-/

namespace Mdp.Quad

open Mdp.Cov Mdp.Pca Mdp.Sfa

variable {F : Type} [Field F] [LinearOrder F] [IsStrictOrderedRing F] {n : Nat}
variable {H : Mat F (n + 1) (n + 1)} {f : Row F (n + 1)} {mu : Fin (n + 1) → F} {v : Fin (n + 1) → Row F (n + 1)}

/-- How much an inverse square changes. -/
theorem inv_sq_sub (a w q : F) (hq : 0 < q) (ha : q ≤ a) (hw : 0 ≤ w) : (1 / a) ^ 2 - (1 / (a + w)) ^ 2 ≤ 2 * w / q ^ 3 := by
  have ha0 : 0 < a := hq.trans_le ha
  have hb0 : 0 < a + w := by linarith
  have e : (1 / a) ^ 2 - (1 / (a + w)) ^ 2 = w * (2 * a + w) / (a ^ 2 * (a + w) ^ 2) := by
    field_simp
    ring
  rw [e]
  have h1 : w * (2 * a + w) / (a ^ 2 * (a + w) ^ 2) ≤ 2 * w / (a ^ 2 * (a + w)) := by
    rw [div_le_div_iff₀ (by positivity) (by positivity)]
    have : w * (2 * a + w) ≤ 2 * w * (a + w) := by nlinarith
    calc w * (2 * a + w) * (a ^ 2 * (a + w)) ≤ 2 * w * (a + w) * (a ^ 2 * (a + w)) :=
          mul_le_mul_of_nonneg_right this (by positivity)
      _ = 2 * w * (a ^ 2 * (a + w) ^ 2) := by ring
  refine h1.trans ?_
  refine div_le_div_of_nonneg_left (by positivity) (by positivity) ?_
  have h2 : q ^ 2 ≤ a ^ 2 := pow_le_pow_left₀ hq.le ha 2
  calc q ^ 3 = q ^ 2 * q := by ring
    _ ≤ a ^ 2 * (a + w) := mul_le_mul h2 (by linarith) hq.le (by positivity)

/-- The length of the solution changes little with the multiplier. -/
theorem lengthSq_sub (alpha : Fin (n + 1) → F) (hasc : ∀ i, mu i ≤ mu (Fin.last n)) (l w q : F) (hq : 0 < q)
    (hl : mu (Fin.last n) + q ≤ l) (hw : 0 ≤ w) :
    lengthSq mu alpha l - lengthSq mu alpha (l + w) ≤ (∑ i, alpha i ^ 2) * (2 * w / q ^ 3) := by
  unfold lengthSq
  rw [← Finset.sum_sub_distrib, Finset.sum_mul]
  refine Finset.sum_le_sum fun i _ => ?_
  rw [← mul_sub]
  refine mul_le_mul_of_nonneg_left ?_ (sq_nonneg _)
  have := inv_sq_sub (l - mu i) w q hq (by linarith [hasc i]) hw
  rwa [show l - mu i + w = l + w - mu i by ring] at this

theorem step_lambd (norm : F) (alpha : Fin (n + 1) → F) (s : Loop F) : (s.step norm mu alpha).lambd ≠ none := by
  simp only [Loop.step]
  split <;> simp

theorem step_width (norm : F) (alpha : Fin (n + 1) → F) (s : Loop F) :
    (s.step norm mu alpha).lr - (s.step norm mu alpha).ll = (s.lr - s.ll) / 2 := by
  simp only [Loop.step]
  split <;> simp only <;> ring

theorem run_terminates_neg {tol norm epsilon B q : F} {alpha : Fin (n + 1) → F} (hasc : ∀ i, mu i ≤ mu (Fin.last n))
    (hq : 0 < q) (hmu : mu (Fin.last n) = - 2 * q) (hB : B ≤ q) (htol : (∑ i, alpha i ^ 2) * (2 * B / q ^ 3) ≤ tol)
    (he : 0 ≤ epsilon) (fuel : Nat) (s : Loop F) (h : Inv norm mu alpha s) (hl : s.lambd ≠ none)
    (hw : s.lr - s.ll ≤ B * 2 ^ fuel) : Loop.run tol norm epsilon mu alpha fuel s ≠ none := by
  induction fuel generalizing s with
  | zero =>
    have hlt := h.lt
    have hg : s.goes tol norm epsilon = false := by
      rw [pow_zero, mul_one] at hw
      by_cases h0 : s.lr < 0
      · have h1 : (s.lr - s.ll) / s.lr ≤ epsilon := (div_nonpos_of_nonneg_of_nonpos (by linarith) h0.le).trans he
        simp [Loop.goes, h0.ne, h1]
      · have h0 := not_lt.1 h0
        have hll : mu (Fin.last n) + q ≤ s.ll := by linarith
        have h1 : norm ^ 2 < lengthSq mu alpha s.ll := by
          rcases h.left with h1 | h1
          · linarith
          · exact h1
        have h2 := lengthSq_sub alpha hasc s.ll (s.lr - s.ll) q hq hll (by linarith)
        rw [show s.ll + (s.lr - s.ll) = s.lr by ring] at h2
        have h3 : lengthSq mu alpha s.ll - lengthSq mu alpha s.lr ≤ tol := by
          refine h2.trans (le_trans ?_ htol)
          refine mul_le_mul_of_nonneg_left ?_ (Finset.sum_nonneg fun i _ => sq_nonneg _)
          exact div_le_div_of_nonneg_right (by linarith) (by positivity)
        have h4 := h.right
        have h5 : |s.nx - norm ^ 2| ≤ tol := by
          obtain ⟨l, hl⟩ := Option.ne_none_iff_exists'.1 hl
          obtain ⟨h6, _, h7⟩ := h.lam l hl
          rw [h6, abs_le]
          rcases h7 with rfl | rfl <;> constructor <;> linarith
        simp [Loop.goes, h5]
    simp [Loop.run, hg]
  | succ fuel ih =>
    simp only [Loop.run]
    split
    · refine ih _ h.step (step_lambd _ _ _) ?_
      rw [step_width]
      rw [pow_succ] at hw
      linarith
    · simp

theorem alpha_norm (he : EigAsc H mu v) {nf : F} (hf : IsNorm nf f) : nf ^ 2 = ∑ i, dot (v i) f ^ 2 := by
  rw [hf.2, ← he.ortho.parseval f]
  exact Finset.sum_congr rfl fun i _ => by rw [dot_comm']

/-- **C120**: the search also ends if the largest eigenvalue is negative. -/
theorem maximize_terminates_neg [Archimedean F] (e : Env F n) (norm tol : F)
    (he : EigAsc H (e.eig H).1 (e.eig H).2) (hn : 0 < norm) (hf : IsNorm (e.norm2 f) f) (hf0 : f ≠ 0) (hep : 0 < e.epsilon)
    (htol : 0 < tol) (hmu : (e.eig H).1 (Fin.last n) < 0) : ∃ fuel, ∀ m, fuel ≤ m → maximize e H f norm tol m ≠ .error .fuel := by
  have hpos := hf.pos hf0
  have ha := alpha_norm he hf
  obtain ⟨q, hq⟩ : ∃ q, q = - (e.eig H).1 (Fin.last n) / 2 := ⟨_, rfl⟩
  have hq0 : 0 < q := by rw [hq]; linarith
  have hmu' : (e.eig H).1 (Fin.last n) = - 2 * q := by rw [hq]; ring
  have hA : 0 < ∑ i, dot ((e.eig H).2 i) f ^ 2 := by rw [← ha]; positivity
  obtain ⟨B, hB⟩ : ∃ B, B = min q (tol * q ^ 3 / (2 * ∑ i, dot ((e.eig H).2 i) f ^ 2)) := ⟨_, rfl⟩
  have hB0 : 0 < B := by rw [hB]; exact lt_min hq0 (by positivity)
  have hB1 : B ≤ q := by rw [hB]; exact min_le_left _ _
  have hB2 : (∑ i, dot ((e.eig H).2 i) f ^ 2) * (2 * B / q ^ 3) ≤ tol := by
    have h1 : B ≤ tol * q ^ 3 / (2 * ∑ i, dot ((e.eig H).2 i) f ^ 2) := by rw [hB]; exact min_le_right _ _
    rw [le_div_iff₀ (by positivity)] at h1
    rw [← mul_div_assoc, div_le_iff₀ (by positivity)]
    linarith
  obtain ⟨N, hN⟩ := Archimedean.arch (e.norm2 f / norm) hB0
  refine ⟨N + 1, fun m hm => ?_⟩
  obtain ⟨k, rfl⟩ : ∃ k, m = k + 1 := ⟨m - 1, by omega⟩
  have halpha : ∀ i, (sumF fun k => (e.eig H).2 i k * f k) = dot ((e.eig H).2 i) f := by
    intro i; rw [sumF_eq]; rfl
  have hi := inv_init hn hpos ha fun i => he.asc i _ (Fin.le_last i)
  have hrun : Loop.run tol norm e.epsilon (e.eig H).1 (fun i => dot ((e.eig H).2 i) f) (k + 1)
      (Loop.init (e.norm2 f) norm (e.eig H).1) ≠ none := by
    simp only [Loop.run]
    split
    · refine run_terminates_neg (fun i => he.asc i _ (Fin.le_last i)) hq0 hmu' hB1 hB2 hep.le k _ hi.step (step_lambd _ _ _) ?_
      rw [step_width]
      simp only [Loop.init, add_sub_cancel_right]
      have h1 : N ≤ 2 ^ k := (by omega : N ≤ k).trans Nat.lt_two_pow_self.le
      have h2 : (N : F) ≤ 2 ^ k := by exact_mod_cast h1
      rw [nsmul_eq_mul] at hN
      have h3 : (N : F) * B ≤ 2 ^ k * B := mul_le_mul_of_nonneg_right h2 hB0.le
      have h4 : 0 < e.norm2 f / norm := div_pos hpos hn
      linarith
    · simp
  simp only [maximize, halpha]
  split
  · rename_i h0; exact absurd h0 hrun
  · split <;> simp

/-- **C120**: **the call ends**, for every form, length and tolerance, if the solver refuses matrices that map a vector that is not zero
to zero. -/
theorem extrema_terminates [Archimedean F] (e : Env F n) (H : Mat F (n + 1) (n + 1)) (f : Row F (n + 1)) (norm tol : F)
    (he : EigAsc H (e.eig H).1 (e.eig H).2)
    (he' : EigAsc (fun i j => -1 * H i j) (e.eig fun i j => -1 * H i j).1 (e.eig fun i j => -1 * H i j).2)
    (hs : (∃ y : Row F (n + 1), y ≠ 0 ∧ ∀ k, ∑ l, - H k l * y l = 0) → e.solve (fun i j => - H i j) f = none)
    (hf : IsNorm (e.norm2 f) f) (hf' : IsNorm (e.norm2 fun i => -1 * f i) fun i => -1 * f i)
    (heps : 0 < e.eps) (hep : 0 < e.epsilon) (hn : 0 < norm) (htol : 0 < tol) :
    ∃ fuel, ∀ m, fuel ≤ m → getExtrema e H f norm tol m ≠ .error .fuel := by
  by_cases hz : ∃ y : Row F (n + 1), y ≠ 0 ∧ ∀ k, ∑ l, - H k l * y l = 0
  · refine ⟨0, fun m _ => ?_⟩
    unfold getExtrema
    rw [hs hz]
    split
    · simp
    · simp
  · have unit : ∀ {v : Fin (n + 1) → Row F (n + 1)}, Orthonormal v → ∀ i, v i ≠ 0 := by
      intro v ho i h0
      have := ho i i
      rw [if_pos rfl, h0] at this
      simp [dot] at this
    have h1 : (e.eig H).1 (Fin.last n) ≠ 0 := by
      intro h0
      refine hz ⟨_, unit he.ortho (Fin.last n), fun k => ?_⟩
      have := he.eigen (Fin.last n) k
      rw [h0, zero_mul] at this
      simp only [neg_mul, Finset.sum_neg_distrib, this, neg_zero]
    have h2 : (e.eig fun i j => -1 * H i j).1 (Fin.last n) ≠ 0 := by
      intro h0
      refine hz ⟨_, unit he'.ortho (Fin.last n), fun k => ?_⟩
      have := he'.eigen (Fin.last n) k
      rw [h0, zero_mul] at this
      simpa only [neg_mul, one_mul] using this
    by_cases hsm : ∀ i, |f i| < e.eps
    · refine ⟨0, fun m _ => ?_⟩
      unfold getExtrema
      rw [if_pos hsm]
      simp
    · have hf0 : f ≠ 0 := by
        rintro rfl
        exact hsm fun i => by simpa using heps
      have hf0' : (fun i => -1 * f i) ≠ 0 := by
        intro h0
        exact hf0 (funext fun i => by have := congrFun h0 i; simpa using this)
      obtain ⟨a, ha⟩ : ∃ fuel, ∀ m, fuel ≤ m → maximize e H f norm tol m ≠ .error .fuel := by
        rcases lt_or_gt_of_ne h1 with h | h
        · exact maximize_terminates_neg e norm tol he hn hf hf0 hep htol h
        · exact maximize_terminates e norm tol he hn hf hf0 hep h
      obtain ⟨b, hb⟩ : ∃ fuel, ∀ m, fuel ≤ m →
          maximize e (fun i j => -1 * H i j) (fun i => -1 * f i) norm tol m ≠ .error .fuel := by
        rcases lt_or_gt_of_ne h2 with h | h
        · exact maximize_terminates_neg e norm tol he' hn hf' hf0' hep htol h
        · exact maximize_terminates e norm tol he' hn hf' hf0' hep h
      refine ⟨max a b, fun m hm => ?_⟩
      have ha := ha m ((le_max_left _ _).trans hm)
      have hb := hb m ((le_max_right _ _).trans hm)
      unfold getExtrema
      rw [if_neg hsm]
      cases e.solve (fun i j => - H i j) f with
      | none => simp
      | some x0 =>
        simp only [xminOf, xmaxOf]
        split
        · next er her =>
          intro h
          cases h
          split at her
          · cases her
          · exact hb her
        · split
          · next er her =>
            intro h
            cases h
            split at her
            · cases her
            · exact ha her
          · simp

/-- The linear part on a sphere. -/
theorem linear_le (f y : Row F (n + 1)) (norm : F) (hn : 0 < norm) (hy : dot y y = norm ^ 2) :
    |∑ i, f i * y i| ≤ (∑ i, |f i|) * norm := by
  refine (Finset.abs_sum_le_sum_abs _ _).trans ?_
  rw [Finset.sum_mul]
  refine Finset.sum_le_sum fun i _ => ?_
  rw [abs_mul]
  refine mul_le_mul_of_nonneg_left ?_ (abs_nonneg _)
  refine abs_le_of_sq_le_sq ?_ hn.le
  rw [← hy, sq]
  exact Finset.single_le_sum (f := fun i => y i * y i) (fun i _ => mul_self_nonneg _) (Finset.mem_univ i)

theorem quadratic_split (H : Mat F (n + 1) (n + 1)) (f : Row F (n + 1)) (c : F) (y : Row F (n + 1)) :
    quadratic H f c y = quadratic H 0 c y + ∑ i, f i * y i := by
  simp only [quadratic, Pi.zero_apply, zero_mul, Finset.sum_const_zero]
  ring

/-- **C120**: a linear part whose entries are all below the machine precision is left out. The vectors have exactly the length asked
for, and their values differ from the largest and the smallest on the sphere by no more than twice the length times the sum of the
entries of the linear part. -/
theorem extrema_small (e : Env F n) (H : Mat F (n + 1) (n + 1)) (f : Row F (n + 1)) (c norm tol : F) (fuel : Nat)
    (hH : ∀ i j, H i j = H j i) (he : EigAsc H (e.eig H).1 (e.eig H).2)
    (he' : EigAsc (fun i j => -1 * H i j) (e.eig fun i j => -1 * H i j).1 (e.eig fun i j => -1 * H i j).2)
    (hsm : ∀ i, |f i| < e.eps) (heps : 0 < e.eps) (hn : 0 < norm) : ∃ xmax xmin,
    getExtrema e H f norm tol fuel = .ok (xmax, xmin) ∧ dot xmax xmax = norm ^ 2 ∧ dot xmin xmin = norm ^ 2 ∧
    ∀ y, dot y y = norm ^ 2 → quadratic H f c y ≤ quadratic H f c xmax + 2 * norm * ∑ i, |f i| ∧
      quadratic H f c xmin ≤ quadratic H f c y + 2 * norm * ∑ i, |f i| := by
  have hlen : ∀ i, dot (fun k => (e.eig H).2 i k * norm) (fun k => (e.eig H).2 i k * norm) = norm ^ 2 := by
    intro i
    have h1 := he.ortho i i
    rw [if_pos rfl] at h1
    have : dot (fun k => (e.eig H).2 i k * norm) (fun k => (e.eig H).2 i k * norm) =
        dot ((e.eig H).2 i) ((e.eig H).2 i) * norm ^ 2 := by
      simp only [dot, Finset.sum_mul]
      exact Finset.sum_congr rfl fun k _ => by ring
    rw [this, h1, one_mul]
  have h0 : getExtrema { e with solve := fun _ _ => none, norm2 := fun _ => 0 } H 0 norm tol fuel =
      .ok (fun k => (e.eig H).2 (Fin.last n) k * norm, fun k => (e.eig H).2 0 k * norm) := by
    unfold getExtrema
    rw [if_pos (fun i => by simpa using heps)]
  obtain ⟨h1, h2, _, _⟩ := extrema_optimal { e with solve := fun _ _ => none, norm2 := fun _ => 0 } H 0 c norm tol fuel hH he he'
    (fun x hx => by cases hx) ⟨le_refl _, by simp [dot]⟩ ⟨le_refl _, by simp [dot]⟩ (Or.inl rfl) heps hn _ _ h0
  refine ⟨_, _, by unfold getExtrema; rw [if_pos hsm], hlen _, hlen _, fun y hy => ?_⟩
  have h1 := h1 y (hy.trans (hlen _).symm)
  have h2 := h2 y (hy.trans (hlen _).symm)
  have a1 := abs_le.1 (linear_le f y norm hn hy)
  have a2 := abs_le.1 (linear_le f _ norm hn (hlen (Fin.last n)))
  have a3 := abs_le.1 (linear_le f _ norm hn (hlen 0))
  rw [quadratic_split H f c y, quadratic_split H f c (fun k => (e.eig H).2 (Fin.last n) k * norm),
    quadratic_split H f c (fun k => (e.eig H).2 0 k * norm)]
  constructor <;> linarith [a1.1, a1.2, a2.1, a2.2, a3.1, a3.2]

example := extrema_small ex1 (fun _ _ => 1) (fun _ => 1 / 10 ^ 16) 0 2 (1 / 100) 0 (fun _ _ => rfl) (ex1_eig _) (ex1_eig _)
  (fun _ => by decide +kernel) (by decide +kernel) (by decide)

/-- A form that is negative definite, with the extremum outside the sphere: the searches end. -/
example : ∃ fuel, ∀ m, fuel ≤ m → getExtrema ex1 (fun _ _ => -1) (fun _ => 5) 2 (1 / 100) m ≠ .error .fuel :=
  extrema_terminates ex1 _ _ _ _ (ex1_eig _) (ex1_eig _)
    (by
      rintro ⟨y, hy, h⟩
      refine absurd (funext fun k => ?_) hy
      have := h 0
      have hk : k = 0 := by omega
      simpa [hk] using this)
    (ex1_norm _) (ex1_norm _) (by decide +kernel) (by decide +kernel) (by decide) (by decide +kernel)
example : (getExtrema ex1 (fun _ _ => -1) (fun _ => 5) 2 (1 / 100) 20).toBool = true := by decide +kernel

end Mdp.Quad
