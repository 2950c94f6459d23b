import Verif.Nodes.LleMore
import Mathlib.Analysis.InnerProductSpace.GramSchmidtOrtho

/-!
# `HLLENode`
-/

namespace Mdp.Lle

open Mdp.Cov Mdp.Symeig Mdp.Pca Mdp.Sfa

variable {d N m : Nat}

/-! ## Specification -/

/-- Pairwise orthogonal vectors of length one. -/
def OrthoList {n : Nat} (l : List (Row ℝ n)) : Prop := (∀ u ∈ l, dot u u = 1) ∧ l.Pairwise fun u v => dot u v = 0

/-- `qr` orthogonalises the columns one after the other. -/
def QrOk (E : Env ℝ) : Prop := ∀ n (l : List (Row ℝ n)), l.length ≤ n → (E.qr n l).length = l.length ∧ OrthoList (E.qr n l)
  ∧ ∀ i j (hi : i < l.length) (hj : j < (E.qr n l).length), i < j → dot (E.qr n l)[j] l[i] = 0

/-- The first result of `svd` is a full system of eigenvectors of `A Aᵀ`, in descending order of the eigenvalues. -/
def LeftOk (E : Env ℝ) : Prop := ∀ n m (A : Mat ℝ n m), ∃ L : List (ℝ × Row ℝ n), EigList (fun a b => ∑ c, A a c * A b c) L
  ∧ (L.Pairwise fun p q => q.1 ≤ p.1) ∧ E.left n m A = L.map (·.2)

/-! ## Modified Gram-Schmidt -/

theorem mgs_cons (v : Row ℝ m) (vs : List (Row ℝ m)) : mgs Real.sqrt (v :: vs) =
    ((fun c => v c / Real.sqrt (∑ c, v c * v c)) :: (mgs Real.sqrt (vs.map fun u c => u c -
        (∑ b, v b / Real.sqrt (∑ c, v c * v c) * u b) * (v c / Real.sqrt (∑ c, v c * v c)))).1,
      Real.sqrt (∑ c, v c * v c) :: (mgs Real.sqrt (vs.map fun u c => u c -
        (∑ b, v b / Real.sqrt (∑ c, v c * v c) * u b) * (v c / Real.sqrt (∑ c, v c * v c)))).2) := by
  rw [mgs]

/-- Vectors that are orthogonal to all the given vectors are orthogonal to all the results. -/
theorem mgs_perp (q : Row ℝ m) : ∀ (n : Nat) (vs : List (Row ℝ m)), vs.length = n → (∀ v ∈ vs, dot q v = 0) →
    ∀ u ∈ (mgs Real.sqrt vs).1, dot q u = 0 := by
  intro n
  induction n with
  | zero =>
    intro vs h
    rw [List.length_eq_zero_iff.1 h]
    simp [mgs]
  | succ n ih =>
    intro vs hlen hp
    cases vs with
    | nil => simp at hlen
    | cons v vs =>
      have hv := hp v (by simp)
      have e1 : dot q (fun c => v c / Real.sqrt (∑ c, v c * v c)) = 0 := by
        unfold dot at hv ⊢
        simp only [mul_div_assoc']
        rw [← Finset.sum_div, hv, zero_div]
      rw [mgs_cons]
      intro u hu
      rcases List.mem_cons.1 hu with rfl | hu
      · exact e1
      · refine ih _ (by simpa using hlen) (fun w hw => ?_) u hu
        obtain ⟨x, hx, rfl⟩ := List.mem_map.1 hw
        have hx' := hp x (by simp [hx])
        unfold dot at hx' e1 ⊢
        simp only [mul_sub, Finset.sum_sub_distrib]
        rw [hx', zero_sub, neg_eq_zero]
        calc _ = (∑ b, v b / Real.sqrt (∑ c, v c * v c) * x b) * ∑ c, q c * (v c / Real.sqrt (∑ c, v c * v c)) := by
              rw [Finset.mul_sum]; exact Finset.sum_congr rfl fun _ _ => by ring
          _ = 0 := by rw [e1, mul_zero]

/-- Without division by zero the result is orthonormal. -/
theorem mgs_ortho : ∀ (n : Nat) (vs : List (Row ℝ m)), vs.length = n → 0 ∉ (mgs Real.sqrt vs).2 →
    OrthoList (mgs Real.sqrt vs).1 ∧ (mgs Real.sqrt vs).1.length = n := by
  intro n
  induction n with
  | zero =>
    intro vs h _
    rw [List.length_eq_zero_iff.1 h]
    simp [mgs, OrthoList]
  | succ n ih =>
    intro vs hlen hne
    cases vs with
    | nil => simp at hlen
    | cons v vs =>
      rw [mgs_cons] at hne ⊢
      simp only [List.mem_cons, not_or] at hne
      obtain ⟨h0, hrest⟩ := hne
      have hs : Real.sqrt (∑ c, v c * v c) * Real.sqrt (∑ c, v c * v c) = ∑ c, v c * v c :=
        Real.mul_self_sqrt (Finset.sum_nonneg fun _ _ => mul_self_nonneg _)
      have hu : dot (fun c => v c / Real.sqrt (∑ c, v c * v c)) (fun c => v c / Real.sqrt (∑ c, v c * v c)) = 1 := by
        unfold dot
        simp only [div_mul_div_comm]
        rw [← Finset.sum_div, hs, div_self]
        intro hz
        rw [hz, Real.sqrt_zero] at h0
        exact h0 rfl
      generalize hq : (fun c => v c / Real.sqrt (∑ c, v c * v c)) = q at *
      have hq' : ∀ c, v c / Real.sqrt (∑ c, v c * v c) = q c := fun c => congrFun hq c
      simp only [hq'] at hrest ⊢
      obtain ⟨⟨i1, i2⟩, i3⟩ := ih _ (by simpa using hlen) hrest
      refine ⟨⟨fun u hu' => ?_, List.pairwise_cons.2 ⟨fun u hu' => ?_, i2⟩⟩, by simp [i3]⟩
      · rcases List.mem_cons.1 hu' with rfl | h
        · exact hu
        · exact i1 u h
      · refine mgs_perp q _ _ rfl (fun w hw => ?_) u hu'
        obtain ⟨x, hx, rfl⟩ := List.mem_map.1 hw
        unfold dot at hu ⊢
        simp only [mul_sub, Finset.sum_sub_distrib]
        have : ∑ c, q c * ((∑ b, q b * x b) * q c) = (∑ b, q b * x b) * ∑ c, q c * q c := by
          rw [Finset.mul_sum]; exact Finset.sum_congr rfl fun _ _ => by ring
        rw [this, hu, mul_one, sub_self]

theorem ortho_le (l : List (Row ℝ m)) (h : OrthoList l) : l.length ≤ m := by
  have hw : Orthonormal fun i : Fin l.length => l.get i := by
    intro a b
    split
    · next e => subst e; exact h.1 _ (List.get_mem _ _)
    · next e =>
      rcases lt_or_gt_of_ne e with h' | h'
      · exact List.pairwise_iff_get.1 h.2 a b h'
      · rw [dot_comm]; exact List.pairwise_iff_get.1 h.2 b a h'
  have hv : Orthonormal fun i : Fin m => (fun k => if i = k then (1 : ℝ) else 0) := by
    intro a b
    simp only [dot, mul_ite, mul_one, mul_zero, Finset.sum_ite_eq, Finset.mem_univ, if_true]
  exact orthonormal_le hw hv

/-- More vectors than dimensions: one of the norms is zero, and the next statement divides by it. -/
theorem mgs_divides_by_zero (vs : List (Row ℝ m)) (h : m < vs.length) : 0 ∈ (mgs Real.sqrt vs).2 := by
  by_contra hne
  obtain ⟨h1, h2⟩ := mgs_ortho _ vs rfl hne
  have := ortho_le _ h1
  omega

theorem products_length {F : Type} [Field F] {k : Nat} (l : List (Row F k)) : (products l).length = l.length * (l.length + 1) / 2 := by
  induction l with
  | nil => simp [products]
  | cons u us ih =>
    simp only [products, List.length_append, List.length_map, List.length_cons, ih]
    have h1 : 2 ∣ us.length * (us.length + 1) := (Nat.even_mul_succ_self us.length).two_dvd
    have h2 : (us.length + 1) * (us.length + 1 + 1) = us.length * (us.length + 1) + 2 * (us.length + 1) := by ring
    rw [h2]
    omega

theorem forms_length {F : Type} [Field F] {k : Nat} (l : List (Row F k)) :
    (forms l).length = 1 + l.length + l.length * (l.length + 1) / 2 := by
  simp only [forms, List.length_append, List.length_cons, List.length_nil, products_length]

/-- C265: with less than `1 + output_dim + output_dim (output_dim + 1) / 2` neighbours the orthogonalisation that is used
instead of `qr` divides by zero, whatever the data are. -/
theorem hlle_few_neighbours_violation (k out : Nat) (hk : k < 1 + out + out * (out + 1) / 2) (coords : List (Row ℝ k))
    (hc : coords.length = out) : 0 ∈ (mgs Real.sqrt (forms coords)).2 := by
  refine mgs_divides_by_zero _ ?_
  rw [forms_length, hc]
  exact hk

/-- Two vectors in the plane become orthonormal; with a third one there is a division by zero. -/
example : OrthoList (mgs Real.sqrt [![3, 0], ![5, 2]]).1 ∧ 0 ∈ (mgs Real.sqrt [![3, 0], ![5, 2], ![1, 1]]).2 := by
  have h9 : √(3 * 3 : ℝ) = 3 := Real.sqrt_mul_self (by norm_num)
  have h4 : √(2 * 2 : ℝ) = 2 := Real.sqrt_mul_self (by norm_num)
  refine ⟨(mgs_ortho 2 _ rfl ?_).1, mgs_divides_by_zero _ (by decide)⟩
  simp [mgs, h9, h4, Fin.sum_univ_two]

end Mdp.Lle
