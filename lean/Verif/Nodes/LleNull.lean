import Verif.Nodes.LleHess

/-!
# The embedding computed by `HLLENode`: least squares of given linear forms
-/

namespace Mdp.Lle

open Mdp.Cov Mdp.Symeig Mdp.Pca Mdp.Sfa

variable {d N m n : Nat}

/-! ## Specification -/

/-- The sum of the squares of linear forms `ws` at `y`. -/
noncomputable def formErr (ws : List (Row ℝ N)) (y : Row ℝ N) : ℝ := (ws.map fun w => dot w y ^ 2).sum

/-! ## Eigenvectors and the least squares -/

/-- The matrix of the sum of squares. -/
noncomputable def formMat (ws : List (Row ℝ N)) : Mat ℝ N N := fun a b => (ws.map fun w => w a * w b).sum

theorem formErr_nonneg (ws : List (Row ℝ N)) (y : Row ℝ N) : 0 ≤ formErr ws y :=
  List.sum_nonneg fun x hx => by obtain ⟨w, _, rfl⟩ := List.mem_map.1 hx; exact sq_nonneg _

theorem formErr_cons (w : Row ℝ N) (ws : List (Row ℝ N)) (y : Row ℝ N) : formErr (w :: ws) y = dot w y ^ 2 + formErr ws y := by
  simp [formErr]

theorem formErr_eq (ws : List (Row ℝ N)) (y : Row ℝ N) : formErr ws y = ∑ k, ∑ l, y k * formMat ws k l * y l := by
  induction ws with
  | nil => simp [formErr, formMat]
  | cons w ws ih =>
    rw [formErr_cons, ih]
    simp only [formMat, List.map_cons, List.sum_cons, mul_add, add_mul, Finset.sum_add_distrib]
    congr 1
    unfold dot
    rw [sq, Finset.sum_mul_sum]
    exact Finset.sum_congr rfl fun _ _ => Finset.sum_congr rfl fun _ _ => by ring

theorem formErr_zero {ws : List (Row ℝ N)} {y : Row ℝ N} (h : ∀ w ∈ ws, dot w y = 0) : formErr ws y = 0 := by
  unfold formErr
  refine List.sum_eq_zero fun x hx => ?_
  obtain ⟨w, hw, rfl⟩ := List.mem_map.1 hx
  rw [h w hw]
  norm_num

theorem formErr_scale (ws : List (Row ℝ N)) (y : Row ℝ N) (s : ℝ) : formErr ws (fun a => s * y a) = s ^ 2 * formErr ws y := by
  unfold formErr
  rw [← List.sum_map_mul_left]
  congr 1
  refine List.map_congr_left fun w _ => ?_
  rw [← mul_pow]
  congr 1
  unfold dot
  rw [Finset.mul_sum]
  exact Finset.sum_congr rfl fun _ _ => by ring

section
variable {ws : List (Row ℝ N)} {L : List (ℝ × Row ℝ N)}

theorem formErr_eigen (h : EigList (formMat ws) L) {p : ℝ × Row ℝ N} (hp : p ∈ L) : formErr ws p.2 = p.1 := by
  rw [formErr_eq]
  have h1 : ∀ k, ∑ l, p.2 k * formMat ws k l * p.2 l = p.2 k * (p.1 * p.2 k) := fun k => by
    rw [← h.eigen p hp k, Finset.mul_sum]
    exact Finset.sum_congr rfl fun _ _ => by ring
  simp only [h1]
  have := h.unit p hp
  unfold dot at this
  calc ∑ k, p.2 k * (p.1 * p.2 k) = p.1 * ∑ k, p.2 k * p.2 k := by
        rw [Finset.mul_sum]; exact Finset.sum_congr rfl fun _ _ => by ring
    _ = p.1 := by rw [this, mul_one]

theorem eigList_ortho {A : Mat ℝ N N} (h : EigList A L) (i j : Fin L.length) :
    dot (L.get i).2 (L.get j).2 = if i = j then 1 else 0 := by
  split
  · next e => subst e; exact h.unit _ (List.get_mem _ _)
  · next e => exact get_orth dot dot_comm h.orth i j e

theorem form_optimal (h : EigList (formMat ws) L) (hs : L.Pairwise fun p q => p.1 ≤ q.1) {w : Fin m → Row ℝ N} (hw : Orthonormal w) :
    ∑ i : Fin N, (if i.1 < m then (L.get (i.cast h.full.symm)).1 else 0) ≤ ∑ a, formErr ws (w a) := by
  have sp : Spectrum (fun a b => - formMat ws a b) (fun i => - (L.get (i.cast h.full.symm)).1)
      (fun i => (L.get (i.cast h.full.symm)).2) := by
    refine ⟨fun i k => ?_, fun i j => ?_, fun i j hij => neg_le_neg ?_⟩
    · have := h.eigen _ (List.get_mem L (i.cast h.full.symm)) k
      simp only [neg_mul, Finset.sum_neg_distrib]
      rw [this]
    · rw [eigList_ortho h]
      simp
    · rcases hij.lt_or_eq with hlt | heq
      · exact List.pairwise_iff_get.1 hs _ _ hlt
      · rw [heq]
  have := sp.optimal hw
  have e1 : ∀ a : Fin m, ∑ k, ∑ l, w a k * (- formMat ws k l) * w a l = - formErr ws (w a) := fun a => by
    rw [formErr_eq]
    simp only [mul_neg, neg_mul, Finset.sum_neg_distrib]
  simp only [e1, Finset.sum_neg_distrib] at this
  have e2 : ∑ i : Fin N, (if i.1 < m then - (L.get (i.cast h.full.symm)).1 else 0)
      = - ∑ i : Fin N, (if i.1 < m then (L.get (i.cast h.full.symm)).1 else 0) := by
    rw [← Finset.sum_neg_distrib]
    exact Finset.sum_congr rfl fun i _ => by split <;> simp
  rw [e2] at this
  linarith

/-- The eigenvectors after the first, if constants have no error. -/
theorem null_optimal (hL : EigList (formMat ws) L) (hasc : L.Pairwise fun p q => p.1 ≤ q.1) (hN : 2 ≤ N)
    (hconst : ∀ s, formErr ws (fun _ => s) = 0) {out : Nat} {proj : List (Row ℝ N)}
    (hproj : proj = ((L.take (out + 1)).drop 1).map (·.2)) :
    proj.length = min out (N - 1) ∧ Orthonormal (fun j => proj.get j)
    ∧ (∀ w : Fin proj.length → Row ℝ N, Orthonormal w → (∀ a, ∑ i, w a i = 0) →
        ∑ j, formErr ws (proj.get j) ≤ ∑ a, formErr ws (w a))
    ∧ ((∀ y, formErr ws y = 0 → ∃ s, y = fun _ => s) → ∀ u ∈ proj, ∑ i, u i = 0) := by
  have hlen : proj.length = min out (N - 1) := by
    rw [hproj, List.length_map, List.length_drop, List.length_take, hL.full]
    omega
  have hlt : ∀ j : Fin proj.length, j.1 + 1 < N := fun j => by have := j.2; omega
  obtain ⟨φ, hφ⟩ : ∃ φ : Fin proj.length → Fin N, ∀ j, (φ j).1 = j.1 + 1 := ⟨fun j => ⟨j.1 + 1, hlt j⟩, fun _ => rfl⟩
  have hinj : Function.Injective φ := fun a b hab => by
    have := congrArg Fin.val hab
    rw [hφ, hφ] at this
    exact Fin.ext (by omega)
  have hget : ∀ j, proj.get j = (L.get ((φ j).cast hL.full.symm)).2 := by
    intro j
    simp only [hproj, List.get_eq_getElem, List.getElem_map, List.getElem_drop, List.getElem_take, Fin.val_cast, hφ, Nat.add_comm 1 j.1]
  have hnn : ∀ i : Fin L.length, 0 ≤ (L.get i).1 := fun i => by
    rw [← formErr_eigen hL (List.get_mem L i)]
    exact formErr_nonneg _ _
  refine ⟨hlen, fun a b => ?_, fun w hw' hc => ?_, fun hker u hu => ?_⟩
  · beta_reduce
    rw [hget, hget, eigList_ortho hL]
    simp only [Fin.cast_inj, hinj.eq_iff]
  · have hopt := form_optimal hL hasc (withConst_ortho (by omega) hw' hc)
    rw [Fin.sum_univ_succ] at hopt
    simp only [withConst, Fin.cons_zero, Fin.cons_succ, hconst, zero_add] at hopt
    refine le_trans ?_ hopt
    have e1 : ∀ j : Fin proj.length, formErr ws (proj.get j) = (fun i : Fin N => (L.get (i.cast hL.full.symm)).1) (φ j) := fun j => by
      rw [hget]
      exact formErr_eigen hL (List.get_mem _ _)
    rw [Finset.sum_congr rfl fun j _ => e1 j, ← Finset.sum_image (g := φ) (f := fun i : Fin N => (L.get (i.cast hL.full.symm)).1) hinj.injOn,
      ← Finset.sum_filter]
    refine Finset.sum_le_sum_of_subset_of_nonneg ?_ fun i _ _ => hnn _
    intro i hi
    obtain ⟨j, _, rfl⟩ := Finset.mem_image.1 hi
    simp only [Finset.mem_filter, Finset.mem_univ, true_and, hφ]
    omega
  · obtain ⟨j, rfl⟩ := List.get_of_mem hu
    have hj0 : 0 < L.length := by rw [hL.full]; omega
    have hfirst : (L.get ⟨0, hj0⟩).1 = 0 := by
      refine le_antisymm ?_ (hnn _)
      have hopt := form_optimal (m := 1) hL hasc (withConst_ortho (m := 0) (w := Fin.elim0) (by omega) (fun a => a.elim0) fun a => a.elim0)
      simp only [Fin.sum_univ_one, withConst, Fin.cons_zero, hconst] at hopt
      refine le_trans ?_ hopt
      have := Finset.single_le_sum (f := fun i : Fin N => if i.1 < 1 then (L.get (i.cast hL.full.symm)).1 else 0)
        (fun i _ => by split; exacts [hnn _, le_rfl]) (Finset.mem_univ (⟨0, by omega⟩ : Fin N))
      simpa using this
    obtain ⟨s, hs⟩ := hker _ ((formErr_eigen hL (List.get_mem L ⟨0, hj0⟩)).trans hfirst)
    have h0 := eigList_ortho hL ⟨0, hj0⟩ ((φ j).cast hL.full.symm)
    rw [if_neg (by simp [Fin.ext_iff, hφ]), hs] at h0
    unfold dot at h0
    rw [← Finset.mul_sum] at h0
    have hs0 : s ≠ 0 := by
      rintro rfl
      have := hL.unit _ (List.get_mem L ⟨0, hj0⟩)
      rw [hs] at this
      simp [dot] at this
    rw [hget]
    exact (mul_eq_zero.1 h0).resolve_left hs0

end

/-! ## The two ways to compute the eigenvectors -/

theorem formMat_get (ws : List (Row ℝ N)) (a b : Fin N) : ∑ i : Fin ws.length, ws.get i a * ws.get i b = formMat ws a b := by
  unfold formMat
  rw [← List.sum_ofFn]
  congr 1
  conv_rhs => rw [← List.ofFn_get ws]
  rw [List.map_ofFn]
  rfl

theorem form_svd {E : Env ℝ} (hS : SvdOk E) {ws : List (Row ℝ N)} (hw : N ≤ ws.length) (out : Nat) :
    ∃ L : List (ℝ × Row ℝ N), EigList (formMat ws) L ∧ (L.Pairwise fun p q => p.1 ≤ q.1)
      ∧ (nsvd E (n := ws.length) (fun i j => ws.get i j) (2, out + 1)).map (·.2) = ((L.take (out + 1)).drop 1).map (·.2) := by
  obtain ⟨h1, h2⟩ := hS ws.length N (fun i j => ws.get i j) hw
  simp only [formMat_get] at h1
  refine ⟨((E.svd ws.length N fun i j => ws.get i j).insertionSort fun a b => a.1 ≤ b.1).map fun p => (p.1 ^ 2, p.2), ?_, ?_, ?_⟩
  · exact EigList.perm h1 ((List.perm_insertionSort _ _).map _)
  · rw [List.pairwise_map]
    refine (sort_asc _).imp_of_mem fun {p q} hp hq hpq => ?_
    exact pow_le_pow_left₀ (h2 p ((List.perm_insertionSort _ _).mem_iff.1 hp)) hpq 2
  · rw [← List.map_take, ← List.map_drop, List.map_map]
    rfl

theorem form_eig {E : Env ℝ} (hE : EigOk E) {ws : List (Row ℝ N)} {s : ℝ} {out : Nat} (hN : 2 ≤ N) (ho : 1 ≤ out) {l : List (ℝ × Row ℝ N)}
    (hl : E.eig.std (fun a b => formMat ws a b + if a = b then s else 0) (some (2, out + 1)) = .ok l) :
    ∃ L : List (ℝ × Row ℝ N), EigList (formMat ws) L ∧ (L.Pairwise fun p q => p.1 ≤ q.1)
      ∧ l.map (·.2) = ((L.take (out + 1)).drop 1).map (·.2) := by
  have hsym : ∀ a b, (formMat ws a b + if a = b then s else 0) = formMat ws b a + if b = a then s else 0 := by
    intro a b
    congr 1
    · unfold formMat
      simp only [mul_comm]
    · simp only [eq_comm]
  obtain ⟨e, he, hel⟩ := hE N (fun a b => formMat ws a b + if a = b then s else 0) hsym
  unfold Symeig.Env.std at hl
  rw [he] at hl
  simp only [Except.ok.injEq] at hl
  subst hl
  have hp := EigList.perm hel (List.perm_insertionSort (fun a b => a.1 ≤ b.1) e)
  have hs := sort_asc e
  unfold finish
  simp only
  rw [slice_eq hN ho _ hp.full]
  generalize (e.insertionSort fun a b => a.1 ≤ b.1) = L at *
  refine ⟨L.map fun p => (p.1 - s, p.2), ⟨fun p hpm k => ?_, fun p hpm => ?_, ?_, ?_⟩, ?_, ?_⟩
  · obtain ⟨q, hq, rfl⟩ := List.mem_map.1 hpm
    have := hp.eigen q hq k
    simp only [add_mul, Finset.sum_add_distrib, ite_mul, zero_mul, Finset.sum_ite_eq, Finset.mem_univ, if_true] at this
    rw [sub_mul]
    linarith
  · obtain ⟨q, hq, rfl⟩ := List.mem_map.1 hpm
    exact hp.unit q hq
  · rw [List.pairwise_map]; exact hp.orth
  · rw [List.length_map]; exact hp.full
  · rw [List.pairwise_map]
    exact hs.imp fun h => sub_le_sub_right h _
  · rw [← List.map_take, ← List.map_drop, List.map_map]
    rfl

/-! ## Normalisation -/

/-- The square root of a multiple of the identity. -/
theorem sqrtm_scalar {E : Env ℝ} (hE : EigOk E) (hq : E.eig.sqrt = Real.sqrt) {s : ℝ} {A C : Mat ℝ m m}
    (hA : ∀ i j, A i j = if i = j then s else 0) (h : sqrtm E A = .ok C) (i j : Fin m) : C i j = if i = j then Real.sqrt s else 0 := by
  obtain ⟨e, he, hel⟩ := hE m A fun i j => by rw [hA, hA]; simp only [eq_comm]
  unfold sqrtm Symeig.Env.std at h
  rw [he] at h
  simp only [finish, Except.ok.injEq] at h
  subst h
  have hp := EigList.perm hel (List.perm_insertionSort (fun a b => a.1 ≤ b.1) e)
  generalize (e.insertionSort fun a b => a.1 ≤ b.1) = L at *
  have hval : ∀ p ∈ L, p.1 = s := by
    intro p hpm
    have h1 := hp.eigen p hpm
    simp only [hA, ite_mul, zero_mul, Finset.sum_ite_eq, Finset.mem_univ, if_true] at h1
    have h2 := hp.unit p hpm
    have : ∑ k, s * p.2 k * p.2 k = ∑ k, p.1 * p.2 k * p.2 k := Finset.sum_congr rfl fun k _ => by rw [h1 k]
    simp only [mul_assoc, ← Finset.mul_sum] at this
    unfold dot at h2
    rw [h2, mul_one, mul_one] at this
    exact this.symm
  have e1 : (L.map fun p => p.2 i * (E.eig.sqrt p.1 * p.2 j)) = L.map fun p => Real.sqrt s * (p.2 i * p.2 j) :=
    List.map_congr_left fun p hpm => by rw [hq, hval p hpm]; ring
  beta_reduce
  rw [e1, List.sum_map_mul_left]
  have ho : Orthonormal fun i : Fin m => (L.get (i.cast hp.full.symm)).2 := fun a b => by
    rw [eigList_ortho hp]; simp
  have hc := ho.complete i j
  have e2 : (L.map fun p => p.2 i * p.2 j).sum = ∑ k : Fin m, (L.get (k.cast hp.full.symm)).2 i * (L.get (k.cast hp.full.symm)).2 j := by
    have hf := hp.full
    conv_lhs => rw [← List.ofFn_get L]
    rw [List.map_ofFn, List.sum_ofFn]
    exact (Fintype.sum_equiv (finCongr hf) _ _ fun x => rfl)
  rw [e2, hc]
  split <;> simp

end Mdp.Lle
