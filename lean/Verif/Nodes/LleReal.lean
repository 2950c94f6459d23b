import Verif.Nodes.LleEmbed

/-!
# Exact routines of linear algebra over the real numbers exist, and `LLENode` with them
-/

namespace Mdp.Lle

open Mdp.Cov Mdp.Symeig Mdp.Pca Mdp.Sfa

variable {d N : Nat}

theorem exists_eig {n : Nat} (A : Mat ℝ n n) (h : ∀ i j, A i j = A j i) : ∃ l, EigList A l := by
  have hA : (Matrix.of A).IsHermitian := by
    ext i j
    simp only [Matrix.conjTranspose_apply, Matrix.of_apply, star_trivial]
    exact h j i
  have ho : ∀ i j, dot (fun k => hA.eigenvectorBasis i k) (fun k => hA.eigenvectorBasis j k) = if i = j then (1 : ℝ) else 0 := by
    intro i j
    have := orthonormal_iff_ite.1 hA.eigenvectorBasis.orthonormal i j
    rw [← this]
    simp [dot, PiLp.inner_apply, mul_comm]
  refine ⟨List.ofFn fun i => (hA.eigenvalues i, fun k => hA.eigenvectorBasis i k), fun p hp k => ?_, fun p hp => ?_, ?_, by simp⟩
  · obtain ⟨i, rfl⟩ := (List.mem_ofFn' _ _).1 hp
    have := congrFun (hA.mulVec_eigenvectorBasis i) k
    simpa [Matrix.mulVec, dotProduct] using this
  · obtain ⟨i, rfl⟩ := (List.mem_ofFn' _ _).1 hp
    exact (ho i i).trans (if_pos rfl)
  · rw [List.pairwise_ofFn]
    exact fun i j hij => (ho i j).trans (if_neg hij.ne)

theorem exists_svd {n m : Nat} (A : Mat ℝ n m) : ∃ l : List (ℝ × Row ℝ m),
    EigList (fun a b => ∑ i, A i a * A i b) (l.map fun p => (p.1 ^ 2, p.2)) ∧ ∀ p ∈ l, 0 ≤ p.1 := by
  obtain ⟨l, hl⟩ := exists_eig (fun a b => ∑ i, A i a * A i b) fun a b => Finset.sum_congr rfl fun _ _ => mul_comm _ _
  refine ⟨l.map fun p => (Real.sqrt p.1, p.2), ?_, fun p hp => ?_⟩
  · have hnn : ∀ p ∈ l, 0 ≤ p.1 := by
      intro p hp
      have h1 := hl.eigen p hp
      have h2 := hl.unit p hp
      have h3 : p.1 = ∑ i, (∑ a, A i a * p.2 a) ^ 2 := by
        unfold dot at h2
        calc p.1 = p.1 * ∑ k, p.2 k * p.2 k := by rw [h2, mul_one]
          _ = ∑ k, p.2 k * (p.1 * p.2 k) := by
              rw [Finset.mul_sum]
              exact Finset.sum_congr rfl fun _ _ => by ring
          _ = ∑ k, p.2 k * ∑ j, (∑ i, A i k * A i j) * p.2 j := by simp only [h1]
          _ = ∑ i, (∑ a, A i a * p.2 a) ^ 2 := by
              simp only [sq, Finset.sum_mul_sum]
              simp only [Finset.mul_sum, Finset.sum_mul]
              rw [Finset.sum_comm_cycle]
              exact Finset.sum_congr rfl fun _ _ => Finset.sum_congr rfl fun _ _ => Finset.sum_congr rfl fun _ _ => by ring
      rw [h3]
      exact Finset.sum_nonneg fun _ _ => sq_nonneg _
    have : (l.map fun p => (Real.sqrt p.1, p.2)).map (fun p => (p.1 ^ 2, p.2)) = l := by
      rw [List.map_map]
      refine (List.map_congr_left fun p hp => ?_).trans (List.map_id l)
      simp [Real.sq_sqrt (hnn p hp)]
    rwa [this]
  · obtain ⟨q, _, rfl⟩ := List.mem_map.1 hp
    exact Real.sqrt_nonneg _

open Classical in
/-- Exact routines. -/
noncomputable def realE : Env ℝ where
  argsort n key := (List.finRange n).insertionSort fun a b => key a ≤ key b
  sing _ _ _ := []
  eig := {
    eigh := fun _ A => if h : ∀ i j, A i j = A j i then some (exists_eig A h).choose else some []
    svd := fun _ _ => none
    sqrt := Real.sqrt }
  svd _ _ A := (exists_svd A).choose
  left _ _ _ := []
  qr _ l := l

theorem realSorts : Sorts realE := by
  intro n key
  classical
  refine ⟨List.perm_insertionSort _ _, ?_⟩
  haveI : Std.Total fun a b : Fin n => key a ≤ key b := ⟨fun a b => le_total (key a) (key b)⟩
  haveI : IsTrans (Fin n) fun a b => key a ≤ key b := ⟨fun _ _ _ => le_trans⟩
  exact List.pairwise_insertionSort _ _

theorem realWorks : Works realE := by
  intro n A h
  simp only [realE] at h
  split at h <;> cases h

theorem realEig : EigOk realE := by
  intro n A h
  refine ⟨(exists_eig A h).choose, ?_, (exists_eig A h).choose_spec⟩
  simp only [realE]
  rw [dif_pos h]

theorem realSvd : SvdOk realE := fun _ _ A _ => (exists_svd A).choose_spec

/-- For every set of distinct points there is an embedding as described. -/
theorem exists_embedding (M : Fin N → Row ℝ d) (hM : Function.Injective M) (k out : Nat) (svd : Bool) (hk : 1 ≤ k) (hkN : k < N) :
    ∃ t, stop realE { k := k, r := some (1 / 1000), svd := svd, out := some out } M = .ok t := by
  refine (lle_training_succeeds realE realSorts realWorks _ M (1 / 1000) rfl (by norm_num) hk hkN rfl).2 fun i => ?_
  refine le_trans ?_ hk
  unfold sameAs
  rw [Finset.card_le_one]
  intro a ha b hb
  simp only [Finset.mem_filter, Finset.mem_univ, true_and] at ha hb
  exact hM (ha.trans hb.symm)

/-- The hypotheses of `lle_embedding_partial` are met by every set of distinct points. -/
example (M : Fin 10 → Row ℝ 3) (hM : Function.Injective M) : ∃ t : Res ℝ 10 3,
    stop realE { k := 4, r := some (1 / 1000), out := some 2 } M = .ok t ∧ t.proj.length = 2 := by
  obtain ⟨t, ht⟩ := exists_embedding M hM 4 2 false (by norm_num) (by norm_num)
  have ho : t.out = 2 := by
    have := (stop_ok ht).2.2.1
    unfold outDim at this
    exact (Except.ok.inj this).symm
  refine ⟨t, ht, ?_⟩
  have := (lle_embedding_partial realE realSorts realEig realSvd _ M t ht (by norm_num) (by norm_num)
    (fun r h => by cases h; norm_num) (by omega)).1
  rw [ho] at this
  exact this

/-- C262: more outputs than the number of points allows are accepted, and the embedding has less columns than `output_dim`. -/
theorem lle_few_points_violation (M : Fin 3 → Row ℝ 5) (hM : Function.Injective M) : ∃ t : Res ℝ 3 5,
    stop realE { k := 2, r := some (1 / 1000), out := some 5 } M = .ok t ∧ t.out = 5 ∧ t.proj.length = 2 := by
  obtain ⟨t, ht⟩ := exists_embedding M hM 2 5 false (by norm_num) (by norm_num)
  have ho : t.out = 5 := by
    have := (stop_ok ht).2.2.1
    unfold outDim at this
    exact (Except.ok.inj this).symm
  refine ⟨t, ht, ho, ?_⟩
  have := (lle_embedding_partial realE realSorts realEig realSvd _ M t ht (by norm_num) (by norm_num)
    (fun r h => by cases h; norm_num) (by omega)).1
  rw [ho] at this
  exact this

end Mdp.Lle
