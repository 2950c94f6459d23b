import Verif.Nodes.LleOut
import Mathlib.Analysis.Matrix.Spectrum
import Mathlib.Analysis.InnerProductSpace.PiL2
import Mathlib.Data.Real.Sqrt

/-!
# The embedding computed by `LLENode`
-/

namespace Mdp.Lle

open Mdp.Cov Mdp.Symeig Mdp.Pca Mdp.Sfa

variable {d N m : Nat}

/-! ## Specification -/

/-- `eigh` gives a full system of eigenvectors for every symmetric matrix. -/
def EigOk (E : Env ℝ) : Prop := ∀ n (A : Mat ℝ n n), (∀ i j, A i j = A j i) → ∃ l, E.eig.eigh n A = some l ∧ EigList A l

/-- `svd` gives a full system of right singular vectors, for matrices with at least as many rows as columns. -/
def SvdOk (E : Env ℝ) : Prop := ∀ n m (A : Mat ℝ n m), m ≤ n →
  EigList (fun a b => ∑ i, A i a * A i b) ((E.svd n m A).map fun p => (p.1 ^ 2, p.2)) ∧ ∀ p ∈ E.svd n m A, 0 ≤ p.1

/-- The error of the reconstruction of the coordinates `y` of the points from their neighbours. -/
def embErr (W : Matrix (Fin N) (Fin N) ℝ) (y : Row ℝ N) : ℝ := ∑ i, (y i - ∑ a, W a i * y a) ^ 2

/-! ## Eigenvectors -/

theorem EigList.perm {n : Nat} {A : Mat ℝ n n} {l l' : List (ℝ × Row ℝ n)} (h : EigList A l) (hp : l'.Perm l) : EigList A l' where
  eigen p hpm := h.eigen p (hp.mem_iff.1 hpm)
  unit p hpm := h.unit p (hp.mem_iff.1 hpm)
  orth := (hp.pairwise_iff fun {x y} hxy => by rw [dot_comm]; exact hxy).2 h.orth
  full := hp.length_eq.trans h.full

theorem sort_asc {n : Nat} (l : List (ℝ × Row ℝ n)) : (l.insertionSort fun a b => a.1 ≤ b.1).Pairwise fun p q => p.1 ≤ q.1 := by
  haveI : Std.Total fun a b : ℝ × Row ℝ n => a.1 ≤ b.1 := ⟨fun a b => le_total a.1 b.1⟩
  haveI : IsTrans (ℝ × Row ℝ n) fun a b => a.1 ≤ b.1 := ⟨fun _ _ _ => le_trans⟩
  exact List.pairwise_insertionSort _ _

theorem slice_eq {α : Type} {n out : Nat} (hn : 2 ≤ n) (ho : 1 ≤ out) (l : List α) (hl : l.length = n) :
    slice (clampRange n (2, out + 1)) l = (l.take (out + 1)).drop 1 := by
  have : clampRange n (2, out + 1) = (2, min (out + 1) n) := by
    unfold clampRange
    simp only
    split_ifs <;> first | omega | (simp; omega)
  rw [this]
  unfold slice
  simp only
  congr 1
  rw [← hl, ← List.take_eq_take_min]

/-- The columns of the embedding are the eigenvectors of the matrix of the error for the eigenvalues after the smallest. -/
theorem embedding_spec {E : Env ℝ} (hE : EigOk E) (hS : SvdOk E) {c : Cfg ℝ} {out : Nat} {W : Matrix (Fin N) (Fin N) ℝ}
    {proj : List (Row ℝ N)} (hN : 2 ≤ N) (ho : 1 ≤ out) (h : embedding E c out W = .ok proj) :
    ∃ L : List (ℝ × Row ℝ N), EigList (fun a b => ∑ i, minusOne W a i * minusOne W b i) L ∧ (L.Pairwise fun p q => p.1 ≤ q.1)
      ∧ proj = ((L.take (out + 1)).drop 1).map (·.2) := by
  unfold embedding at h
  split at h
  · cases h
    obtain ⟨h1, h2⟩ := hS N N (fun i j => minusOne W j i) le_rfl
    refine ⟨((E.svd N N fun i j => minusOne W j i).insertionSort fun a b => a.1 ≤ b.1).map fun p => (p.1 ^ 2, p.2), ?_, ?_, ?_⟩
    · exact EigList.perm h1 ((List.perm_insertionSort _ _).map _)
    · rw [List.pairwise_map]
      refine (sort_asc _).imp_of_mem fun {p q} hp hq hpq => ?_
      exact pow_le_pow_left₀ (h2 p ((List.perm_insertionSort _ _).mem_iff.1 hp)) hpq 2
    · rw [← List.map_take, ← List.map_drop, List.map_map]
      rfl
  · split at h
    · cases h
    · next l hl =>
      cases h
      have hsym : ∀ a b, (∑ i, minusOne W a i * minusOne W b i + if a = b then (1 / 10 : ℝ) else 0)
          = ∑ i, minusOne W b i * minusOne W a i + if b = a then (1 / 10 : ℝ) else 0 := by
        intro a b
        congr 1
        · exact Finset.sum_congr rfl fun _ _ => mul_comm _ _
        · simp only [eq_comm]
      obtain ⟨e, he, hel⟩ := hE N (fun a b => ∑ i, minusOne W a i * minusOne W b i + if a = b then 1 / 10 else 0) hsym
      unfold Symeig.Env.std at hl
      rw [he] at hl
      simp only [Except.ok.injEq] at hl
      subst hl
      have hp := EigList.perm hel (List.perm_insertionSort (fun a b => a.1 ≤ b.1) e)
      have hs := sort_asc e
      unfold finish
      simp only
      rw [slice_eq hN ho _ hp.full]
      generalize (e.insertionSort fun a b => a.1 ≤ b.1) = L at *
      refine ⟨L.map fun p => (p.1 - 1 / 10, p.2), ⟨fun p hpm k => ?_, fun p hpm => ?_, ?_, ?_⟩, ?_, ?_⟩
      · obtain ⟨q, hq, rfl⟩ := List.mem_map.1 hpm
        have := hp.eigen q hq k
        simp only [add_mul, Finset.sum_add_distrib, ite_mul, zero_mul, Finset.sum_ite_eq, Finset.mem_univ, if_true] at this
        rw [sub_mul]
        linarith
      · obtain ⟨q, hq, rfl⟩ := List.mem_map.1 hpm
        exact hp.unit q hq
      · rw [List.pairwise_map]; exact hp.orth
      · rw [List.length_map]; exact hp.full
      · rw [List.pairwise_map]
        exact hs.imp fun h => sub_le_sub_right h _
      · rw [← List.map_take, ← List.map_drop, List.map_map]
        rfl

/-! ## Optimality -/

theorem embErr_eq (W : Matrix (Fin N) (Fin N) ℝ) (y : Row ℝ N) :
    embErr W y = ∑ k, ∑ l, y k * (∑ i, minusOne W k i * minusOne W l i) * y l := by
  have e : ∀ i, y i - ∑ a, W a i * y a = - ∑ k, minusOne W k i * y k := by
    intro i
    simp only [minusOne, sub_mul, Finset.sum_sub_distrib, ite_mul, one_mul, zero_mul, Finset.sum_ite_eq',
      Finset.mem_univ, if_true]
    ring
  unfold embErr
  simp only [e, neg_sq]
  simp only [sq, Finset.sum_mul_sum]
  rw [Finset.sum_comm]
  refine Finset.sum_congr rfl fun k _ => ?_
  rw [Finset.sum_comm]
  refine Finset.sum_congr rfl fun l _ => ?_
  rw [Finset.mul_sum, Finset.sum_mul]
  exact Finset.sum_congr rfl fun i _ => by ring

theorem embErr_nonneg (W : Matrix (Fin N) (Fin N) ℝ) (y : Row ℝ N) : 0 ≤ embErr W y := Finset.sum_nonneg fun _ _ => sq_nonneg _

section
variable {W : Matrix (Fin N) (Fin N) ℝ} {L : List (ℝ × Row ℝ N)}

theorem embErr_eigen (h : EigList (fun a b => ∑ i, minusOne W a i * minusOne W b i) L) {p : ℝ × Row ℝ N} (hp : p ∈ L) :
    embErr W p.2 = p.1 := by
  rw [embErr_eq]
  have h1 : ∀ k, ∑ l, p.2 k * (∑ i, minusOne W k i * minusOne W l i) * p.2 l = p.2 k * (p.1 * p.2 k) := fun k => by
    rw [← h.eigen p hp k, Finset.mul_sum]
    exact Finset.sum_congr rfl fun _ _ => by ring
  simp only [h1]
  have := h.unit p hp
  unfold dot at this
  calc ∑ k, p.2 k * (p.1 * p.2 k) = p.1 * ∑ k, p.2 k * p.2 k := by
        rw [Finset.mul_sum]; exact Finset.sum_congr rfl fun _ _ => by ring
    _ = p.1 := by rw [this, mul_one]

theorem eig_ortho (h : EigList (fun a b => ∑ i, minusOne W a i * minusOne W b i) L) (i j : Fin L.length) :
    dot (L.get i).2 (L.get j).2 = if i = j then 1 else 0 := by
  split
  · next e => subst e; exact h.unit _ (List.get_mem _ _)
  · next e => exact get_orth dot dot_comm h.orth i j e

theorem err_optimal (h : EigList (fun a b => ∑ i, minusOne W a i * minusOne W b i) L) (hs : L.Pairwise fun p q => p.1 ≤ q.1)
    {w : Fin m → Row ℝ N} (hw : Orthonormal w) :
    ∑ i : Fin N, (if i.1 < m then (L.get (i.cast h.full.symm)).1 else 0) ≤ ∑ a, embErr W (w a) := by
  have sp : Spectrum (fun a b => - ∑ i, minusOne W a i * minusOne W b i) (fun i => - (L.get (i.cast h.full.symm)).1)
      (fun i => (L.get (i.cast h.full.symm)).2) := by
    refine ⟨fun i k => ?_, fun i j => ?_, fun i j hij => neg_le_neg ?_⟩
    · have := h.eigen _ (List.get_mem L (i.cast h.full.symm)) k
      simp only [neg_mul, Finset.sum_neg_distrib]
      rw [this]
    · rw [eig_ortho h]
      simp
    · rcases hij.lt_or_eq with hlt | heq
      · exact List.pairwise_iff_get.1 hs _ _ hlt
      · rw [heq]
  have := sp.optimal hw
  have e1 : ∀ a : Fin m, ∑ k, ∑ l, w a k * (- ∑ i, minusOne W k i * minusOne W l i) * w a l = - embErr W (w a) := fun a => by
    rw [embErr_eq]
    simp only [mul_neg, neg_mul, Finset.sum_neg_distrib]
  simp only [e1, Finset.sum_neg_distrib] at this
  have e2 : ∑ i : Fin N, (if i.1 < m then - (L.get (i.cast h.full.symm)).1 else 0)
      = - ∑ i : Fin N, (if i.1 < m then (L.get (i.cast h.full.symm)).1 else 0) := by
    rw [← Finset.sum_neg_distrib]
    exact Finset.sum_congr rfl fun i _ => by split <;> simp
  rw [e2] at this
  linarith

end

/-- The constant vector of length one, then the vectors `w`. -/
noncomputable def withConst (w : Fin m → Row ℝ N) : Fin (m + 1) → Row ℝ N := Fin.cons (fun _ => 1 / Real.sqrt N) w

theorem withConst_ortho (hN : 0 < N) {w : Fin m → Row ℝ N} (hw : Orthonormal w) (hc : ∀ a, ∑ i, w a i = 0) :
    Orthonormal (withConst w) := by
  have hs : Real.sqrt N * Real.sqrt N = N := Real.mul_self_sqrt (Nat.cast_nonneg N)
  have hs0 : Real.sqrt N ≠ 0 := fun h => by rw [h, zero_mul] at hs; exact absurd hs.symm (by positivity)
  have h0 : ∀ a, dot (fun _ => 1 / Real.sqrt N) (w a) = 0 := fun a => by
    unfold dot
    rw [← Finset.mul_sum, hc a, mul_zero]
  intro a b
  refine Fin.cases ?_ (fun a => ?_) a <;> refine Fin.cases ?_ (fun b => ?_) b
  · simp only [withConst, Fin.cons_zero, if_true, dot, Finset.sum_const, Finset.card_univ, Fintype.card_fin, nsmul_eq_mul]
    rw [div_mul_div_comm, hs, one_mul, mul_one_div_cancel]
    positivity
  · simp only [withConst, Fin.cons_zero, Fin.cons_succ]
    rw [h0, if_neg (Fin.succ_ne_zero b).symm]
  · simp only [withConst, Fin.cons_zero, Fin.cons_succ]
    rw [dot_comm, h0, if_neg (Fin.succ_ne_zero a)]
  · simp only [withConst, Fin.cons_succ, Fin.succ_inj]
    exact hw a b

/-- The weights of every point sum up to one. -/
theorem embErr_const {W : Matrix (Fin N) (Fin N) ℝ} (hW : ∀ i, ∑ a, W a i = 1) (s : ℝ) : embErr W (fun _ => s) = 0 := by
  unfold embErr
  refine Finset.sum_eq_zero fun i _ => ?_
  rw [← Finset.sum_mul, hW i]
  ring

/-- C262: the columns of the embedding are orthonormal, have no more error than any other centred orthonormal columns, and
are centred themselves if only constant coordinates have no error. -/
theorem lle_embedding_partial (E : Env ℝ) (hE : Sorts E) (hG : EigOk E) (hS : SvdOk E) (c : Cfg ℝ) (M : Fin N → Row ℝ d)
    (t : Res ℝ N d) (ht : stop E c M = .ok t) (hN : 2 ≤ N) (hk : 1 ≤ c.k) (hr : ∀ r, c.r = some r → 0 ≤ r) (ho : 1 ≤ t.out) :
    t.proj.length = min t.out (N - 1)
    ∧ Orthonormal (fun j => t.proj.get j)
    ∧ (∀ w : Fin t.proj.length → Row ℝ N, Orthonormal w → (∀ a, ∑ i, w a i = 0) →
        ∑ j, embErr t.W (t.proj.get j) ≤ ∑ a, embErr t.W (w a))
    ∧ ((∀ y, embErr t.W y = 0 → ∃ s, y = fun _ => s) → ∀ u ∈ t.proj, ∑ i, u i = 0) := by
  obtain ⟨_, _, _, hw, hemb⟩ := stop_ok ht
  have hW : ∀ i, ∑ a, t.W a i = 1 := fun i => by
    obtain ⟨S, lam, _, _, _, hb⟩ := trainRow_ok hE (hw i) hk hr
    exact hb.sum
  obtain ⟨L, hL, hasc, hproj⟩ := embedding_spec hG hS hN ho hemb
  have hlen : t.proj.length = min t.out (N - 1) := by
    rw [hproj, List.length_map, List.length_drop, List.length_take, hL.full]
    omega
  have hlt : ∀ j : Fin t.proj.length, j.1 + 1 < N := fun j => by have := j.2; omega
  obtain ⟨φ, hφ⟩ : ∃ φ : Fin t.proj.length → Fin N, ∀ j, (φ j).1 = j.1 + 1 := ⟨fun j => ⟨j.1 + 1, hlt j⟩, fun _ => rfl⟩
  have hinj : Function.Injective φ := fun a b hab => by
    have := congrArg Fin.val hab
    rw [hφ, hφ] at this
    exact Fin.ext (by omega)
  have hget : ∀ j, t.proj.get j = (L.get ((φ j).cast hL.full.symm)).2 := by
    intro j
    simp only [hproj, List.get_eq_getElem, List.getElem_map, List.getElem_drop, List.getElem_take, Fin.val_cast, hφ, Nat.add_comm 1 j.1]
  have hnn : ∀ i : Fin L.length, 0 ≤ (L.get i).1 := fun i => by
    rw [← embErr_eigen hL (List.get_mem L i)]
    exact embErr_nonneg _ _
  refine ⟨hlen, fun a b => ?_, fun w hw' hc => ?_, fun hker u hu => ?_⟩
  · beta_reduce
    rw [hget, hget, eig_ortho hL]
    simp only [Fin.cast_inj, hinj.eq_iff]
  · have hopt := err_optimal hL hasc (withConst_ortho (by omega) hw' hc)
    rw [Fin.sum_univ_succ] at hopt
    simp only [withConst, Fin.cons_zero, Fin.cons_succ, embErr_const hW, zero_add] at hopt
    refine le_trans ?_ hopt
    have e1 : ∀ j : Fin t.proj.length, embErr t.W (t.proj.get j) = (fun i : Fin N => (L.get (i.cast hL.full.symm)).1) (φ j) := fun j => by
      rw [hget]
      exact embErr_eigen hL (List.get_mem _ _)
    rw [Finset.sum_congr rfl fun j _ => e1 j, ← Finset.sum_image (g := φ) (f := fun i : Fin N => (L.get (i.cast hL.full.symm)).1) hinj.injOn,
      ← Finset.sum_filter]
    refine Finset.sum_le_sum_of_subset_of_nonneg ?_ fun i _ _ => hnn _
    intro i hi
    obtain ⟨j, _, rfl⟩ := Finset.mem_image.1 hi
    simp only [Finset.mem_filter, Finset.mem_univ, true_and, hφ]
    omega
  · obtain ⟨j, rfl⟩ := List.get_of_mem hu
    have hj0 : 0 < L.length := by rw [hL.full]; omega
    -- the first eigenvector is constant
    have hfirst : (L.get ⟨0, hj0⟩).1 = 0 := by
      refine le_antisymm ?_ (hnn _)
      have hopt := err_optimal (m := 1) hL hasc (withConst_ortho (m := 0) (w := Fin.elim0) (by omega) (fun a => a.elim0) fun a => a.elim0)
      simp only [Fin.sum_univ_one, withConst, Fin.cons_zero, embErr_const hW] at hopt
      refine le_trans ?_ hopt
      have := Finset.single_le_sum (f := fun i : Fin N => if i.1 < 1 then (L.get (i.cast hL.full.symm)).1 else 0)
        (fun i _ => by split; exacts [hnn _, le_rfl]) (Finset.mem_univ (⟨0, by omega⟩ : Fin N))
      simpa using this
    obtain ⟨s, hs⟩ := hker _ ((embErr_eigen hL (List.get_mem L ⟨0, hj0⟩)).trans hfirst)
    have h0 := eig_ortho hL ⟨0, hj0⟩ ((φ j).cast hL.full.symm)
    rw [if_neg (by simp [Fin.ext_iff, hφ]), hs] at h0
    unfold dot at h0
    rw [← Finset.mul_sum] at h0
    have hs0 : s ≠ 0 := by
      rintro rfl
      have := hL.unit _ (List.get_mem L ⟨0, hj0⟩)
      rw [hs] at this
      simp [dot] at this
    rw [hget]
    exact (mul_eq_zero.1 h0).resolve_left hs0

end Mdp.Lle
