import Verif.Xsfa.Props
import Mathlib.Algebra.BigOperators.Fin
import Mathlib.Algebra.BigOperators.Field
import Mathlib.Tactic.FinCases
import Mathlib.Algebra.Order.BigOperators.Group.Finset

/-!
# What the nodes of XSFA compute (C249-C251)
-/

namespace Mdp.Xsfa

open Mdp.Cov

/-! ## NormalizeNode -/

theorem sum_fin {α : Type} (l : List α) (f : α → ℝ) : (l.map f).sum = ∑ t : Fin l.length, f (l.get t) := by
  have := Fin.sum_univ_fun_getElem l f
  rw [← this]
  rfl

theorem codev_self_nonneg {α : Type} (l : List α) (f : α → ℝ) : 0 ≤ codev (l.map fun a => (f a, f a)) := by
  unfold codev
  refine List.sum_nonneg ?_
  intro x hx
  simp only [List.map_map, List.mem_map, Function.comp_def] at hx
  obtain ⟨a, -, rfl⟩ := hx
  exact mul_self_nonneg _

/-- C249: on the training data, in whatever chunks, the outputs have mean zero and the correlation coefficients as covariances: variance
one. -/
theorem normalize_outputs {d : Nat} (chunks : List (List (Row ℝ d))) (hn : 2 ≤ chunks.flatten.length)
    (hv : ∀ i, cov false (chunks.flatten.map fun x => (x i, x i)) ≠ 0) :
    ∃ (nd : Normalize d) (y : Row ℝ d → Row ℝ d), Normalize.train chunks = .ok nd ∧ (∀ x ∈ chunks.flatten, ∀ i, nd.execute x i = some (y x i)) ∧
      (∀ i, mean (chunks.flatten.map fun x => y x i) = 0) ∧
      ∀ i j, cov false (chunks.flatten.map fun x => (y x i, y x j)) =
        cov false (chunks.flatten.map fun x => (x i, x j)) /
          (Real.sqrt (cov false (chunks.flatten.map fun x => (x i, x i))) *
            Real.sqrt (cov false (chunks.flatten.map fun x => (x j, x j)))) := by
  obtain ⟨c, avg, h1, h2, h3⟩ := covariance_correct false chunks hn
  have hlen : (chunks.flatten.length : ℝ) ≠ 0 := by
    have : (2 : ℝ) ≤ chunks.flatten.length := by exact_mod_cast hn
    intro hh
    linarith
  have hpos : ∀ i, 0 < c i i := by
    intro i
    rw [h2]
    refine lt_of_le_of_ne ?_ (Ne.symm (hv i))
    unfold cov
    simp only [Bool.false_eq_true, if_false]
    refine div_nonneg (codev_self_nonneg _ _) ?_
    have : (2 : ℝ) ≤ chunks.flatten.length := by exact_mod_cast hn
    rw [List.length_map]
    linarith
  have hs : ∀ i, Real.sqrt (c i i) ≠ 0 := fun i => Real.sqrt_ne_zero'.2 (hpos i)
  refine ⟨⟨avg, fun i => Real.sqrt (c i i)⟩, fun x i => (x i - avg i) / Real.sqrt (c i i), ?_, ?_, ?_, ?_⟩
  · simp only [Normalize.train, h1]
  · intro x _ i
    simp only [Normalize.execute]
    rw [if_neg (hs i)]
  · intro i
    unfold mean
    rw [div_eq_zero_iff]
    left
    rw [sum_fin]
    rw [← Finset.sum_div, Finset.sum_sub_distrib, Finset.sum_const, Finset.card_univ, Fintype.card_fin, nsmul_eq_mul, h3]
    unfold mean
    rw [List.length_map, mul_div_cancel₀ _ hlen, sum_fin chunks.flatten fun x => x i, sub_self, zero_div]
  · intro i j
    have hm : ∀ i, mean (chunks.flatten.map fun x => (x i - avg i) / Real.sqrt (c i i)) = 0 := by
      intro i
      unfold mean
      rw [div_eq_zero_iff]
      left
      rw [sum_fin]
      rw [← Finset.sum_div, Finset.sum_sub_distrib, Finset.sum_const, Finset.card_univ, Fintype.card_fin, nsmul_eq_mul, h3]
      unfold mean
      rw [List.length_map, mul_div_cancel₀ _ hlen, sum_fin chunks.flatten fun x => x i, sub_self, zero_div]
    rw [← h2 i i, ← h2 j j]
    unfold cov codev
    simp only [Bool.false_eq_true, if_false, List.map_map, Function.comp_def, List.length_map, hm, sub_zero, ← h3]
    have e : (chunks.flatten.map fun x => (x i - avg i) / Real.sqrt (c i i) * ((x j - avg j) / Real.sqrt (c j j))).sum =
        (chunks.flatten.map fun x => (x i - avg i) * (x j - avg j)).sum / (Real.sqrt (c i i) * Real.sqrt (c j j)) := by
      rw [sum_fin, sum_fin, Finset.sum_div]
      refine Finset.sum_congr rfl fun t _ => ?_
      rw [div_mul_div_comm]
    rw [e]
    exact div_right_comm _ _ _

/-- C249: the variances are one. -/
theorem normalize_variance {d : Nat} (chunks : List (List (Row ℝ d))) (hn : 2 ≤ chunks.flatten.length)
    (hv : ∀ i, cov false (chunks.flatten.map fun x => (x i, x i)) ≠ 0) :
    ∃ (nd : Normalize d) (y : Row ℝ d → Row ℝ d), Normalize.train chunks = .ok nd ∧ (∀ x ∈ chunks.flatten, ∀ i, nd.execute x i = some (y x i)) ∧
      ∀ i, cov false (chunks.flatten.map fun x => (y x i, y x i)) = 1 := by
  obtain ⟨nd, y, h1, h2, -, h3⟩ := normalize_outputs chunks hn hv
  refine ⟨nd, y, h1, h2, fun i => ?_⟩
  rw [h3]
  have hpos : 0 ≤ cov false (chunks.flatten.map fun x => (x i, x i)) := by
    unfold cov
    simp only [Bool.false_eq_true, if_false]
    refine div_nonneg (codev_self_nonneg _ _) ?_
    have : (2 : ℝ) ≤ chunks.flatten.length := by exact_mod_cast hn
    rw [List.length_map]
    linarith
  rw [Real.mul_self_sqrt hpos, div_self (hv i)]

/-- C249: the inverse undoes the execution. -/
theorem normalize_inverse {d : Nat} (nd : Normalize d) (x y : Row ℝ d) (h : ∀ i, nd.execute x i = some (y i)) : nd.inverse y = x := by
  funext i
  have h1 := h i
  unfold Normalize.execute at h1
  by_cases hs : nd.s i = 0
  · rw [if_pos hs] at h1
    cases h1
  · rw [if_neg hs] at h1
    have h2 : (x i - nd.m i) / nd.s i = y i := Option.some.inj h1
    simp only [Normalize.inverse]
    rw [← h2, div_mul_cancel₀ _ hs, sub_add_cancel]

/-- C249 (violated): an input that is constant on the training data gives nan for all data. -/
theorem normalize_constant_violation {d : Nat} (chunks : List (List (Row ℝ d))) (hn : 2 ≤ chunks.flatten.length) (i : Fin d) (v : ℝ)
    (hv : ∀ x ∈ chunks.flatten, x i = v) : ∃ nd, Normalize.train chunks = .ok nd ∧ ∀ x, nd.execute x i = none := by
  obtain ⟨c, avg, h1, h2, h3⟩ := covariance_correct false chunks hn
  have hlen : (chunks.flatten.length : ℝ) ≠ 0 := by
    have : (2 : ℝ) ≤ chunks.flatten.length := by exact_mod_cast hn
    intro hh
    linarith
  have hm : mean (chunks.flatten.map fun x => x i) = v := by
    unfold mean
    rw [List.map_congr_left (g := fun _ => v) hv, List.length_map]
    simp only [List.map_const', List.sum_replicate, nsmul_eq_mul]
    exact mul_div_cancel_left₀ _ hlen
  have hc : c i i = 0 := by
    rw [h2]
    unfold cov codev
    simp only [Bool.false_eq_true, if_false, List.map_map, Function.comp_def, hm]
    rw [List.map_congr_left (g := fun _ => 0) fun x hx => by rw [hv x hx, sub_self, zero_mul], List.map_const', List.sum_replicate, smul_zero, zero_div]
  refine ⟨⟨avg, fun i => Real.sqrt (c i i)⟩, ?_, ?_⟩
  · simp only [Normalize.train, h1]
  · intro x
    simp only [Normalize.execute]
    rw [if_pos (by rw [hc, Real.sqrt_zero])]

/-- Two chunks of rows with two columns. -/
example : (∀ i, cov false (([[![1, 2], ![3, 2]], [![5, 8]]] : List (List (Row ℝ 2))).flatten.map fun x => (x i, x i)) ≠ 0) := by
  intro i
  fin_cases i <;> simp [cov, codev, mean] <;> norm_num

/-! ## ProjectionNode -/

theorem fold_update {E F : Nat} (p : Projection) (chunks : List (List (List ℝ))) (s : CrossSt ℝ E F) :
    chunks.foldl (fun s x => (s.update (p.parts E F x).1 (p.parts E F x).2).2) s = s.run (chunks.map (p.parts E F)) := by
  induction chunks generalizing s with
  | nil => rfl
  | cons x xs ih =>
    rw [List.foldl_cons, ih]
    rfl

theorem parts_pairs {E F : Nat} (p : Projection) (chunks : List (List (List ℝ))) :
    (okPairs (chunks.map (p.parts E F))).flatMap (fun c => c.1.zip c.2) =
      chunks.flatten.map fun r => (asRow E (uptoEnd p.outputDim r), asRow F (fromEnd p.L r)) := by
  have h : okPairs (chunks.map (p.parts E F)) = chunks.map (p.parts E F) := by
    unfold okPairs
    rw [List.filter_eq_self]
    intro c hc
    obtain ⟨x, -, rfl⟩ := List.mem_map.1 hc
    simp [Projection.parts]
  rw [h]
  induction chunks with
  | nil => rfl
  | cons x xs ih =>
    have h' : okPairs (xs.map (p.parts E F)) = xs.map (p.parts E F) := by
      unfold okPairs
      rw [List.filter_eq_self]
      intro c hc
      obtain ⟨x, -, rfl⟩ := List.mem_map.1 hc
      simp [Projection.parts]
    rw [List.map_cons, List.flatMap_cons, ih h', List.flatten_cons, List.map_append]
    congr 1
    simp only [Projection.parts, List.zip_map']

theorem upto_row {E S L : Nat} {r : List ℝ} (h : r.length = E + (S + 1) + L) (i : Nat) (hi : i < E) :
    (uptoEnd (S + 1 + L) r).getD i 0 = r.getD i 0 := by
  unfold uptoEnd
  rw [if_neg (by omega), List.getD_eq_getElem?_getD, List.getD_eq_getElem?_getD, List.getElem?_take, if_pos (by omega)]

theorem from_row {E S L : Nat} {r : List ℝ} (h : r.length = E + (S + 1) + L) (hL : 1 ≤ L) (j : Nat) :
    (fromEnd L r).getD j 0 = r.getD (E + (S + 1) + j) 0 := by
  unfold fromEnd
  rw [if_neg (by omega), List.getD_eq_getElem?_getD, List.getD_eq_getElem?_getD, List.getElem?_drop]
  congr 2
  omega

theorem mid_row {E S L : Nat} {r : List ℝ} (h : r.length = E + (S + 1) + L) (hL : 1 ≤ L) :
    uptoEnd L (fromEnd (S + 1 + L) r) = (r.drop E).take (S + 1) := by
  unfold uptoEnd fromEnd
  rw [if_neg (by omega), if_neg (by omega), List.length_drop]
  have h1 : r.length - (S + 1 + L) = E := by omega
  have h2 : r.length - E - L = S + 1 := by omega
  rw [h1, h2]

/-- C250: `proj_mtx` has the covariances of the expanded sources and the input signals, in whatever chunks the data come. -/
theorem projection_train {E S L : Nat} (hL : 1 ≤ L) (chunks : List (List (List ℝ))) (hn : 2 ≤ chunks.flatten.length)
    (hr : ∀ r ∈ chunks.flatten, r.length = E + (S + 1) + L) :
    ∃ B, (Projection.mk S L).train E L chunks = .ok B ∧
      ∀ (i : Fin E) (j : Fin L), B i j = cov false (chunks.flatten.map fun r => (r.getD i.val 0, r.getD (E + (S + 1) + j.val) 0)) := by
  obtain ⟨c, ax, ay, h1, h2, -⟩ := cross_covariance_correct false (chunks.map ((Projection.mk S L).parts E L)) _ rfl (by
    rw [parts_pairs, List.length_map]
    exact hn)
  refine ⟨c, ?_, ?_⟩
  · simp only [Projection.train]
    rw [fold_update, h1]
  · intro i j
    rw [h2, parts_pairs, List.map_map]
    congr 1
    refine List.map_congr_left fun r hm => ?_
    simp only [Function.comp_def, asRow, Projection.outputDim]
    rw [upto_row (hr r hm) _ i.isLt, from_row (hr r hm) hL]

/-- What is left of input signal `j` after the projection with `B`. -/
noncomputable def residual {E L : Nat} (S : Nat) (B : Mat ℝ E L) (r : List ℝ) (j : Fin L) : ℝ :=
  r.getD (E + (S + 1) + j.val) 0 - ∑ i : Fin E, r.getD i.val 0 * B i j

/-- C250: a row keeps its sources; from every input signal the combination of expanded sources is subtracted. -/
theorem projection_row {E S L : Nat} (hL : 1 ≤ L) (B : Mat ℝ E L) (r : List ℝ) (hr : r.length = E + (S + 1) + L) :
    (Projection.mk S L).execute E L B r = some ((r.drop E).take (S + 1) ++ List.ofFn (residual S B r)) := by
  simp only [Projection.execute, Projection.outputDim]
  rw [if_neg (by omega), mid_row hr hL, if_pos ⟨trivial, by rw [List.length_take, List.length_drop]; omega⟩]
  congr 2
  rw [List.ofFn_eq_map]
  refine List.map_congr_left fun j _ => ?_
  rw [from_row hr hL, residual]
  congr 1
  rw [← List.ofFn_eq_map, List.sum_ofFn]
  refine Finset.sum_congr rfl fun i _ => ?_
  rw [upto_row hr _ i.isLt]

/-- C250: if the expanded sources are white on the training data, the results are uncorrelated with all of them, and no other
combinations of the expanded sources leave less. -/
theorem projection_orthogonal {E S L : Nat} (hL : 1 ≤ L) (chunks : List (List (List ℝ))) (hn : 2 ≤ chunks.flatten.length)
    (hr : ∀ r ∈ chunks.flatten, r.length = E + (S + 1) + L)
    (hm : ∀ i : Fin E, mean (chunks.flatten.map fun r => r.getD i.val 0) = 0)
    (hw : ∀ i k : Fin E, cov false (chunks.flatten.map fun r => (r.getD i.val 0, r.getD k.val 0)) = if i = k then 1 else 0) :
    ∃ B, (Projection.mk S L).train E L chunks = .ok B ∧
      (∀ (i : Fin E) (j : Fin L), cov false (chunks.flatten.map fun r => (r.getD i.val 0, residual S B r j)) = 0) ∧
      ∀ (j : Fin L) (b : Fin E → ℝ), (chunks.flatten.map fun r => residual S B r j ^ 2).sum ≤
        (chunks.flatten.map fun r => (r.getD (E + (S + 1) + j.val) 0 - ∑ i : Fin E, r.getD i.val 0 * b i) ^ 2).sum := by
  obtain ⟨B, hB, hB'⟩ := projection_train hL chunks hn hr
  refine ⟨B, hB, ?_⟩
  generalize chunks.flatten = rows at hn hr hm hw hB'
  have h2 : (2 : ℝ) ≤ rows.length := by exact_mod_cast hn
  have hlen : (rows.length : ℝ) ≠ 0 := by intro hh; linarith
  have hpos : 0 < (rows.length : ℝ) - 1 := by linarith
  have hz : ∀ i : Fin E, (rows.map fun r => r.getD i.val 0).sum = 0 := by
    intro i
    have := hm i
    unfold mean at this
    rw [List.length_map] at this
    exact (div_eq_zero_iff.1 this).resolve_right hlen
  -- covariances with an expanded source are sums of products
  have hcov : ∀ (i : Fin E) (f : List ℝ → ℝ),
      cov false (rows.map fun r => (r.getD i.val 0, f r)) = (rows.map fun r => r.getD i.val 0 * f r).sum / ((rows.length : ℝ) - 1) := by
    intro i f
    unfold cov codev
    simp only [Bool.false_eq_true, if_false, List.map_map, Function.comp_def, List.length_map, hm, sub_zero]
    congr 1
    generalize mean (rows.map fun r => f r) = q
    have : (rows.map fun r => r.getD i.val 0 * (f r - q)) = rows.map fun r => r.getD i.val 0 * f r - r.getD i.val 0 * q := by
      refine List.map_congr_left fun r _ => ?_
      ring
    rw [this, sum_fin, Finset.sum_sub_distrib, ← Finset.sum_mul, ← sum_fin rows fun r => r.getD i.val 0, hz, zero_mul, sub_zero,
      ← sum_fin rows fun r => r.getD i.val 0 * f r]
  have hsum : ∀ (i : Fin E) (f : List ℝ → ℝ), (rows.map fun r => r.getD i.val 0 * f r).sum =
      ((rows.length : ℝ) - 1) * cov false (rows.map fun r => (r.getD i.val 0, f r)) := by
    intro i f
    rw [hcov, mul_div_cancel₀ _ hpos.ne']
  have hnorm : ∀ (i : Fin E) (j : Fin L), (rows.map fun r => r.getD i.val 0 * residual S B r j).sum = 0 := by
    intro i j
    have e1 : (rows.map fun r => r.getD i.val 0 * residual S B r j) = rows.map fun r =>
        r.getD i.val 0 * r.getD (E + (S + 1) + j.val) 0 - ∑ k : Fin E, r.getD i.val 0 * r.getD k.val 0 * B k j := by
      refine List.map_congr_left fun r _ => ?_
      rw [residual, mul_sub, Finset.mul_sum]
      congr 1
      exact Finset.sum_congr rfl fun k _ => by ring
    rw [e1, sum_fin, Finset.sum_sub_distrib, Finset.sum_comm, ← sum_fin rows fun r => r.getD i.val 0 * r.getD (E + (S + 1) + j.val) 0,
      hsum, ← hB']
    have e2 : ∀ k : Fin E, ∑ t : Fin rows.length, (rows.get t).getD i.val 0 * (rows.get t).getD k.val 0 * B k j =
        ((rows.length : ℝ) - 1) * (if i = k then 1 else 0) * B k j := by
      intro k
      rw [← Finset.sum_mul, ← sum_fin rows fun r => r.getD i.val 0 * r.getD k.val 0, hsum, hw]
    rw [Finset.sum_congr rfl fun k _ => e2 k]
    simp
  refine ⟨?_, ?_⟩
  · intro i j
    rw [hcov, hnorm, zero_div]
  · intro j b
    have e3 : ∀ r : List ℝ, (r.getD (E + (S + 1) + j.val) 0 - ∑ i : Fin E, r.getD i.val 0 * b i) ^ 2 =
        residual S B r j ^ 2 + (2 * ∑ i : Fin E, (B i j - b i) * (r.getD i.val 0 * residual S B r j) +
          (∑ i : Fin E, r.getD i.val 0 * (B i j - b i)) ^ 2) := by
      intro r
      have e4 : r.getD (E + (S + 1) + j.val) 0 - ∑ i : Fin E, r.getD i.val 0 * b i =
          residual S B r j + ∑ i : Fin E, r.getD i.val 0 * (B i j - b i) := by
        rw [residual]
        simp only [mul_sub, Finset.sum_sub_distrib]
        ring
      have e5 : ∑ i : Fin E, (B i j - b i) * (r.getD i.val 0 * residual S B r j) =
          (∑ i : Fin E, r.getD i.val 0 * (B i j - b i)) * residual S B r j := by
        rw [Finset.sum_mul]
        exact Finset.sum_congr rfl fun i _ => by ring
      rw [e4, e5]
      ring
    rw [List.map_congr_left fun r _ => e3 r, sum_fin rows fun r => residual S B r j ^ 2, sum_fin, Finset.sum_add_distrib,
      Finset.sum_add_distrib, ← Finset.mul_sum, Finset.sum_comm]
    have e6 : ∀ i : Fin E, ∑ t : Fin rows.length, (B i j - b i) * ((rows.get t).getD i.val 0 * residual S B (rows.get t) j) = 0 := by
      intro i
      rw [← Finset.mul_sum, ← sum_fin rows fun r => r.getD i.val 0 * residual S B r j, hnorm, mul_zero]
    rw [Finset.sum_congr rfl fun i _ => e6 i]
    have : 0 ≤ ∑ t : Fin rows.length, (∑ i : Fin E, (rows.get t).getD i.val 0 * (B i j - b i)) ^ 2 :=
      Finset.sum_nonneg fun t _ => sq_nonneg _
    simp only [Finset.sum_const_zero, mul_zero, zero_add]
    linarith

/-- C250 (violated): with `L = 0` the node always raises if there is an expanded source: `x[:, -0:]` is all of `x`. -/
theorem projection_zero_refused {E S : Nat} (hE : 1 ≤ E) (B : Mat ℝ E (E + (S + 1))) (r : List ℝ) :
    (Projection.mk S 0).execute E (E + (S + 1)) B r = none := by
  have h : E + (S + 1) ≠ (Projection.mk S 0).outputDim := by
    simp only [Projection.outputDim]
    omega
  simp only [Projection.execute]
  rw [if_pos trivial, if_neg h]

/-- One white expanded source, one source and one input signal. -/
example : ∃ B, (Projection.mk 0 1).train 1 1 [[[1, 5, 2], [-1, 6, 1]], [[0, 7, 3]]] = .ok B ∧ B 0 0 = 1 / 2 ∧
    (Projection.mk 0 1).execute 1 1 B [1, 5, 2] = some [5, 3 / 2] := by
  obtain ⟨B, h, hB⟩ := projection_train (E := 1) (S := 0) (le_refl 1) [[[1, 5, 2], [-1, 6, 1]], [[0, 7, 3]]] (by simp) (by simp)
  have h0 : B 0 0 = 1 / 2 := by
    rw [hB]
    simp [cov, codev, mean]
    norm_num
  refine ⟨B, h, h0, ?_⟩
  rw [projection_row (le_refl 1) B _ (by simp)]
  simp [residual, h0]
  norm_num

example : (∀ i : Fin 1, mean (([[[1, 5, 2], [-1, 6, 1]], [[0, 7, 3]]] : List (List (List ℝ))).flatten.map fun r => r.getD i.val 0) = 0) ∧
    ∀ i k : Fin 1, cov false (([[[1, 5, 2], [-1, 6, 1]], [[0, 7, 3]]] : List (List (List ℝ))).flatten.map
      fun r => (r.getD i.val 0, r.getD k.val 0)) = if i = k then 1 else 0 := by
  constructor
  · intro i
    fin_cases i
    simp [mean]
  · intro i k
    fin_cases i
    fin_cases k
    simp [cov, codev, mean]
    norm_num

/-! ## Execution -/

/-- The nodes inside an extractor have the numbers of inputs and outputs they were made with. -/
structure Extractor.Fits (m : Extractor) (W : Nat) : Prop where
  sfa : ∀ y, y.length = m.L → (m.sfa y).length = if m.last then 1 else m.L
  expand : ∀ s, s.length = m.S + 1 → (m.expand s).length = m.E
  white : ∀ w, w.length = m.L - 1 → (m.white w).length = W
  two : m.last = false → 2 ≤ m.L
  later : m.last = true → W = 0

/-- C251: an extractor keeps the sources it gets, adds the first output of its SFA node as a new one, and gives what is left of the other
outputs to the next extractor. -/
theorem extractor_row (m : Extractor) (W : Nat) (h : m.Fits W) (x : List ℝ) (hx : x.length = m.S + m.L) :
    ∃ rest, m.execute x = some (x.take m.S ++ (m.sfa (x.drop m.S)).take 1 ++ rest) ∧ rest.length = W ∧
      (m.last = false → ∃ z, rest = m.white z ∧ z.length = m.L - 1 ∧ ∀ j : Fin (m.L - 1), z.getD j.val 0 =
        (m.sfa (x.drop m.S)).getD (j.val + 1) 0 -
          ∑ i : Fin m.E, (m.expand (x.take m.S ++ (m.sfa (x.drop m.S)).take 1)).getD i.val 0 * m.mtx i j) := by
  have hd : (x.drop m.S).length = m.L := by rw [List.length_drop]; omega
  have hs := h.sfa _ hd
  unfold Extractor.execute
  by_cases hl : m.last = true
  · rw [if_pos hl] at hs ⊢
    refine ⟨[], ?_, (h.later hl).symm, ?_⟩
    · rw [List.append_nil, List.take_of_length_le (l := m.sfa (x.drop m.S)) (by omega)]
      rfl
    · intro hh
      rw [hl] at hh
      cases hh
  · have hl' : m.last = false := by simpa using hl
    have h2 := h.two hl'
    rw [if_neg hl] at hs ⊢
    have hy : (if m.S = 0 then m.sfa x else layer2 m.S id m.sfa x) = x.take m.S ++ m.sfa (x.drop m.S) := by
      split
      · rename_i h0
        rw [h0]
        simp
      · rfl
    simp only [hy]
    have ht : (x.take m.S ++ m.sfa (x.drop m.S)).take (m.S + 1) = x.take m.S ++ (m.sfa (x.drop m.S)).take 1 := by
      rw [List.take_append, List.length_take, Nat.min_eq_left (by omega), List.take_take, Nat.min_eq_right (by omega),
        Nat.add_sub_cancel_left]
    have hr : (x.take m.S ++ m.sfa (x.drop m.S)).drop (m.S + 1) = (m.sfa (x.drop m.S)).drop 1 := by
      rw [List.drop_append, List.length_take, Nat.min_eq_left (by omega), Nat.add_sub_cancel_left, List.drop_eq_nil_of_le (by simp),
        List.nil_append]
    have hsrc : (x.take m.S ++ (m.sfa (x.drop m.S)).take 1).length = m.S + 1 := by
      rw [List.length_append, List.length_take, List.length_take]
      omega
    have he := h.expand _ hsrc
    simp only [layer2, ht, hr, id]
    generalize x.take m.S ++ (m.sfa (x.drop m.S)).take 1 = src at hsrc he ⊢
    have hrow : (m.expand src ++ src ++ (m.sfa (x.drop m.S)).drop 1).length = m.E + (m.S + 1) + (m.L - 1) := by
      rw [List.length_append, List.length_append, List.length_drop]
      omega
    rw [projection_row (by omega) _ _ hrow, Option.map_some]
    have hk : ((m.expand src ++ src ++ (m.sfa (x.drop m.S)).drop 1).drop m.E).take (m.S + 1) = src := by
      rw [List.append_assoc, List.drop_append, he, Nat.sub_self, List.drop_eq_nil_of_le (by omega), List.nil_append, List.drop_zero,
        List.take_append, hsrc, Nat.sub_self, List.take_zero, List.append_nil, List.take_of_length_le (by omega)]
    rw [hk]
    refine ⟨m.white (List.ofFn (residual m.S m.mtx (m.expand src ++ src ++ (m.sfa (x.drop m.S)).drop 1))), ?_,
      h.white _ (by rw [List.length_ofFn]), fun _ => ⟨_, rfl, by rw [List.length_ofFn], ?_⟩⟩
    · congr 1
      unfold layer2
      rw [List.take_append, hsrc, Nat.sub_self, List.take_zero, List.append_nil, List.take_of_length_le (by omega), List.drop_append,
        hsrc, Nat.sub_self, List.drop_eq_nil_of_le (by omega), List.nil_append, List.drop_zero]
      rfl
    · intro j
      rw [List.getD_eq_getElem?_getD, List.getElem?_ofFn, dif_pos j.isLt, Option.getD_some]
      unfold residual
      congr 1
      · rw [List.getD_eq_getElem?_getD, List.getElem?_append_right (by rw [List.length_append]; simp only; omega),
          List.length_append, he, hsrc, List.getElem?_drop, List.getD_eq_getElem?_getD]
        congr 2
        simp only
        omega
      · refine Finset.sum_congr rfl fun i _ => ?_
        rw [List.getD_eq_getElem?_getD, List.append_assoc, List.getElem?_append_left (by rw [he]; exact i.isLt),
          List.getD_eq_getElem?_getD]

/-- The extractors fit together: each one gets one source more, and what the one before leaves. -/
def Chain : Nat → Nat → List Extractor → Prop
  | _, _, [] => True
  | S, L, m :: ms => m.S = S ∧ m.L = L ∧ ∃ W, m.Fits W ∧ Chain (S + 1) W ms

theorem chain_run (ms : List Extractor) : ∀ (S L : Nat), Chain S L ms → ∀ x : List ℝ, x.length = S + L →
    ∃ y, runAll ms x = some y ∧ y.take S = x.take S := by
  induction ms with
  | nil =>
    intro S L _ x _
    exact ⟨x, rfl, rfl⟩
  | cons m ms ih =>
    intro S L h x hx
    obtain ⟨rfl, rfl, W, hf, hc⟩ := h
    obtain ⟨rest, he, hr, -⟩ := extractor_row m W hf x hx
    have hs := hf.sfa (x.drop m.S) (by rw [List.length_drop]; omega)
    have h1 : ((m.sfa (x.drop m.S)).take 1).length ≤ 1 := by rw [List.length_take]; omega
    have hz : 1 ≤ (m.sfa (x.drop m.S)).length := by
      rw [hs]
      split
      · exact Nat.le_refl 1
      · have := hf.two (by simp_all)
        omega
    obtain ⟨y, hy, ht⟩ := ih (m.S + 1) W hc _ (show (x.take m.S ++ (m.sfa (x.drop m.S)).take 1 ++ rest).length = m.S + 1 + W by
        rw [List.length_append, List.length_append, List.length_take, List.length_take]
        omega)
    · refine ⟨y, by rw [runAll, he, Option.bind_some, hy], ?_⟩
      have := congrArg (List.take m.S) ht
      rw [List.take_take, List.take_take, Nat.min_eq_left (by omega)] at this
      rw [this, List.append_assoc, List.take_append, List.length_take, Nat.min_eq_left (by omega), Nat.sub_self, List.take_zero,
        List.append_nil, List.take_take, Nat.min_self]

theorem chain_split (ms ms' : List Extractor) : ∀ (S L : Nat), Chain S L (ms ++ ms') → ∀ x : List ℝ, x.length = S + L →
    ∃ y L', runAll ms x = some y ∧ Chain (S + ms.length) L' ms' ∧ y.length = S + ms.length + L' := by
  induction ms with
  | nil =>
    intro S L h x hx
    exact ⟨x, L, rfl, h, hx⟩
  | cons m ms ih =>
    intro S L h x hx
    obtain ⟨rfl, rfl, W, hf, hc⟩ := h
    obtain ⟨rest, he, hr, -⟩ := extractor_row m W hf x hx
    have hs := hf.sfa (x.drop m.S) (by rw [List.length_drop]; omega)
    have hz : 1 ≤ (m.sfa (x.drop m.S)).length := by
      rw [hs]
      split
      · exact Nat.le_refl 1
      · have := hf.two (by simp_all)
        omega
    obtain ⟨y, L', hy, h1, h2⟩ := ih (m.S + 1) W hc _ (show (x.take m.S ++ (m.sfa (x.drop m.S)).take 1 ++ rest).length = m.S + 1 + W by
        rw [List.length_append, List.length_append, List.length_take, List.length_take]
        omega)
    have e : m.S + (m :: ms).length = m.S + 1 + ms.length := by
      rw [List.length_cons]
      omega
    rw [e]
    exact ⟨y, L', by rw [runAll, he, Option.bind_some, hy], h1, h2⟩

theorem run_append (ms ms' : List Extractor) (x : List ℝ) : runAll (ms ++ ms') x = (runAll ms x).bind (runAll ms') := by
  induction ms generalizing x with
  | nil => rfl
  | cons m ms ih =>
    rw [List.cons_append, runAll, runAll]
    cases m.execute x with
    | none => rfl
    | some y =>
      simp only [Option.bind_some]
      exact ih y

/-- C251: sources are final: executing more extractors does not change the sources found before. -/
theorem xsfa_sources_kept (ms ms' : List Extractor) (L : Nat) (h : Chain 0 L (ms ++ ms')) (x : List ℝ) (hx : x.length = L) :
    ∃ y z, runAll ms x = some y ∧ runAll (ms ++ ms') x = some z ∧ z.take ms.length = y.take ms.length := by
  obtain ⟨y, L', h1, h2, h3⟩ := chain_split ms ms' 0 L h x (by omega)
  rw [Nat.zero_add] at h2 h3
  obtain ⟨z, h4, h5⟩ := chain_run ms' _ _ h2 y h3
  exact ⟨y, z, h1, by rw [run_append, h1, Option.bind_some, h4], h5⟩

/-- C251: output number `k` is the first output of the SFA node of extractor `k`, for what the extractors before leave. -/
theorem xsfa_source (ms ms' : List Extractor) (m : Extractor) (L outputDim : Nat) (h : Chain 0 L (ms ++ m :: ms')) (x : List ℝ)
    (hx : x.length = L) (ho : ms.length < outputDim) :
    ∃ y z, runAll ms x = some y ∧ execute (ms ++ m :: ms') outputDim x = some z ∧ z[ms.length]? = (m.sfa (y.drop ms.length)).head? := by
  obtain ⟨y, L', h1, h2, h3⟩ := chain_split ms (m :: ms') 0 L h x (by omega)
  rw [Nat.zero_add] at h2 h3
  obtain ⟨hS, hL, W, hf, hc⟩ := h2
  obtain ⟨rest, he, hr, -⟩ := extractor_row m W hf y (by rw [hS, hL, h3])
  have hs := hf.sfa (y.drop m.S) (by rw [List.length_drop]; omega)
  have hz : 1 ≤ (m.sfa (y.drop m.S)).length := by
    rw [hs]
    split
    · exact Nat.le_refl 1
    · have := hf.two (by simp_all)
      omega
  obtain ⟨z, h4, h5⟩ := chain_run ms' _ _ hc _ (show (y.take m.S ++ (m.sfa (y.drop m.S)).take 1 ++ rest).length = ms.length + 1 + W by
    rw [List.length_append, List.length_append, List.length_take, List.length_take]
    omega)
  refine ⟨y, z.take outputDim, h1, ?_, ?_⟩
  · unfold execute
    rw [run_append, h1, Option.bind_some, runAll, he, Option.bind_some, h4, Option.map_some]
  · rw [List.getElem?_take, if_pos ho]
    have := congrArg (fun l => l[ms.length]?) h5
    simp only [List.getElem?_take, if_pos (Nat.lt_succ_self ms.length)] at this
    rw [this, List.append_assoc, List.getElem?_append_right (by rw [List.length_take]; omega), List.length_take, hS, h3,
      Nat.min_eq_left (by omega), Nat.sub_self, List.getElem?_append_left (by rw [List.length_take, ← hS]; omega),
      List.getElem?_take, if_pos Nat.one_pos, List.head?_eq_getElem?]

/-- Three rows with a white expanded source. -/
example : (∀ i : Fin 1, mean (([[[1, 5, 3], [-1, 5, 7]], [[0, 1, 2]]] : List (List (List ℝ))).flatten.map fun r => r.getD i.val 0) = 0) ∧
    ∀ i k : Fin 1, cov false (([[[1, 5, 3], [-1, 5, 7]], [[0, 1, 2]]] : List (List (List ℝ))).flatten.map fun r => (r.getD i.val 0, r.getD k.val 0)) =
      if i = k then 1 else 0 := by
  refine ⟨fun i => ?_, fun i k => ?_⟩
  · obtain rfl : i = 0 := Subsingleton.elim _ _
    norm_num [mean]
  · obtain rfl : i = 0 := Subsingleton.elim _ _
    obtain rfl : k = 0 := Subsingleton.elim _ _
    norm_num [cov, codev, mean]

/-- A first extractor for three signals and a last one. -/
noncomputable def firstX : Extractor := ⟨0, 3, 1, false, id, id, fun _ _ => 1 / 2, id⟩
noncomputable def lastX : Extractor := ⟨1, 2, 0, true, fun l => l.take 1, fun _ => [], fun i => i.elim0, fun _ => []⟩

example : Chain 0 3 ([firstX] ++ lastX :: []) := by
  refine ⟨rfl, rfl, 2, ⟨?_, ?_, ?_, ?_, ?_⟩, rfl, rfl, 0, ⟨?_, ?_, ?_, ?_, ?_⟩, trivial⟩
  · intro y hy
    simpa [firstX] using hy
  · intro s hs
    simpa [firstX] using hs
  · intro w hw
    simpa [firstX] using hw
  · intro _
    simp [firstX]
  · intro h
    cases h
  · intro y hy
    have : y.length = 2 := hy
    simp [lastX, this]
  · intro s _
    rfl
  · intro w _
    rfl
  · intro h
    cases h
  · intro _
    rfl

end Mdp.Xsfa
