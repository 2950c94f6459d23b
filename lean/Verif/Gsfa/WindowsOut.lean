import Verif.Gsfa.Windows

/-! # What the sliding windows give: comparison of the versions, averages -/

namespace Mdp.Gsfa

open Mdp.Cov Finset Py

variable {F : Type} [Field F] [LinearOrder F] {d : Nat}

theorem fix_eq {a : Acc F d} (h1 : a.sums.isSome) (h2 : a.diffs.isSome) (h3 : a.num ≠ 0) (h4 : a.numDiffs ≠ 0) :
    a.fix = .ok {
      cov := fun k l => (a.prod k l - a.num * (a.sum k * (1 / a.num) * (a.sum l * (1 / a.num)))) / a.num
      avg := fun k => a.sum k * (1 / a.num)
      dcov := fun k l => a.diff k l / a.numDiffs } := by
  obtain ⟨as, an, ad, am⟩ := a
  obtain ⟨⟨ap, as⟩, rfl⟩ := Option.isSome_iff_exists.1 h1
  obtain ⟨ad, rfl⟩ := Option.isSome_iff_exists.1 h2
  simp only [Acc.fix]
  rw [if_neg h3, if_neg h4]
  rfl

@[simp] theorem new_sum (k : Fin d) : (Acc.new : Acc F d).sum k = 0 := rfl
@[simp] theorem new_prod (k l : Fin d) : (Acc.new : Acc F d).prod k l = 0 := rfl
@[simp] theorem new_diff (k l : Fin d) : (Acc.new : Acc F d).diff k l = 0 := rfl
@[simp] theorem new_num : (Acc.new : Acc F d).num = 0 := rfl
@[simp] theorem new_numDiffs : (Acc.new : Acc F d).numDiffs = 0 := rfl

section
variable [IsStrictOrderedRing F]

theorem window_count_pos (n width : Nat) (h0 : 0 < width) (h2 : 2 * width < n) :
    0 < ∑ i ∈ range n, ∑ j ∈ range n, (1 * windowEdge width i j : F) := by
  rw [window_num_sum, one_mul]
  refine sum_pos (fun o ho => ?_) ⟨0, mem_range.2 h0⟩
  rw [mem_range] at ho
  exact Nat.cast_pos.2 (by omega)

/-- **C159** partial: with at least four times as many samples as the width, 'fwindow' gives the same average and matrices as
'window', if all data are trained with this mode in one call. -/
theorem fast_window_partial (x : Rows F d) (width : Nat) (h0 : 0 < width) (h4 : 4 * width ≤ x.n) :
    ∃ a b f, updateFastWindow x 1 width Acc.new = (.ok (), a) ∧ updateWindow x 1 width Acc.new = (.ok (), b) ∧
      a.fix = .ok f ∧ b.fix = .ok f := by
  obtain ⟨a, ha, ha'⟩ := fast_window_graph_partial x (1 : F) width h0 Acc.new h4
  obtain ⟨b, hb, hb'⟩ := window_graph_partial x (1 : F) width h0 (by omega) Acc.new
  have hw : ∑ i ∈ range x.n, (1 * windowNode x.n width i : F) = (x.n : F) - (width + 1) / 2 := by
    simp only [one_mul]; exact windowNode_sum x width h0 (by omega)
  have hn : (0 : F) < a.num ∧ a.num = b.num := by
    refine ⟨?_, by rw [ha'.num, hb'.num]⟩
    have h5 : (4 : F) * width ≤ x.n := by exact_mod_cast h4
    have h6 : (1 : F) ≤ width := by exact_mod_cast h0
    rw [ha'.num, hw]
    simp only [new_num]
    linarith
  have hp := window_count_pos (F := F) x.n width h0 (by omega)
  have hd : b.numDiffs ≠ 0 := by
    rw [hb'.numDiffs]
    simp only [new_numDiffs, zero_add]
    exact ne_of_gt hp
  have hd2 : a.numDiffs = 2 * b.numDiffs := by
    rw [ha'.numDiffs, hb'.numDiffs]
    have := windowEdges_sum width x.n (1 : F) (fun _ _ => 1) (fun _ _ => rfl)
    simp only [mul_one] at this
    simp only [new_numDiffs, zero_add]
    exact this
  have hdf : ∀ k l, a.diff k l = 2 * b.diff k l := by
    intro k l
    rw [ha'.diff, hb'.diff, windowEdges_sum _ _ _ _ (sq_comm x k l)]
    simp [Acc.diff, Acc.new]
  have hd3 : a.numDiffs ≠ 0 := by rw [hd2]; exact mul_ne_zero two_ne_zero hd
  refine ⟨a, b, _, ha, hb, fix_eq ha'.some_sums ha'.some_diffs (ne_of_gt hn.1) hd3, ?_⟩
  rw [fix_eq hb'.some_sums hb'.some_diffs (by rw [← hn.2]; exact ne_of_gt hn.1) hd]
  have e1 : ∀ k l, a.prod k l = b.prod k l := fun k l => by rw [ha'.prod, hb'.prod]
  have e2 : ∀ k, a.sum k = b.sum k := fun k => by rw [ha'.sum, hb'.sum]
  simp only [e1, e2, hn.2, hd2, hdf]
  congr 2
  funext k l
  rw [mul_div_mul_left _ _ two_ne_zero]

/-- **C160**: on constant data the average is not the constant, and the variance is not zero. -/
theorem window_average_false (x : Rows F d) (width : Nat) (h0 : 0 < width) (h2 : 2 * width < x.n) (c : Row F d)
    (hc : ∀ i < x.n, x.row i = c) :
    ∃ a f, updateWindow x 1 width Acc.new = (.ok (), a) ∧ a.fix = .ok f ∧
      ∀ k, c k ≠ 0 → f.avg k ≠ c k ∧ f.cov k k ≠ 0 := by
  obtain ⟨b, hb, hb'⟩ := window_graph_partial x (1 : F) width h0 (by omega) Acc.new
  have hw : ∑ i ∈ range x.n, (1 * windowNode x.n width i : F) = (x.n : F) - (width + 1) / 2 := by
    simp only [one_mul]; exact windowNode_sum x width h0 (by omega)
  have h5 : (2 : F) * width + 1 ≤ x.n := by exact_mod_cast h2
  have h6 : (1 : F) ≤ width := by exact_mod_cast h0
  generalize hV : (x.n : F) - (width + 1) / 2 = V at hw
  have hVpos : 0 < V := by rw [← hV]; linarith
  have hn : b.num = V + 1 := by
    rw [hb'.num, hw]
    simp only [new_num]; ring
  have hne : b.num ≠ 0 := by rw [hn]; linarith
  have hd : b.numDiffs ≠ 0 := by
    rw [hb'.numDiffs]
    simp only [new_numDiffs, zero_add]
    exact ne_of_gt (window_count_pos (F := F) x.n width h0 (by omega))
  refine ⟨b, _, hb, fix_eq hb'.some_sums hb'.some_diffs hne hd, fun k hk => ?_⟩
  have hs : b.sum k = V * c k := by
    rw [hb'.sum, ← hw, sum_mul]
    simp only [show ({ (Acc.new : Acc F d) with num := (Acc.new : Acc F d).num + 1 } : Acc F d).sum k = 0 from rfl, zero_add]
    exact sum_congr rfl fun i hi => by rw [hc i (mem_range.1 hi)]
  have hp : b.prod k k = V * (c k * c k) := by
    rw [hb'.prod, ← hw, sum_mul]
    simp only [show ({ (Acc.new : Acc F d) with num := (Acc.new : Acc F d).num + 1 } : Acc F d).prod k k = 0 from rfl, zero_add]
    exact sum_congr rfl fun i hi => by rw [hc i (mem_range.1 hi)]
  rw [hn] at hne
  simp only [hs, hp, hn]
  have hcc : 0 < c k * c k := mul_self_pos.2 hk
  constructor
  · intro h
    rw [mul_one_div, div_eq_iff hne] at h
    have : c k = 0 := by linear_combination -h
    exact hk this
  · intro h
    rw [div_eq_zero_iff] at h
    rcases h with h | h
    · field_simp at h
      nlinarith
    · exact hne h

/-- **C159**: between two and four times the width 'fwindow' is wrong: three samples that are all the same change. -/
theorem fast_window_false : ∃ x : Rows ℚ 1, x.n = 3 ∧ (∀ i, x.row i = fun _ => 1) ∧
    ∃ a b, updateFastWindow x 1 1 Acc.new = (.ok (), a) ∧ updateWindow x 1 1 Acc.new = (.ok (), b) ∧
      a.diff 0 0 = 3 ∧ b.diff 0 0 = 0 := by
  refine ⟨⟨3, fun _ _ => 1⟩, rfl, fun _ => rfl, _, _, rfl, rfl, ?_, ?_⟩
  · norm_num [windowSamples, selected, Rows.assign, Rows.slice, Rows.scale, Rows.multT, Rows.colSum, Rows.subRow, Rows.sub,
      Acc.addSamples, Acc.addDiffs, Acc.new, Acc.diff, centre, sum_range_succ, List.range_succ, sum_Ico_eq_sum_range]
  · norm_num [windowSamples, selected, Rows.assign, Rows.slice, Rows.scale, Rows.multT, Rows.colSum, Rows.subRow, Rows.sub,
      Acc.addSamples, Acc.addDiffs, Acc.new, Acc.diff, centre, sum_range_succ, List.range_succ, sum_Ico_eq_sum_range]

/-- Widths that are too large are refused by all versions. -/
theorem window_refused (x : Rows F d) (w : F) (width : Nat) (h : x.n ≤ 2 * width) (a : Acc F d) :
    updateWindow x w width a = (.error .value, a) ∧ updateFastWindow x w width a = (.error .value, a) ∧
    updateTruncating x w width a = (.error .value, a) ∧ updateMirror x w width a = (.error .training, a) := by
  simp only [updateWindow, updateFastWindow, updateTruncating, updateMirror, if_pos h, M.raise_def, and_self]

end

/-! ## Examples -/

/-- The numbers 0 to 4. -/
def exRows : Rows ℚ 1 := ⟨5, fun i _ => i⟩

example : 0 < 1 ∧ 4 * 1 ≤ exRows.n ∧ 2 * 1 < exRows.n := by decide

example : (updateWindow exRows 1 1 Acc.new).2.diff 0 0 = 4 := by
  obtain ⟨a', h, ha⟩ := window_graph_partial exRows (1 : ℚ) 1 (by decide) (by decide) Acc.new
  rw [h, ha.diff]
  norm_num [exRows, sum_range_succ, windowEdge, sq, Acc.diff, Acc.new]

end Mdp.Gsfa
