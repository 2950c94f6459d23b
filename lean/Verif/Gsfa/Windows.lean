import Verif.Gsfa.Props
import Mathlib.Algebra.BigOperators.Field

/-! # Sliding windows -/

namespace Mdp.Gsfa

open Mdp.Cov Finset Py

variable {F : Type} [Field F] {d : Nat}

/-! ## The centre part -/

theorem centre_eq (y x : Rows F d) (w : Nat) (hn : y.n = x.n + 2 * w) (h : 2 * w ≤ x.n) (k l : Fin d) :
    centre y x w k l
      = ∑ i ∈ range x.n, ∑ o ∈ range (2 * w + 1), (y.row (i + o) k - x.row i k) * (y.row (i + o) l - x.row i l) := by
  rw [sum_centre (fun j => y.row j k) (fun j => y.row j l) (fun i => x.row i k) (fun i => x.row i l)]
  have hw := sum_windows (fun j => y.row j k * y.row j l) x.n (2 * w) h
  rw [hw]
  have hB : ∀ i ∈ range x.n, ∀ m : Fin d,
      (∑ j ∈ range (min (2 * w + 1 + i) y.n), y.row j m) - (∑ j ∈ range (min i y.n), y.row j m)
        = ∑ o ∈ range (2 * w + 1), y.row (i + o) m := by
    intro i hi m
    rw [mem_range] at hi
    rw [min_eq_left (by omega), min_eq_left (by omega), show 2 * w + 1 + i = i + (2 * w + 1) by omega,
      sum_range_add, add_sub_cancel_left]
  have hb : ∀ a b : Fin d, x.multT
      ((Rows.slice (⟨y.n + 1, fun i => (y.slice 0 i).colSum⟩ : Rows F d) (2 * w + 1) (y.n + 1)).sub
      (Rows.slice (⟨y.n + 1, fun i => (y.slice 0 i).colSum⟩ : Rows F d) 0 (y.n + 1 - (2 * w + 1)))) a b
      = ∑ i ∈ range x.n, x.row i a * ∑ o ∈ range (2 * w + 1), y.row (i + o) b := by
    intro a b
    simp only [Rows.multT, Rows.sub, Rows.slice, Rows.colSum, Nat.sub_zero, Nat.zero_add]
    exact sum_congr rfl fun i hi => by rw [hB i hi b]
  simp only [centre]
  rw [hb, hb]
  simp only [Rows.multT, Rows.slice]
  rw [show y.n - 2 * w = x.n by omega, show min x.n y.n - 2 * w = x.n - 2 * w by omega, hn]
  push_cast
  ring

/-! ## The window with reflected borders -/

theorem mirror_n (x : Rows F d) (w : Nat) : (mirror x w).n = x.n + 2 * w := rfl

theorem mirror_row (x : Rows F d) (w m : Nat) (hw : 2 * w < x.n) (hm : m < x.n + 2 * w) :
    (mirror x w).row m = x.row (reflect x.n w m) := by
  simp only [mirror, Rows.assign, Rows.slice, Rows.reverse, reflect]
  rw [show min w x.n - 0 = w by omega, show min x.n x.n - (x.n - w) = w by omega]
  by_cases h1 : m < w
  · rw [if_neg (by omega), if_pos (by omega), if_pos h1]
    congr 1; omega
  · by_cases h2 : m < x.n + w
    · rw [if_neg (by omega), if_neg (by omega), if_pos (by omega), if_neg h1, if_pos h2]
    · rw [if_pos (by omega), if_neg h1, if_neg h2]
      congr 1; omega

theorem reflect_lt (n w m : Nat) (hw : 2 * w < n) (hm : m < n + 2 * w) : reflect n w m < n := by
  unfold reflect
  split_ifs <;> omega

theorem reflect_self (n w i : Nat) (hi : i < n) : reflect n w (i + w) = i := by
  unfold reflect
  split_ifs <;> omega

theorem offsets_sum (w : Nat) (f : Nat → F) :
    ((offsets w).map f).sum = ∑ o ∈ range (2 * w + 1), if o ≠ w then f o else 0 := by
  have : ∀ l : List Nat, ((l.filter (· ≠ w)).map f).sum = (l.map fun o => if o ≠ w then f o else 0).sum := by
    intro l
    induction l with
    | nil => rfl
    | cons o l ih =>
      rw [List.filter_cons]
      by_cases ho : o = w
      · simp [ho]
        simpa using ih
      · simp only [ne_eq, ho, not_false_eq_true, decide_true, if_true, List.map_cons, List.sum_cons]
        rw [ih]
  rw [offsets, this, range_map_sum]

theorem mirror_sum (n w : Nat) (hw : 2 * w < n) (f : Nat → Nat → F) :
    ∑ i ∈ range n, ∑ j ∈ range n, mirrorEdge n w i j * f i j
      = ∑ o ∈ range (2 * w + 1), if o ≠ w then ∑ i ∈ range n, f i (reflect n w (i + o)) else 0 := by
  have h1 : ∀ i ∈ range n, ∑ j ∈ range n, mirrorEdge n w i j * f i j
      = ∑ o ∈ range (2 * w + 1), if o ≠ w then f i (reflect n w (i + o)) else 0 := by
    intro i hi
    rw [mem_range] at hi
    simp only [mirrorEdge, sum_mul]
    rw [sum_comm]
    refine sum_congr rfl fun o ho => ?_
    rw [mem_range] at ho
    by_cases h : o ≠ w
    · have hr := reflect_lt n w (i + o) hw (by omega)
      simp only [h, true_and, if_true, ne_eq, not_false_eq_true, ite_mul, one_mul, zero_mul]
      rw [sum_ite_eq, if_pos (mem_range.2 hr)]
    · simp [h]
  rw [sum_congr rfl h1, sum_comm]
  refine sum_congr rfl fun o _ => ?_
  split_ifs <;> simp

section mirror
variable (x : Rows F d) (w : F) (width : Nat) (h0 : 0 < width) (h2 : 2 * width < x.n) (a : Acc F d)
include h0 h2

theorem slow_mirror_graph :
    ∃ a', updateSlowMirror x w width a = (.ok (), a') ∧
      Adds a a' x (fun _ => w) (fun i j => w * mirrorEdge x.n width i j) := by
  simp only [updateSlowMirror, if_neg (show ¬ x.n ≤ 2 * width by omega), M.bind_def, M.modify_def,
    if_neg (show ¬ width = 0 by omega)]
  refine ⟨_, rfl, ?_, ?_, ?_, ?_, ?_, ?_, ?_⟩
  · intro k; simp [Rows.colSum, sum_mul, mul_comm w]
  · intro k l; simp [Rows.multT, sum_mul, mul_comm w]
  · simp
  · intro k l
    rw [fold_diff]
    simp only [addSamples_diff, mul_assoc, ← mul_sum]
    rw [mirror_sum x.n width h2, offsets_sum, mul_sum]
    congr 1
    refine sum_congr rfl fun o ho => ?_
    rw [mem_range] at ho
    by_cases h : o ≠ width
    · rw [if_pos h, if_pos h, mul_comm w]
      simp only [Rows.multT, Rows.sub, Rows.slice]
      rw [mirror_n, show min (o + x.n) (x.n + 2 * width) - o = x.n by omega]
      congr 1
      refine sum_congr rfl fun i hi => ?_
      rw [mem_range] at hi
      rw [mirror_row x width _ h2 (by omega), add_comm o i]
      rfl
    · rw [if_neg h, if_neg h, mul_zero]
  · rw [fold_numDiffs]
    simp only [addSamples_numDiffs, ← mul_sum]
    have := mirror_sum x.n width h2 (fun _ _ => (1 : F))
    simp only [mul_one] at this
    rw [this, offsets_sum, mul_sum]
    congr 1
    refine sum_congr rfl fun o ho => ?_
    rw [mem_range] at ho
    by_cases h : o ≠ width
    · rw [if_pos h, if_pos h, mul_comm w]
      simp only [Rows.sub, Rows.slice]
      rw [mirror_n, show min (o + x.n) (x.n + 2 * width) - o = x.n by omega]
      simp
    · rw [if_neg h, if_neg h, mul_zero]
  · rw [fold_sums]; simp
  · refine fold_some _ _ _ _ _ ?_
    intro h
    have : (0 : Nat) ∈ offsets width := by simp [offsets]; omega
    rw [h] at this
    simp at this

theorem fast_mirror_graph :
    ∃ a', updateMirror x w width a = (.ok (), a') ∧
      Adds a a' x (fun _ => w) (fun i j => w * mirrorEdge x.n width i j) := by
  simp only [updateMirror, if_neg (show ¬ x.n ≤ 2 * width by omega), M.bind_def, M.modify_def,
    if_neg (show ¬ width = 0 by omega)]
  have hc : ∀ f : Nat → F, ∑ o ∈ range (2 * width + 1), (if o ≠ width then f o else 0)
      = (∑ o ∈ range (2 * width + 1), f o) - f width := by
    intro f
    rw [eq_sub_iff_add_eq]
    have : f width = ∑ o ∈ range (2 * width + 1), if o = width then f o else 0 := by
      rw [sum_ite_eq', if_pos (mem_range.2 (by omega))]
    conv_lhs => rw [this]
    rw [← sum_add_distrib]
    refine sum_congr rfl fun o _ => ?_
    by_cases h : o = width <;> simp [h]
  refine ⟨_, rfl, ?_, ?_, ?_, ?_, ?_, ?_, ?_⟩
  · intro k; simp [Rows.colSum, sum_mul, mul_comm w]
  · intro k l; simp [Rows.multT, sum_mul, mul_comm w]
  · simp
  · intro k l
    simp only [addDiffs_diff, addSamples_diff, mul_assoc, ← mul_sum]
    rw [mirror_sum x.n width h2, hc, centre_eq _ _ _ (mirror_n x width) (by omega), mul_comm w]
    congr 2
    have h3 : ∑ i ∈ range x.n, sq x k l i (reflect x.n width (i + width)) = 0 :=
      sum_eq_zero fun i hi => by rw [reflect_self _ _ _ (mem_range.1 hi), sq_self]
    rw [h3, sub_zero, sum_comm]
    refine sum_congr rfl fun o ho => sum_congr rfl fun i hi => ?_
    rw [mem_range] at hi ho
    rw [mirror_row x width _ h2 (by omega)]
    rfl
  · simp only [addDiffs_numDiffs, addSamples_numDiffs, ← mul_sum]
    have := mirror_sum x.n width h2 (fun _ _ => (1 : F))
    simp only [mul_one] at this
    rw [this, hc, mul_comm w]
    simp only [sum_const, card_range, nsmul_eq_mul]
    push_cast
    ring
  · simp
  · simp

/-- **C157** 'mirror_window' and 'smirror_window': all samples have the same weight, each one is connected to the samples in
a window of the data reflected at both ends. -/
theorem mirror_graph : ∃ a', updateMirror x w width a = (.ok (), a') ∧
      Adds a a' x (fun _ => w) (fun i j => w * mirrorEdge x.n width i j) := fast_mirror_graph x w width h0 h2 a

end mirror

/-- The accumulators are determined by the sums. -/
theorem acc_ext {a b : Acc F d} (h1 : a.sums.isSome) (h2 : b.sums.isSome) (h3 : a.diffs.isSome) (h4 : b.diffs.isSome)
    (hp : ∀ k l, a.prod k l = b.prod k l) (hs : ∀ k, a.sum k = b.sum k) (hn : a.num = b.num)
    (hd : ∀ k l, a.diff k l = b.diff k l) (hm : a.numDiffs = b.numDiffs) : a = b := by
  obtain ⟨as, an, ad, am⟩ := a
  obtain ⟨bs, bn, bd, bm⟩ := b
  obtain ⟨⟨ap, as⟩, rfl⟩ := Option.isSome_iff_exists.1 h1
  obtain ⟨⟨bp, bs⟩, rfl⟩ := Option.isSome_iff_exists.1 h2
  obtain ⟨ad, rfl⟩ := Option.isSome_iff_exists.1 h3
  obtain ⟨bd, rfl⟩ := Option.isSome_iff_exists.1 h4
  cases hn
  cases hm
  have e1 : ap = bp := funext fun k => funext fun l => hp k l
  have e2 : as = bs := funext fun k => hs k
  have e3 : ad = bd := funext fun k => funext fun l => hd k l
  rw [e1, e2, e3]

/-- **C159**: 'mirror_window' does the same as the reference version 'smirror_window', for all widths. -/
theorem mirror_fast_slow (x : Rows F d) (w : F) (width : Nat) : updateMirror x w width = updateSlowMirror x w width := by
  by_cases h2 : x.n ≤ 2 * width
  · simp only [updateMirror, updateSlowMirror, if_pos h2]
  by_cases h0 : width = 0
  · subst h0; simp only [updateMirror, updateSlowMirror, if_neg h2, if_true]
  funext a
  obtain ⟨b, hb, hb'⟩ := fast_mirror_graph x w width (by omega) (by omega) a
  obtain ⟨c, hc, hc'⟩ := slow_mirror_graph x w width (by omega) (by omega) a
  rw [hb, hc, acc_ext hb'.some_sums hc'.some_sums hb'.some_diffs hc'.some_diffs
    (fun k l => by rw [hb'.prod, hc'.prod]) (fun k => by rw [hb'.sum, hc'.sum]) (by rw [hb'.num, hc'.num])
    (fun k l => by rw [hb'.diff, hc'.diff]) (by rw [hb'.numDiffs, hc'.numDiffs])]

/-! ## The window without reflection -/

theorem window_sq_sum (x : Rows F d) (w : F) (width : Nat) (k l : Fin d) :
    ∑ i ∈ range x.n, ∑ j ∈ range x.n, w * windowEdge width i j * sq x k l i j
      = w * ∑ o ∈ range width, ∑ i ∈ range (x.n - (o + 1)), sq x k l i (o + 1 + i) := by
  rw [← sum_window (fun i j => sq x k l i j)]
  simp only [mul_sum]
  refine sum_congr rfl fun i _ => sum_congr rfl fun j _ => ?_
  unfold windowEdge
  split_ifs <;> ring

theorem window_num_sum (n : Nat) (w : F) (width : Nat) :
    ∑ i ∈ range n, ∑ j ∈ range n, w * windowEdge width i j = w * ∑ o ∈ range width, ((n - (o + 1) : Nat) : F) := by
  have := sum_window (fun _ _ => (1 : F)) n width
  simp only [sum_const, card_range, nsmul_eq_mul, mul_one] at this
  rw [← this, mul_sum]
  refine sum_congr rfl fun i _ => ?_
  rw [mul_sum]
  rfl

theorem windowEdges_eq (width i j : Nat) : (windowEdges width i j : F) = windowEdge width i j + windowEdge width j i := by
  unfold windowEdges windowEdge
  by_cases h1 : i < j ∧ j ≤ i + width
  · rw [if_pos h1, if_pos (by omega), if_neg (by omega), add_zero]
  · by_cases h2 : j < i ∧ i ≤ j + width
    · rw [if_neg h1, if_pos h2, if_pos (by omega), zero_add]
    · rw [if_neg h1, if_neg h2, if_neg (by omega), add_zero]

theorem windowEdges_sum (width n : Nat) (w : F) (f : Nat → Nat → F) (hf : ∀ i j, f i j = f j i) :
    ∑ i ∈ range n, ∑ j ∈ range n, w * windowEdges width i j * f i j
      = 2 * ∑ i ∈ range n, ∑ j ∈ range n, w * windowEdge width i j * f i j := by
  simp only [windowEdges_eq, mul_add, add_mul, sum_add_distrib]
  have : ∑ i ∈ range n, ∑ j ∈ range n, w * windowEdge width j i * f i j
      = ∑ i ∈ range n, ∑ j ∈ range n, w * windowEdge width i j * f i j := by
    rw [sum_comm]
    exact sum_congr rfl fun i _ => sum_congr rfl fun j _ => by rw [hf]
  rw [this]; ring

/-- **C157** the reference version for a window truncated at both ends: all samples have the same weight; samples at
a distance of at most the width are connected in both directions. -/
theorem truncating_graph (x : Rows F d) (w : F) (width : Nat) (h0 : 0 < width) (h2 : 2 * width < x.n) (a : Acc F d) :
    ∃ a', updateTruncating x w width a = (.ok (), a') ∧
      Adds a a' x (fun _ => w) (fun i j => w * windowEdges width i j) := by
  simp only [updateTruncating, if_neg (show ¬ x.n ≤ 2 * width by omega), M.bind_def, M.modify_def,
    if_neg (show ¬ width = 0 by omega)]
  refine ⟨_, rfl, ?_, ?_, ?_, ?_, ?_, ?_, ?_⟩
  · intro k; simp [Rows.colSum, sum_mul, mul_comm w]
  · intro k l; simp [Rows.multT, sum_mul, mul_comm w]
  · simp
  · intro k l
    rw [fold_diff, range_map_sum, windowEdges_sum _ _ _ _ (sq_comm x k l), window_sq_sum]
    simp only [addSamples_diff, mul_sum]
    congr 1
    refine sum_congr rfl fun o ho => ?_
    rw [mem_range] at ho
    simp only [Rows.multT, Rows.sub, Rows.slice, Rows.assign]
    rw [show min (width + x.n) (x.n + 2 * width) - (o + 1 + width) = x.n - (o + 1) by omega, mul_sum, sum_mul]
    refine sum_congr rfl fun i hi => ?_
    rw [mem_range] at hi
    rw [if_pos (by omega), show o + 1 + width + i - width = o + 1 + i by omega, Nat.zero_add]
    unfold sq
    ring
  · have := windowEdges_sum width x.n w (fun _ _ => 1) (fun _ _ => rfl)
    simp only [mul_one] at this
    rw [fold_numDiffs, range_map_sum, this, window_num_sum]
    simp only [addSamples_numDiffs, mul_sum]
    congr 1
    refine sum_congr rfl fun o ho => ?_
    rw [mem_range] at ho
    rw [Nat.cast_sub (by omega)]
    push_cast
    ring
  · rw [fold_sums]; simp
  · refine fold_some _ _ _ _ _ ?_
    intro h
    rw [List.range_eq_nil] at h
    omega

section window
variable [CharZero F] (x : Rows F d) (w : F) (width : Nat) (h0 : 0 < width) (h2 : 2 * width < x.n) (a : Acc F d)
include h0 h2

theorem selected_row (i : Nat) (hi : i < x.n) (k : Fin d) :
    (selected x width).row i k = windowNode x.n width i * x.row i k := by
  have hw : (2 * (width : F)) ≠ 0 := by
    have : ((2 * width : Nat) : F) ≠ 0 := Nat.cast_ne_zero.2 (by omega)
    simpa using this
  simp only [selected, Rows.assign, Rows.slice, Rows.scale, windowNode, Nat.zero_add, Nat.sub_zero, zero_le, true_and]
  rw [show min x.n x.n - (x.n - width) = width by omega, show min width x.n = width by omega]
  by_cases h1 : i < width
  · rw [if_neg (by omega), if_pos h1, show min i width + min (x.n - 1 - i) width = width + i by omega]
    ring
  · by_cases h3 : x.n - width ≤ i
    · rw [if_pos (by omega), if_neg (by omega), show x.n - width + (i - (x.n - width)) = i by omega,
        show min i width + min (x.n - 1 - i) width = 2 * width - 1 - (i - (x.n - width)) by omega]
      ring
    · rw [if_neg (by omega), if_neg h1, show min i width + min (x.n - 1 - i) width = 2 * width by omega]
      push_cast
      rw [div_self hw, one_mul]

theorem windowNode_sum : ∑ i ∈ range x.n, (windowNode x.n width i : F) = (x.n : F) - (width + 1) / 2 := by
  have hw : (width : F) ≠ 0 := Nat.cast_ne_zero.2 (by omega)
  have h3 : ∑ i ∈ range x.n, min i width + 0 = (∑ i ∈ range width, i) + (x.n - width) * width := by
    have : x.n = width + (x.n - width) := by omega
    conv_lhs => rw [this]
    rw [sum_range_add, add_zero]
    congr 1
    · exact sum_congr rfl fun i hi => by rw [mem_range] at hi; omega
    · rw [sum_congr rfl (g := fun _ => width) fun i _ => by omega]
      simp
  have h4 : ∑ i ∈ range x.n, min (x.n - 1 - i) width = ∑ i ∈ range x.n, min i width :=
    sum_range_reflect (fun i => min i width) x.n
  have h5 : (∑ i ∈ range x.n, (min i width + min (x.n - 1 - i) width)) = width * (width - 1) + 2 * ((x.n - width) * width) := by
    rw [sum_add_distrib, h4, ← two_mul, ← sum_range_id_mul_two, ← Nat.add_zero (∑ i ∈ range x.n, min i width), h3]
    ring
  unfold windowNode
  rw [← sum_div, ← Nat.cast_sum, h5]
  push_cast [Nat.cast_sub (show 1 ≤ width by omega), Nat.cast_sub (show width ≤ x.n by omega)]
  field_simp
  ring

theorem windowSamples_spec :
    let b := windowSamples x w width a
    (∀ k, b.sum k = a.sum k + ∑ i ∈ range x.n, w * windowNode x.n width i * x.row i k) ∧
    (∀ k l, b.prod k l = a.prod k l + ∑ i ∈ range x.n, w * windowNode x.n width i * (x.row i k * x.row i l)) ∧
    b.num = a.num + w + ∑ i ∈ range x.n, w * windowNode x.n width i := by
  refine ⟨fun k => ?_, fun k l => ?_, ?_⟩
  · simp only [windowSamples, addSamples_sum, Rows.colSum, sum_mul]
    congr 1
    refine sum_congr rfl fun i hi => ?_
    rw [selected_row x width h0 h2 i (mem_range.1 hi)]; ring
  · simp only [windowSamples, addSamples_prod, Rows.multT, sum_mul]
    congr 1
    refine sum_congr rfl fun i hi => ?_
    rw [selected_row x width h0 h2 i (mem_range.1 hi)]; ring
  · simp only [windowSamples, addSamples_num, ← mul_sum]
    rw [windowNode_sum x width h0 h2]
    field_simp
    ring

/-- **C160** partial, 'window': each sample is connected to the next ones, the node weights are the numbers of
neighbours. But the number of samples is counted as if there had been one more. -/
theorem window_graph_partial : ∃ a', updateWindow x w width a = (.ok (), a') ∧
      Adds { a with num := a.num + w } a' x (fun i => w * windowNode x.n width i) (fun i j => w * windowEdge width i j) := by
  have hs := windowSamples_spec x w width h0 h2 a
  simp only [updateWindow, if_neg (show ¬ x.n ≤ 2 * width by omega), M.modify_def, if_neg (show ¬ width = 0 by omega)]
  refine ⟨_, rfl, ?_, ?_, ?_, ?_, ?_, ?_, ?_⟩
  · intro k; rw [fold_sum]; exact hs.1 k
  · intro k l; rw [fold_prod]; exact hs.2.1 k l
  · rw [fold_num]; exact hs.2.2
  · intro k l
    rw [fold_diff, range_map_sum, window_sq_sum, mul_sum]
    refine congrArg (a.diff k l + ·) (sum_congr rfl fun o ho => ?_)
    rw [mem_range] at ho
    simp only [Rows.multT, Rows.sub, Rows.slice, Nat.zero_add]
    rw [min_self, mul_comm w]
    rfl
  · rw [fold_numDiffs, range_map_sum, window_num_sum, mul_sum]
    refine congrArg (a.numDiffs + ·) (sum_congr rfl fun o ho => ?_)
    simp only [Rows.sub, Rows.slice, min_self]
    rw [mul_comm w]
  · rw [fold_sums]; simp [windowSamples]
  · refine fold_some _ _ _ _ _ ?_
    intro h
    rw [List.range_eq_nil] at h
    omega

omit h2 in
/-- **C160** partial, 'fwindow': for at least four times the width the same samples are connected as in 'window', in both
directions. -/
theorem fast_window_graph_partial (h4 : 4 * width ≤ x.n) : ∃ a', updateFastWindow x w width a = (.ok (), a') ∧
      Adds { a with num := a.num + w } a' x (fun i => w * windowNode x.n width i) (fun i j => w * windowEdges width i j) := by
  have h2 : 2 * width < x.n := by omega
  have hs := windowSamples_spec x w width h0 h2 a
  simp only [updateFastWindow, if_neg (show ¬ x.n ≤ 2 * width by omega), M.modify_def, if_neg (show ¬ width = 0 by omega)]
  have parts : ∀ f : Nat → Nat → F, (∀ i, f i i = 0) →
      ∑ i ∈ range x.n, ∑ j ∈ range x.n, w * windowEdges width i j * f i j
      = w * ((∑ i ∈ range width, ∑ j ∈ range (width + i + 1), f i j)
        + (∑ i ∈ range width, ∑ j ∈ range (x.n - (x.n - width + i - width)), f (x.n - width + i) (x.n - width + i - width + j))
        + ∑ i ∈ range (x.n - 2 * width), ∑ j ∈ range (2 * width + 1), f (width + i) (i + j)) := by
    intro f hf
    rw [← sum_window_parts f hf x.n width h2, mul_sum]
    refine sum_congr rfl fun i _ => ?_
    rw [mul_sum]
    refine sum_congr rfl fun j _ => ?_
    unfold windowEdges
    split_ifs <;> ring
  refine ⟨_, rfl, ?_, ?_, ?_, ?_, ?_, ?_, ?_⟩
  · intro k; rw [addDiffs_sum, fold_sum, fold_sum]; exact hs.1 k
  · intro k l; rw [addDiffs_prod, fold_prod, fold_prod]; exact hs.2.1 k l
  · rw [addDiffs_num, fold_num, fold_num]; exact hs.2.2
  · intro k l
    rw [addDiffs_diff, fold_diff, fold_diff, range_map_sum, range_map_sum, parts _ (sq_self x k l)]
    have hn : (x.slice width (x.n - width)).n = x.n - 2 * width := by simp only [Rows.slice]; omega
    rw [centre_eq x (x.slice width (x.n - width)) width (by omega) (by omega), hn, ← sum_mul, ← sum_mul]
    have e1 : ∑ i ∈ range width, ((x.slice 0 (width + i + 1)).subRow (x.row i)).multT
        ((x.slice 0 (width + i + 1)).subRow (x.row i)) k l = ∑ i ∈ range width, ∑ j ∈ range (width + i + 1), sq x k l i j := by
      refine sum_congr rfl fun i hi => ?_
      rw [mem_range] at hi
      simp only [Rows.multT, Rows.subRow, Rows.slice, Nat.zero_add, Nat.sub_zero]
      rw [min_eq_left (by omega)]
      rfl
    have e2 : ∑ i ∈ range width, ((x.slice (x.n - width + i - width) x.n).subRow (x.row (x.n - width + i))).multT
        ((x.slice (x.n - width + i - width) x.n).subRow (x.row (x.n - width + i))) k l
        = ∑ i ∈ range width, ∑ j ∈ range (x.n - (x.n - width + i - width)),
          sq x k l (x.n - width + i) (x.n - width + i - width + j) := by
      refine sum_congr rfl fun i hi => ?_
      simp only [Rows.multT, Rows.subRow, Rows.slice, min_self]
      rfl
    rw [e1, e2]
    simp only [Rows.slice]
    rw [show (windowSamples x w width a).diff k l = a.diff k l from rfl]
    simp only [sq, Acc.diff]
    ring
  · rw [addDiffs_numDiffs, fold_numDiffs, fold_numDiffs, range_map_sum, range_map_sum]
    have := parts (fun i j => if i = j then 0 else 1) (fun i => if_pos rfl)
    have e0 : ∀ i j : Nat, w * windowEdges width i j * (if i = j then 0 else 1) = w * windowEdges width i j := by
      intro i j
      by_cases h : i = j
      · rw [if_pos h, mul_zero]; simp [windowEdges, h]
      · rw [if_neg h, mul_one]
    simp only [e0] at this
    rw [this, ← sum_mul, ← sum_mul]
    have cnt : ∀ (m p q : Nat), q ≤ p → p < q + m → ∑ j ∈ range m, (if p = q + j then (0 : F) else 1) = m - 1 := by
      intro m p q h1 h2
      have : ∀ j, (if p = q + j then (0 : F) else 1) = 1 - if p - q = j then 1 else 0 := by
        intro j
        by_cases h : p = q + j
        · rw [if_pos h, if_pos (by omega), sub_self]
        · rw [if_neg h, if_neg (by omega), sub_zero]
      simp only [this, sum_sub_distrib, sum_const, card_range, nsmul_eq_mul, mul_one]
      rw [sum_ite_eq, if_pos (mem_range.2 (by omega))]
    have e1 : ∑ i ∈ range width, ((((x.slice 0 (width + i + 1)).subRow (x.row i)).n : F) - 1)
        = ∑ i ∈ range width, ∑ j ∈ range (width + i + 1), (if i = j then 0 else 1) := by
      refine sum_congr rfl fun i hi => ?_
      rw [mem_range] at hi
      have := cnt (width + i + 1) i 0 (by omega) (by omega)
      simp only [Nat.zero_add] at this
      rw [this]
      simp only [Rows.subRow, Rows.slice, Nat.sub_zero]
      rw [min_eq_left (by omega)]
    have e2 : ∑ i ∈ range width, ((((x.slice (x.n - width + i - width) x.n).subRow (x.row (x.n - width + i))).n : F) - 1)
        = ∑ i ∈ range width, ∑ j ∈ range (x.n - (x.n - width + i - width)),
          (if x.n - width + i = x.n - width + i - width + j then 0 else 1) := by
      refine sum_congr rfl fun i hi => ?_
      rw [mem_range] at hi
      rw [cnt _ _ _ (by omega) (by omega)]
      simp only [Rows.subRow, Rows.slice, min_self]
    have e3 : ∑ i ∈ range (x.n - 2 * width), ∑ j ∈ range (2 * width + 1), (if width + i = i + j then (0 : F) else 1)
        = ((x.n : F) - 2 * width) * (2 * width) := by
      rw [sum_congr rfl fun i hi => cnt (2 * width + 1) (width + i) i (by omega) (by omega)]
      simp only [sum_const, card_range, nsmul_eq_mul]
      rw [Nat.cast_sub (by omega)]
      push_cast
      ring
    rw [e1, e2, e3]
    rw [show (windowSamples x w width a).numDiffs = a.numDiffs from rfl]
    ring
  · rw [addDiffs_sums, fold_sums, fold_sums]; simp [windowSamples]
  · simp

end window

end Mdp.Gsfa
