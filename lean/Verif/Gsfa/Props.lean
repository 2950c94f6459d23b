import Verif.Gsfa.Spec
import Mathlib.Algebra.Order.BigOperators.Ring.Finset
import Mathlib.Tactic.Linarith
import Mathlib.Tactic.Positivity
import Mathlib.Tactic.IntervalCases
import Mathlib.Tactic.NormNum

/-! # The accumulators hold the sums of the training graphs -/

namespace Mdp.Gsfa

open Mdp.Cov Finset Py

variable {F : Type} [Field F] {d : Nat}

/-! ## The accumulators -/

section acc
variable (a : Acc F d) (p : Mat F d d) (s : Row F d) (n w : F)

@[simp] theorem addSamples_prod (k l : Fin d) : (a.addSamples p s n w).prod k l = a.prod k l + p k l * w := by
  unfold Acc.addSamples Acc.prod
  rcases a.sums with _ | ⟨p', s'⟩ <;> simp
@[simp] theorem addSamples_sum (k : Fin d) : (a.addSamples p s n w).sum k = a.sum k + s k * w := by
  unfold Acc.addSamples Acc.sum
  rcases a.sums with _ | ⟨p', s'⟩ <;> simp
@[simp] theorem addSamples_num : (a.addSamples p s n w).num = a.num + n * w := rfl
@[simp] theorem addSamples_diff (k l : Fin d) : (a.addSamples p s n w).diff k l = a.diff k l := rfl
@[simp] theorem addSamples_diffs : (a.addSamples p s n w).diffs = a.diffs := rfl
@[simp] theorem addSamples_numDiffs : (a.addSamples p s n w).numDiffs = a.numDiffs := rfl
@[simp] theorem addSamples_some : (a.addSamples p s n w).sums.isSome := by
  unfold Acc.addSamples
  rcases a.sums with _ | ⟨p', s'⟩ <;> simp
@[simp] theorem addDiffs_prod (k l : Fin d) : (a.addDiffs p n w).prod k l = a.prod k l := rfl
@[simp] theorem addDiffs_sum (k : Fin d) : (a.addDiffs p n w).sum k = a.sum k := rfl
@[simp] theorem addDiffs_sums : (a.addDiffs p n w).sums = a.sums := rfl
@[simp] theorem addDiffs_num : (a.addDiffs p n w).num = a.num := rfl
@[simp] theorem addDiffs_numDiffs : (a.addDiffs p n w).numDiffs = a.numDiffs + n * w := rfl
@[simp] theorem addDiffs_diff (k l : Fin d) : (a.addDiffs p n w).diff k l = a.diff k l + p k l * w := by
  unfold Acc.addDiffs Acc.diff
  rcases a.diffs with _ | p' <;> simp
@[simp] theorem addDiffs_some : (a.addDiffs p n w).diffs.isSome := by
  unfold Acc.addDiffs
  rcases a.diffs with _ | p' <;> simp

end acc

section fold
variable (p : Nat → Mat F d d) (n : Nat → F) (w : F) (l : List Nat) (a : Acc F d)

@[simp] theorem fold_sums : (l.foldl (fun a o => a.addDiffs (p o) (n o) w) a).sums = a.sums := by
  induction l generalizing a with
  | nil => rfl
  | cons o l ih => rw [List.foldl_cons, ih, addDiffs_sums]
@[simp] theorem fold_prod (k m : Fin d) : (l.foldl (fun a o => a.addDiffs (p o) (n o) w) a).prod k m = a.prod k m := by
  unfold Acc.prod; rw [fold_sums]
@[simp] theorem fold_sum (k : Fin d) : (l.foldl (fun a o => a.addDiffs (p o) (n o) w) a).sum k = a.sum k := by
  unfold Acc.sum; rw [fold_sums]
@[simp] theorem fold_num : (l.foldl (fun a o => a.addDiffs (p o) (n o) w) a).num = a.num := by
  induction l generalizing a with
  | nil => rfl
  | cons o l ih => rw [List.foldl_cons, ih, addDiffs_num]
@[simp] theorem fold_numDiffs : (l.foldl (fun a o => a.addDiffs (p o) (n o) w) a).numDiffs
    = a.numDiffs + (l.map fun o => n o * w).sum := by
  induction l generalizing a with
  | nil => simp
  | cons o l ih => rw [List.foldl_cons, ih, addDiffs_numDiffs, List.map_cons, List.sum_cons, add_assoc]
@[simp] theorem fold_diff (k m : Fin d) : (l.foldl (fun a o => a.addDiffs (p o) (n o) w) a).diff k m
    = a.diff k m + (l.map fun o => p o k m * w).sum := by
  induction l generalizing a with
  | nil => simp
  | cons o l ih => rw [List.foldl_cons, ih, addDiffs_diff, List.map_cons, List.sum_cons, add_assoc]
theorem fold_some (hl : l ≠ []) : (l.foldl (fun a o => a.addDiffs (p o) (n o) w) a).diffs.isSome := by
  have : ∀ (l : List Nat) (a : Acc F d), a.diffs.isSome → (l.foldl (fun a o => a.addDiffs (p o) (n o) w) a).diffs.isSome := by
    intro l
    induction l with
    | nil => exact fun _ h => h
    | cons o l ih => exact fun a _ => ih _ (addDiffs_some ..)
  cases l with
  | nil => exact absurd rfl hl
  | cons o l => exact this l _ (addDiffs_some ..)

end fold

theorem range_map_sum (f : Nat → F) (n : Nat) : ((List.range n).map f).sum = ∑ i ∈ range n, f i := by
  induction n with
  | zero => simp
  | succ n ih => rw [List.range_succ, List.map_append, List.sum_append, ih, sum_range_succ]; simp

/-! ## Chains and graphs given by the user -/

theorem sq_comm (x : Rows F d) (k l : Fin d) (i j : Nat) : sq x k l i j = sq x k l j i := by unfold sq; ring
theorem sq_self (x : Rows F d) (k l : Fin d) (i : Nat) : sq x k l i i = 0 := by unfold sq; ring

/-- **C157** 'regular': a sequence is a chain. -/
theorem regular_graph (x : Rows F d) (w : F) (hx : 0 < x.n) (a : Acc F d) :
    ∃ a', updateRegular x w a = (.ok (), a') ∧ Adds a a' x (fun _ => w) (fun i j => w * chainEdge i j) := by
  refine ⟨_, rfl, ?_, ?_, ?_, ?_, ?_, ?_, ?_⟩
  · intro k; simp [Rows.colSum, sum_mul, mul_comm w]
  · intro k l; simp [Rows.multT, sum_mul, mul_comm w]
  · simp
  · intro k l
    have := sum_offset (fun i j => w * sq x k l i j) x.n 1
    simp only [addDiffs_diff, addSamples_diff, chainEdge, mul_ite, mul_one, mul_zero, ite_mul, zero_mul, this]
    simp [Rows.multT, Rows.sub, Rows.slice, sum_mul, sq]
    exact sum_congr rfl fun i _ => by ring
  · have := sum_offset (fun _ _ => w) x.n 1
    simp only [addDiffs_numDiffs, addSamples_numDiffs, chainEdge, mul_ite, mul_one, mul_zero, this]
    simp only [sum_const, card_range, nsmul_eq_mul]
    rw [Nat.cast_sub (by omega)]; simp
  · simp
  · simp

/-- **C157** 'unlabeled': samples without edges. -/
theorem unlabeled_graph (x : Rows F d) (w : F) (a : Acc F d) :
    ∃ a', updateUnlabeled x w a = (.ok (), a') ∧ a'.diffs = a.diffs ∧ a'.numDiffs = a.numDiffs ∧
      a'.num = a.num + ∑ _i ∈ range x.n, w ∧ (∀ k, a'.sum k = a.sum k + ∑ i ∈ range x.n, w * x.row i k) ∧
      ∀ k l, a'.prod k l = a.prod k l + ∑ i ∈ range x.n, w * (x.row i k * x.row i l) := by
  refine ⟨_, rfl, rfl, rfl, by simp, fun k => ?_, fun k l => ?_⟩
  · simp [Rows.colSum, sum_mul, mul_comm w]
  · simp [Rows.multT, sum_mul, mul_comm w]

/-- The node weights of `train`: ones, if not given. -/
def nodeWeight (node : Option (List F)) (i : Nat) : F := match node with | none => 1 | some l => l.getD i 0

/-- The weight of an edge in a dictionary. -/
def dictEdge (items : List ((Nat × Nat) × F)) (i j : Nat) : F := (items.map fun t => if t.1 = (i, j) then t.2 else 0).sum

theorem list_sum_range (l : List F) : l.sum = ∑ i ∈ range l.length, l.getD i 0 := by
  induction l with
  | nil => simp
  | cons a l ih => rw [List.sum_cons, List.length_cons, sum_range_succ', ih, add_comm]; simp

theorem nodeWeight_eq (node : Option (List F)) (n i : Nat) (hi : i < n) :
    (node.getD (List.replicate n 1)).getD i 0 = nodeWeight node i := by
  cases node with
  | none => simp [nodeWeight, List.getD, hi]
  | some l => rfl

theorem dict_sum (items : List ((Nat × Nat) × F)) (n : Nat) (h : items.any (fun t => n ≤ t.1.1 || n ≤ t.1.2) = false)
    (f : Nat → Nat → F) :
    ∑ i ∈ range n, ∑ j ∈ range n, dictEdge items i j * f i j = (items.map fun t => t.2 * f t.1.1 t.1.2).sum := by
  induction items with
  | nil => simp [dictEdge]
  | cons t l ih =>
    rw [List.any_cons, Bool.or_eq_false_iff] at h
    rw [List.map_cons, List.sum_cons, ← ih h.2]
    have h1 : t.1.1 < n ∧ t.1.2 < n := by
      have := h.1
      simp only [Bool.or_eq_false_iff, decide_eq_false_iff_not, not_le] at this
      exact this
    have h2 : ∑ i ∈ range n, ∑ j ∈ range n, (if t.1 = (i, j) then t.2 else 0) * f i j = t.2 * f t.1.1 t.1.2 := by
      rw [sum_eq_single t.1.1, sum_eq_single t.1.2]
      · simp
      · intro j _ hj; rw [if_neg (fun hh => hj (by rw [hh])), zero_mul]
      · intro hj; exact absurd (mem_range.2 h1.2) hj
      · intro i _ hi
        exact sum_eq_zero fun j _ => by rw [if_neg (fun hh => hi (by rw [hh])), zero_mul]
      · intro hj; exact absurd (mem_range.2 h1.1) hj
    rw [← h2, ← sum_add_distrib]
    refine sum_congr rfl fun i _ => ?_
    rw [← sum_add_distrib]
    refine sum_congr rfl fun j _ => ?_
    simp only [dictEdge, List.map_cons, List.sum_cons]
    ring

section graph
variable (x : Rows F d) (node : Option (List F)) (w : F) (a : Acc F d)

theorem graph_samples (hl : (node.getD (List.replicate x.n 1)).length = x.n) :
    let wx := x.scale fun i => (node.getD (List.replicate x.n 1)).getD i 0
    let b := a.addSamples (x.multT wx) wx.colSum (node.getD (List.replicate x.n 1)).sum w
    (∀ k, b.sum k = a.sum k + ∑ i ∈ range x.n, w * nodeWeight node i * x.row i k) ∧
    (∀ k l, b.prod k l = a.prod k l + ∑ i ∈ range x.n, w * nodeWeight node i * (x.row i k * x.row i l)) ∧
    b.num = a.num + ∑ i ∈ range x.n, w * nodeWeight node i := by
  refine ⟨fun k => ?_, fun k l => ?_, ?_⟩
  · simp only [addSamples_sum, Rows.colSum, Rows.scale, sum_mul]
    refine congrArg _ (sum_congr rfl fun i hi => ?_)
    rw [nodeWeight_eq node x.n i (mem_range.1 hi)]; ring
  · simp only [addSamples_prod, Rows.multT, Rows.scale, sum_mul]
    refine congrArg _ (sum_congr rfl fun i hi => ?_)
    rw [nodeWeight_eq node x.n i (mem_range.1 hi)]; ring
  · simp only [addSamples_num, list_sum_range, hl, sum_mul]
    refine congrArg _ (sum_congr rfl fun i hi => ?_)
    rw [nodeWeight_eq node x.n i (mem_range.1 hi)]; ring

/-- **C157** 'graph': a graph given as dictionary is the graph. -/
theorem dict_graph (hl : ∀ l, node = some l → l.length = x.n) (items : List ((Nat × Nat) × F))
    (hi : ∀ t ∈ items, t.1.1 < x.n ∧ t.1.2 < x.n) :
    ∃ a', updateGraph x node (some (.dict items)) w a = (.ok (), a') ∧
      Adds a a' x (fun i => w * nodeWeight node i) (fun i j => w * dictEdge items i j) := by
  have hl' : (node.getD (List.replicate x.n 1)).length = x.n := by
    cases node with
    | none => simp
    | some l => exact hl l rfl
  have hany : items.any (fun t => decide (x.n ≤ t.1.1) || decide (x.n ≤ t.1.2)) = false := by
    rw [List.any_eq_false]
    intro t ht
    have := hi t ht
    simp [this]
  have hs := graph_samples x node w a hl'
  simp only [updateGraph, hl', ne_eq, not_true, if_false, Edges.shape, Bool.true_eq_false, hany, Bool.false_eq_true,
    M.bind_def, M.modify_def]
  refine ⟨_, rfl, hs.1, hs.2.1, hs.2.2, ?_, ?_, ?_, ?_⟩
  · intro k l
    have := dict_sum items x.n hany (sq x k l)
    simp only [mul_assoc, ← mul_sum, this, addDiffs_diff, addSamples_diff]
    rw [mul_comm w]
    congr 3
    exact List.map_congr_left fun t _ => by unfold sq; ring
  · have := dict_sum items x.n hany (fun _ _ => 1)
    simp only [mul_one] at this
    simp only [← mul_sum, this, addDiffs_numDiffs, addSamples_numDiffs]
    rw [mul_comm w]
  · simp
  · simp

/-- **C158** partial: a graph given as array is the graph if the array is symmetric and the weights of the edges at each
sample sum up to its node weight. -/
theorem array_graph_partial (hl : ∀ l, node = some l → l.length = x.n) (e : Nat → Nat → F)
    (hsym : ∀ i < x.n, ∀ j < x.n, e i j = e j i) (hrow : ∀ i < x.n, ∑ j ∈ range x.n, e i j = nodeWeight node i) :
    ∃ a', updateGraph x node (some (.array x.n x.n e)) w a = (.ok (), a') ∧
      Adds a a' x (fun i => w * nodeWeight node i) (fun i j => w * e i j) := by
  have hl' : (node.getD (List.replicate x.n 1)).length = x.n := by
    cases node with
    | none => simp
    | some l => exact hl l rfl
  have hs := graph_samples x node w a hl'
  simp only [updateGraph, hl', ne_eq, not_true, if_false, Edges.shape, Bool.true_eq_false, decide_true, Bool.and_self,
    M.bind_def, M.modify_def]
  refine ⟨_, rfl, hs.1, hs.2.1, hs.2.2, ?_, ?_, ?_, ?_⟩
  · intro k l
    simp only [addDiffs_diff, addSamples_diff, mul_assoc, ← mul_sum]
    congr 1
    rw [mul_comm w]
    congr 1
    have h1 : ∀ i ∈ range x.n, ∀ j ∈ range x.n, e i j * sq x k l i j
        = e i j * (x.row i k * x.row i l) + e j i * (x.row j k * x.row j l)
          - x.row i k * e i j * x.row j l - x.row j k * e j i * x.row i l := by
      intro i hi j hj
      rw [hsym j (mem_range.1 hj) i (mem_range.1 hi)]; unfold sq; ring
    rw [sum_congr rfl fun i hi => sum_congr rfl (h1 i hi)]
    simp only [sum_sub_distrib, sum_add_distrib]
    have h2 : ∑ i ∈ range x.n, ∑ j ∈ range x.n, e j i * (x.row j k * x.row j l)
        = ∑ i ∈ range x.n, ∑ j ∈ range x.n, e i j * (x.row i k * x.row i l) := sum_comm
    have h3 : ∑ i ∈ range x.n, ∑ j ∈ range x.n, x.row j k * e j i * x.row i l
        = ∑ i ∈ range x.n, ∑ j ∈ range x.n, x.row i k * e i j * x.row j l := sum_comm
    have h4 : ∑ i ∈ range x.n, ∑ j ∈ range x.n, e i j * (x.row i k * x.row i l)
        = ∑ i ∈ range x.n, x.row i k * (x.scale fun i => (node.getD (List.replicate x.n 1)).getD i 0).row i l := by
      refine sum_congr rfl fun i hi => ?_
      rw [← sum_mul, hrow i (mem_range.1 hi)]
      simp only [Rows.scale]
      rw [nodeWeight_eq node x.n i (mem_range.1 hi)]; ring
    have h5 : ∑ i ∈ range x.n, ∑ j ∈ range x.n, x.row i k * e i j * x.row j l
        = ∑ j ∈ range x.n, (∑ i ∈ range x.n, x.row i k * e i j) * x.row j l := by
      rw [sum_comm]
      exact sum_congr rfl fun j _ => by rw [sum_mul]
    rw [h2, h3, h4, h5]
    simp only [Rows.multT]
    ring
  · simp only [← mul_sum, addDiffs_numDiffs, addSamples_numDiffs]
    rw [mul_comm w]
  · simp
  · simp

end graph

/-- **C158**: with other weights the array is another graph than the same dictionary. Two samples, connected with weight two
in both directions, with node weights one. The graph obeys the consistency restriction of GSFA: the weights of the edges at
each sample are proportional to its node weight. -/
theorem array_graph_false : ∃ (x : Rows ℚ 1) (e : Nat → Nat → ℚ) (items : List ((Nat × Nat) × ℚ)),
    (∀ i j, e i j = e j i) ∧ (∀ i < x.n, ∀ j < x.n, e i j = dictEdge items i j) ∧
    (∀ i < x.n, ∑ j ∈ range x.n, e i j = 2 * nodeWeight none i) ∧
    ((updateGraph x none (some (.array x.n x.n e)) 1) Acc.new).2.diff 0 0 < 0 ∧
    0 < ((updateGraph x none (some (.dict items)) 1) Acc.new).2.diff 0 0 := by
  refine ⟨⟨2, fun i _ => if i = 0 then 1 else 2⟩, fun i j => if i = j then 0 else 2, [((0, 1), 2), ((1, 0), 2)], ?_, ?_, ?_, ?_, ?_⟩
  · intro i j; simp only [eq_comm]
  · intro i hi j hj
    change i < 2 at hi
    change j < 2 at hj
    interval_cases i <;> interval_cases j <;> simp [dictEdge]
  · intro i hi
    change i < 2 at hi
    interval_cases i <;> simp [nodeWeight, sum_range_succ]
  · norm_num [updateGraph, Edges.shape, M.bind_def, Acc.diff, Acc.addDiffs, Acc.addSamples, Acc.new, Rows.multT, Rows.scale,
      sum_range_succ]
  · norm_num [updateGraph, Edges.shape, M.bind_def, Acc.diff, Acc.addDiffs, Acc.addSamples, Acc.new, Rows.multT, Rows.scale,
      sum_range_succ]

end Mdp.Gsfa
