import Verif.Gsfa.Out

/-! # Order of the samples, joining of accumulators, cases that differ from what the modes promise -/

namespace Mdp.Gsfa

open Mdp.Cov Finset Py

variable {F : Type} [Field F] {d : Nat}

/-! ## Classification does not depend on the order of the samples -/

section
variable [CharZero F]

/-- **C165**: samples and labels can be given in any order. -/
theorem classification_order (argsort : List Int → List Nat) (hs : Argsort argsort) (x : Rows F d) (labels : List Int)
    (hn : labels.length = x.n) (h0 : 0 < x.n) (w : F) (o : List Nat) (ho : o.Perm (List.range x.n)) :
    updateClassification argsort ⟨x.n, fun i => x.row (o.getD i 0)⟩ (o.map fun i => labels.getD i 0) w
      = updateClassification argsort x labels w := by
  funext a
  have hlen : o.length = x.n := by rw [ho.length_eq, List.length_range]
  have hne : labels ≠ [] := by rintro rfl; simp at hn; omega
  have hne' : (o.map fun i => labels.getD i 0) ≠ [] := by
    intro h
    have := congrArg List.length h
    simp at this
    rw [this] at hlen; simp at hlen; omega
  obtain ⟨b, hb, hb'⟩ := classification_graph argsort hs (⟨x.n, fun i => x.row (o.getD i 0)⟩ : Rows F d)
    (o.map fun i => labels.getD i 0) (by simp [hlen]) hne' w a
  obtain ⟨c, hc, hc'⟩ := classification_graph argsort hs x labels (le_of_eq hn) hne w a
  rw [hb, hc]
  have hperm : (o.map fun i => labels.getD i 0).Perm labels := by
    refine (ho.map _).trans ?_
    have : (List.range x.n).map (fun i => labels.getD i 0) = labels := by
      refine List.ext_getElem (by simp [hn]) fun i hi _ => ?_
      simp at hi
      simp [List.getD, hi, hn]
    rw [this]
  have hedge : ∀ i < o.length, ∀ j < o.length,
      (classEdge (o.map fun i => labels.getD i 0) i j : F) = classEdge labels (o.getD i 0) (o.getD j 0) := by
    intro i hi j hj
    have h1 : ∀ i < o.length, (o.map fun i => labels.getD i 0).getD i 0 = labels.getD (o.getD i 0) 0 := by
      intro i hi; simp [List.getD, hi]
    simp only [classEdge, h1 i hi, h1 j hj, hperm.count_eq]
  have hlm : (o.map fun i => labels.getD i 0).length = o.length := List.length_map ..
  have hdouble : ∀ f : Nat → Nat → F, ∑ i ∈ range o.length, ∑ j ∈ range o.length,
      w * classEdge (o.map fun i => labels.getD i 0) i j * f (o.getD i 0) (o.getD j 0)
      = ∑ i ∈ range x.n, ∑ j ∈ range x.n, w * classEdge labels i j * f i j := by
    intro f
    have h1 : ∀ i ∈ range o.length, ∑ j ∈ range o.length,
        w * classEdge (o.map fun i => labels.getD i 0) i j * f (o.getD i 0) (o.getD j 0)
        = ∑ j ∈ range x.n, w * classEdge labels (o.getD i 0) j * f (o.getD i 0) j := by
      intro i hi
      rw [← perm_sum o x.n ho fun j => w * classEdge labels (o.getD i 0) j * f (o.getD i 0) j]
      refine sum_congr rfl fun j hj => ?_
      rw [hedge i (mem_range.1 hi) j (mem_range.1 hj)]
    rw [sum_congr rfl h1]
    exact perm_sum o x.n ho fun i => ∑ j ∈ range x.n, w * classEdge labels i j * f i j
  have hone := hdouble fun _ _ => 1
  simp only [mul_one] at hone
  congr 1
  refine acc_ext hb'.some_sums hc'.some_sums hb'.some_diffs hc'.some_diffs ?_ ?_ ?_ ?_ ?_
  · intro k l
    rw [hb'.prod, hc'.prod, hlm, hn]
    exact congrArg _ (perm_sum o x.n ho fun i => w * (x.row i k * x.row i l))
  · intro k
    rw [hb'.sum, hc'.sum, hlm, hn]
    exact congrArg _ (perm_sum o x.n ho fun i => w * x.row i k)
  · rw [hb'.num, hc'.num, hlm, hn, hlen]
  · intro k l
    rw [hb'.diff, hc'.diff, hlm, hn]
    exact congrArg _ (hdouble (sq x k l))
  · rw [hb'.numDiffs, hc'.numDiffs, hlm, hn]
    exact congrArg _ hone

/-- **C161**: samples without a label are ignored without an exception. -/
theorem classification_short_false (argsort : List Int → List Nat) (hs : Argsort argsort) (x : Rows F d) (labels : List Int)
    (hn : labels.length < x.n) (h0 : labels ≠ []) (w : F) (a : Acc F d) :
    ∃ a', updateClassification argsort x labels w a = (.ok (), a') ∧ a'.num = a.num + w * labels.length := by
  obtain ⟨a', h, h'⟩ := classification_graph argsort hs x labels hn.le h0 w a
  exact ⟨a', h, by rw [h'.num]; simp [mul_comm]⟩

end

/-- **C161**: too many labels are refused. -/
theorem classification_long (argsort : List Int → List Nat) (x : Rows F d) (labels : List Int) (hn : x.n < labels.length) (w : F)
    (a : Acc F d) : updateClassification argsort x labels w a = (.error .index, a) := by
  simp only [updateClassification, if_pos hn, M.raise_def]

/-! ## Joining accumulators -/

theorem nodeSum_append (gs hs : List (Graph F d)) (f : Row F d → F) : nodeSum (gs ++ hs) f = nodeSum gs f + nodeSum hs f := by
  simp [nodeSum]

theorem edgeSum_append (gs hs : List (Graph F d)) (f : Row F d → Row F d → F) :
    edgeSum (gs ++ hs) f = edgeSum gs f + edgeSum hs f := by
  simp [edgeSum]

/-- The graphs with all weights multiplied. -/
def Graph.times (c : F) (g : Graph F d) : Graph F d := ⟨g.x, fun i => c * g.v i, fun i j => c * g.e i j⟩

theorem nodeSum_times (c : F) (gs : List (Graph F d)) (f : Row F d → F) :
    nodeSum (gs.map (Graph.times c)) f = c * nodeSum gs f := by
  induction gs with
  | nil => simp [nodeSum]
  | cons g gs ih =>
    rw [List.map_cons, nodeSum_cons, nodeSum_cons, ih, mul_add, mul_sum]
    congr 1
    exact sum_congr rfl fun i _ => by simp only [Graph.times]; ring

theorem edgeSum_times (c : F) (gs : List (Graph F d)) (f : Row F d → Row F d → F) :
    edgeSum (gs.map (Graph.times c)) f = c * edgeSum gs f := by
  induction gs with
  | nil => simp [edgeSum]
  | cons g gs ih =>
    rw [List.map_cons, edgeSum_cons, edgeSum_cons, ih, mul_add, mul_sum]
    congr 1
    refine sum_congr rfl fun i _ => ?_
    rw [mul_sum]
    exact sum_congr rfl fun i _ => by simp only [Graph.times]; ring

/-- **C166**: `add_cov_dcov_matrix` adds the graphs of the other object to the own ones, with the given weights. -/
theorem join_graphs {a b : Acc F d} {gs hs : List (Graph F d)} (ha : Holds a gs) (hb : Holds b hs) (h1 : b.sums.isSome)
    (h2 : b.diffs.isSome) (adding own : F) : ∃ a', addCovDCov b adding own a = (.ok (), a') ∧
      Holds a' (gs.map (Graph.times own) ++ hs.map (Graph.times adding)) := by
  obtain ⟨bs, bn, bd, bm⟩ := b
  obtain ⟨⟨bp, bs⟩, rfl⟩ := Option.isSome_iff_exists.1 h1
  obtain ⟨bd, rfl⟩ := Option.isSome_iff_exists.1 h2
  obtain ⟨as, an, ad, am⟩ := a
  have e1 := ha.sum
  have e2 := ha.prod
  have e3 := ha.num
  have e4 := ha.diff
  have e5 := ha.numDiffs
  have f1 := hb.sum
  have f2 := hb.prod
  have f3 := hb.num
  have f4 := hb.diff
  have f5 := hb.numDiffs
  simp only [Acc.sum, Acc.prod, Acc.diff] at e1 e2 e3 e4 e5 f1 f2 f3 f4 f5
  refine ⟨_, rfl, ?_, ?_, ?_, ?_, ?_, ?_, ?_⟩
  · intro k
    rw [nodeSum_append, nodeSum_times, nodeSum_times, ← f1, ← e1]
    rcases as with _ | ⟨p, s⟩ <;> simp [Acc.sum, mul_comm]
  · intro k l
    rw [nodeSum_append, nodeSum_times, nodeSum_times, ← f2, ← e2]
    rcases as with _ | ⟨p, s⟩ <;> simp [Acc.prod, mul_comm]
  · rw [nodeSum_append, nodeSum_times, nodeSum_times, ← f3, ← e3]
    simp [mul_comm]
  · intro k l
    rw [edgeSum_append, edgeSum_times, edgeSum_times, ← f4, ← e4]
    rcases ad with _ | p <;> simp [Acc.diff, mul_comm]
  · rw [edgeSum_append, edgeSum_times, edgeSum_times, ← f5, ← e5]
    simp [mul_comm]
  · simp
  · simp

/-! ## Cases that differ -/

section
variable [CharZero F]

/-- **C161**: 'serial' with a single block: nothing is counted, but the sums change. -/
theorem serial_single_false (x : Rows F d) (w : F) (h0 : 0 < x.n) (a : Acc F d) :
    ∃ a', updateSerialInt x x.n w a = (.ok (), a') ∧ a'.num = a.num ∧ a'.numDiffs = a.numDiffs ∧
      (∀ k, a'.sum k = a.sum k + 2 * w * ∑ i ∈ range x.n, x.row i k) ∧
      ∀ k l, a'.diff k l = a.diff k l + 4 * w * ∑ i ∈ range x.n, x.row i k * x.row i l := by
  have hd : x.n / x.n = 1 := Nat.div_self h0
  have hx : (x.n : F) ≠ 0 := Nat.cast_ne_zero.2 (by omega)
  simp only [updateSerialInt, if_neg (show ¬ x.n = 0 by omega), Nat.mod_self, lt_irrefl, if_false, M.modify_def]
  refine ⟨_, rfl, ?_, ?_, fun k => ?_, fun k l => ?_⟩
  · rw [addDiffs_num, addSamples_num]; ring
  · rw [addDiffs_numDiffs, addSamples_numDiffs]
    simp only [means, hd]
    simp
  · rw [addDiffs_sum, addSamples_sum]
    simp [Rows.colSum, Rows.slice]
    ring
  · rw [addDiffs_diff, addSamples_diff]
    simp [Rows.multT, Rows.slice, means, hd]
    field_simp
    ring

end

/-- **C161**: the second graph of 'DualSerial' has the weight zero: an accepted call adds the graph of 'serial'. -/
theorem dual_serial_graph [CharZero F] (x : Rows F d) (k b : Nat) (hb : 0 < b) (hn : b ∣ x.n) (h2 : 2 * b ≤ x.n) (a a' : Acc F d)
    (h : updateDualSerial x k (.int b) a = (.ok (), a')) :
    Adds a a' x (serialNode x.n b) (serialEdge b) := by
  obtain ⟨a1, h1, g1⟩ := serial_graph x (1 : F) b hb hn h2 a
  simp only [one_mul] at g1
  simp only [updateDualSerial] at h
  split at h
  · simp [M.raise_def] at h
  generalize (List.foldl _ _ _ : Rows F d) = y at h
  generalize x.n / k = q at h
  simp only [M.bind_def, h1] at h
  simp only [updateSerialInt] at h
  split at h
  · simp [M.raise_def] at h
  split at h
  · simp [M.raise_def] at h
  simp only [M.modify_def, Prod.mk.injEq, true_and] at h
  subst h
  refine ⟨fun k => ?_, fun k l => ?_, ?_, fun k l => ?_, ?_, ?_, ?_⟩
  · rw [addDiffs_sum, addSamples_sum, mul_zero, add_zero, g1.sum]
  · rw [addDiffs_prod, addSamples_prod, mul_zero, add_zero, g1.prod]
  · rw [addDiffs_num, addSamples_num, mul_zero, add_zero, g1.num]
  · rw [addDiffs_diff, addSamples_diff, mul_zero, add_zero, g1.diff]
  · rw [addDiffs_numDiffs, addSamples_numDiffs, mul_zero, add_zero, g1.numDiffs]
  · rw [addDiffs_sums]; exact addSamples_some ..
  · exact addDiffs_some ..

/-- **C161**: in a list of modes, 'serial_regression' replaces the block size for the modes after it: what is passed for
`block_size` has no effect on them. -/
theorem modes_block_size_false (argsort : List Int → List Nat) (x : Rows F d) (g : Args F) (b : Nat) (labels : List Int) (w : F)
    (bs : BlockSize) (ms : List (Mode F)) :
    updateModes argsort x { g with blockSize := bs } (.regression b labels w :: ms)
      = updateModes argsort x g (.regression b labels w :: ms) := rfl

/-- **C161**: a call that is refused can have added data: 'mixed' with three samples and blocks of two. -/
theorem mixed_refused_false : ∃ (x : Rows ℚ 1) (a' : Acc ℚ 1), updateMixed x (.int 2) Acc.new = (.error .value, a') ∧ a'.num = 8 := by
  refine ⟨⟨3, fun _ _ => 1⟩, (updateMixed ⟨3, fun _ _ => 1⟩ (.int 2) Acc.new).2, ?_, ?_⟩ <;>
  norm_num [updateMixed, updateClusteredInt, updateSerialInt, Rows.slice, M.bind_def, M.modify_def, M.raise_def, Acc.new,
    Acc.addSamples, Acc.addDiffs]

/-! ## Examples -/

/-- Stable sort of the positions. -/
def exArgsort (l : List Int) : List Nat :=
  (List.range l.length).mergeSort fun i j => decide (l.getD i 0 ≤ l.getD j 0)

theorem exArgsort_spec : Argsort exArgsort := by
  refine ⟨fun l => List.mergeSort_perm .., fun l => ?_⟩
  rw [List.pairwise_map]
  have := List.pairwise_mergeSort (le := fun i j : Nat => decide (l.getD i 0 ≤ l.getD j 0))
    (fun a b c => by simpa only [decide_eq_true_eq] using fun h1 h2 => le_trans h1 h2)
    (fun a b => by simpa using le_total (l.getD a 0) (l.getD b 0)) (List.range l.length)
  exact this.imp fun h => by simpa using h

/-- Four samples with labels 2, 1, 2, 1. -/
def exX : Rows ℚ 1 := ⟨4, fun i _ => i⟩

theorem ex_count1 : List.count 1 ([2, 1, 2, 1] : List Int) = 2 := by decide
theorem ex_count2 : List.count 2 ([2, 1, 2, 1] : List Int) = 2 := by decide

example : ∃ a', updateClassification exArgsort exX [2, 1, 2, 1] 1 Acc.new = (.ok (), a') ∧ a'.diff 0 0 = 8 ∧ a'.numDiffs = 4 := by
  obtain ⟨a', h, h'⟩ := classification_graph exArgsort exArgsort_spec exX [2, 1, 2, 1] (by decide) (by decide) 1 Acc.new
  refine ⟨a', h, ?_, ?_⟩
  · rw [h'.diff]; norm_num [sum_range_succ, classEdge, sq, exX, ex_count1, ex_count2]
  · rw [h'.numDiffs]; norm_num [sum_range_succ, classEdge, ex_count1, ex_count2]

example : ∃ a', updateMixed exX (.int 2) Acc.new = (.ok (), a') ∧ a'.num = 12 ∧ a'.numDiffs = 12 := by
  obtain ⟨a', h, h'⟩ := mixed_graph exX 2 (by decide) (by decide) (by decide) Acc.new
  refine ⟨a', h, ?_, ?_⟩
  · rw [h'.num]; norm_num [exX]
  · rw [h'.numDiffs]; norm_num [sum_range_succ, exX, mixedEdge, blockEdge, serialEdge]

/-- The samples 1, -1, -1, 1. -/
def exY : Rows ℚ 1 := ⟨4, fun i _ => if i = 0 ∨ i = 3 then 1 else -1⟩

/-- Two calls of `train`: a chain, and two classes. -/
def exCalls : List (Call ℚ 1) := [⟨exY, {}, .regular⟩, ⟨exY, {}, .classification [2, 1, 2, 1] 1⟩]
def exGraphs : List (Graph ℚ 1) :=
  [⟨exY, fun _ => 1, chainEdge⟩, ⟨exY, fun _ => 1, fun i j => 1 * classEdge [2, 1, 2, 1] i j⟩]

theorem exCalls_graphs : List.Forall₂ (fun c g => ModeGraph exArgsort c.x c.args c.mode g) exCalls exGraphs :=
  .cons (.regular (by decide)) (.cons (.classification _ _ (by decide) (by decide)) .nil)

theorem ex_card : #({x ∈ range 4 | x + 1 < 4}) = 3 := by decide

theorem ex_nodes : nodeSum exGraphs (fun _ => 1) = 8 := by
  norm_num [nodeSum, exGraphs, exY]

theorem ex_edges : edgeSum exGraphs (fun _ _ => 1) = 7 := by
  norm_num [edgeSum, exGraphs, exY, sum_range_succ, chainEdge, classEdge, ex_count1, ex_count2, ex_card]

theorem ex_nonneg : ∀ g ∈ exGraphs, ∀ i < g.x.n, ∀ j < g.x.n, 0 ≤ g.e i j := by
  intro g hg i _ j _
  simp only [exGraphs, List.mem_cons, List.not_mem_nil, or_false] at hg
  rcases hg with rfl | rfl
  · simp only [chainEdge]; split_ifs <;> norm_num
  · simp only [classEdge]; split_ifs <;> positivity

theorem ex_cov : wcovOf exGraphs = fun _ _ => 1 := by
  funext k l
  fin_cases k; fin_cases l
  norm_num [wcovOf, wcov, wmean, nodeSum, exGraphs, exY, sum_range_succ]

theorem ex_moment : wmoment exGraphs = fun _ _ => 16 / 7 := by
  funext k l
  fin_cases k; fin_cases l
  norm_num [wmoment, edgeSum, exGraphs, exY, sum_range_succ, chainEdge, classEdge, ex_count1, ex_count2, ex_card]

def exSolver : Sfa.Solver ℚ 1 := fun _ _ _ => some [(16 / 7, fun _ => 1)]

theorem exSolves : Sfa.Solves exSolver (wmoment exGraphs) (wcovOf exGraphs) (fun _ => 16 / 7) (fun _ _ => 1) := by
  refine ⟨⟨?_, ?_, fun _ _ _ => le_refl _⟩, rfl, fun k h1 h2 => ?_⟩
  · intro i k
    rw [ex_moment, ex_cov]; simp
  · intro i j
    rw [ex_cov]
    simp [Sfa.form, Subsingleton.elim i j]
  · obtain rfl : k = 1 := by omega
    rfl

theorem exValid : Sfa.Valid (none : Option Nat) 1 := fun k h => by cases h

example := gsfa_outputs exArgsort_spec none exCalls exGraphs exCalls_graphs (by rw [ex_nodes]; norm_num) (by rw [ex_edges]; norm_num)
  ex_nonneg exSolver exSolves exValid
example := gsfa_slowest exArgsort_spec none exCalls exGraphs exCalls_graphs (by rw [ex_nodes]; norm_num) (by rw [ex_edges]; norm_num)
  ex_nonneg exSolver exSolves exValid

/-- A solver that fails: the second attempt succeeds. -/
example : ((trained exArgsort none exCalls).stop (fun _ _ _ => none)).1 = .error .symeig ∧
    ((((trained exArgsort none exCalls).stop (fun _ _ _ => none)).2).stop exSolver).1 = .ok () := by
  obtain ⟨a, hta, ha⟩ := trained_holds exArgsort_spec none exCalls exGraphs exCalls_graphs
  have hf := fix_weighted ha.reverse (by rw [ex_nodes]; norm_num) (by rw [ex_edges]; norm_num)
  have h : (trained exArgsort none exCalls).stop (fun _ _ _ => none) =
      (.error .symeig, ((trained exArgsort none exCalls).stop (fun _ _ _ => none)).2) := by
    rw [hta]
    simp only [St.stop, hf, Sfa.setRange]
  refine ⟨by rw [h], ?_⟩
  rw [gsfa_retry _ exSolver _ _ .symeig h (fun _ _ => rfl), hta]
  have := stop_ok ha.reverse (by rw [ex_nodes]; norm_num) (by rw [ex_edges]; norm_num) ex_nonneg exSolver exSolves none exValid
  rw [this.2]

/-- Joining the accumulators of two calls. -/
example : ∃ a b a' : Acc ℚ 1, updateRegular exX 1 Acc.new = (.ok (), a) ∧ updateRegular exX 1 Acc.new = (.ok (), b) ∧
    addCovDCov b 1 1 a = (.ok (), a') ∧ a'.num = 8 := by
  obtain ⟨a, h, h'⟩ := regular_graph exX (1 : ℚ) (by decide) Acc.new
  have ha := Holds.new.adds (g := ⟨exX, _, _⟩) h'
  obtain ⟨a', h1, h2⟩ := join_graphs ha ha h'.some_sums h'.some_diffs 1 1
  refine ⟨a, a, a', h, h, h1, ?_⟩
  rw [h2.num]
  norm_num [nodeSum, Graph.times, exX]

/-- Clusters of sizes one and three; a chain; blocks; mirrored windows; a dictionary. -/
example := clustered_list_graph exX (1 : ℚ) [1, 3] (by decide) (by decide) (by decide) Acc.new
example := clustered_graph exX (1 : ℚ) 2 (by decide) (by decide) Acc.new
example := clustered_graph_no_loops exX (1 : ℚ) 2 (by decide) (by decide) Acc.new
example := serial_graph exX (1 : ℚ) 2 (by decide) (by decide) (by decide) Acc.new
example := mirror_graph exX (1 : ℚ) 1 (by decide) (by decide) Acc.new
example := truncating_graph exX (1 : ℚ) 1 (by decide) (by decide) Acc.new
example := dict_graph exX none (1 : ℚ) Acc.new (by simp) [((0, 3), 2), ((1, 1), 1)] (by decide)
example := array_graph_partial exX none (1 : ℚ) Acc.new (by simp) (fun i j => if i + j = 3 then 1 else 0)
  (by decide +kernel) (by decide +kernel)
example := classification_order exArgsort exArgsort_spec exX [2, 1, 2, 1] (by decide) (by decide) 1 [3, 1, 0, 2] (by decide)
example := modes_graphs_partial (F := ℚ) exArgsort_spec (x := exX) (g := { blockSize := .int 2 })
  (.cons (.serial 2 rfl (by decide) (by decide) (by decide)) (.cons (.regular (by decide)) .nil)) (by simp) Holds.new

example := slow_mirror_graph exX (1 : ℚ) 1 (by decide) (by decide) Acc.new
example := fast_window_graph_partial exX (1 : ℚ) 1 (by decide) Acc.new (by decide)
example := clustered_list_error exX (1 : ℚ) [1, 2] (by decide) true Acc.new

end Mdp.Gsfa
