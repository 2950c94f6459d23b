import Verif.Gsfa.Blocks
import Mathlib.Data.List.GetD

/-! # Blocks of different sizes, classes, the mixed graph -/

namespace Mdp.Gsfa

open Mdp.Cov Finset Py

variable {F : Type} [Field F] {d : Nat}

/-! ## Blocks of different sizes -/

/-- Sum over the pairs in the blocks, from position `c` on. -/
def blocksSum (f : Nat → Nat → F) : Nat → List Nat → F
  | _, [] => 0
  | c, b :: l => 1 / b * (∑ i ∈ range b, ∑ j ∈ range b, f (c + i) (c + j)) + blocksSum f (c + b) l

theorem blocksSum_eq (f : Nat → Nat → F) (c : Nat) (l : List Nat) :
    blocksSum f c l = ∑ t ∈ range l.length, 1 / (l.getD t 0 : F) * ∑ i ∈ range (l.getD t 0), ∑ j ∈ range (l.getD t 0),
      f (c + (l.take t).sum + i) (c + (l.take t).sum + j) := by
  induction l generalizing c with
  | nil => simp [blocksSum]
  | cons b l ih =>
    rw [blocksSum, ih, List.length_cons, sum_range_succ', add_comm]
    congr 1
    refine sum_congr rfl fun t _ => ?_
    simp only [List.getD_cons_succ, List.take_succ_cons, List.sum_cons, Nat.add_assoc]

theorem take_sum_succ (l : List Nat) (t : Nat) (ht : t < l.length) : (l.take (t + 1)).sum = (l.take t).sum + l.getD t 0 := by
  induction l generalizing t with
  | nil => simp at ht
  | cons b l ih =>
    cases t with
    | zero => simp
    | succ t =>
      have := ih t (by simpa using ht)
      simp only [List.take_succ_cons, List.sum_cons, List.getD_cons_succ, this, Nat.add_assoc]

theorem take_sum_le (l : List Nat) (t : Nat) : (l.take t).sum ≤ l.sum := by
  conv_rhs => rw [← List.take_append_drop t l, List.sum_append]
  omega

theorem blocksEdge_sum (sizes : List Nat) (f : Nat → Nat → F) :
    ∑ i ∈ range sizes.sum, ∑ j ∈ range sizes.sum, blocksEdge sizes i j * f i j = blocksSum f 0 sizes := by
  rw [blocksSum_eq]
  have h1 : ∀ i ∈ range sizes.sum, ∑ j ∈ range sizes.sum, blocksEdge sizes i j * f i j
      = ∑ t ∈ range sizes.length, ∑ j ∈ range sizes.sum, (if (sizes.take t).sum ≤ i ∧ i < (sizes.take (t + 1)).sum ∧
        (sizes.take t).sum ≤ j ∧ j < (sizes.take (t + 1)).sum then 1 / (sizes.getD t 0 : F) else 0) * f i j := by
    intro i _
    simp only [blocksEdge, sum_mul]
    rw [sum_comm]
  rw [sum_congr rfl h1, sum_comm]
  refine sum_congr rfl fun t ht => ?_
  rw [mem_range] at ht
  have hs := take_sum_succ sizes t ht
  have hle := take_sum_le sizes (t + 1)
  have h2 : ∀ i ∈ range sizes.sum, ∑ j ∈ range sizes.sum, (if (sizes.take t).sum ≤ i ∧ i < (sizes.take (t + 1)).sum ∧
        (sizes.take t).sum ≤ j ∧ j < (sizes.take (t + 1)).sum then 1 / (sizes.getD t 0 : F) else 0) * f i j
      = if (sizes.take t).sum ≤ i ∧ i < (sizes.take (t + 1)).sum then
          ∑ j ∈ range (sizes.getD t 0), 1 / (sizes.getD t 0 : F) * f i ((sizes.take t).sum + j) else 0 := by
    intro i _
    by_cases h : (sizes.take t).sum ≤ i ∧ i < (sizes.take (t + 1)).sum
    · rw [if_pos h]
      have := sum_part (fun j => 1 / (sizes.getD t 0 : F) * f i j) (a := (sizes.take t).sum) (b := (sizes.take (t + 1)).sum) hle
      rw [hs, Nat.add_sub_cancel_left] at this
      rw [← this, ← hs]
      refine sum_congr rfl fun j _ => ?_
      simp only [h.1, h.2, true_and]
      split_ifs <;> simp
    · rw [if_neg h]
      refine sum_eq_zero fun j _ => ?_
      rw [if_neg (fun hh => h ⟨hh.1, hh.2.1⟩), zero_mul]
  rw [sum_congr rfl h2, sum_part (fun i => ∑ j ∈ range (sizes.getD t 0), 1 / (sizes.getD t 0 : F) * f i ((sizes.take t).sum + j)) hle, hs,
    Nat.add_sub_cancel_left]
  simp only [Nat.zero_add, mul_sum]

section
variable [CharZero F]

/-- The loop over the blocks. -/
theorem clusterLoop_spec (x : Rows F d) (w : F) (l : List Nat) (hl : ∀ b ∈ l, 0 < b) (c : Nat) (hc : c + l.sum ≤ x.n)
    (a : Acc F d) (hl0 : l ≠ []) : ∃ a', clusterLoop x w true c l a = (.ok (), a') ∧
      (∀ k, a'.sum k = a.sum k + ∑ i ∈ range l.sum, w * x.row (c + i) k) ∧
      (∀ k m, a'.prod k m = a.prod k m + ∑ i ∈ range l.sum, w * (x.row (c + i) k * x.row (c + i) m)) ∧
      a'.num = a.num + w * l.sum ∧ (∀ k m, a'.diff k m = a.diff k m + w * blocksSum (sq x k m) c l) ∧
      a'.numDiffs = a.numDiffs + w * blocksSum (fun _ _ => 1) c l ∧ a'.sums.isSome ∧ a'.diffs.isSome := by
  induction l generalizing c a with
  | nil => exact absurd rfl hl0
  | cons b l ih =>
    rw [List.sum_cons] at hc
    have hb := hl b (List.mem_cons_self ..)
    have hn : (x.slice c (c + b)).n = b := by simp only [Rows.slice]; omega
    obtain ⟨a1, h1, g1⟩ := clustered_graph (x.slice c (c + b)) w b hb (by rw [hn]) a
    have hblock : ∀ f : Nat → Nat → F, ∑ i ∈ range b, ∑ j ∈ range b, w * blockEdge b i j * f i j
        = w * (1 / b * ∑ i ∈ range b, ∑ j ∈ range b, f i j) := by
      intro f
      rw [mul_sum, mul_sum]
      refine sum_congr rfl fun i hi => ?_
      rw [mul_sum, mul_sum]
      refine sum_congr rfl fun j hj => ?_
      rw [mem_range] at hi hj
      rw [blockEdge, if_pos (by rw [Nat.div_eq_of_lt hi, Nat.div_eq_of_lt hj])]
      ring
    have hrow : ∀ i, (x.slice c (c + b)).row i = x.row (c + i) := fun _ => rfl
    have hsq : ∀ k m i j, sq (x.slice c (c + b)) k m i j = sq x k m (c + i) (c + j) := fun _ _ _ _ => rfl
    have g1s := g1.sum
    have g1p := g1.prod
    have g1n := g1.num
    have g1d := g1.diff
    have g1e := g1.numDiffs
    have hone := hblock fun _ _ => 1
    simp only [mul_one] at hone
    simp only [hn, hrow, hsq, hblock, hone] at g1s g1p g1n g1d g1e
    rw [sum_const, card_range, nsmul_eq_mul] at g1n
    by_cases hl1 : l = []
    · subst hl1
      refine ⟨a1, ?_, ?_, ?_, ?_, ?_, ?_, g1.some_sums, g1.some_diffs⟩
      · simp only [clusterLoop, M.bind_def, h1, M.pure_def]
      · intro k; rw [g1s]; simp
      · intro k m; rw [g1p]; simp
      · rw [g1n]; simp [mul_comm]
      · intro k m; rw [g1d]; simp [blocksSum]
      · rw [g1e]; simp [blocksSum]
    · obtain ⟨a2, h2, e1, e2, e3, e4, e5, e6, e7⟩ :=
        ih (fun b' hb' => hl b' (List.mem_cons_of_mem _ hb')) (c + b) (by omega) a1 hl1
      refine ⟨a2, ?_, ?_, ?_, ?_, ?_, ?_, e6, e7⟩
      · simp only [clusterLoop, M.bind_def, h1, h2]
      · intro k
        rw [e1, g1s, List.sum_cons, sum_range_add]
        simp only [Nat.add_assoc]
        ring
      · intro k m
        rw [e2, g1p, List.sum_cons, sum_range_add]
        simp only [Nat.add_assoc]
        ring
      · rw [e3, g1n, List.sum_cons]; push_cast; ring
      · intro k m
        rw [e4, g1d, blocksSum]; ring
      · rw [e5, g1e, blocksSum]; ring

/-- **C157** 'clustered' with a list of sizes that sum up to the number of samples. -/
theorem clustered_list_graph (x : Rows F d) (w : F) (l : List Nat) (hl : ∀ b ∈ l, 0 < b) (hn : x.n = l.sum) (h0 : 0 < x.n)
    (a : Acc F d) : ∃ a', updateClustered x w (.list l) true a = (.ok (), a') ∧
      Adds a a' x (fun _ => w) (fun i j => w * blocksEdge l i j) := by
  have hl0 : l ≠ [] := by rintro rfl; simp at hn; omega
  obtain ⟨a', h, e1, e2, e3, e4, e5, e6, e7⟩ := clusterLoop_spec x w l hl 0 (by omega) a hl0
  refine ⟨a', ?_, ?_, ?_, ?_, ?_, ?_, e6, e7⟩
  · simp only [updateClustered, hn, ne_eq, not_true, if_false, h]
  · intro k; rw [e1, hn]; simp only [Nat.zero_add]
  · intro k m; rw [e2, hn]; simp only [Nat.zero_add]
  · rw [e3, hn, sum_const, card_range, nsmul_eq_mul, mul_comm]
  · intro k m
    rw [e4, hn, ← blocksEdge_sum, mul_sum]
    congr 1
    refine sum_congr rfl fun i _ => ?_
    rw [mul_sum]
    exact sum_congr rfl fun j _ => by ring
  · rw [e5, hn, ← blocksEdge_sum, mul_sum]
    congr 1
    refine sum_congr rfl fun i _ => ?_
    rw [mul_sum]
    exact sum_congr rfl fun j _ => by ring

omit [CharZero F] in
/-- **C161**: sizes that do not sum up to the number of samples give a TypeError, not the ValueError of the code. -/
theorem clustered_list_error (x : Rows F d) (w : F) (l : List Nat) (hn : x.n ≠ l.sum) (s : Bool) (a : Acc F d) :
    updateClustered x w (.list l) s a = (.error .typeError, a) := by
  simp only [updateClustered, hn, ne_eq, not_false_eq_true, if_true, M.raise_def]

/-! ## Classes -/

/-- What is known about `numx.argsort`: the positions, in an order in which the labels do not decrease. -/
structure Argsort (argsort : List Int → List Nat) : Prop where
  perm : ∀ l, (argsort l).Perm (List.range l.length)
  sorted : ∀ l, ((argsort l).map fun i => l.getD i 0).Pairwise (· ≤ ·)

omit [CharZero F] in
theorem perm_sum (o : List Nat) (n : Nat) (h : o.Perm (List.range n)) (f : Nat → F) :
    ∑ i ∈ range o.length, f (o.getD i 0) = ∑ i ∈ range n, f i := by
  have h1 : ∀ l : List Nat, ∑ i ∈ range l.length, f (l.getD i 0) = (l.map f).sum := by
    intro l
    rw [list_sum_range, List.length_map]
    refine sum_congr rfl fun i hi => ?_
    rw [mem_range] at hi
    simp [List.getD, hi]
  rw [h1, (h.map f).sum_eq, range_map_sum]

omit [CharZero F] in
theorem class_sum (cnt : Int → Nat) (lab : Nat → Int) (f : Nat → Nat → F) (us : List Int) (hu : us.Nodup) (c : Nat)
    (h : ∀ i, i < (us.flatMap fun u => List.replicate (cnt u) u).length →
      lab (c + i) = (us.flatMap fun u => List.replicate (cnt u) u).getD i 0) :
    ∑ i ∈ range (us.flatMap fun u => List.replicate (cnt u) u).length,
      ∑ j ∈ range (us.flatMap fun u => List.replicate (cnt u) u).length,
        (if lab (c + i) = lab (c + j) then 1 / (cnt (lab (c + i)) : F) else 0) * f (c + i) (c + j)
      = blocksSum f c (us.map cnt) := by
  induction us generalizing c with
  | nil => simp [blocksSum]
  | cons u us ih =>
    rw [List.nodup_cons] at hu
    rw [List.flatMap_cons, List.length_append, List.length_replicate] at h ⊢
    have hfst : ∀ i, i < cnt u → lab (c + i) = u := by
      intro i hi
      rw [h i (by omega), List.getD_append _ _ _ _ (by simpa using hi)]
      simp [List.getD, hi]
    have hsnd : ∀ i, i < (us.flatMap fun u => List.replicate (cnt u) u).length →
        lab (c + cnt u + i) = (us.flatMap fun u => List.replicate (cnt u) u).getD i 0 := by
      intro i hi
      rw [Nat.add_assoc, h _ (by omega), List.getD_append_right _ _ _ _ (by simp)]
      simp
    have hne : ∀ i j, i < cnt u → j < (us.flatMap fun u => List.replicate (cnt u) u).length →
        lab (c + i) ≠ lab (c + cnt u + j) := by
      intro i j hi hj he
      rw [hfst i hi, hsnd j hj] at he
      have : u ∈ us.flatMap fun u => List.replicate (cnt u) u := by
        rw [he, List.getD_eq_getElem _ _ hj]; exact List.getElem_mem _
      rw [List.mem_flatMap] at this
      obtain ⟨v, hv, hv2⟩ := this
      rw [List.eq_of_mem_replicate hv2] at hu
      exact hu.1 hv
    rw [List.map_cons, blocksSum, ← ih hu.2 (c + cnt u) hsnd]
    generalize (us.flatMap fun u => List.replicate (cnt u) u).length = R at *
    rw [sum_range_add]
    congr 1
    · rw [mul_sum]
      refine sum_congr rfl fun i hi => ?_
      rw [mem_range] at hi
      rw [sum_range_add, mul_sum]
      rw [show ∑ j ∈ range R, (if lab (c + i) = lab (c + (cnt u + j)) then 1 / (cnt (lab (c + i)) : F) else 0)
          * f (c + i) (c + (cnt u + j)) = 0 from sum_eq_zero fun j hj => by
        rw [← Nat.add_assoc, if_neg (hne i j hi (mem_range.1 hj)), zero_mul], add_zero]
      refine sum_congr rfl fun j hj => ?_
      rw [mem_range] at hj
      rw [if_pos (by rw [hfst i hi, hfst j hj]), hfst i hi]
    · refine sum_congr rfl fun i hi => ?_
      rw [mem_range] at hi
      rw [sum_range_add]
      rw [show ∑ j ∈ range (cnt u), (if lab (c + (cnt u + i)) = lab (c + j) then 1 / (cnt (lab (c + (cnt u + i))) : F) else 0)
          * f (c + (cnt u + i)) (c + j) = 0 from sum_eq_zero fun j hj => by
        rw [← Nat.add_assoc, if_neg (fun he => hne j i (mem_range.1 hj) hi he.symm), zero_mul], zero_add]
      simp only [Nat.add_assoc]

theorem count_flatMap (us : List Int) (hu : us.Nodup) (cnt : Int → Nat) (x : Int) :
    (us.flatMap fun u => List.replicate (cnt u) u).count x = if x ∈ us then cnt x else 0 := by
  induction us with
  | nil => simp
  | cons u us ih =>
    rw [List.nodup_cons] at hu
    rw [List.flatMap_cons, List.count_append, ih hu.2, List.count_replicate]
    by_cases h : u = x
    · subst h; simp [hu.1]
    · have : ¬ x = u := fun h' => h h'.symm
      simp [h, this]

theorem sorted_flatMap (us : List Int) (hu : us.Pairwise (· ≤ ·)) (cnt : Int → Nat) :
    (us.flatMap fun u => List.replicate (cnt u) u).Pairwise (· ≤ ·) := by
  induction us with
  | nil => simp
  | cons u us ih =>
    rw [List.pairwise_cons] at hu
    rw [List.flatMap_cons, List.pairwise_append]
    refine ⟨?_, ih hu.2, ?_⟩
    · rw [List.pairwise_replicate]; right; exact le_refl u
    · intro x hx y hy
      rw [List.eq_of_mem_replicate hx]
      rw [List.mem_flatMap] at hy
      obtain ⟨v, hv, hv2⟩ := hy
      rw [List.eq_of_mem_replicate hv2]
      exact hu.1 v hv

theorem unique_spec (labels : List Int) : (unique labels).Nodup ∧ (unique labels).Pairwise (· ≤ ·) ∧
    ∀ x, x ∈ unique labels ↔ x ∈ labels := by
  have hp : (unique labels).Perm labels.dedup := List.mergeSort_perm ..
  refine ⟨hp.nodup_iff.2 (List.nodup_dedup _), ?_, fun x => by rw [hp.mem_iff, List.mem_dedup]⟩
  have := List.pairwise_mergeSort (le := fun a b : Int => decide (a ≤ b)) (fun a b c => by simpa using fun h1 h2 => le_trans h1 h2)
    (fun a b => by simpa using le_total a b) labels.dedup
  simpa [unique] using this

theorem sorted_labels (labels : List Int) (o : List Nat) (hp : o.Perm (List.range labels.length))
    (hs : (o.map fun i => labels.getD i 0).Pairwise (· ≤ ·)) :
    o.map (fun i => labels.getD i 0) = (unique labels).flatMap fun u => List.replicate (labels.count u) u := by
  obtain ⟨h1, h2, h3⟩ := unique_spec labels
  refine List.Perm.eq_of_pairwise (le := (· ≤ ·)) (fun a b _ _ => le_antisymm) hs (sorted_flatMap _ h2 _) ?_
  have h4 : (o.map fun i => labels.getD i 0).Perm labels := by
    refine (hp.map _).trans ?_
    have : (List.range labels.length).map (fun i => labels.getD i 0) = labels := by
      refine List.ext_getElem (by simp) fun i hi _ => ?_
      simp at hi
      simp [List.getD, hi]
    rw [this]
  refine h4.trans ?_
  rw [List.perm_iff_count]
  intro x
  rw [count_flatMap _ h1]
  by_cases h : x ∈ labels
  · rw [if_pos ((h3 x).2 h)]
  · rw [if_neg (fun hh => h ((h3 x).1 hh)), List.count_eq_zero.2 h]

/-- **C157** 'classification': samples with the same label are connected, themselves included, with weight one over the number
of samples of the class; the order of the samples and how equal labels are sorted do not matter. If there are fewer labels
than samples, the other samples are ignored. -/
theorem classification_graph (argsort : List Int → List Nat) (hs : Argsort argsort) (x : Rows F d) (labels : List Int)
    (hn : labels.length ≤ x.n) (h0 : labels ≠ []) (w : F) (a : Acc F d) :
    ∃ a', updateClassification argsort x labels w a = (.ok (), a') ∧
      Adds a a' ⟨labels.length, x.row⟩ (fun _ => w) (fun i j => w * classEdge labels i j) := by
  have hp := hs.perm labels
  have hlen : (argsort labels).length = labels.length := by rw [hp.length_eq, List.length_range]
  obtain ⟨u1, u2, u3⟩ := unique_spec labels
  have hlab := sorted_labels labels _ hp (hs.sorted labels)
  have hsum : ((unique labels).map fun u => labels.count u).sum = labels.length := by
    have := congrArg List.length hlab
    rw [List.length_map, hlen, List.length_flatMap] at this
    simpa using this.symm
  have hpn : (x.permute (argsort labels)).n = labels.length := hlen
  have hpos : ∀ b ∈ (unique labels).map fun u => labels.count u, 0 < b := by
    intro b hb
    rw [List.mem_map] at hb
    obtain ⟨u, hu, rfl⟩ := hb
    exact List.count_pos_iff.2 ((u3 u).1 hu)
  have hl0 : (unique labels).map (fun u => labels.count u) ≠ [] := by
    intro h
    rw [h] at hsum
    exact h0 (List.length_eq_zero_iff.1 hsum.symm)
  obtain ⟨a', h, e1, e2, e3, e4, e5, e6, e7⟩ :=
    clusterLoop_spec (x.permute (argsort labels)) w _ hpos 0 (by rw [hsum, hpn]; omega) a hl0
  have hb : ∀ f : Nat → Nat → F, blocksSum (fun i j => f ((argsort labels).getD i 0) ((argsort labels).getD j 0)) 0
      ((unique labels).map fun u => labels.count u)
      = ∑ i ∈ range labels.length, ∑ j ∈ range labels.length, classEdge labels i j * f i j := by
    intro f
    have hc := class_sum (fun u => labels.count u) (fun i => labels.getD ((argsort labels).getD i 0) 0)
      (fun i j => f ((argsort labels).getD i 0) ((argsort labels).getD j 0)) (unique labels) u1 0 (by
        intro i hi
        rw [← hlab] at hi ⊢
        rw [List.length_map] at hi
        simp [List.getD, hi])
    rw [← hc, ← hlab, List.length_map]
    simp only [Nat.zero_add]
    have h1 : ∀ i, ∑ j ∈ range (argsort labels).length,
        (if labels.getD ((argsort labels).getD i 0) 0 = labels.getD ((argsort labels).getD j 0) 0 then
          1 / (labels.count (labels.getD ((argsort labels).getD i 0) 0) : F) else 0)
            * f ((argsort labels).getD i 0) ((argsort labels).getD j 0)
        = ∑ j ∈ range labels.length, classEdge labels ((argsort labels).getD i 0) j * f ((argsort labels).getD i 0) j :=
      fun i => perm_sum _ _ hp fun j => classEdge labels ((argsort labels).getD i 0) j * f ((argsort labels).getD i 0) j
    simp only [h1]
    exact perm_sum _ _ hp fun i => ∑ j ∈ range labels.length, classEdge labels i j * f i j
  refine ⟨a', ?_, ?_, ?_, ?_, ?_, ?_, e6, e7⟩
  · simp only [updateClassification, updateClustered, hsum, hpn, ne_eq, not_true, if_false, if_neg (show ¬ x.n < labels.length by omega), h]
  · intro k
    rw [e1, hsum, ← perm_sum _ _ hp fun i => w * x.row i k, hlen]
    simp only [Nat.zero_add]
    rfl
  · intro k m
    rw [e2, hsum, ← perm_sum _ _ hp fun i => w * (x.row i k * x.row i m), hlen]
    simp only [Nat.zero_add]
    rfl
  · rw [e3, hsum, sum_const, card_range, nsmul_eq_mul, mul_comm]
  · intro k m
    have := hb (sq x k m)
    rw [e4, show sq (x.permute (argsort labels)) k m
      = fun i j => sq x k m ((argsort labels).getD i 0) ((argsort labels).getD j 0) from rfl, this, mul_sum]
    congr 1
    refine sum_congr rfl fun i _ => ?_
    rw [mul_sum]
    exact sum_congr rfl fun j _ => by rw [mul_assoc]; rfl
  · have := hb (fun _ _ => 1)
    rw [e5, this, mul_sum]
    congr 1
    refine sum_congr rfl fun i _ => ?_
    rw [mul_sum]
    exact sum_congr rfl fun j _ => by ring

/-! ## The mixed graph -/

omit [CharZero F] in
theorem mixed_block (n K b : Nat) (hb : 0 < b) (hn : n = (K + 2) * b) (f : Nat → Nat → F) :
    ∑ i ∈ range n, ∑ j ∈ range n, (if i / b = 0 ∨ i / b + 1 = n / b then 2 else 1) * blockEdge b i j * f i j
      = 2 * (1 / b * ∑ i ∈ range b, ∑ j ∈ range b, f i j)
        + (∑ i ∈ range (K * b), ∑ j ∈ range (K * b), blockEdge b i j * f (b + i) (b + j))
        + 2 * (1 / b * ∑ i ∈ range b, ∑ j ∈ range b, f ((K + 1) * b + i) ((K + 1) * b + j)) := by
  have hdiv : n / b = K + 2 := by rw [hn, Nat.mul_div_cancel _ hb]
  have gen : ∀ (M : Nat) (wt : Nat → F) (g : Nat → Nat → F),
      ∑ i ∈ range (M * b), ∑ j ∈ range (M * b), wt (i / b) * blockEdge b i j * g i j
      = ∑ r ∈ range M, wt r * (1 / b * ∑ i ∈ range b, ∑ j ∈ range b, g (r * b + i) (r * b + j)) := by
    intro M wt g
    have h1 := sum_block_pairs (fun i j => wt (i / b) * (1 / b * g i j)) (fun r m => r = m) M b
    have h2 : ∀ i j, wt (i / b) * blockEdge b i j * g i j = if i / b = j / b then wt (i / b) * (1 / b * g i j) else 0 := by
      intro i j
      unfold blockEdge
      split_ifs <;> ring
    simp only [h2]
    rw [h1]
    refine sum_congr rfl fun r hr => ?_
    rw [sum_ite_eq, if_pos hr, mul_sum, mul_sum]
    refine sum_congr rfl fun i hi => ?_
    rw [mul_sum, mul_sum]
    refine sum_congr rfl fun j _ => ?_
    rw [block_div r i (mem_range.1 hi)]
  rw [hdiv, hn, gen (K + 2) (fun r => if r = 0 ∨ r + 1 = K + 2 then 2 else 1)]
  have h3 := gen K (fun _ => 1) (fun i j => f (b + i) (b + j))
  simp only [one_mul] at h3
  rw [h3, sum_range_succ, sum_range_succ']
  have h4 : ∀ r ∈ range K, (if r + 1 = 0 ∨ r + 1 + 1 = K + 2 then (2 : F) else 1)
      * (1 / b * ∑ i ∈ range b, ∑ j ∈ range b, f ((r + 1) * b + i) ((r + 1) * b + j))
      = 1 / b * ∑ i ∈ range b, ∑ j ∈ range b, f (b + (r * b + i)) (b + (r * b + j)) := by
    intro r hr
    rw [mem_range] at hr
    rw [if_neg (by omega), one_mul]
    refine congrArg _ (sum_congr rfl fun i _ => sum_congr rfl fun j _ => ?_)
    rw [show (r + 1) * b + i = b + (r * b + i) by ring, show (r + 1) * b + j = b + (r * b + j) by ring]
  rw [sum_congr rfl h4, if_pos (by omega), if_pos (by omega)]
  simp only [Nat.zero_mul, Nat.zero_add]
  ring

/-- **C157** 'mixed' with two or more blocks: all samples have the weight three; the samples of a block are connected, in the
first and last block with double weight, and those of successive blocks. -/
theorem mixed_graph (x : Rows F d) (b : Nat) (hb : 0 < b) (hn : b ∣ x.n) (h2 : 2 * b ≤ x.n) (a : Acc F d) :
    ∃ a', updateMixed x (.int b) a = (.ok (), a') ∧ Adds a a' x (fun _ => 3) (fun i j => mixedEdge x.n b i j) := by
  obtain ⟨K', hK⟩ := id hn
  rw [Nat.mul_comm] at hK
  obtain ⟨K, rfl⟩ : ∃ K, K' = K + 2 := by
    refine ⟨K' - 2, ?_⟩
    rcases K' with _ | _ | K' <;> omega
  have e : (K + 2) * b = K * b + 2 * b := by ring
  have e' : (K + 1) * b = K * b + b := by ring
  have n1 : (x.slice 0 b).n = b := by simp only [Rows.slice]; omega
  have n2 : (x.slice b (x.n - b)).n = K * b := by simp only [Rows.slice]; omega
  have n3 : (x.slice (x.n - b) x.n).n = b := by simp only [Rows.slice]; omega
  obtain ⟨a1, u1, g1⟩ := clustered_graph (x.slice 0 b) (2 : F) b hb (by rw [n1]) a
  obtain ⟨a2, u2, g2⟩ := clustered_graph (x.slice b (x.n - b)) (1 : F) b hb (by rw [n2]; exact Nat.dvd_mul_left ..) a1
  obtain ⟨a3, u3, g3⟩ := clustered_graph (x.slice (x.n - b) x.n) (2 : F) b hb (by rw [n3]) a2
  obtain ⟨a4, u4, g4⟩ := serial_graph x (1 : F) b hb hn h2 a3
  have hblock : ∀ f : Nat → Nat → F, ∑ i ∈ range b, ∑ j ∈ range b, 2 * blockEdge b i j * f i j
      = 2 * (1 / b * ∑ i ∈ range b, ∑ j ∈ range b, f i j) := by
    intro f
    rw [mul_sum, mul_sum]
    refine sum_congr rfl fun i hi => ?_
    rw [mul_sum, mul_sum]
    refine sum_congr rfl fun j hj => ?_
    rw [mem_range] at hi hj
    rw [blockEdge, if_pos (by rw [Nat.div_eq_of_lt hi, Nat.div_eq_of_lt hj])]
    ring
  have hone := hblock fun _ _ => 1
  simp only [mul_one] at hone
  have hedge : ∀ f : Nat → Nat → F, ∑ i ∈ range x.n, ∑ j ∈ range x.n, mixedEdge x.n b i j * f i j
      = 2 * (1 / b * ∑ i ∈ range b, ∑ j ∈ range b, f i j)
        + (∑ i ∈ range (K * b), ∑ j ∈ range (K * b), blockEdge b i j * f (b + i) (b + j))
        + 2 * (1 / b * ∑ i ∈ range b, ∑ j ∈ range b, f (x.n - b + i) (x.n - b + j))
        + ∑ i ∈ range x.n, ∑ j ∈ range x.n, serialEdge b i j * f i j := by
    intro f
    have := mixed_block x.n K b hb hK f
    rw [show (K + 1) * b = x.n - b by omega] at this
    rw [← this, ← sum_add_distrib]
    refine sum_congr rfl fun i _ => ?_
    rw [← sum_add_distrib]
    refine sum_congr rfl fun j _ => ?_
    unfold mixedEdge
    ring
  have hnode : ∀ f : Nat → F, ∑ i ∈ range x.n, 3 * f i
      = (∑ i ∈ range b, 2 * f i) + (∑ i ∈ range (K * b), f (b + i)) + (∑ i ∈ range b, 2 * f (x.n - b + i))
        + ∑ i ∈ range x.n, serialNode x.n b i * f i := by
    intro f
    have hp := serial_parts f x.n K b hK
    rw [← serialNode_sum x.n K b hb hK] at hp
    rw [← hp, show min b x.n - 0 = b by omega, show min (x.n - b) x.n - b = K * b by omega,
      show min x.n x.n - (x.n - b) = b by omega]
    have hs : ∑ i ∈ range x.n, f i
        = (∑ i ∈ range b, f i) + (∑ i ∈ range (K * b), f (b + i)) + ∑ i ∈ range b, f (x.n - b + i) := by
      have : x.n = b + K * b + b := by omega
      conv_lhs => rw [this]
      rw [sum_range_add, sum_range_add, show b + K * b = x.n - b by omega]
    rw [← mul_sum, hs, ← mul_sum, ← mul_sum]
    simp only [Nat.zero_add]
    ring
  have r1 : ∀ i, (x.slice 0 b).row i = x.row i := fun i => by simp only [Rows.slice, Nat.zero_add]
  have q1 : ∀ k m i j, sq (x.slice 0 b) k m i j = sq x k m i j := fun k m i j => by simp only [sq, r1]
  have r2 : ∀ i, (x.slice b (x.n - b)).row i = x.row (b + i) := fun i => rfl
  have q2 : ∀ k m i j, sq (x.slice b (x.n - b)) k m i j = sq x k m (b + i) (b + j) := fun k m i j => rfl
  have r3 : ∀ i, (x.slice (x.n - b) x.n).row i = x.row (x.n - b + i) := fun i => rfl
  have q3 : ∀ k m i j, sq (x.slice (x.n - b) x.n) k m i j = sq x k m (x.n - b + i) (x.n - b + j) := fun k m i j => rfl
  refine ⟨a4, ?_, ?_, ?_, ?_, ?_, ?_, g4.some_sums, g4.some_diffs⟩
  · simp only [updateMixed, M.bind_def, u1, u2, u3, u4]
  · intro k
    rw [g4.sum, g3.sum, g2.sum, g1.sum, n1, n2, n3]
    simp only [r1, r2, r3, one_mul, hnode (fun i => x.row i k)]
    ring
  · intro k m
    rw [g4.prod, g3.prod, g2.prod, g1.prod, n1, n2, n3]
    simp only [r1, r2, r3, one_mul, hnode (fun i => x.row i k * x.row i m)]
    ring
  · rw [g4.num, g3.num, g2.num, g1.num, n1, n2, n3]
    have := hnode fun _ => 1
    simp only [mul_one] at this
    simp only [one_mul, this]
    ring
  · intro k m
    rw [g4.diff, g3.diff, g2.diff, g1.diff, n1, n2, n3]
    simp only [q1, q2, q3, one_mul, hedge (sq x k m), hblock]
    ring
  · rw [g4.numDiffs, g3.numDiffs, g2.numDiffs, g1.numDiffs, n1, n2, n3]
    have := hedge fun _ _ => 1
    simp only [mul_one] at this
    simp only [one_mul, this, hone]
    ring

end

end Mdp.Gsfa
