import Verif.Gsfa.Helpers
import Verif.Gsfa.BlocksOut
import Verif.Gsfa.Findings
import Mathlib.Algebra.Order.Field.Rat
import Mathlib.Data.Nat.Log

/-!
# `update_graph_old` and `update_compact_classes`

Models `CovDCovMatrix.update_graph_old` and `CovDCovMatrix.update_compact_classes` (mdp/nodes/gsfa_nodes.py, lines 745-806
and 1152-1236).  Training mode 'compact_classesL' calls the latter with `Jdes = L`; the string is given parsed.
The specification is that of `Verif.Gsfa.Spec`: a graph of weighted samples and edges that is added to the sums.
-/

namespace Mdp.Gsfa

open Mdp.Cov Finset Py

variable {F : Type} [Field F] {d : Nat}

/-! ## `update_graph_old` -/

/-- Lines 772-779: the array as a dictionary, without the entries that are zero. -/
def Edges.items [DecidableEq F] (n : Nat) : Edges F → List ((Nat × Nat) × F)
  | .dict l => l
  | .array _ _ w => ((List.range n).flatMap fun i => (List.range n).map fun j => ((i, j), w i j)).filter fun t => t.2 ≠ 0

/-- `update_graph_old` (lines 745-806). -/
def updateGraphOld [DecidableEq F] (x : Rows F d) (node : Option (List F)) (edge : Option (Edges F)) (w : F) : Upd F d :=
  let node := node.getD (List.replicate x.n 1)
  if node.length ≠ x.n then M.raise .training
  else match edge with
    | none => M.raise .training
    | some edge =>
      if edge.shape x.n = false then M.raise .training
      else
        let items := edge.items x.n
        let wx := x.scale fun i => node.getD i 0
        do
          M.modify fun a => a.addSamples (x.multT wx) wx.colSum node.sum w
          if items.any (fun t => x.n ≤ t.1.1 || x.n ≤ t.1.2) then M.raise .index
          else
            let prod : Mat F d d := fun k l => (items.map fun t =>
              (x.row t.1.2 k - x.row t.1.1 k) * ((x.row t.1.2 l - x.row t.1.1 l) * t.2)).sum
            M.modify fun a => a.addDiffs prod (items.map (·.2)).sum w

theorem old_dict [DecidableEq F] (x : Rows F d) (node : Option (List F)) (items : List ((Nat × Nat) × F)) (w : F) :
    updateGraphOld x node (some (.dict items)) w = updateGraph x node (some (.dict items)) w := rfl

theorem sum_filter_ne [DecidableEq F] {α : Type} (l : List (α × F)) (g : α → F) :
    ((l.filter fun t => t.2 ≠ 0).map fun t => if g t.1 = 0 then 0 else t.2).sum =
      (l.map fun t => if g t.1 = 0 then 0 else t.2).sum := by
  induction l with
  | nil => rfl
  | cons t l ih =>
    rw [List.filter_cons]
    by_cases h : t.2 = 0
    · simp only [h, ne_eq, not_true, decide_false, Bool.false_eq_true, if_false, List.map_cons, List.sum_cons, ite_self, zero_add]
      exact ih
    · simp only [ne_eq, h, not_false_iff, decide_true, if_true, List.map_cons, List.sum_cons]
      rw [← ih]

theorem array_items [DecidableEq F] (n : Nat) (r c : Nat) (e : Nat → Nat → F) (i j : Nat) (hi : i < n) (hj : j < n) :
    dictEdge ((Edges.array r c e).items n) i j = e i j := by
  unfold dictEdge Edges.items
  have h := sum_filter_ne ((List.range n).flatMap fun a => (List.range n).map fun b => ((a, b), e a b))
    (fun t => if t = (i, j) then (1 : F) else 0)
  have e1 : (fun t : (Nat × Nat) × F => if (if t.1 = (i, j) then (1 : F) else 0) = 0 then 0 else t.2) =
      fun t => if t.1 = (i, j) then t.2 else 0 := by
    funext t
    by_cases ht : t.1 = (i, j) <;> simp [ht]
  rw [e1] at h
  rw [h, List.map_flatMap, List.flatMap_def, List.sum_flatten, List.map_map, range_map_sum]
  rw [sum_eq_single i]
  · simp only [Function.comp, List.map_map]
    rw [range_map_sum, sum_eq_single j]
    · simp
    · intro b _ hb; simp [hb]
    · intro hb; exact absurd (mem_range.2 hj) hb
  · intro a _ ha
    simp only [Function.comp, List.map_map]
    rw [range_map_sum]
    refine sum_eq_zero fun b _ => ?_
    simp [ha]
  · intro hb; exact absurd (mem_range.2 hi) hb

/-- **The slow reference adds the graph it is given**: with a dictionary or an array of any weights, symmetric or not. -/
theorem old_array_graph [DecidableEq F] (x : Rows F d) (node : Option (List F)) (w : F) (a : Acc F d)
    (hl : ∀ l, node = some l → l.length = x.n) (e : Nat → Nat → F) :
    ∃ a', updateGraphOld x node (some (.array x.n x.n e)) w a = (.ok (), a') ∧
      Adds a a' x (fun i => w * nodeWeight node i) (fun i j => w * e i j) := by
  have hb : ∀ t ∈ (Edges.array x.n x.n e).items x.n, t.1.1 < x.n ∧ t.1.2 < x.n := by
    intro t ht
    unfold Edges.items at ht
    rw [List.mem_filter, List.mem_flatMap] at ht
    obtain ⟨⟨i, hi, hj⟩, _⟩ := ht
    rw [List.mem_map] at hj
    obtain ⟨j, hj, rfl⟩ := hj
    exact ⟨List.mem_range.1 hi, List.mem_range.1 hj⟩
  obtain ⟨a', h, h'⟩ := dict_graph x node w a hl _ hb
  refine ⟨a', ?_, ?_⟩
  · rw [← h]
    have e1 : updateGraphOld x node (some (.array x.n x.n e)) w =
        updateGraphOld x node (some (.dict ((Edges.array x.n x.n e).items x.n))) w := by
      simp only [updateGraphOld, Edges.shape, decide_true, Bool.and_self, Bool.true_eq_false, if_false]
      rfl
    rw [e1, old_dict]
  · refine ⟨h'.sum, h'.prod, h'.num, fun k l => ?_, ?_, h'.some_sums, h'.some_diffs⟩
    · rw [h'.diff]
      congr 1
      refine sum_congr rfl fun i hi => sum_congr rfl fun j hj => ?_
      rw [array_items x.n _ _ e i j (mem_range.1 hi) (mem_range.1 hj)]
    · rw [h'.numDiffs]
      congr 1
      refine sum_congr rfl fun i hi => sum_congr rfl fun j hj => ?_
      rw [array_items x.n _ _ e i j (mem_range.1 hi) (mem_range.1 hj)]

/-- **The optimised method agrees with its reference**: always for dictionaries and for refused arguments, and for arrays
that are symmetric with rows that sum up to the node weights. -/
theorem graph_agrees_partial [DecidableEq F] (x : Rows F d) (node : Option (List F)) (w : F) (a : Acc F d) :
    (∀ items, updateGraph x node (some (.dict items)) w a = updateGraphOld x node (some (.dict items)) w a) ∧
    updateGraph x node none w a = updateGraphOld x node none w a ∧
    (∀ r c e, ¬(r = x.n ∧ c = x.n) →
      updateGraph x node (some (.array r c e)) w a = updateGraphOld x node (some (.array r c e)) w a) ∧
    ∀ e, (∀ l, node = some l → l.length = x.n) → (∀ i < x.n, ∀ j < x.n, e i j = e j i) →
      (∀ i < x.n, ∑ j ∈ range x.n, e i j = nodeWeight node i) →
      ∃ b c, updateGraph x node (some (.array x.n x.n e)) w a = (.ok (), b) ∧
        updateGraphOld x node (some (.array x.n x.n e)) w a = (.ok (), c) ∧
        b.num = c.num ∧ b.numDiffs = c.numDiffs ∧ (∀ k, b.sum k = c.sum k) ∧ (∀ k l, b.prod k l = c.prod k l) ∧
        ∀ k l, b.diff k l = c.diff k l := by
  refine ⟨fun items => by rw [old_dict], rfl, fun r c e h => ?_, fun e hl hs hr => ?_⟩
  · have hsh : (Edges.array r c e).shape x.n = false := by
      simp only [Edges.shape, Bool.and_eq_false_iff, decide_eq_false_iff_not]
      by_cases h1 : r = x.n
      · exact .inr fun h2 => h ⟨h1, h2⟩
      · exact .inl h1
    simp only [updateGraph, updateGraphOld, hsh, if_true]
  · obtain ⟨b, hb, hb'⟩ := array_graph_partial x node w a hl e hs hr
    obtain ⟨c, hc, hc'⟩ := old_array_graph x node w a hl e
    refine ⟨b, c, hb, hc, ?_, ?_, ?_, ?_, ?_⟩
    · rw [hb'.num, hc'.num]
    · rw [hb'.numDiffs, hc'.numDiffs]
    · intro k; rw [hb'.sum, hc'.sum]
    · intro k l; rw [hb'.prod, hc'.prod]
    · intro k l; rw [hb'.diff, hc'.diff]

/-- **"Performs the same task as update_graph" is false for arrays**: two samples, connected with weight two in both
directions. -/
theorem graph_agrees_violation : ∃ (x : Rows ℚ 1) (e : Nat → Nat → ℚ), (∀ i j, e i j = e j i) ∧
    ((updateGraph x none (some (.array x.n x.n e)) 1) Acc.new).2.diff 0 0 <
      ((updateGraphOld x none (some (.array x.n x.n e)) 1) Acc.new).2.diff 0 0 := by
  obtain ⟨x, e, items, hs, he, -, h1, h2⟩ := array_graph_false
  refine ⟨x, e, hs, lt_trans h1 ?_⟩
  obtain ⟨a', h, h'⟩ := old_array_graph x none 1 Acc.new (fun l hl => by cases hl) e
  rw [h]
  have hd := h'.diff 0 0
  rw [hd]
  by_cases hi : ∀ t ∈ items, t.1.1 < x.n ∧ t.1.2 < x.n
  · obtain ⟨b, hb, hb'⟩ := dict_graph x none (1 : ℚ) Acc.new (fun l hl => by cases hl) items hi
    rw [hb] at h2
    change 0 < b.diff 0 0 at h2
    rw [hb'.diff] at h2
    refine lt_of_lt_of_eq h2 ?_
    congr 1
    refine sum_congr rfl fun i hi => sum_congr rfl fun j hj => ?_
    rw [he i (mem_range.1 hi) j (mem_range.1 hj)]
  · exfalso
    have hany : items.any (fun t => decide (x.n ≤ t.1.1) || decide (x.n ≤ t.1.2)) = true := by
      rw [List.any_eq_true]
      by_contra hcon
      apply hi
      intro t ht
      by_contra hlt
      refine hcon ⟨t, ht, ?_⟩
      simp only [Bool.or_eq_true, decide_eq_true_eq]
      omega
    have hlen : ¬ (Option.getD (none : Option (List ℚ)) (List.replicate x.n 1)).length ≠ x.n := by simp
    simp only [updateGraph, hlen, if_false, Edges.shape, Bool.true_eq_false, hany, M.bind_def, M.modify_def] at h2
    simp [M.raise, Acc.diff, Acc.addSamples, Acc.new] at h2

/-! ## `update_compact_classes` -/

/-- Lines 1195-1199: label `j` of sample `i`. -/
def baseLabel (bs J j i : Nat) : Int := ((i / bs / 2 ^ (J - j - 1) % 2 : Nat) : Int) * 2 - 1

/-- Lines 1204-1205. -/
def freeDigits (J classes : Nat) : List Nat :=
  (List.range classes).filter fun n => !(List.range J).any fun k => n = 2 ^ k

/-- Lines 1206-1210: the digits of the additional labels; those with most bits come first. An `IndexError` if there are not
enough. -/
def extraDigits (argsort : List Int → List Nat) (J classes extra : Nat) : Except Err (List Nat) :=
  let free := freeDigits J classes
  let order := (argsort (free.map fun n => (hammingNat n : Int))).reverse
  if order.length < extra then .error .index else .ok ((order.take extra).map fun t => free.getD t 0)

/-- Lines 1211-1217: the additional label for a digit. -/
def extraLabel (bs J digit i : Nat) : Int :=
  let l := (List.range J).foldl (fun l c => if digit / 2 ^ c % 2 = 1 then l * baseLabel bs J c i else l) 1
  if hammingNat digit % 2 = 0 then l * -1 else l

/-- Lines 1200-1202 and 1219-1221. -/
def eigenvalues (F : Type) [Field F] (J extra : Nat) : List F :=
  let e : List F := List.replicate (J - 1) 1 ++ (List.range (extra + 1)).map fun t : Nat => 1 - (t : F) / (extra + 1 : Nat)
  e.map (· / e.sum)

/-- `x[labels[:, j] == v]`. -/
def Rows.pick (x : Rows F d) (l : Nat → Int) (v : Int) : Rows F d := x.permute ((List.range x.n).filter fun i => l i = v)

/-- Lines 1228-1236: both clusters of each label. -/
def compactLoop (x : Rows F d) : List ((Nat → Int) × F) → Upd F d
  | [] => pure ()
  | (l, w) :: r => do
    updateClusteredInt (x.pick l (-1)) w (x.n / 2) true
    updateClusteredInt (x.pick l 1) w (x.n / 2) true
    compactLoop x r

/-- Lines 1176-1236. `int(numx.log2(c))` is the exact logarithm. The zip ends with the shorter list: for a single class there is
an eigenvalue more than labels. With `Jdes < J` the assignment of label `Jdes` fails. -/
def updateCompactInt (argsort : List Int → List Nat) (x : Rows F d) (bs : Nat) (Jdes : Option Nat) (msg : Err) : Upd F d :=
  if bs = 0 then M.raise .zeroDivision
  else if x.n % bs ≠ 0 then M.raise msg
  else
    let classes := x.n / bs
    if classes = 0 then M.raise .overflow
    else
      let J := Nat.log 2 classes
      let L := Jdes.getD J
      if classes ≠ 2 ^ J then M.raise .value
      else if L < J then M.raise .index
      else match extraDigits argsort J classes (L - J) with
        | .error e => M.raise e
        | .ok digits =>
          let labels := (List.range J).map (baseLabel bs J) ++ digits.map (extraLabel bs J)
          compactLoop x (labels.zip (eigenvalues F J (L - J)))

/-- `update_compact_classes` (lines 1152-1236). For a list of several sizes the message of the ValueError cannot be made, which
raises a TypeError. A size of zero in a list is not distinguished from a number. -/
def updateCompact (argsort : List Int → List Nat) (x : Rows F d) (Jdes : Option Nat) : BlockSize → Upd F d
  | .none => M.raise .training
  | .int n => updateCompactInt argsort x n Jdes .value
  | .list [] => M.raise .index
  | .list [b] => updateCompactInt argsort x b Jdes .value
  | .list (b :: c :: l) => if (c :: l).all (· = b) then updateCompactInt argsort x b Jdes .typeError else M.raise .value

/-! ### Specification -/

/-- The class of a sample has an odd number of the bits in `D`. -/
def OddBits (D : Finset Nat) (c : Nat) : Prop := Odd (D.filter fun b => c.testBit b).card

instance (D : Finset Nat) (c : Nat) : Decidable (OddBits D c) := by unfold OddBits; infer_instance

/-- The weight of label `t` before normalisation: one for the first `J`, then decreasing in equal steps. -/
def labelWeight (F : Type) [Field F] (J L t : Nat) : F := if t < J then 1 else 1 - ((t + 1 - J : Nat) : F) / ((L - J + 1 : Nat) : F)

/-- The `L` labels of `2 ^ J` classes are given by sets of bits of the class: first each single bit, the highest bit first, then
other sets, those with most bits first. -/
structure Labels (J L : Nat) (D : Nat → Finset Nat) : Prop where
  sub : ∀ t < L, D t ⊆ range J
  nonempty : ∀ t < L, (D t).Nonempty
  inj : ∀ t < L, ∀ u < L, D t = D u → t = u
  first : ∀ t < J, D t = {J - 1 - t}
  more : ∀ t, J ≤ t → t < L → ∀ S ⊆ range J, S.Nonempty → (∀ u < t, D u ≠ S) → S.card ≤ (D t).card

/-- Two samples are connected for each label they share, with the weight of the label. -/
def compactEdge (F : Type) [Field F] (n bs J L : Nat) (D : Nat → Finset Nat) (i j : Nat) : F :=
  2 / (n : F) * ((∑ t ∈ range L, if OddBits (D t) (i / bs) ↔ OddBits (D t) (j / bs) then labelWeight F J L t else 0) /
    ∑ t ∈ range L, labelWeight F J L t)

/-! ### Bits -/

theorem flip_bits (D : Finset Nat) (b c : Nat) (hb : b ∈ D) : OddBits D (c ^^^ 2 ^ b) ↔ ¬ OddBits D c := by
  unfold OddBits
  by_cases h : c.testBit b = true
  · have e : (D.filter fun x => (c ^^^ 2 ^ b).testBit x) = (D.filter fun x => c.testBit x).erase b := by
      ext x
      simp only [mem_filter, mem_erase, Nat.testBit_xor, Nat.testBit_two_pow]
      by_cases hx : b = x
      · subst hx; simp [h]
      · have : x ≠ b := fun hh => hx hh.symm
        simp [hx, this]
    have hm : b ∈ D.filter fun x => c.testBit x := mem_filter.2 ⟨hb, h⟩
    rw [e, card_erase_of_mem hm]
    have hp := card_pos.2 ⟨b, hm⟩
    generalize (D.filter fun x => c.testBit x = true).card = m at hp ⊢
    rw [Nat.odd_iff, Nat.odd_iff]; omega
  · have e : (D.filter fun x => (c ^^^ 2 ^ b).testBit x) = insert b (D.filter fun x => c.testBit x) := by
      ext x
      simp only [mem_filter, mem_insert, Nat.testBit_xor, Nat.testBit_two_pow]
      by_cases hx : b = x
      · subst hx; simp [h, hb]
      · have : x ≠ b := fun hh => hx hh.symm
        simp [hx, this]
    rw [e, card_insert_of_notMem (by simp [h])]
    generalize (D.filter fun x => c.testBit x = true).card = m
    rw [Nat.odd_iff, Nat.odd_iff]; omega

/-- Half of the samples have an odd number of the bits. -/
theorem balanced (bs J : Nat) (hbs : 0 < bs) (D : Finset Nat) (hs : D ⊆ range J) (hn : D.Nonempty) :
    ((range (2 ^ J * bs)).filter fun i => OddBits D (i / bs)).card = 2 ^ J * bs / 2 ∧
    ((range (2 ^ J * bs)).filter fun i => ¬ OddBits D (i / bs)).card = 2 ^ J * bs / 2 ∧ 2 ∣ 2 ^ J * bs := by
  obtain ⟨b, hb⟩ := hn
  have hbJ := mem_range.1 (hs hb)
  have h2 : 2 ∣ 2 ^ J * bs := Dvd.dvd.mul_right (dvd_pow_self 2 (by omega)) _
  let g : Nat → Nat := fun i => (i / bs ^^^ 2 ^ b) * bs + i % bs
  have gd : ∀ i, g i / bs = i / bs ^^^ 2 ^ b := by
    intro i
    change ((i / bs ^^^ 2 ^ b) * bs + i % bs) / bs = _
    rw [Nat.add_comm, Nat.add_mul_div_right _ _ hbs, Nat.div_eq_of_lt (Nat.mod_lt _ hbs), Nat.zero_add]
  have gm : ∀ i, g i % bs = i % bs := by
    intro i
    change ((i / bs ^^^ 2 ^ b) * bs + i % bs) % bs = _
    rw [Nat.add_comm, Nat.add_mul_mod_self_right, Nat.mod_mod]
  have gg : ∀ i, g (g i) = i := by
    intro i
    change (g i / bs ^^^ 2 ^ b) * bs + g i % bs = i
    rw [gd, gm, Nat.xor_assoc, Nat.xor_self, Nat.xor_zero, Nat.div_add_mod']
  have gl : ∀ i, i < 2 ^ J * bs → g i < 2 ^ J * bs := by
    intro i hi
    have h1 : i / bs ^^^ 2 ^ b < 2 ^ J := Nat.xor_lt_two_pow (Nat.div_lt_of_lt_mul (by rwa [Nat.mul_comm]))
      (Nat.pow_lt_pow_right (by decide) hbJ)
    rw [← gd] at h1
    exact (Nat.div_lt_iff_lt_mul hbs).1 h1
  have hc : ((range (2 ^ J * bs)).filter fun i => OddBits D (i / bs)).card =
      ((range (2 ^ J * bs)).filter fun i => ¬ OddBits D (i / bs)).card := by
    refine card_nbij' g g ?_ ?_ (fun i _ => gg i) (fun i _ => gg i)
    · intro i hi
      simp only [coe_filter, mem_range, Set.mem_setOf_eq] at hi ⊢
      refine ⟨gl i hi.1, ?_⟩
      rw [gd, flip_bits D b _ hb]
      exact fun h => h hi.2
    · intro i hi
      simp only [coe_filter, mem_range, Set.mem_setOf_eq] at hi ⊢
      refine ⟨gl i hi.1, ?_⟩
      rw [gd, flip_bits D b _ hb]
      exact hi.2
  have ht := card_filter_add_card_filter_not (s := range (2 ^ J * bs)) (fun i => OddBits D (i / bs))
  rw [card_range] at ht
  refine ⟨?_, ?_, h2⟩ <;> omega

/-! ### Graphs of parts of the samples -/

theorem pick_sum (x : Rows F d) (l : Nat → Int) (v : Int) (f : Nat → F) :
    ∑ i ∈ range (x.pick l v).n, f (((List.range x.n).filter fun i => l i = v).getD i 0) =
      ∑ i ∈ range x.n, if l i = v then f i else 0 := by
  have h1 : ∀ l : List Nat, ∑ i ∈ range l.length, f (l.getD i 0) = (l.map f).sum := by
    intro l
    rw [list_sum_range, List.length_map]
    refine sum_congr rfl fun i hi => ?_
    rw [mem_range] at hi
    simp [List.getD, hi]
  change ∑ i ∈ range ((List.range x.n).filter fun i => l i = v).length, _ = _
  rw [h1, ← range_map_sum]
  generalize List.range x.n = r
  induction r with
  | nil => rfl
  | cons i r ih =>
    by_cases h : l i = v
    · simp [h, ih]
    · simp [h, ih]

/-- One cluster of the samples with a label. -/
theorem pick_adds [CharZero F] (x : Rows F d) (l : Nat → Int) (v : Int) (w : F) (b : Nat) (hb : 0 < b) (hc : (x.pick l v).n = b)
    (a : Acc F d) :
    ∃ a', updateClusteredInt (x.pick l v) w b true a = (.ok (), a') ∧
      Adds a a' x (fun i => if l i = v then w else 0) (fun i j => if l i = v then if l j = v then w / b else 0 else 0) := by
  obtain ⟨a', h, h'⟩ := clustered_graph (x.pick l v) w b hb ⟨1, by rw [hc, Nat.mul_one]⟩ a
  have e : ∀ i ∈ range (x.pick l v).n, ∀ j ∈ range (x.pick l v).n, w * blockEdge b i j = w / b := by
    intro i hi j hj
    rw [hc, mem_range] at hi hj
    unfold blockEdge
    rw [Nat.div_eq_of_lt hi, Nat.div_eq_of_lt hj, if_pos rfl, mul_one_div]
  refine ⟨a', h, fun k => ?_, fun k m => ?_, ?_, fun k m => ?_, ?_, h'.some_sums, h'.some_diffs⟩
  · rw [h'.sum]
    congr 1
    refine (pick_sum x l v fun i => w * x.row i k).trans (sum_congr rfl fun i _ => ?_)
    split_ifs <;> simp
  · rw [h'.prod]
    congr 1
    refine (pick_sum x l v fun i => w * (x.row i k * x.row i m)).trans (sum_congr rfl fun i _ => ?_)
    split_ifs <;> simp
  · rw [h'.num]
    congr 1
    exact pick_sum x l v fun _ => w
  · rw [h'.diff]
    congr 1
    rw [sum_congr rfl fun i hi => sum_congr rfl fun j hj => by rw [e i hi j hj]]
    have h1 : ∀ i, ∑ j ∈ range (x.pick l v).n, w / b * sq (x.pick l v) k m i j =
        ∑ j ∈ range x.n, if l j = v then w / b * sq x k m (((List.range x.n).filter fun i => l i = v).getD i 0) j else 0 :=
      fun i => pick_sum x l v fun j => w / b * sq x k m (((List.range x.n).filter fun i => l i = v).getD i 0) j
    simp only [h1]
    refine (pick_sum x l v fun i => ∑ j ∈ range x.n, if l j = v then w / b * sq x k m i j else 0).trans
      (sum_congr rfl fun i _ => ?_)
    split_ifs
    · exact sum_congr rfl fun j _ => by split_ifs <;> simp
    · simp
  · rw [h'.numDiffs]
    congr 1
    rw [sum_congr rfl fun i hi => sum_congr rfl fun j hj => by rw [e i hi j hj]]
    have h1 : ∑ j ∈ range (x.pick l v).n, w / (b : F) = ∑ j ∈ range x.n, if l j = v then w / b else 0 :=
      pick_sum x l v fun j => w / b
    simp only [h1]
    refine (pick_sum x l v fun i => ∑ j ∈ range x.n, if l j = v then w / b else 0).trans (sum_congr rfl fun i _ => ?_)
    split_ifs
    · rfl
    · simp

theorem Adds.trans {a b c : Acc F d} {x : Rows F d} {v v' : Nat → F} {e e' : Nat → Nat → F} (h : Adds a b x v e)
    (h' : Adds b c x v' e') : Adds a c x (fun i => v i + v' i) (fun i j => e i j + e' i j) := by
  refine ⟨fun k => ?_, fun k l => ?_, ?_, fun k l => ?_, ?_, h'.some_sums, h'.some_diffs⟩
  · rw [h'.sum, h.sum, add_assoc, ← sum_add_distrib]; congr 1; exact sum_congr rfl fun i _ => by ring
  · rw [h'.prod, h.prod, add_assoc, ← sum_add_distrib]; congr 1; exact sum_congr rfl fun i _ => by ring
  · rw [h'.num, h.num, add_assoc, ← sum_add_distrib]
  · rw [h'.diff, h.diff, add_assoc, ← sum_add_distrib]; congr 1
    refine sum_congr rfl fun i _ => ?_
    rw [← sum_add_distrib]
    exact sum_congr rfl fun j _ => by ring
  · rw [h'.numDiffs, h.numDiffs, add_assoc, ← sum_add_distrib]; congr 1
    exact sum_congr rfl fun i _ => by rw [← sum_add_distrib]

theorem Adds.congr {a b : Acc F d} {x : Rows F d} {v v' : Nat → F} {e e' : Nat → Nat → F} (h : Adds a b x v e)
    (hv : ∀ i < x.n, v i = v' i) (he : ∀ i < x.n, ∀ j < x.n, e i j = e' i j) : Adds a b x v' e' := by
  refine ⟨fun k => ?_, fun k l => ?_, ?_, fun k l => ?_, ?_, h.some_sums, h.some_diffs⟩
  · rw [h.sum]; congr 1; exact sum_congr rfl fun i hi => by rw [hv i (mem_range.1 hi)]
  · rw [h.prod]; congr 1; exact sum_congr rfl fun i hi => by rw [hv i (mem_range.1 hi)]
  · rw [h.num]; congr 1; exact sum_congr rfl fun i hi => by rw [hv i (mem_range.1 hi)]
  · rw [h.diff]; congr 1
    exact sum_congr rfl fun i hi => sum_congr rfl fun j hj => by rw [he i (mem_range.1 hi) j (mem_range.1 hj)]
  · rw [h.numDiffs]; congr 1
    exact sum_congr rfl fun i hi => sum_congr rfl fun j hj => by rw [he i (mem_range.1 hi) j (mem_range.1 hj)]

/-- A label that splits the samples into two halves. -/
structure Halves (n : Nat) (l : Nat → Int) : Prop where
  two : ∀ i < n, l i = -1 ∨ l i = 1
  low : ((range n).filter fun i => l i = -1).card = n / 2
  high : ((range n).filter fun i => l i = 1).card = n / 2
  even : 2 ∣ n

theorem pick_n (x : Rows F d) (l : Nat → Int) (v : Int) : (x.pick l v).n = ((range x.n).filter fun i => l i = v).card := by
  change ((List.range x.n).filter fun i => l i = v).length = _
  rw [← List.toFinset_card_of_nodup (List.nodup_range.filter _), List.toFinset_filter, List.toFinset_range]
  congr 1
  ext i
  simp

theorem label_adds [CharZero F] (x : Rows F d) (hx : 0 < x.n) (l : Nat → Int) (hl : Halves x.n l) (w : F) (a : Acc F d) :
    ∃ b c, updateClusteredInt (x.pick l (-1)) w (x.n / 2) true a = (.ok (), b) ∧
      updateClusteredInt (x.pick l 1) w (x.n / 2) true b = (.ok (), c) ∧
      Adds a c x (fun _ => w) (fun i j => 2 / (x.n : F) * if l i = l j then w else 0) := by
  have h0 : 0 < x.n / 2 := Nat.div_pos (Nat.le_of_dvd hx hl.even) (by decide)
  obtain ⟨b, h1, h1'⟩ := pick_adds x l (-1) w (x.n / 2) h0 (by rw [pick_n, hl.low]) a
  obtain ⟨c, h2, h2'⟩ := pick_adds x l 1 w (x.n / 2) h0 (by rw [pick_n, hl.high]) b
  refine ⟨b, c, h1, h2, (h1'.trans h2').congr ?_ ?_⟩
  · intro i hi
    rcases hl.two i hi with h | h <;> simp [h]
  · intro i hi j hj
    have e : w / ((x.n / 2 : Nat) : F) = 2 / (x.n : F) * w := by
      obtain ⟨m, hm⟩ := hl.even
      have hm0 : (m : F) ≠ 0 := Nat.cast_ne_zero.2 (by omega)
      rw [hm, Nat.mul_div_cancel_left _ (by decide)]
      push_cast
      field_simp
    rcases hl.two i hi with h | h <;> rcases hl.two j hj with h' | h' <;> simp [h, h', e]

theorem loop_adds [CharZero F] (x : Rows F d) (hx : 0 < x.n) : ∀ (r : List ((Nat → Int) × F)), r ≠ [] →
    (∀ t ∈ r, Halves x.n t.1) → ∀ a : Acc F d, ∃ a', compactLoop x r a = (.ok (), a') ∧
      Adds a a' x (fun _ => (r.map (·.2)).sum)
        (fun i j => 2 / (x.n : F) * (r.map fun t => if t.1 i = t.1 j then t.2 else 0).sum) := by
  intro r
  induction r with
  | nil => intro h; exact absurd rfl h
  | cons t r ih =>
    intro _ hr a
    obtain ⟨l, w⟩ := t
    obtain ⟨b, c, h1, h2, h3⟩ := label_adds x hx l (hr (l, w) (by simp)) w a
    simp only [compactLoop, M.bind_def, h1, h2]
    by_cases hnil : r = []
    · subst hnil
      refine ⟨c, rfl, h3.congr (fun i _ => by simp) fun i _ j _ => by simp⟩
    · obtain ⟨a', h4, h5⟩ := ih hnil (fun t ht => hr t (List.mem_cons_of_mem _ ht)) c
      refine ⟨a', h4, (h3.trans h5).congr (fun i _ => by simp) fun i _ j _ => ?_⟩
      simp only [List.map_cons, List.sum_cons, mul_add]

/-! ### The labels -/

/-- The bits of the class that a digit of an additional label stands for. -/
def bitSet (J digit : Nat) : Finset Nat := ((range J).filter fun c => digit.testBit c).image fun c => J - 1 - c

theorem refl_inj (J : Nat) : ∀ s : Finset Nat, s ⊆ range J → Set.InjOn (fun c => J - 1 - c) s := by
  intro s hs a ha b hb h
  have h1 := mem_range.1 (hs ha)
  have h2 := mem_range.1 (hs hb)
  simp only at h
  omega

theorem base_label (bs J j i : Nat) (hj : j < J) :
    baseLabel bs J j i = if OddBits {J - 1 - j} (i / bs) then 1 else -1 := by
  have e : OddBits {J - 1 - j} (i / bs) ↔ (i / bs).testBit (J - 1 - j) = true := by
    unfold OddBits
    rw [filter_singleton]
    by_cases h : (i / bs).testBit (J - 1 - j) = true <;> simp [h]
  have e2 : J - j - 1 = J - 1 - j := by omega
  unfold baseLabel
  rw [e2]
  by_cases h : (i / bs).testBit (J - 1 - j) = true
  · rw [if_pos (e.2 h)]
    rw [Nat.testBit_eq_decide_div_mod_eq, decide_eq_true_eq] at h
    rw [h]; rfl
  · rw [if_neg (fun hh => h (e.1 hh))]
    rw [Nat.testBit_eq_decide_div_mod_eq, decide_eq_true_eq] at h
    have : i / bs / 2 ^ (J - 1 - j) % 2 = 0 := by omega
    rw [this]; rfl

theorem fold_label (bs J digit i : Nat) : ∀ m ≤ J,
    (List.range m).foldl (fun l c => if digit / 2 ^ c % 2 = 1 then l * baseLabel bs J c i else l) (1 : Int) =
      (-1) ^ ((range m).filter fun c => digit.testBit c ∧ ¬ (i / bs).testBit (J - 1 - c)).card := by
  intro m
  induction m with
  | zero => intro _; simp
  | succ m ih =>
    intro hm
    rw [List.range_succ, List.foldl_append, ih (by omega), range_add_one, filter_insert]
    simp only [List.foldl_cons, List.foldl_nil]
    have hd : digit / 2 ^ m % 2 = 1 ↔ digit.testBit m = true := by
      rw [Nat.testBit_eq_decide_div_mod_eq, decide_eq_true_eq]
    rw [base_label bs J m i (by omega)]
    have e : OddBits {J - 1 - m} (i / bs) ↔ (i / bs).testBit (J - 1 - m) = true := by
      unfold OddBits
      rw [filter_singleton]
      by_cases h : (i / bs).testBit (J - 1 - m) = true <;> simp [h]
    by_cases h1 : digit.testBit m = true
    · rw [if_pos (hd.2 h1)]
      by_cases h2 : (i / bs).testBit (J - 1 - m) = true
      · rw [if_pos (e.2 h2), if_neg (fun h => h.2 h2), mul_one]
      · rw [if_neg (fun h => h2 (e.1 h)), if_pos ⟨h1, h2⟩, card_insert_of_notMem (by simp), pow_succ]
    · rw [if_neg (fun h => h1 (hd.1 h)), if_neg (fun h => h1 h.1)]

theorem bitSet_filter (J digit c : Nat) : ((bitSet J digit).filter fun b => c.testBit b).card =
    ((range J).filter fun k => digit.testBit k ∧ c.testBit (J - 1 - k)).card := by
  unfold bitSet
  rw [filter_image, card_image_of_injOn, filter_filter]
  refine refl_inj J _ fun k hk => ?_
  rw [mem_filter, mem_filter] at hk
  exact hk.1.1

theorem bitSet_card (J digit : Nat) : (bitSet J digit).card = ((range J).filter fun k => digit.testBit k).card := by
  unfold bitSet
  rw [card_image_of_injOn]
  exact refl_inj J _ (filter_subset _ _)

theorem extra_label (bs J digit i : Nat) (hd : digit < 2 ^ J) :
    extraLabel bs J digit i = if OddBits (bitSet J digit) (i / bs) then 1 else -1 := by
  have ht : ((range J).filter fun k => digit.testBit k ∧ (i / bs).testBit (J - 1 - k)).card +
      ((range J).filter fun c => digit.testBit c ∧ ¬ (i / bs).testBit (J - 1 - c)).card = hammingNat digit := by
    rw [hamming_bits digit J hd, ← filter_filter, ← filter_filter]
    exact card_filter_add_card_filter_not _
  have hO : OddBits (bitSet J digit) (i / bs) ↔
      ((range J).filter fun k => digit.testBit k ∧ (i / bs).testBit (J - 1 - k)).card % 2 = 1 := by
    unfold OddBits
    rw [bitSet_filter, Nat.odd_iff]
  rw [if_congr hO rfl rfl]
  unfold extraLabel
  rw [fold_label bs J digit i J le_rfl]
  clear hO
  revert ht
  generalize ((range J).filter fun k => digit.testBit k ∧ (i / bs).testBit (J - 1 - k)).card = p
  generalize ((range J).filter fun c => digit.testBit c ∧ ¬ (i / bs).testBit (J - 1 - c)).card = q
  intro ht
  simp only [← ht]
  rcases Nat.mod_two_eq_zero_or_one p with hp | hp <;> rcases Nat.mod_two_eq_zero_or_one q with hq | hq
  · rw [if_pos (by omega), if_neg (by omega), Even.neg_one_pow (Nat.even_iff.2 hq)]; rfl
  · rw [if_neg (by omega), if_neg (by omega), Odd.neg_one_pow (Nat.odd_iff.2 hq)]
  · rw [if_neg (by omega), if_pos (by omega), Even.neg_one_pow (Nat.even_iff.2 hq)]
  · rw [if_pos (by omega), if_pos (by omega), Odd.neg_one_pow (Nat.odd_iff.2 hq)]; rfl

theorem halves (bs J : Nat) (hbs : 0 < bs) (D : Finset Nat) (hs : D ⊆ range J) (hn : D.Nonempty) (l : Nat → Int)
    (hl : ∀ i, l i = if OddBits D (i / bs) then 1 else -1) : Halves (2 ^ J * bs) l := by
  obtain ⟨h1, h2, h3⟩ := balanced bs J hbs D hs hn
  refine ⟨fun i _ => ?_, ?_, ?_, h3⟩
  · rw [hl]; split_ifs <;> simp
  · rw [← h2]
    congr 1
    refine filter_congr fun i _ => ?_
    rw [hl]; split_ifs with h <;> simp [h]
  · rw [← h1]
    congr 1
    refine filter_congr fun i _ => ?_
    rw [hl]; split_ifs with h <;> simp [h]

/-! ### The digits -/

theorem free_mem (J n : Nat) : n ∈ freeDigits J (2 ^ J) ↔ n < 2 ^ J ∧ ∀ k < J, n ≠ 2 ^ k := by
  unfold freeDigits
  rw [List.mem_filter, List.mem_range]
  refine and_congr_right fun _ => ?_
  rw [Bool.not_eq_true', List.any_eq_false]
  simp

theorem free_length (J : Nat) : (freeDigits J (2 ^ J)).length = 2 ^ J - J := by
  have hn : (freeDigits J (2 ^ J)).Nodup := List.nodup_range.filter _
  rw [← List.toFinset_card_of_nodup hn]
  have e : (freeDigits J (2 ^ J)).toFinset = range (2 ^ J) \ (range J).image fun k => 2 ^ k := by
    ext n
    rw [List.mem_toFinset, free_mem, mem_sdiff, mem_range, mem_image]
    refine and_congr_right fun _ => ?_
    constructor
    · rintro h ⟨k, hk, rfl⟩; exact h k (mem_range.1 hk) rfl
    · intro h k hk hh; exact h ⟨k, mem_range.2 hk, hh.symm⟩
  rw [e, card_sdiff_of_subset, card_range, card_image_of_injective _ (Nat.pow_right_injective le_rfl), card_range]
  intro n hn
  rw [mem_image] at hn
  obtain ⟨k, hk, rfl⟩ := hn
  exact mem_range.2 (Nat.pow_lt_pow_right (by decide) (mem_range.1 hk))

/-- The free digits in the order of the additional labels. -/
theorem ordered {argsort : List Int → List Nat} (hs : Argsort argsort) (J : Nat) :
    ∃ q : List Nat, q.Perm (freeDigits J (2 ^ J)) ∧ q.Pairwise (fun a b => hammingNat b ≤ hammingNat a) ∧
      ∀ extra ≤ 2 ^ J - J, extraDigits argsort J (2 ^ J) extra = .ok (q.take extra) := by
  set free := freeDigits J (2 ^ J) with hfree
  set W := free.map fun n => (hammingNat n : Int) with hW
  have hp := hs.perm W
  have hso := hs.sorted W
  have hlen : W.length = free.length := by rw [hW, List.length_map]
  have hget : ∀ i, i < free.length → W.getD i 0 = hammingNat (free.getD i 0) := by
    intro i hi
    rw [hW]
    simp [List.getD, hi]
  refine ⟨((argsort W).reverse).map fun t => free.getD t 0, ?_, ?_, ?_⟩
  · refine ((List.reverse_perm _).map _).trans ((hp.map _).trans ?_)
    rw [hlen]
    have : (List.range free.length).map (fun t => free.getD t 0) = free := by
      refine List.ext_getElem (by simp) fun i h1 h2 => ?_
      simp [List.getD, h2]
    rw [this]
  · rw [List.map_reverse, List.pairwise_reverse, List.pairwise_map]
    rw [List.pairwise_map] at hso
    refine hso.imp_of_mem ?_
    intro a b ha hb h
    have ha' : a < free.length := by have := hp.mem_iff.1 ha; rwa [List.mem_range, hlen] at this
    have hb' : b < free.length := by have := hp.mem_iff.1 hb; rwa [List.mem_range, hlen] at this
    rw [hget a ha', hget b hb'] at h
    exact_mod_cast h
  · intro extra he
    unfold extraDigits
    simp only
    have hl : ((argsort W).reverse).length = 2 ^ J - J := by
      rw [List.length_reverse, hp.length_eq, List.length_range, hlen, hfree, free_length]
    rw [← hfree, ← hW, if_neg (by rw [hl]; omega), List.map_take]

theorem bitSet_inj (J a b : Nat) (ha : a < 2 ^ J) (hb : b < 2 ^ J) (h : bitSet J a = bitSet J b) : a = b := by
  apply Nat.eq_of_testBit_eq
  intro i
  by_cases hi : i < J
  · have key : ∀ n, J - 1 - i ∈ bitSet J n ↔ n.testBit i = true := by
      intro n
      unfold bitSet
      rw [mem_image]
      constructor
      · rintro ⟨c, hc, hh⟩
        rw [mem_filter, mem_range] at hc
        have : c = i := by omega
        rw [← this]; exact hc.2
      · intro hh; exact ⟨i, mem_filter.2 ⟨mem_range.2 hi, hh⟩, rfl⟩
    have := key a
    rw [h, key b] at this
    by_cases h1 : a.testBit i = true
    · rw [h1, this.2 h1]
    · rw [Bool.not_eq_true] at h1
      have : ¬ b.testBit i = true := fun hh => by rw [this.1 hh] at h1; cases h1
      rw [h1]
      exact ((Bool.not_eq_true _).mp this).symm
  · have p := Nat.pow_le_pow_right (show 0 < 2 by decide) (Nat.le_of_not_lt hi)
    rw [Nat.testBit_lt_two_pow (lt_of_lt_of_le ha p), Nat.testBit_lt_two_pow (lt_of_lt_of_le hb p)]

/-- Each set of bits has a digit. -/
theorem bitSet_surj (J : Nat) (S : Finset Nat) (hS : S ⊆ range J) : ∃ n < 2 ^ J, bitSet J n = S := by
  classical
  -- the sets of bits of the digits are as many as all sets of bits
  have h1 : ((range (2 ^ J)).image (bitSet J)).card = 2 ^ J := by
    rw [card_image_of_injOn, card_range]
    intro a ha b hb h
    exact bitSet_inj J a b (mem_range.1 (mem_coe.1 ha)) (mem_range.1 (mem_coe.1 hb)) h
  have h2 : (range (2 ^ J)).image (bitSet J) ⊆ (range J).powerset := by
    intro s hs
    rw [mem_image] at hs
    obtain ⟨n, _, rfl⟩ := hs
    rw [mem_powerset]
    intro b hb
    unfold bitSet at hb
    rw [mem_image] at hb
    obtain ⟨c, hc, rfl⟩ := hb
    have := mem_range.1 (mem_filter.1 hc).1
    exact mem_range.2 (by omega)
  have h3 := eq_of_subset_of_card_le h2 (by rw [h1, card_powerset, card_range])
  have : S ∈ (range (2 ^ J)).image (bitSet J) := by rw [h3]; exact mem_powerset.2 hS
  rw [mem_image] at this
  obtain ⟨n, hn, rfl⟩ := this
  exact ⟨n, mem_range.1 hn, rfl⟩

theorem hamming_zero (J n : Nat) (hn : n < 2 ^ J) : hammingNat n = (bitSet J n).card := by
  rw [hamming_bits n J hn, bitSet_card]

theorem single_digit (J t : Nat) (ht : t < J) : bitSet J (2 ^ t) = {J - 1 - t} := by
  unfold bitSet
  have : (range J).filter (fun c => (2 ^ t).testBit c) = {t} := by
    ext c
    rw [mem_filter, mem_range, mem_singleton, Nat.testBit_two_pow, decide_eq_true_eq]
    constructor
    · intro h; exact h.2.symm
    · rintro rfl; exact ⟨ht, rfl⟩
  rw [this, image_singleton]

/-- The sets of bits of the labels. -/
theorem labels_exist {argsort : List Int → List Nat} (hs : Argsort argsort) (J L : Nat) (hJ : J ≤ L) (hL : L < 2 ^ J) :
    ∃ digits : List Nat, digits.length = L - J ∧ extraDigits argsort J (2 ^ J) (L - J) = .ok digits ∧
      (∀ n ∈ digits, n < 2 ^ J) ∧
      Labels J L fun t => if t < J then {J - 1 - t} else bitSet J (digits.getD (t - J) 0) := by
  obtain ⟨q, hp, hw, hq⟩ := ordered hs J
  have hJ2 : J < 2 ^ J := Nat.lt_two_pow_self
  have hlen : q.length = 2 ^ J - J := by rw [hp.length_eq, free_length]
  have hnd : q.Nodup := hp.nodup_iff.2 (List.nodup_range.filter _)
  have hmem : ∀ n, n ∈ q ↔ n < 2 ^ J ∧ ∀ k < J, n ≠ 2 ^ k := fun n => by rw [hp.mem_iff, free_mem]
  have hget : ∀ t (h : t < L - J), (q.take (L - J)).getD t 0 = q[t]'(by omega) := by
    intro t h
    have : t < (q.take (L - J)).length := by rw [List.length_take]; omega
    simp only [List.getD, List.getElem?_eq_getElem this, Option.getD_some, List.getElem_take]
  have hin : ∀ t (h : t < L - J), (q.take (L - J)).getD t 0 < 2 ^ J ∧ ∀ k < J, (q.take (L - J)).getD t 0 ≠ 2 ^ k := by
    intro t h
    rw [hget t h]
    exact (hmem _).1 (List.getElem_mem _)
  have hle : ∀ s t (hst : s ≤ t) (h : t < q.length), hammingNat (q[t]) ≤ hammingNat (q[s]'(by omega)) := by
    intro s t hst h
    rcases Nat.lt_or_eq_of_le hst with h' | rfl
    · exact List.pairwise_iff_getElem.1 hw s t (by omega) h h'
    · exact le_rfl
  -- zero comes last
  have hz : ∀ t (h : t < L - J), (q.take (L - J)).getD t 0 ≠ 0 := by
    intro t h h0
    rw [hget t h] at h0
    have h1 := hle t (q.length - 1) (by omega) (by omega)
    have hl := (hmem (q[q.length - 1]'(by omega))).1 (List.getElem_mem _)
    have hzero : hammingNat 0 = 0 := by unfold hammingNat; simp
    rw [h0, hzero, hamming_zero J _ hl.1] at h1
    have h2 : bitSet J (q[q.length - 1]'(by omega)) = bitSet J 0 := by
      rw [card_eq_zero.1 (Nat.le_zero.1 h1)]
      symm
      unfold bitSet
      simp
    have h3 := bitSet_inj J _ 0 hl.1 (by positivity) h2
    have h4 : q[t]'(by omega) = q[q.length - 1]'(by omega) := by rw [h0, h3]
    have := (List.Nodup.getElem_inj_iff hnd).1 h4
    omega
  have hsub : ∀ n, bitSet J n ⊆ range J := by
    intro n b hb
    unfold bitSet at hb
    rw [mem_image] at hb
    obtain ⟨c, hc, rfl⟩ := hb
    have := mem_range.1 (mem_filter.1 hc).1
    exact mem_range.2 (by omega)
  refine ⟨q.take (L - J), by rw [List.length_take]; omega, hq _ (by omega), ?_, ?_, ?_, ?_, ?_, ?_⟩
  · intro n hn
    exact ((hmem n).1 (List.mem_of_mem_take hn)).1
  · intro t ht
    split_ifs with h
    · exact singleton_subset_iff.2 (mem_range.2 (by omega))
    · exact hsub _
  · intro t ht
    split_ifs with h
    · exact singleton_nonempty _
    · rw [nonempty_iff_ne_empty]
      intro he
      refine hz (t - J) (by omega) (bitSet_inj J _ 0 (hin _ (by omega)).1 (by positivity) ?_)
      rw [he]
      symm
      unfold bitSet
      simp
  · intro t ht u hu h
    split_ifs at h with h1 h2 h2
    · have := singleton_injective h; omega
    · exfalso
      rw [← single_digit J t h1] at h
      exact (hin (u - J) (by omega)).2 t h1
        (bitSet_inj J _ _ (hin _ (by omega)).1 (Nat.pow_lt_pow_right (by decide) h1) h.symm)
    · exfalso
      rw [← single_digit J u h2] at h
      exact (hin (t - J) (by omega)).2 u h2
        (bitSet_inj J _ _ (hin _ (by omega)).1 (Nat.pow_lt_pow_right (by decide) h2) h)
    · have h3 := bitSet_inj J _ _ (hin _ (by omega)).1 (hin _ (by omega)).1 h
      rw [hget _ (by omega), hget _ (by omega)] at h3
      have := (List.Nodup.getElem_inj_iff hnd).1 h3
      omega
  · intro t ht
    simp only [if_pos ht]
  · intro t h1 h2 S hS hSn hne
    simp only [if_neg (show ¬ t < J by omega)]
    obtain ⟨n, hn, rfl⟩ := bitSet_surj J S hS
    have hnf : n ∈ q := by
      rw [hmem]
      refine ⟨hn, fun k hk hh => hne k (by omega) ?_⟩
      simp only [if_pos hk]
      rw [hh, single_digit J k hk]
    obtain ⟨s, hs', rfl⟩ := List.mem_iff_getElem.1 hnf
    have hts : t - J ≤ s := by
      by_contra hlt
      refine hne (s + J) (by omega) ?_
      simp only [if_neg (show ¬ s + J < J by omega), Nat.add_sub_cancel]
      rw [hget s (by omega)]
    rw [← hamming_zero J _ hn, ← hamming_zero J _ (hin _ (by omega)).1, hget _ (by omega)]
    exact hle _ _ hts hs'

theorem weights_list (J L : Nat) (h0 : 0 < J) (hJ : J ≤ L) :
    (List.replicate (J - 1) (1 : F) ++ (List.range (L - J + 1)).map fun t : Nat => 1 - (t : F) / ((L - J + 1 : Nat) : F)) =
      (List.range L).map (labelWeight F J L) := by
  refine List.ext_getElem (by simp; omega) fun t h1 h2 => ?_
  rw [List.getElem_append]
  simp only [List.length_replicate, List.getElem_replicate, List.getElem_map, List.getElem_range]
  unfold labelWeight
  by_cases h : t < J - 1
  · rw [dif_pos h, if_pos (by omega)]
  · rw [dif_neg h]
    by_cases h3 : t < J
    · rw [if_pos h3, show t - (J - 1) = 0 by omega]; simp
    · rw [if_neg h3, show t - (J - 1) = t + 1 - J by omega]

theorem weights_sum [CharZero F] (J L : Nat) (h0 : 0 < J) (hJ : J ≤ L) : ∑ t ∈ range L, labelWeight F J L t ≠ 0 := by
  have e : ∀ t, labelWeight F J L t = ((labelWeight ℚ J L t : ℚ) : F) := by
    intro t
    unfold labelWeight
    split_ifs
    · simp
    · push_cast; rfl
  rw [sum_congr rfl fun t _ => e t, ← Rat.cast_sum, Rat.cast_ne_zero]
  refine ne_of_gt (sum_pos (fun t ht => ?_) ⟨0, mem_range.2 (by omega)⟩)
  have htL := mem_range.1 ht
  unfold labelWeight
  split_ifs with h
  · exact one_pos
  · rw [sub_pos, div_lt_one (by positivity)]
    exact_mod_cast (by omega : t + 1 - J < L - J + 1)

/-- **Compact classes**: for `2 ^ J` classes of `bs` samples and `L` labels the graph connects two samples for each label they
share, with the normalised weight of the label over half of the number of samples; each sample has weight one. -/
theorem compact_graph [CharZero F] {argsort : List Int → List Nat} (hs : Argsort argsort) (J L : Nat) (h0 : 0 < J) (hJ : J ≤ L)
    (hL : L < 2 ^ J) : ∃ D, Labels J L D ∧ ∀ (x : Rows F d) (bs : Nat), 0 < bs → x.n = 2 ^ J * bs → ∀ a : Acc F d,
      ∃ a', updateCompact argsort x (some L) (.int bs) a = (.ok (), a') ∧
        Adds a a' x (fun _ => 1) (compactEdge F x.n bs J L D) := by
  obtain ⟨digits, hlen, hdig, hlt, hlab⟩ := labels_exist hs J L hJ hL
  refine ⟨_, hlab, fun x bs hbs hn a => ?_⟩
  have hx : 0 < x.n := by rw [hn]; positivity
  have hc : x.n / bs = 2 ^ J := by rw [hn, Nat.mul_div_cancel _ hbs]
  let lab : Nat → Nat → Int := fun t => if t < J then baseLabel bs J t else extraLabel bs J (digits.getD (t - J) 0)
  have hl : (List.range J).map (baseLabel bs J) ++ digits.map (extraLabel bs J) = (List.range L).map lab := by
    refine List.ext_getElem (by simp [hlen]; omega) fun t h1 h2 => ?_
    rw [List.getElem_append]
    simp only [List.length_map, List.length_range, List.getElem_map, List.getElem_range]
    by_cases h : t < J
    · rw [dif_pos h]; simp only [lab, if_pos h]
    · rw [dif_neg h]
      simp only [lab, if_neg h]
      have h3 : t - J < digits.length := by
        rw [List.length_map, List.length_range] at h2; omega
      simp [List.getD, h3]
  have hw : eigenvalues F J (L - J) =
      (List.range L).map fun t => labelWeight F J L t / ∑ t ∈ range L, labelWeight F J L t := by
    unfold eigenvalues
    simp only
    rw [weights_list J L h0 hJ, range_map_sum, List.map_map]
    rfl
  have hsign : ∀ t < L, ∀ i, lab t i =
      if OddBits (if t < J then {J - 1 - t} else bitSet J (digits.getD (t - J) 0)) (i / bs) then 1 else -1 := by
    intro t ht i
    by_cases h : t < J
    · simp only [lab, if_pos h]
      exact base_label bs J t i h
    · simp only [lab, if_neg h]
      refine extra_label bs J _ i (hlt _ ?_)
      have h3 : t - J < digits.length := by omega
      simp [List.getD, h3]
  obtain ⟨a', h1, h2⟩ := loop_adds x hx
    ((List.range L).map fun t => (lab t, labelWeight F J L t / ∑ t ∈ range L, labelWeight F J L t))
    (by intro hnil; rw [List.map_eq_nil_iff, List.range_eq_nil] at hnil; omega) (by
      intro t ht
      rw [List.mem_map] at ht
      obtain ⟨t, ht, rfl⟩ := ht
      rw [List.mem_range] at ht
      rw [hn]
      exact halves bs J hbs _ (hlab.sub t ht) (hlab.nonempty t ht) _ (hsign t ht)) a
  refine ⟨a', ?_, h2.congr ?_ ?_⟩
  · simp only [updateCompact, updateCompactInt, if_neg (show ¬ bs = 0 by omega), hn, Nat.mul_mod_left, ne_eq, not_true, if_false,
      Nat.mul_div_cancel _ hbs, Nat.log_pow (show 1 < 2 by decide), Option.getD_some, if_neg (Nat.not_lt.2 hJ),
      if_neg (show ¬ 2 ^ J = 0 by positivity), hdig, hl, hw, List.zip_map']
    exact h1
  · intro i _
    rw [List.map_map, range_map_sum]
    simp only [Function.comp]
    rw [← sum_div, div_self (weights_sum J L h0 hJ)]
  · intro i _ j _
    rw [List.map_map, range_map_sum]
    unfold compactEdge
    congr 1
    rw [sum_div]
    refine sum_congr rfl fun t ht => ?_
    have ht' := mem_range.1 ht
    simp only [Function.comp]
    rw [hsign t ht' i, hsign t ht' j]
    have key : ∀ D : Finset Nat, (if (if OddBits D (i / bs) then (1 : Int) else -1) = (if OddBits D (j / bs) then 1 else -1)
        then labelWeight F J L t / ∑ t ∈ range L, labelWeight F J L t else 0) =
        (if OddBits D (i / bs) ↔ OddBits D (j / bs) then labelWeight F J L t else 0) / ∑ t ∈ range L, labelWeight F J L t := by
      intro D
      by_cases hi : OddBits D (i / bs) <;> by_cases hj : OddBits D (j / bs) <;> simp [hi, hj]
    exact key _

/-- **By default there is one label for each bit**: two samples are connected with the part of the bits on which their classes
agree. -/
theorem compact_default [CharZero F] {argsort : List Int → List Nat} (hs : Argsort argsort) (J : Nat) (h0 : 0 < J)
    (x : Rows F d) (bs : Nat) (hbs : 0 < bs) (hn : x.n = 2 ^ J * bs) (a : Acc F d) :
    ∃ a', updateCompact argsort x none (.int bs) a = (.ok (), a') ∧
      Adds a a' x (fun _ => 1) (fun i j => 2 / (x.n : F) *
        ((((range J).filter fun b => (i / bs).testBit b = (j / bs).testBit b).card : F) / J)) := by
  obtain ⟨D, hD, h⟩ := compact_graph (F := F) (d := d) hs J J h0 le_rfl Nat.lt_two_pow_self
  obtain ⟨a', h1, h2⟩ := h x bs hbs hn a
  have hlog : Nat.log 2 (x.n / bs) = J := by rw [hn, Nat.mul_div_cancel _ hbs, Nat.log_pow (by decide)]
  refine ⟨a', ?_, h2.congr (fun _ _ => rfl) ?_⟩
  · rw [← h1]
    simp only [updateCompact, updateCompactInt, hlog, Option.getD_none, Option.getD_some]
  · intro i _ j _
    unfold compactEdge
    have hw : ∀ t ∈ range J, labelWeight F J J t = 1 := fun t ht => by
      unfold labelWeight; rw [if_pos (mem_range.1 ht)]
    rw [sum_congr rfl hw, sum_const, card_range, nsmul_eq_mul, mul_one]
    congr 2
    rw [sum_congr rfl fun t ht => by rw [hw t ht, hD.first t (mem_range.1 ht)]]
    have e : ∀ b c, OddBits {b} c ↔ c.testBit b = true := by
      intro b c
      unfold OddBits
      rw [filter_singleton]
      by_cases h : c.testBit b = true <;> simp [h]
    simp only [e]
    rw [← sum_range_reflect, ← sum_boole]
    refine sum_congr rfl fun b hb => ?_
    have : J - 1 - (J - 1 - b) = b := by have := mem_range.1 hb; omega
    rw [this]
    by_cases h1 : (i / bs).testBit b = true <;> by_cases h2 : (j / bs).testBit b = true <;> simp [h1, h2]

/-- **Refused**: a number of samples that is not a multiple of the block size, a number of classes that is not a power of two, and
fewer labels than bits or more than classes; nothing is added. -/
theorem compact_refused {argsort : List Int → List Nat} (hs : Argsort argsort) (x : Rows F d) (bs : Nat) (L : Option Nat)
    (a : Acc F d)
    (h : bs = 0 ∨ ¬ bs ∣ x.n ∨ (∀ J, x.n ≠ 2 ^ J * bs) ∨ ∃ J l, x.n = 2 ^ J * bs ∧ L = some l ∧ (l < J ∨ 2 ^ J < l)) :
    ∃ e, updateCompact argsort x L (.int bs) a = (.error e, a) := by
  change ∃ e, updateCompactInt argsort x bs L .value a = (.error e, a)
  unfold updateCompactInt
  by_cases h0 : bs = 0
  · rw [if_pos h0]; exact ⟨_, rfl⟩
  rw [if_neg h0]
  by_cases h1 : x.n % bs = 0
  · rw [if_neg (by simpa using h1)]
    simp only
    obtain ⟨c, hc⟩ := Nat.dvd_of_mod_eq_zero h1
    have hc' : x.n / bs = c := by rw [hc, Nat.mul_div_cancel_left _ (by omega)]
    rw [hc']
    by_cases h2 : c = 0
    · rw [if_pos h2]; exact ⟨_, rfl⟩
    rw [if_neg h2]
    by_cases h3 : c = 2 ^ Nat.log 2 c
    · rw [if_neg (by simpa using h3)]
      rcases h with h | h | h | ⟨J, l, hJ, rfl, hl⟩
      · exact absurd h h0
      · exact absurd ⟨c, hc⟩ h
      · exact absurd (by rw [hc, ← h3, Nat.mul_comm]) (h (Nat.log 2 c))
      · have hcJ : c = 2 ^ J := by rw [← hc', hJ, Nat.mul_div_cancel _ (by omega)]
        rw [hcJ, Nat.log_pow (by decide)]
        simp only [Option.getD_some]
        by_cases hlt : l < J
        · rw [if_pos hlt]; exact ⟨_, rfl⟩
        · rw [if_neg hlt]
          have hd : extraDigits argsort J (2 ^ J) (l - J) = .error .index := by
            unfold extraDigits
            simp only
            rw [if_pos]
            rw [List.length_reverse, (hs.perm _).length_eq, List.length_range, List.length_map, free_length]
            have : J < 2 ^ J := Nat.lt_two_pow_self
            omega
          rw [hd]
          exact ⟨_, rfl⟩
    · rw [if_pos (by simpa using h3)]; exact ⟨_, rfl⟩
  · rw [if_pos (by simpa using h1)]; exact ⟨_, rfl⟩

/-- **A list of equal block sizes** does what the number does: it succeeds exactly if the number would, with the same sums, and
otherwise nothing is added. **Different sizes** are refused. -/
theorem compact_list (argsort : List Int → List Nat) (x : Rows F d) (L : Option Nat) (b : Nat) (l : List Nat) (a : Acc F d) :
    ((∀ c ∈ l, c = b) → (updateCompact argsort x L (.list (b :: l)) a).2 = (updateCompact argsort x L (.int b) a).2 ∧
      ((updateCompact argsort x L (.list (b :: l)) a).1 = .ok () ↔ (updateCompact argsort x L (.int b) a).1 = .ok ())) ∧
    ((∃ c ∈ l, c ≠ b) → updateCompact argsort x L (.list (b :: l)) a = (.error .value, a)) ∧
    updateCompact argsort x L (.list []) a = (.error .index, a) := by
  refine ⟨fun h => ?_, fun ⟨c, hc, hb⟩ => ?_, rfl⟩
  · cases l with
    | nil => exact ⟨rfl, Iff.rfl⟩
    | cons c l =>
      have : ((c :: l).all (· = b)) = true := by simpa using h
      simp only [updateCompact, if_pos this]
      unfold updateCompactInt
      by_cases h0 : b = 0
      · simp [h0]
      · by_cases h1 : x.n % b = 0
        · simp [h0, h1]
        · simp only [h0, h1, if_false, ne_eq, not_false_eq_true, if_true]
          exact ⟨rfl, by constructor <;> (intro h; cases h)⟩
  · cases l with
    | nil => cases hc
    | cons c' l =>
      have : ¬ ((c' :: l).all (· = b)) = true := by
        intro h
        exact hb (by simpa using List.all_eq_true.1 h c hc)
      simp only [updateCompact, if_neg this]
      rfl

/-- **A single class is silently ignored**: nothing is added and nothing is raised. -/
theorem single_class_violation {argsort : List Int → List Nat} (x : Rows F d) (h : 0 < x.n) (a : Acc F d) :
    updateCompact argsort x none (.int x.n) a = (.ok (), a) := by
  have hl : Nat.log 2 1 = 0 := by decide
  simp only [updateCompact, updateCompactInt, if_neg (show ¬ x.n = 0 by omega), Nat.mod_self, ne_eq, not_true, if_false,
    Nat.div_self h, hl, Option.getD_none]
  simp [extraDigits, compactLoop, M.pure_def]

/-- Non-vacuity: four classes of two samples; with three labels the third is the parity of both bits. -/
example : ∃ a', updateCompact exArgsort (⟨8, fun i _ => (i : ℚ)⟩ : Rows ℚ 1) none (.int 2) Acc.new = (.ok (), a') ∧
    a'.num = 8 ∧ a'.numDiffs = 8 := by
  obtain ⟨a', h, h'⟩ := compact_default (F := ℚ) exArgsort_spec 2 (by decide) (⟨8, fun i _ => (i : ℚ)⟩ : Rows ℚ 1) 2 (by decide) rfl
    Acc.new
  refine ⟨a', h, ?_, ?_⟩
  · rw [h'.num]; norm_num [Acc.new]
  · rw [h'.numDiffs]
    have e : ∀ i ∈ range 8, ∀ j ∈ range 8, ((range 2).filter fun b => (i / 2).testBit b = (j / 2).testBit b).card =
        (if i / 2 % 2 = j / 2 % 2 then 1 else 0) + if i / 2 / 2 = j / 2 / 2 then 1 else 0 := by decide
    rw [sum_congr rfl fun i hi => sum_congr rfl fun j hj => by rw [e i hi j hj]]
    norm_num [Acc.new, sum_range_succ]
example : ∃ D, Labels 2 3 D ∧ D 2 = {0, 1} := by
  obtain ⟨D, h, -⟩ := compact_graph (F := ℚ) (d := 1) exArgsort_spec 2 3 (by decide) (by decide) (by decide)
  refine ⟨D, h, ?_⟩
  have h0 := h.first 0 (by decide)
  have h1 := h.first 1 (by decide)
  have hc := h.more 2 le_rfl (by decide) {0, 1} (by decide) (by decide) (by
    intro u hu
    interval_cases u
    · rw [h0]; decide
    · rw [h1]; decide)
  exact eq_of_subset_of_card_le (h.sub 2 (by decide)) hc

end Mdp.Gsfa
