import Verif.Gsfa.Out
import Mathlib.Data.Nat.Digits.Defs
import Mathlib.Data.Nat.Bitwise

/-!
# Delta values and Hamming weights

Models the helper functions of `mdp/nodes/gsfa_nodes.py` (lines 537-576): `graph_delta_values`, `comp_delta` and
`Hamming_weight`.  The specification of delta values is that of `Verif.Gsfa.Out`.
-/

namespace Mdp.Gsfa

open Mdp.Cov Finset

variable {F : Type} [Field F] [DecidableEq F] {d : Nat}

/-- `graph_delta_values(y, edge_weights)` (lines 537-548), with the items of the dictionary.  Without edges, and for weights
that add up to zero, the division is an error (a ZeroDivisionError or nan). -/
def graphDelta (y : Rows F d) (items : List ((Nat × Nat) × F)) : Except Err (Row F d) :=
  if items.any (fun t => decide (y.n ≤ t.1.1) || decide (y.n ≤ t.1.2)) then .error .index
  else
    let r := items.foldl (fun (p : Row F d × F) t =>
      (fun k => p.1 k + t.2 * (y.row t.1.2 k - y.row t.1.1 k) ^ 2, p.2 + t.2)) (fun _ => 0, 0)
    if r.2 = 0 then .error .zeroDivision else .ok fun k => r.1 k / r.2

/-- `comp_delta(x)` (lines 551-556); the mean of no rows is nan. -/
def compDelta (x : Rows F d) : Except Err (Row F d) :=
  if x.n ≤ 1 then .error .nan
  else .ok fun k => (∑ i ∈ range (x.n - 1), (x.row (i + 1) k - x.row i k) ^ 2) / ((x.n - 1 : Nat) : F)

theorem graphDelta_fold (y : Rows F d) (items : List ((Nat × Nat) × F)) : ∀ (a : Row F d) (b : F),
    items.foldl (fun (p : Row F d × F) t =>
      (fun k => p.1 k + t.2 * (y.row t.1.2 k - y.row t.1.1 k) ^ 2, p.2 + t.2)) (a, b) =
    (fun k => a k + (items.map fun t => t.2 * (y.row t.1.2 k - y.row t.1.1 k) ^ 2).sum,
      b + (items.map fun t => t.2).sum) := by
  induction items with
  | nil => intro a b; simp
  | cons t l ih =>
    intro a b
    rw [List.foldl_cons, ih]
    simp only [List.map_cons, List.sum_cons, add_assoc]

/-- **Delta values of a graph** are the delta values of the theory, the weighted means over the edges of the squared
differences, for each column; they do not depend on the order of the dictionary, and an edge to a sample that does not
exist is refused. -/
theorem graph_delta_spec (y : Rows F d) (v : Nat → F) (items : List ((Nat × Nat) × F))
    (h : ∀ t ∈ items, t.1.1 < y.n ∧ t.1.2 < y.n) (h0 : (items.map fun t => t.2).sum ≠ 0) :
    graphDelta y items = .ok fun k => wdelta [⟨y, v, dictEdge items⟩] fun r => r k := by
  have hb : items.any (fun t => decide (y.n ≤ t.1.1) || decide (y.n ≤ t.1.2)) = false := by
    rw [List.any_eq_false]
    intro t ht
    have := h t ht
    simp only [Bool.or_eq_true, decide_eq_true_eq]
    omega
  unfold graphDelta
  rw [hb]
  simp only [Bool.false_eq_true, if_false, graphDelta_fold, zero_add, if_neg h0]
  congr 1
  funext k
  unfold wdelta edgeSum
  simp only [List.map_cons, List.map_nil, List.sum_cons, List.sum_nil, add_zero]
  rw [dict_sum items y.n hb fun i j => (y.row j k - y.row i k) ^ 2, dict_sum items y.n hb fun _ _ => 1]
  simp

/-- **Delta values of a time series** are those of the graph in which each sample is connected to the next one. -/
theorem comp_delta_spec (x : Rows F d) (v : Nat → F) (h : 1 < x.n) :
    compDelta x = .ok fun k => wdelta [⟨x, v, chainEdge⟩] fun r => r k := by
  have key : ∀ f : Nat → Nat → F, ∑ i ∈ range x.n, ∑ j ∈ range x.n, chainEdge i j * f i j =
      ∑ i ∈ range (x.n - 1), f i (i + 1) := by
    intro f
    obtain ⟨m, hm⟩ : ∃ m, x.n = m + 1 := ⟨x.n - 1, by omega⟩
    rw [hm, sum_range_succ, Nat.add_sub_cancel]
    have h1 : ∑ j ∈ range (m + 1), chainEdge m j * f m j = 0 := by
      refine sum_eq_zero fun j hj => ?_
      rw [mem_range] at hj
      unfold chainEdge
      rw [if_neg (by omega), zero_mul]
    rw [h1, add_zero]
    refine sum_congr rfl fun i hi => ?_
    rw [mem_range] at hi
    rw [sum_eq_single (i + 1)]
    · simp [chainEdge]
    · intro j _ hj; unfold chainEdge; rw [if_neg hj, zero_mul]
    · intro hj; exact absurd (mem_range.2 (by omega)) hj
  unfold compDelta
  rw [if_neg (by omega)]
  congr 1
  funext k
  unfold wdelta edgeSum
  simp only [List.map_cons, List.map_nil, List.sum_cons, List.sum_nil, add_zero]
  rw [key fun i j => (x.row j k - x.row i k) ^ 2, key fun _ _ => 1]
  simp

/-! ### Hamming weights -/

/-- The argument of `Hamming_weight`: an integer, a list, or something else. -/
inductive Nested where
  | int (n : Int)
  | list (l : List Nested)
  | other

/-- The loop (lines 568-572) for an integer that is not negative. -/
def hammingNat (n : Nat) : Nat :=
  if h : n > 0 then (if n % 2 ≠ 0 then 1 else 0) + hammingNat (n / 2) else 0
termination_by n
decreasing_by exact Nat.div_lt_self h (by decide)

inductive NestedNat where
  | int (n : Nat)
  | list (l : List NestedNat)

mutual
/-- `Hamming_weight` (lines 559-576). -/
def hamming : Nested → Except Err NestedNat
  | .int n => .ok (.int (hammingNat n.toNat))
  | .list l => match hammings l with | .error e => .error e | .ok r => .ok (.list r)
  | .other => .error .value
def hammings : List Nested → Except Err (List NestedNat)
  | [] => .ok []
  | a :: l => match hamming a with
    | .error e => .error e
    | .ok r => match hammings l with | .error e => .error e | .ok rs => .ok (r :: rs)
end

/-- **The Hamming weight is the number of bits that are one.** -/
theorem hamming_bits (n : Nat) : ∀ m, n < 2 ^ m → hammingNat n = ((range m).filter fun i => n.testBit i).card := by
  induction n using Nat.strongRecOn with
  | _ n ih =>
    intro m hm
    unfold hammingNat
    by_cases h : n > 0
    · rw [dif_pos h]
      cases m with
      | zero => simp at hm; omega
      | succ m =>
        rw [ih (n / 2) (Nat.div_lt_self h (by decide)) m (by rw [Nat.pow_succ] at hm; omega)]
        have e : ∀ k, ((range (k + 1)).filter fun i => n.testBit i).card =
            (if n % 2 ≠ 0 then 1 else 0) + ((range k).filter fun i => (n / 2).testBit i).card := by
          intro k
          induction k with
          | zero =>
            simp only [zero_add, range_one, range_zero, filter_empty, card_empty, add_zero]
            by_cases hb : n % 2 = 0
            · rw [filter_singleton, if_neg (by simp [Nat.testBit_zero, hb])]; simp [hb]
            · rw [filter_singleton, if_pos (by simp [Nat.testBit_zero]; omega)]; simp [hb]
          | succ k ihk =>
            rw [range_add_one (n := k + 1), filter_insert]
            conv_rhs => rw [range_add_one (n := k), filter_insert]
            have : (n / 2).testBit k = n.testBit (k + 1) := by rw [Nat.testBit_succ]
            rw [this]
            by_cases hb : n.testBit (k + 1) = true
            · rw [if_pos hb, if_pos hb, card_insert_of_notMem (by simp), card_insert_of_notMem (by simp), ihk]
              omega
            · rw [if_neg hb, if_neg hb, ihk]
        rw [e m]
    · rw [dif_neg h]
      have : n = 0 := by omega
      subst this
      simp

/-- Non-vacuity. -/
example : hammingNat 13 = 3 := by rw [hamming_bits 13 4 (by norm_num)]; decide
example : graphDelta (⟨3, fun i _ => (i * i : ℚ)⟩ : Rows ℚ 1) [((0, 1), 1), ((1, 2), 3)] = .ok fun _ => 7 := by
  unfold graphDelta
  norm_num
example : compDelta (⟨3, fun i _ => (i * i : ℚ)⟩ : Rows ℚ 1) = .ok fun _ => 5 := by
  unfold compDelta
  norm_num [sum_range_succ]

/-- **Several numbers**: a list gives the list of the weights, in order; negative numbers count as zero, and something
that is not an integer is refused wherever it is. -/
theorem hamming_list (l : List Int) :
    hamming (.list (l.map .int)) = .ok (.list (l.map fun n => .int (hammingNat n.toNat))) ∧
    ∀ (a : List Int) (b : List Nested), hamming (.list (a.map Nested.int ++ .other :: b)) = .error .value := by
  constructor
  · have : hammings (l.map .int) = .ok (l.map fun n => .int (hammingNat n.toNat)) := by
      induction l with
      | nil => rfl
      | cons n l ih => simp only [List.map_cons, hammings, hamming, ih]
    simp only [hamming, this]
  · intro a b
    have : hammings (a.map Nested.int ++ .other :: b) = .error .value := by
      induction a with
      | nil => rfl
      | cons n a ih => simp only [List.map_cons, List.cons_append, hammings, hamming, ih]
    simp only [hamming, this]

end Mdp.Gsfa
