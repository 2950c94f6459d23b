import Mathlib.Algebra.BigOperators.Intervals
import Mathlib.Algebra.BigOperators.Ring.Finset
import Mathlib.Algebra.Field.Basic
import Mathlib.Tactic.Ring
import Mathlib.Tactic.LinearCombination
import Mathlib.Tactic.FieldSimp

/-! # Identities between sums (lemmas for the training graphs of GSFA) -/

namespace Mdp.Gsfa

open Finset

variable {F : Type} [Field F]

/-- A sum over part of a range. -/
theorem sum_part (f : Nat → F) {a b n : Nat} (hb : b ≤ n) :
    ∑ j ∈ range n, (if a ≤ j ∧ j < b then f j else 0) = ∑ j ∈ range (b - a), f (a + j) := by
  rw [← sum_filter]
  have : (range n).filter (fun j => a ≤ j ∧ j < b) = Ico a b := by
    ext j; simp only [mem_filter, mem_range, mem_Ico]; omega
  rw [this, sum_Ico_eq_sum_range]

/-- The pairs at a distance. -/
theorem sum_offset (f : Nat → Nat → F) (n o : Nat) :
    ∑ i ∈ range n, ∑ j ∈ range n, (if j = i + o then f i j else 0) = ∑ i ∈ range (n - o), f i (o + i) := by
  have : ∀ i ∈ range n, ∑ j ∈ range n, (if j = i + o then f i j else 0)
      = if 0 ≤ i ∧ i < n - o then f i (o + i) else 0 := by
    intro i _
    rw [sum_ite_eq']
    simp only [mem_range]
    by_cases h : i + o < n
    · rw [if_pos h, if_pos (by omega), Nat.add_comm]
    · rw [if_neg h, if_neg (by omega)]
  rw [sum_congr rfl this, sum_part _ (by omega)]
  simp

/-- The pairs in a window, by their distance. -/
theorem sum_window (f : Nat → Nat → F) (n w : Nat) :
    ∑ i ∈ range n, ∑ j ∈ range n, (if i < j ∧ j ≤ i + w then f i j else 0)
      = ∑ o ∈ range w, ∑ i ∈ range (n - (o + 1)), f i (o + 1 + i) := by
  induction w with
  | zero =>
    simp only [range_zero, sum_empty]
    refine sum_eq_zero fun i _ => sum_eq_zero fun j _ => ?_
    rw [if_neg (by omega)]
  | succ w ih =>
    rw [sum_range_succ, ← ih, ← sum_offset f n (w + 1), ← sum_add_distrib]
    refine sum_congr rfl fun i _ => ?_
    rw [← sum_add_distrib]
    refine sum_congr rfl fun j _ => ?_
    by_cases h1 : j = i + (w + 1)
    · subst h1; rw [if_pos (by omega), if_neg (by omega), if_pos rfl, zero_add]
    · by_cases h2 : i < j ∧ j ≤ i + w
      · rw [if_pos (by omega), if_pos h2, if_neg h1, add_zero]
      · rw [if_neg (by omega), if_neg h2, if_neg h1, add_zero]

/-- The pairs in a window in both directions, for a function that does not depend on the direction. -/
theorem sum_window_both (f : Nat → Nat → F) (hf : ∀ i j, f i j = f j i) (n w : Nat) :
    ∑ i ∈ range n, ∑ j ∈ range n, (if i ≠ j ∧ j ≤ i + w ∧ i ≤ j + w then f i j else 0)
      = 2 * ∑ i ∈ range n, ∑ j ∈ range n, (if i < j ∧ j ≤ i + w then f i j else 0) := by
  have h : ∑ i ∈ range n, ∑ j ∈ range n, (if i < j ∧ j ≤ i + w then f i j else 0)
      = ∑ i ∈ range n, ∑ j ∈ range n, (if j < i ∧ i ≤ j + w then f i j else 0) := by
    rw [sum_comm]
    refine sum_congr rfl fun i _ => sum_congr rfl fun j _ => ?_
    rw [hf]
  rw [two_mul]
  conv_rhs => rw [h]
  conv_rhs => lhs; rw [← h]
  rw [← sum_add_distrib]
  refine sum_congr rfl fun i _ => ?_
  rw [← sum_add_distrib]
  refine sum_congr rfl fun j _ => ?_
  by_cases h1 : i < j ∧ j ≤ i + w
  · rw [if_pos h1, if_pos (by omega), if_neg (by omega), add_zero]
  · by_cases h2 : j < i ∧ i ≤ j + w
    · rw [if_neg h1, if_pos h2, if_pos (by omega), zero_add]
    · rw [if_neg h1, if_neg h2, if_neg (by omega), add_zero]

/-- The pairs in a window in both directions: the borders and the centre. -/
theorem sum_window_parts (f : Nat → Nat → F) (hf : ∀ i, f i i = 0) (n w : Nat) (h : 2 * w < n) :
    ∑ i ∈ range n, ∑ j ∈ range n, (if i ≠ j ∧ j ≤ i + w ∧ i ≤ j + w then f i j else 0)
      = (∑ i ∈ range w, ∑ j ∈ range (w + i + 1), f i j)
        + (∑ i ∈ range w, ∑ j ∈ range (n - (n - w + i - w)), f (n - w + i) (n - w + i - w + j))
        + ∑ i ∈ range (n - 2 * w), ∑ j ∈ range (2 * w + 1), f (w + i) (i + j) := by
  have key : ∀ i, i < n → ∑ j ∈ range n, (if i ≠ j ∧ j ≤ i + w ∧ i ≤ j + w then f i j else 0)
      = ∑ j ∈ range (min (i + w + 1) n - (i - w)), f i (i - w + j) := by
    intro i hi
    rw [← sum_part (f i) (n := n) (by omega)]
    refine sum_congr rfl fun j hj => ?_
    rw [mem_range] at hj
    by_cases hij : i = j
    · subst hij; rw [if_neg (by omega), if_pos (by omega), hf]
    · by_cases h2 : j ≤ i + w ∧ i ≤ j + w
      · rw [if_pos ⟨hij, h2⟩, if_pos (by omega)]
      · rw [if_neg (fun hh => h2 hh.2), if_neg (by omega)]
  rw [sum_congr rfl fun i hi => key i (mem_range.1 hi)]
  have hn : n = w + (n - 2 * w) + w := by omega
  have split : ∀ g : Nat → F, ∑ i ∈ range n, g i
      = (∑ i ∈ range w, g i) + (∑ i ∈ range (n - 2 * w), g (w + i)) + ∑ i ∈ range w, g (n - w + i) := by
    intro g
    conv_lhs => rw [hn]
    rw [sum_range_add, sum_range_add]
    congr 1
    refine sum_congr rfl fun i _ => ?_
    rw [show w + (n - 2 * w) + i = n - w + i by omega]
  rw [split, add_assoc, add_assoc, add_comm (∑ i ∈ range (n - 2 * w), _)]
  congr 1
  · refine sum_congr rfl fun i hi => ?_
    rw [mem_range] at hi
    rw [show min (i + w + 1) n - (i - w) = w + i + 1 by omega]
    refine sum_congr rfl fun j _ => ?_
    rw [show i - w + j = j by omega]
  congr 1
  · refine sum_congr rfl fun i hi => ?_
    rw [mem_range] at hi
    rw [show min (n - w + i + w + 1) n = n by omega]
  · refine sum_congr rfl fun i hi => ?_
    rw [mem_range] at hi
    rw [show min (w + i + w + 1) n - (w + i - w) = 2 * w + 1 by omega]
    refine sum_congr rfl fun j _ => ?_
    rw [show w + i - w + j = i + j by omega]

/-- Prefix sums of prefix sums. -/
theorem sum_prefix (c : Nat → F) (n : Nat) :
    ∑ o ∈ range n, ∑ j ∈ range o, c j = ∑ j ∈ range n, ((n : F) - 1 - j) * c j := by
  induction n with
  | zero => simp
  | succ n ih =>
    rw [sum_range_succ, ih, sum_range_succ, ← sum_add_distrib]
    push_cast
    rw [show (n : F) + 1 - 1 - n = 0 by ring, zero_mul, add_zero]
    refine sum_congr rfl fun j _ => ?_
    ring

/-- How often the terms of a sequence occur in the windows of length `L + 1`. -/
theorem sum_windows (c : Nat → F) (M L : Nat) (h : L ≤ M) :
    ∑ i ∈ range M, ∑ o ∈ range (L + 1), c (i + o)
      = (∑ j ∈ range L, ((j + 1 : Nat) : F) * c j)
        + (∑ j ∈ Ico M (M + L), (((M + L : Nat) : F) - j) * c j)
        + ((L : F) + 1) * ∑ j ∈ range (M - L), c (L + j) := by
  have h1 : ∑ i ∈ range M, ∑ o ∈ range (L + 1), c (i + o)
      = (∑ o ∈ range (M + (L + 1)), ∑ j ∈ range o, c j) - (∑ o ∈ range M, ∑ j ∈ range o, c j)
        - ∑ o ∈ range (L + 1), ∑ j ∈ range o, c j := by
    rw [sum_comm, sum_range_add _ M (L + 1), add_sub_cancel_left, ← sum_sub_distrib]
    refine sum_congr rfl fun o _ => ?_
    rw [add_comm M o, sum_range_add, add_sub_cancel_left]
    refine sum_congr rfl fun i _ => ?_
    rw [add_comm]
  rw [h1, sum_prefix, sum_prefix, sum_prefix]
  have hM : M = L + (M - L) := by omega
  have s1 : ∀ g : Nat → F, ∑ j ∈ range M, g j = (∑ j ∈ range L, g j) + ∑ j ∈ range (M - L), g (L + j) := by
    intro g; conv_lhs => rw [hM]
    rw [sum_range_add]
  have s2 : ∀ g : Nat → F, ∑ j ∈ range (M + (L + 1)), g j
      = (∑ j ∈ range M, g j) + (∑ j ∈ Ico M (M + L), g j) + g (M + L) := by
    intro g
    rw [show M + (L + 1) = (M + L) + 1 by omega, sum_range_succ, range_eq_Ico,
      ← sum_Ico_consecutive g (Nat.zero_le M) (Nat.le_add_right M L), range_eq_Ico]
  rw [s2, s1, s1, sum_range_succ]
  push_cast
  have e1 : ∑ j ∈ range L, ((M : F) + (L + 1) - 1 - j) * c j
      = (∑ j ∈ range L, ((j : F) + 1) * c j) + (∑ j ∈ range L, ((M : F) - 1 - j) * c j)
        + ∑ j ∈ range L, ((L : F) + 1 - 1 - j) * c j := by
    rw [← sum_add_distrib, ← sum_add_distrib]
    exact sum_congr rfl fun j _ => by ring
  have e2 : ∑ j ∈ range (M - L), ((M : F) + (L + 1) - 1 - (L + j)) * c (L + j)
      = ((L : F) + 1) * (∑ j ∈ range (M - L), c (L + j)) + ∑ j ∈ range (M - L), ((M : F) - 1 - (L + j)) * c (L + j) := by
    rw [mul_sum, ← sum_add_distrib]
    exact sum_congr rfl fun j _ => by ring
  have e3 : ∑ j ∈ Ico M (M + L), ((M : F) + (L + 1) - 1 - j) * c j = ∑ j ∈ Ico M (M + L), ((M : F) + L - j) * c j :=
    sum_congr rfl fun j _ => by ring
  rw [e1, e2, e3]
  ring

/-- The differences in a window from the sums. -/
theorem sum_centre (g h u v : Nat → F) (M L : Nat) :
    ∑ i ∈ range M, ∑ o ∈ range L, (g (i + o) - u i) * (h (i + o) - v i)
      = L * (∑ i ∈ range M, u i * v i) + (∑ i ∈ range M, ∑ o ∈ range L, g (i + o) * h (i + o))
        - (∑ i ∈ range M, u i * ∑ o ∈ range L, h (i + o)) - ∑ i ∈ range M, v i * ∑ o ∈ range L, g (i + o) := by
  rw [mul_sum, ← sum_add_distrib, ← sum_sub_distrib, ← sum_sub_distrib]
  refine sum_congr rfl fun i _ => ?_
  have : ∀ o, (g (i + o) - u i) * (h (i + o) - v i)
      = u i * v i + g (i + o) * h (i + o) - u i * h (i + o) - v i * g (i + o) := fun o => by ring
  simp only [this, sum_sub_distrib, sum_add_distrib, mul_sum]
  simp

/-- A range in blocks. -/
theorem sum_blocks (f : Nat → F) (K b : Nat) :
    ∑ i ∈ range (K * b), f i = ∑ k ∈ range K, ∑ a ∈ range b, f (k * b + a) := by
  induction K with
  | zero => simp
  | succ K ih => rw [Nat.succ_mul, sum_range_add, ih, sum_range_succ]

/-- All differences between two blocks. -/
theorem sum_pairs (g h g' h' : Nat → F) (b : Nat) :
    ∑ i ∈ range b, ∑ j ∈ range b, (g' j - g i) * (h' j - h i)
      = b * (∑ i ∈ range b, g i * h i) + b * (∑ i ∈ range b, g' i * h' i)
        - (∑ i ∈ range b, g i) * (∑ i ∈ range b, h' i) - (∑ i ∈ range b, g' i) * ∑ i ∈ range b, h i := by
  have : ∀ i j, (g' j - g i) * (h' j - h i) = g i * h i + g' j * h' j - g i * h' j - h i * g' j := fun i j => by ring
  simp only [this, sum_sub_distrib, sum_add_distrib, ← mul_sum, ← sum_mul]
  simp only [sum_const, card_range, nsmul_eq_mul, ← mul_sum, ← sum_mul]
  rw [show ∑ x ∈ range b, g x * ((b : F) * h x) = b * ∑ x ∈ range b, g x * h x by
    rw [mul_sum]; exact sum_congr rfl fun x _ => by ring]
  ring

theorem block_div {b : Nat} (k a : Nat) (ha : a < b) : (k * b + a) / b = k := by
  rw [Nat.add_comm, Nat.add_mul_div_right _ _ (by omega), Nat.div_eq_of_lt ha, Nat.zero_add]

/-- Pairs of blocks, with a condition on the blocks. -/
theorem sum_block_pairs (f : Nat → Nat → F) (p : Nat → Nat → Prop) [DecidableRel p] (K b : Nat) :
    ∑ i ∈ range (K * b), ∑ j ∈ range (K * b), (if p (i / b) (j / b) then f i j else 0)
      = ∑ k ∈ range K, ∑ m ∈ range K, (if p k m then ∑ a ∈ range b, ∑ c ∈ range b, f (k * b + a) (m * b + c) else 0) := by
  rw [sum_blocks]
  refine sum_congr rfl fun k _ => ?_
  have : ∀ a ∈ range b, ∑ j ∈ range (K * b), (if p ((k * b + a) / b) (j / b) then f (k * b + a) j else 0)
      = ∑ m ∈ range K, if p k m then ∑ c ∈ range b, f (k * b + a) (m * b + c) else 0 := by
    intro a ha
    rw [block_div k a (mem_range.1 ha), sum_blocks]
    refine sum_congr rfl fun m _ => ?_
    split_ifs with h
    · refine sum_congr rfl fun c hc => ?_
      rw [block_div m c (mem_range.1 hc), if_pos h]
    · refine sum_eq_zero fun c hc => ?_
      rw [block_div m c (mem_range.1 hc), if_neg h]
  rw [sum_congr rfl this, sum_comm]
  refine sum_congr rfl fun m _ => ?_
  split_ifs
  · rfl
  · simp

/-- Neighbouring blocks, in both directions. -/
theorem sum_adjacent (f : Nat → Nat → F) (hf : ∀ i j, f i j = f j i) (K : Nat) :
    ∑ k ∈ range K, ∑ m ∈ range K, (if k + 1 = m ∨ m + 1 = k then f k m else 0)
      = 2 * ∑ k ∈ range (K - 1), f k (1 + k) := by
  have h1 : ∀ k m : Nat, (if k + 1 = m ∨ m + 1 = k then f k m else 0)
      = (if m = k + 1 then f k m else 0) + (if k = m + 1 then f m k else 0) := by
    intro k m
    by_cases h1 : m = k + 1
    · subst h1; rw [if_pos (by omega), if_pos rfl, if_neg (by omega), add_zero]
    · by_cases h2 : k = m + 1
      · subst h2; rw [if_pos (by omega), if_neg (by omega), if_pos rfl, zero_add, hf]
      · rw [if_neg (by omega), if_neg h1, if_neg h2, add_zero]
  simp only [h1, sum_add_distrib]
  rw [sum_offset f K 1, sum_comm, sum_offset f K 1]
  ring

end Mdp.Gsfa
