import Verif.Gsfa.Windows

/-! # Clusters and blocks -/

namespace Mdp.Gsfa

open Mdp.Cov Finset Py

variable {F : Type} [Field F] {d : Nat}

theorem means_row (x : Rows F d) (K b : Nat) (hn : x.n = K * b) (k : Nat) (hk : k < K) (m : Fin d) :
    (means x b).row k m = (∑ c ∈ range b, x.row (k * b + c) m) * (1 / b) := by
  have h1 : min ((k + 1) * b) x.n - k * b = b := by
    have : (k + 1) * b ≤ K * b := Nat.mul_le_mul_right b hk
    rw [hn, min_eq_left this, Nat.succ_mul, Nat.add_sub_cancel_left]
  simp only [means, Rows.colSum, Rows.slice]
  rw [h1]

theorem block_sum (x : Rows F d) (p : Nat → Nat → Prop) [DecidableRel p] (K b : Nat) (k l : Fin d) :
    ∑ i ∈ range (K * b), ∑ j ∈ range (K * b), (if p (i / b) (j / b) then sq x k l i j else 0)
      = ∑ r ∈ range K, ∑ m ∈ range K, (if p r m then
          b * (∑ c ∈ range b, x.row (r * b + c) k * x.row (r * b + c) l)
          + b * (∑ c ∈ range b, x.row (m * b + c) k * x.row (m * b + c) l)
          - (∑ c ∈ range b, x.row (r * b + c) k) * (∑ c ∈ range b, x.row (m * b + c) l)
          - (∑ c ∈ range b, x.row (m * b + c) k) * (∑ c ∈ range b, x.row (r * b + c) l) else 0) := by
  rw [sum_block_pairs]
  refine sum_congr rfl fun r _ => sum_congr rfl fun m _ => ?_
  split_ifs
  · exact sum_pairs (fun c => x.row (r * b + c) k) (fun c => x.row (r * b + c) l) (fun c => x.row (m * b + c) k)
      (fun c => x.row (m * b + c) l) b
  · rfl

section clustered
variable [CharZero F]

theorem clustered_diff (x : Rows F d) (K b : Nat) (hb : 0 < b) (hn : x.n = K * b) (k l : Fin d) :
    ∑ i ∈ range x.n, ∑ j ∈ range x.n, (if i / b = j / b then sq x k l i j else 0)
      = 2 * b * (x.multT x k l - b * (means x b).multT (means x b) k l) := by
  have hb' : (b : F) ≠ 0 := Nat.cast_ne_zero.2 (by omega)
  have h1 : (means x b).n = K := by simp only [means]; rw [hn, Nat.mul_div_cancel _ hb]
  rw [hn, block_sum x (fun r m => r = m) K b k l]
  simp only [Rows.multT, h1]
  rw [hn, sum_blocks, mul_sum, ← sum_sub_distrib, mul_sum]
  refine sum_congr rfl fun r hr => ?_
  rw [sum_ite_eq, if_pos hr, means_row x K b hn r (mem_range.1 hr), means_row x K b hn r (mem_range.1 hr)]
  field_simp
  ring

/-- **C157** 'clustered' with one block size: all samples of a block are connected, themselves included, with weight one over
the size. -/
theorem clustered_graph (x : Rows F d) (w : F) (b : Nat) (hb : 0 < b) (hn : b ∣ x.n) (a : Acc F d) :
    ∃ a', updateClusteredInt x w b true a = (.ok (), a') ∧ Adds a a' x (fun _ => w) (fun i j => w * blockEdge b i j) := by
  obtain ⟨K, hK⟩ := hn
  rw [Nat.mul_comm] at hK
  have hb' : (b : F) ≠ 0 := Nat.cast_ne_zero.2 (by omega)
  have h1 : (means x b).n = K := by simp only [means]; rw [hK, Nat.mul_div_cancel _ hb]
  have hmod : ¬ 0 < x.n % b := by rw [hK, Nat.mul_mod_left]; omega
  simp only [updateClusteredInt, if_neg (show ¬ b = 0 by omega), if_neg hmod, M.modify_def, if_true]
  refine ⟨_, rfl, ?_, ?_, ?_, ?_, ?_, ?_, ?_⟩
  · intro k; simp [Rows.colSum, sum_mul, mul_comm w]
  · intro k l; simp [Rows.multT, sum_mul, mul_comm w]
  · simp
  · intro k l
    rw [addDiffs_diff, addSamples_diff]
    congr 1
    rw [← clustered_diff x K b hb hK, sum_div, sum_mul]
    refine sum_congr rfl fun i _ => ?_
    rw [sum_div, sum_mul]
    refine sum_congr rfl fun j _ => ?_
    unfold blockEdge
    split_ifs
    · field_simp
    · ring
  · rw [addDiffs_numDiffs, addSamples_numDiffs, h1]
    congr 1
    have := sum_block_pairs (fun _ _ => (1 : F)) (fun r m => r = m) K b
    simp only [sum_ite_eq, sum_const, card_range, nsmul_eq_mul, mul_one, mem_range] at this
    rw [hK]
    have h2 : ∑ i ∈ range (K * b), ∑ j ∈ range (K * b), w * (blockEdge b i j : F)
        = w / b * ∑ i ∈ range (K * b), ∑ j ∈ range (K * b), (if i / b = j / b then 1 else 0) := by
      rw [mul_sum]
      refine sum_congr rfl fun i _ => ?_
      rw [mul_sum]
      refine sum_congr rfl fun j _ => ?_
      unfold blockEdge
      split_ifs <;> ring
    rw [h2, this]
    rw [sum_congr rfl (g := fun _ => (b : F) * b) fun r hr => by rw [if_pos (mem_range.1 hr)]]
    simp only [sum_const, card_range, nsmul_eq_mul]
    field_simp
  · simp
  · simp

/-- **C157** the same without connections of samples to themselves: the weight is one over the size minus one. -/
theorem clustered_graph_no_loops (x : Rows F d) (w : F) (b : Nat) (hb : 2 ≤ b) (hn : b ∣ x.n) (a : Acc F d) :
    ∃ a', updateClusteredInt x w b false a = (.ok (), a') ∧ Adds a a' x (fun _ => w) (fun i j => w * blockEdge' b i j) := by
  obtain ⟨K, hK⟩ := hn
  rw [Nat.mul_comm] at hK
  have hb' : (b : F) - 1 ≠ 0 := by
    have : ((b - 1 : Nat) : F) ≠ 0 := Nat.cast_ne_zero.2 (by omega)
    rwa [Nat.cast_sub (by omega), Nat.cast_one] at this
  have h1 : (means x b).n = K := by simp only [means]; rw [hK, Nat.mul_div_cancel _ (by omega)]
  have hmod : ¬ 0 < x.n % b := by rw [hK, Nat.mul_mod_left]; omega
  simp only [updateClusteredInt, if_neg (show ¬ b = 0 by omega), if_neg hmod, M.modify_def, Bool.false_eq_true, if_false]
  refine ⟨_, rfl, ?_, ?_, ?_, ?_, ?_, ?_, ?_⟩
  · intro k; simp [Rows.colSum, sum_mul, mul_comm w]
  · intro k l; simp [Rows.multT, sum_mul, mul_comm w]
  · simp
  · intro k l
    rw [addDiffs_diff, addSamples_diff]
    congr 1
    rw [← clustered_diff x K b (by omega) hK, sum_div, sum_mul]
    refine sum_congr rfl fun i _ => ?_
    rw [sum_div, sum_mul]
    refine sum_congr rfl fun j _ => ?_
    unfold blockEdge'
    by_cases hij : i = j
    · subst hij; simp [sq_self]
    · simp only [hij, ne_eq, not_false_eq_true, and_true]
      split_ifs
      · field_simp
      · ring
  · rw [addDiffs_numDiffs, addSamples_numDiffs, h1]
    congr 1
    have := sum_block_pairs (fun _ _ => (1 : F)) (fun r m => r = m) K b
    simp only [sum_ite_eq, sum_const, card_range, nsmul_eq_mul, mul_one, mem_range] at this
    rw [hK]
    have h2 : ∑ i ∈ range (K * b), ∑ j ∈ range (K * b), w * (blockEdge' b i j : F)
        = w / ((b : F) - 1) * ((∑ i ∈ range (K * b), ∑ j ∈ range (K * b), (if i / b = j / b then 1 else 0)) - (K * b : Nat)) := by
      have h3 : ((K * b : Nat) : F) = ∑ i ∈ range (K * b), ∑ j ∈ range (K * b), if i = j then 1 else 0 := by
        rw [sum_congr rfl (g := fun _ => (1 : F)) fun i hi => by rw [sum_ite_eq, if_pos hi]]
        simp
      rw [h3, ← sum_sub_distrib, mul_sum]
      refine sum_congr rfl fun i _ => ?_
      rw [← sum_sub_distrib, mul_sum]
      refine sum_congr rfl fun j _ => ?_
      unfold blockEdge'
      by_cases hij : i = j
      · subst hij; simp
      · simp only [hij, ne_eq, not_false_eq_true, and_true]
        rw [if_false, sub_zero]
        split_ifs <;> ring
    rw [h2, this]
    rw [sum_congr rfl (g := fun _ => (b : F) * b) fun r hr => by rw [if_pos (mem_range.1 hr)]]
    simp only [sum_const, card_range, nsmul_eq_mul]
    push_cast
    field_simp
  · simp
  · simp

/-! ## Serial graph -/

/-- A sum over blocks: first, inner and last. -/
theorem sum_ends (f : Nat → F) (K : Nat) :
    ∑ r ∈ range (K + 1), (f r + f (1 + r)) = f 0 + 2 * (∑ r ∈ range K, f (1 + r)) + f (K + 1) := by
  rw [sum_add_distrib, sum_range_succ', sum_range_succ _ K]
  simp only [Nat.add_comm 1]
  ring

theorem serial_parts (f : Nat → F) (n K b : Nat) (hn : n = (K + 2) * b) :
    (∑ i ∈ range (min b n - 0), f (0 + i)) + 2 * (∑ i ∈ range (min (n - b) n - b), f (b + i))
      + (∑ i ∈ range (min n n - (n - b)), f (n - b + i))
    = ∑ r ∈ range (K + 1), ((∑ c ∈ range b, f (r * b + c)) + ∑ c ∈ range b, f ((1 + r) * b + c)) := by
  have e : (K + 2) * b = K * b + 2 * b := by ring
  have e' : (K + 1) * b = K * b + b := by ring
  rw [sum_ends (fun r => ∑ c ∈ range b, f (r * b + c))]
  rw [show min b n - 0 = b by omega, show min (n - b) n - b = K * b by omega, show min n n - (n - b) = b by omega,
    show n - b = (K + 1) * b by omega, sum_blocks]
  simp only [Nat.zero_add, Nat.zero_mul, Nat.add_mul, Nat.one_mul, Nat.add_assoc]

theorem serialNode_sum (n K b : Nat) (hb : 0 < b) (hn : n = (K + 2) * b) (f : Nat → F) :
    ∑ i ∈ range n, serialNode n b i * f i
      = ∑ r ∈ range (K + 1), ((∑ c ∈ range b, f (r * b + c)) + ∑ c ∈ range b, f ((1 + r) * b + c)) := by
  have hdiv : n / b = K + 2 := by rw [hn, Nat.mul_div_cancel _ hb]
  unfold serialNode
  rw [hdiv, hn, sum_blocks]
  have h1 : ∀ r ∈ range (K + 2), ∑ c ∈ range b, ((if 0 < (r * b + c) / b then (1 : F) else 0)
      + (if (r * b + c) / b + 1 < K + 2 then 1 else 0)) * f (r * b + c)
      = ((if 0 < r then (1 : F) else 0) + (if r + 1 < K + 2 then 1 else 0)) * ∑ c ∈ range b, f (r * b + c) := by
    intro r _
    rw [mul_sum]
    exact sum_congr rfl fun c hc => by rw [block_div r c (mem_range.1 hc)]
  rw [sum_congr rfl h1, sum_ends (fun r => ∑ c ∈ range b, f (r * b + c)), sum_range_succ, sum_range_succ']
  have h2 : ∀ r ∈ range K, ((if 0 < r + 1 then (1 : F) else 0) + (if r + 1 + 1 < K + 2 then 1 else 0))
      * ∑ c ∈ range b, f ((r + 1) * b + c) = 2 * ∑ c ∈ range b, f ((1 + r) * b + c) := by
    intro r hr
    rw [mem_range] at hr
    rw [if_pos (by omega), if_pos (by omega), Nat.add_comm r 1]
    ring
  rw [sum_congr rfl h2, ← mul_sum]
  simp
  ring

theorem serial_diff (x : Rows F d) (K b : Nat) (hb : 0 < b) (hn : x.n = (K + 2) * b) (k l : Fin d) :
    ∑ i ∈ range x.n, ∑ j ∈ range x.n, (if i / b + 1 = j / b ∨ j / b + 1 = i / b then sq x k l i j else 0)
      = 2 * ∑ r ∈ range (K + 1),
        (b * (∑ c ∈ range b, x.row (r * b + c) k * x.row (r * b + c) l)
          + b * (∑ c ∈ range b, x.row ((1 + r) * b + c) k * x.row ((1 + r) * b + c) l)
          - (∑ c ∈ range b, x.row (r * b + c) k) * (∑ c ∈ range b, x.row ((1 + r) * b + c) l)
          - (∑ c ∈ range b, x.row ((1 + r) * b + c) k) * (∑ c ∈ range b, x.row (r * b + c) l)) := by
  rw [hn, block_sum x (fun r m => r + 1 = m ∨ m + 1 = r) (K + 2) b k l]
  rw [sum_adjacent (fun r m => b * (∑ c ∈ range b, x.row (r * b + c) k * x.row (r * b + c) l)
          + b * (∑ c ∈ range b, x.row (m * b + c) k * x.row (m * b + c) l)
          - (∑ c ∈ range b, x.row (r * b + c) k) * (∑ c ∈ range b, x.row (m * b + c) l)
          - (∑ c ∈ range b, x.row (m * b + c) k) * (∑ c ∈ range b, x.row (r * b + c) l)) (fun i j => by ring)]
  rfl

/-- **C157** 'serial' with two or more blocks: all samples of successive blocks are connected in both directions, with
weight one over the size; the weight of a sample is the number of neighbouring blocks. -/
theorem serial_graph (x : Rows F d) (w : F) (b : Nat) (hb : 0 < b) (hn : b ∣ x.n) (h2 : 2 * b ≤ x.n) (a : Acc F d) :
    ∃ a', updateSerialInt x b w a = (.ok (), a') ∧
      Adds a a' x (fun i => w * serialNode x.n b i) (fun i j => w * serialEdge b i j) := by
  obtain ⟨K', hK⟩ := hn
  rw [Nat.mul_comm] at hK
  obtain ⟨K, rfl⟩ : ∃ K, K' = K + 2 := by
    refine ⟨K' - 2, ?_⟩
    rcases K' with _ | _ | K'
    · omega
    · omega
    · omega
  have hb' : (b : F) ≠ 0 := Nat.cast_ne_zero.2 (by omega)
  have h1 : (means x b).n = K + 2 := by simp only [means]; rw [hK, Nat.mul_div_cancel _ hb]
  have hmod : ¬ 0 < x.n % b := by rw [hK, Nat.mul_mod_left]; omega
  have hsum : ∀ f : Nat → F, _ := fun f => (serial_parts f x.n K b hK).trans (serialNode_sum x.n K b hb hK f).symm
  simp only [updateSerialInt, if_neg (show ¬ b = 0 by omega), if_neg hmod, M.modify_def]
  refine ⟨_, rfl, ?_, ?_, ?_, ?_, ?_, ?_, ?_⟩
  · intro k
    have := hsum fun i => x.row i k
    simp only [addDiffs_sum, addSamples_sum, Rows.colSum, Rows.slice, this, mul_assoc, ← mul_sum]
    rw [mul_comm w]
  · intro k l
    have := hsum fun i => x.row i k * x.row i l
    simp only [addDiffs_prod, addSamples_prod, Rows.multT, Rows.slice, this, mul_assoc, ← mul_sum]
    rw [mul_comm w]
  · have := hsum fun _ => 1
    simp only [mul_one] at this
    rw [← mul_sum, ← this]
    simp only [addDiffs_num, addSamples_num, sum_const, card_range, nsmul_eq_mul, mul_one]
    have e1 : min b x.n - 0 = b := by omega
    have e2 : min (x.n - b) x.n - b = x.n - 2 * b := by omega
    have e3 : min x.n x.n - (x.n - b) = b := by omega
    rw [e1, e2, e3, Nat.cast_sub h2]
    push_cast
    ring
  · intro k l
    have hs := hsum fun i => x.row i k * x.row i l
    rw [addDiffs_diff, addSamples_diff]
    congr 1
    have e1 : ∑ i ∈ range x.n, ∑ j ∈ range x.n, w * serialEdge b i j * sq x k l i j
        = w / b * ∑ i ∈ range x.n, ∑ j ∈ range x.n, (if i / b + 1 = j / b ∨ j / b + 1 = i / b then sq x k l i j else 0) := by
      rw [mul_sum]
      refine sum_congr rfl fun i _ => ?_
      rw [mul_sum]
      refine sum_congr rfl fun j _ => ?_
      unfold serialEdge
      split_ifs <;> ring
    rw [e1, serial_diff x K b hb hK]
    have e2 : ∀ c e : Fin d, ((means x b).slice 0 ((means x b).n - 1)).multT ((means x b).slice 1 (means x b).n) c e
        = ∑ r ∈ range (K + 1), (∑ m ∈ range b, x.row (r * b + m) c) * (1 / b)
          * ((∑ m ∈ range b, x.row ((1 + r) * b + m) e) * (1 / b)) := by
      intro c e
      simp only [Rows.multT, Rows.slice, h1]
      rw [show min (K + 2 - 1) (K + 2) - 0 = K + 1 by omega]
      refine sum_congr rfl fun r hr => ?_
      rw [mem_range] at hr
      rw [means_row x (K + 2) b hK _ (by omega), means_row x (K + 2) b hK _ (by omega), Nat.zero_add]
    have e3 : ∀ c e : Fin d, ((means x b).slice 1 (means x b).n).multT ((means x b).slice 0 ((means x b).n - 1)) c e
        = ∑ r ∈ range (K + 1), (∑ m ∈ range b, x.row ((1 + r) * b + m) c) * (1 / b)
          * ((∑ m ∈ range b, x.row (r * b + m) e) * (1 / b)) := by
      intro c e
      simp only [Rows.multT, Rows.slice, h1]
      rw [show min (K + 2) (K + 2) - 1 = K + 1 by omega]
      refine sum_congr rfl fun r hr => ?_
      rw [mem_range] at hr
      rw [means_row x (K + 2) b hK _ (by omega), means_row x (K + 2) b hK _ (by omega), Nat.zero_add]
    rw [e2, e3]
    simp only [Rows.multT, Rows.slice]
    rw [serial_parts (fun i => x.row i k * x.row i l) x.n K b hK, ← sum_add_distrib, mul_sum, mul_sum, ← sum_sub_distrib,
      sum_mul, mul_sum, sum_mul, mul_sum, mul_sum]
    refine sum_congr rfl fun r _ => ?_
    field_simp
    ring
  · rw [addDiffs_numDiffs, addSamples_numDiffs, h1]
    congr 1
    have e1 : ∑ i ∈ range x.n, ∑ j ∈ range x.n, w * (serialEdge b i j : F)
        = w / b * ∑ i ∈ range x.n, ∑ j ∈ range x.n, (if i / b + 1 = j / b ∨ j / b + 1 = i / b then 1 else 0) := by
      rw [mul_sum]
      refine sum_congr rfl fun i _ => ?_
      rw [mul_sum]
      refine sum_congr rfl fun j _ => ?_
      unfold serialEdge
      split_ifs <;> ring
    rw [e1, hK, sum_block_pairs (fun _ _ => (1 : F)) (fun r m => r + 1 = m ∨ m + 1 = r) (K + 2) b,
      sum_adjacent (fun _ _ => ∑ a ∈ range b, ∑ c ∈ range b, (1 : F)) (fun _ _ => rfl)]
    simp only [sum_const, card_range, nsmul_eq_mul, mul_one]
    rw [Nat.cast_sub (by omega)]
    push_cast
    field_simp
  · simp
  · simp

end clustered

end Mdp.Gsfa
