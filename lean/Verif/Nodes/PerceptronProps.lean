import Verif.Nodes.Perceptron
import Verif.Nodes.HopfieldProps
import Mathlib.Algebra.Order.Archimedean.Basic
import Mathlib.Algebra.Order.BigOperators.Ring.Finset
import Mathlib.Algebra.Order.Chebyshev
import Mathlib.Data.Rat.Floor

/-!
# Properties of PerceptronClassifier (C84)
-/

namespace Mdp.Perceptron

open Hopfield (sgn sgn_cases)
open Markov (LabelArg stretched)

variable {F : Type} [Field F] [LinearOrder F] [IsStrictOrderedRing F] {d : Nat}

/-! ## Specification -/

/-- The perceptron with these weights and offset classifies the sample correctly. -/
def Correct (s : (Fin d → F) × F) (p : (Fin d → F) × F) : Prop :=
  (p.2 = 1 ∧ 0 < (∑ j, p.1 j * s.1 j) + s.2) ∨ (p.2 = -1 ∧ (∑ j, p.1 j * s.1 j) + s.2 < 0)

/-- Training on the samples one after the other. -/
def run (s : (Fin d → F) × F) (ps : List ((Fin d → F) × F)) : (Fin d → F) × F := ps.foldl (fun s p => trainRow s p.1 p.2) s

/-- The number of samples that are classified wrongly at the moment they are used for training. -/
def mistakes : (Fin d → F) × F → List ((Fin d → F) × F) → Nat
  | _, [] => 0
  | s, p :: ps => (if label s.1 s.2 p.1 = p.2 then 0 else 1) + mistakes (trainRow s p.1 p.2) ps

/-- Some hyperplane separates the samples with a margin `γ`. -/
def Separates (u : Fin d → F) (c γ : F) (p : (Fin d → F) × F) : Prop := (p.2 = 1 ∨ p.2 = -1) ∧ γ ≤ p.2 * ((∑ j, p.1 j * u j) + c)

theorem correct_iff (s : (Fin d → F) × F) (p : (Fin d → F) × F) (hp : p.2 = 1 ∨ p.2 = -1) :
    Correct s p ↔ label s.1 s.2 p.1 = p.2 := by
  unfold Correct label
  have h11 : (1 : F) ≠ -1 := by
    intro h
    have : (0 : F) < 1 := zero_lt_one
    linarith
  have h10 : (1 : F) ≠ 0 := one_ne_zero
  have hn0 : (-1 : F) ≠ 0 := neg_ne_zero.2 h10
  rcases sgn_cases ((∑ j, p.1 j * s.1 j) + s.2) with ⟨h, e⟩ | ⟨h, e⟩ | ⟨h, e⟩ <;> rw [e] <;> rcases hp with hp | hp <;>
    rw [hp]
  · simp [h]
  · simp [h11, not_lt.2 (le_of_lt h)]; intro hc; exact absurd hc.symm h11
  · simp [h11.symm, not_lt.2 (le_of_lt h)]; intro hc; exact absurd hc h11
  · simp [h]
  · simp [h, h10.symm]
  · simp [h, hn0.symm]

/-- C84: a sample that is classified correctly changes nothing. -/
theorem correct_unchanged (s : (Fin d → F) × F) (p : (Fin d → F) × F) (hp : p.2 = 1 ∨ p.2 = -1) (h : Correct s p) :
    trainRow s p.1 p.2 = s := by
  unfold trainRow
  simp only [(correct_iff s p hp).1 h, sub_self, mul_zero, zero_mul, add_zero]

/-! ## Novikoff's argument -/

/-- Offset and weights as one vector. -/
def ext (s : (Fin d → F) × F) : Fin (d + 1) → F := Fin.cons s.2 s.1

/-- Inner product. -/
def ip {n : Nat} (a b : Fin n → F) : F := ∑ i, a i * b i

theorem ip_ext (s t : (Fin d → F) × F) : ip (ext s) (ext t) = s.2 * t.2 + ∑ j, s.1 j * t.1 j := by
  simp [ip, ext, Fin.sum_univ_succ]

theorem ip_add_smul {n : Nat} (a b c : Fin n → F) (k : F) : ip (fun i => a i + k * b i) c = ip a c + k * ip b c := by
  unfold ip
  rw [Finset.mul_sum, ← Finset.sum_add_distrib]
  exact Finset.sum_congr rfl fun i _ => by ring

theorem ip_comm {n : Nat} (a b : Fin n → F) : ip a b = ip b a :=
  Finset.sum_congr rfl fun i _ => mul_comm _ _

theorem ext_trainRow (s : (Fin d → F) × F) (x : Fin d → F) (y : F) :
    ext (trainRow s x y) = fun i => ext s i + ((1 / 10) * (y - label s.1 s.2 x)) * ext (x, 1) i := by
  funext i
  refine Fin.cases ?_ (fun j => ?_) i
  · simp [ext, trainRow]
  · simp [ext, trainRow]

/-- One mistake: progress towards the separating vector, bounded growth of the norm. -/
theorem step_mistake (s : (Fin d → F) × F) (p : (Fin d → F) × F) (u : Fin d → F) (c γ R : F) (hγ : 0 < γ)
    (hsep : Separates u c γ p) (hR : ip (ext (p.1, 1)) (ext (p.1, 1)) ≤ R) (hm : label s.1 s.2 p.1 ≠ p.2) :
    ip (ext s) (ext (u, c)) + γ / 10 ≤ ip (ext (trainRow s p.1 p.2)) (ext (u, c)) ∧
    ip (ext (trainRow s p.1 p.2)) (ext (trainRow s p.1 p.2)) ≤ ip (ext s) (ext s) + R / 25 := by
  obtain ⟨hp, hs⟩ := hsep
  have hx : ip (ext (p.1, 1)) (ext (u, c)) = (∑ j, p.1 j * u j) + c := by rw [ip_ext]; simp only; ring
  have hxs : ip (ext (p.1, 1)) (ext s) = (∑ j, p.1 j * s.1 j) + s.2 := by rw [ip_ext]; simp only; ring
  have hR0 : 0 ≤ ip (ext (p.1, (1 : F))) (ext (p.1, 1)) := Finset.sum_nonneg fun i _ => mul_self_nonneg _
  -- the factor is 1/10 or 2/10 times the label
  obtain ⟨k, hk, hk1, hk2, hneg⟩ : ∃ k, (1 / 10) * (p.2 - label s.1 s.2 p.1) = k * p.2 ∧ (1 : F) / 10 ≤ k ∧ k ≤ 2 / 10 ∧
      p.2 * ip (ext (p.1, 1)) (ext s) ≤ 0 := by
    have hl : label s.1 s.2 p.1 = sgn (ip (ext (p.1, 1)) (ext s)) := by rw [hxs]; rfl
    rw [hl] at hm ⊢
    rcases sgn_cases (ip (ext (p.1, 1)) (ext s)) with ⟨h, e⟩ | ⟨h, e⟩ | ⟨h, e⟩ <;> rw [e] at hm ⊢ <;>
      rcases hp with hp | hp <;> rw [hp] at hm ⊢
    · exact absurd rfl hm
    · exact ⟨2 / 10, by ring, by norm_num, by norm_num, by linarith⟩
    · exact ⟨2 / 10, by ring, by norm_num, by norm_num, by linarith⟩
    · exact absurd rfl hm
    · exact ⟨1 / 10, by ring, by norm_num, by norm_num, by rw [h]; simp⟩
    · exact ⟨1 / 10, by ring, by norm_num, by norm_num, by rw [h]; simp⟩
  have hk0 : 0 ≤ k := le_trans (by norm_num) hk1
  have hyy : p.2 * p.2 = 1 := by rcases hp with hp | hp <;> rw [hp] <;> ring
  rw [ext_trainRow, hk]
  constructor
  · rw [ip_add_smul, hx]
    have h1 : γ / 10 ≤ k * γ := by
      have := mul_le_mul_of_nonneg_right hk1 (le_of_lt hγ)
      linarith
    have h2 : k * γ ≤ k * (p.2 * ((∑ j, p.1 j * u j) + c)) := mul_le_mul_of_nonneg_left hs hk0
    have h3 : k * (p.2 * ((∑ j, p.1 j * u j) + c)) = k * p.2 * ((∑ j, p.1 j * u j) + c) := by ring
    linarith
  · rw [ip_add_smul, ip_comm (ext s), ip_comm (ext (p.1, 1)), ip_add_smul, ip_add_smul, ip_comm (ext s) (ext (p.1, 1))]
    have h1 : k * (p.2 * ip (ext (p.1, 1)) (ext s)) ≤ 0 := mul_nonpos_of_nonneg_of_nonpos hk0 hneg
    have h2 : k * k ≤ 1 / 25 := by
      have := mul_le_mul hk2 hk2 hk0 (by norm_num : (0 : F) ≤ 2 / 10)
      linarith
    have h3 : k * k * ip (ext (p.1, (1 : F))) (ext (p.1, 1)) ≤ 1 / 25 * R :=
      mul_le_mul h2 hR hR0 (by norm_num)
    have h4 : k * p.2 * (k * p.2 * ip (ext (p.1, (1 : F))) (ext (p.1, 1))) =
        k * k * ip (ext (p.1, (1 : F))) (ext (p.1, 1)) := by
      have : k * p.2 * (k * p.2 * ip (ext (p.1, (1 : F))) (ext (p.1, 1))) =
        (p.2 * p.2) * (k * k * ip (ext (p.1, (1 : F))) (ext (p.1, 1))) := by ring
      rw [this, hyy, one_mul]
    linarith

theorem run_progress (u : Fin d → F) (c γ R : F) (hγ : 0 < γ) (ps : List ((Fin d → F) × F)) :
    ∀ s, (∀ p ∈ ps, Separates u c γ p ∧ ip (ext (p.1, 1)) (ext (p.1, 1)) ≤ R) →
      ip (ext s) (ext (u, c)) + mistakes s ps * (γ / 10) ≤ ip (ext (run s ps)) (ext (u, c)) ∧
      ip (ext (run s ps)) (ext (run s ps)) ≤ ip (ext s) (ext s) + mistakes s ps * (R / 25) := by
  induction ps with
  | nil => intro s _; simp [run, mistakes]
  | cons p ps ih =>
    intro s h
    obtain ⟨h1, h2⟩ := ih (trainRow s p.1 p.2) fun q hq => h q (by simp [hq])
    obtain ⟨hsep, hR⟩ := h p (by simp)
    have hr : run s (p :: ps) = run (trainRow s p.1 p.2) ps := rfl
    rw [hr]
    by_cases hm : label s.1 s.2 p.1 = p.2
    · have : trainRow s p.1 p.2 = s := correct_unchanged s p hsep.1 ((correct_iff s p hsep.1).2 hm)
      rw [this] at h1 h2 ⊢
      have hmm : mistakes s (p :: ps) = mistakes s ps := by simp [mistakes, hm, this]
      rw [hmm]; exact ⟨h1, h2⟩
    · have hmm : mistakes s (p :: ps) = 1 + mistakes (trainRow s p.1 p.2) ps := by simp [mistakes, hm]
      obtain ⟨g1, g2⟩ := step_mistake s p u c γ R hγ hsep hR hm
      rw [hmm]
      push_cast
      constructor <;> nlinarith

theorem cauchy {n : Nat} (a b : Fin n → F) : (ip a b) ^ 2 ≤ ip a a * ip b b := by
  have := Finset.sum_mul_sq_le_sq_mul_sq Finset.univ a b
  simpa [ip, pow_two] using this

/-- C84: for data that some hyperplane separates with a margin and that is bounded, there is a number which the number
of mistakes never exceeds, however long and in whatever order samples are presented, from any start. -/
theorem mistakes_bounded [Archimedean F] (u : Fin d → F) (c γ R : F) (hγ : 0 < γ) (s : (Fin d → F) × F) :
    ∃ N : Nat, ∀ ps : List ((Fin d → F) × F), (∀ p ∈ ps, Separates u c γ p ∧ (∑ j, p.1 j * p.1 j) ≤ R) → mistakes s ps ≤ N := by
  generalize hA : ip (ext s) (ext (u, c)) = A
  generalize hW : ip (ext s) (ext s) = W
  generalize hU : ip (ext (u, c)) (ext (u, c)) = U
  have hB : 0 < γ / 10 := by linarith
  generalize hBB : γ / 10 = B at hB
  have hW0 : 0 ≤ W := by rw [← hW]; exact Finset.sum_nonneg fun i _ => mul_self_nonneg _
  have hU0 : 0 ≤ U := by rw [← hU]; exact Finset.sum_nonneg fun i _ => mul_self_nonneg _
  obtain ⟨N, hN⟩ := exists_nat_ge ((U * W + U * ((max R 0 + 1) / 25) + 2 * |A| * B) / (B * B))
  refine ⟨N, fun ps h => ?_⟩
  have hps : ∀ p ∈ ps, Separates u c γ p ∧ ip (ext (p.1, 1)) (ext (p.1, 1)) ≤ max R 0 + 1 := by
    intro p hp
    refine ⟨(h p hp).1, ?_⟩
    rw [ip_ext]
    have := (h p hp).2
    have h2 := le_max_left R 0
    simp only
    linarith
  obtain ⟨h1, h2⟩ := run_progress u c γ (max R 0 + 1) hγ ps s hps
  rw [hA, hBB] at h1
  rw [hW] at h2
  have hC0 : 0 ≤ (max R 0 + 1) / 25 := by
    have := le_max_right R 0
    linarith
  generalize (max R 0 + 1) / 25 = C at h2 hC0 hN
  have hcs := cauchy (ext (run s ps)) (ext (u, c))
  rw [hU] at hcs
  generalize mistakes s ps = m at h1 h2
  generalize ip (ext (run s ps)) (ext (u, c)) = Z at h1 hcs
  generalize ip (ext (run s ps)) (ext (run s ps)) = V at h2 hcs
  have hBB0 : 0 < B * B := mul_pos hB hB
  rcases Nat.eq_zero_or_pos m with h0 | hpos
  · omega
  have hm1 : (1 : F) ≤ (m : F) := by exact_mod_cast hpos
  have hm0 : (0 : F) ≤ (m : F) := le_trans zero_le_one hm1
  have key : (m : F) * (B * B) ≤ U * W + U * C + 2 * |A| * B := by
    have hUW : 0 ≤ U * W := mul_nonneg hU0 hW0
    have hUC : 0 ≤ U * C := mul_nonneg hU0 hC0
    have hAB : 0 ≤ |A| * B := mul_nonneg (abs_nonneg _) (le_of_lt hB)
    rcases lt_or_ge (A + m * B) 0 with hneg | hge
    · have : (m : F) * B ≤ |A| := by
        have := neg_abs_le A
        linarith
      have := mul_le_mul_of_nonneg_right this (le_of_lt hB)
      nlinarith
    · have hsq : (A + m * B) ^ 2 ≤ Z ^ 2 := pow_le_pow_left₀ hge h1 2
      have hV : V * U ≤ (W + m * C) * U := mul_le_mul_of_nonneg_right h2 hU0
      have h3 : (A + m * B) ^ 2 ≤ (W + m * C) * U := le_trans hsq (le_trans hcs hV)
      have hAm : -(|A| * B) ≤ A * B := by
        have := mul_le_mul_of_nonneg_right (neg_abs_le A) (le_of_lt hB)
        linarith
      have h4 : (m : F) * (m * (B * B)) ≤ m * (U * W + U * C + 2 * |A| * B) := by
        have e : (A + m * B) ^ 2 = A * A + 2 * m * (A * B) + m * (m * (B * B)) := by ring
        have hAA := mul_self_nonneg A
        have h5 : m * (A * B) ≥ m * (-(|A| * B)) := mul_le_mul_of_nonneg_left hAm hm0
        have h6 : U * W ≤ m * (U * W) := by nlinarith
        nlinarith
      exact le_of_mul_le_mul_left h4 (lt_of_lt_of_le zero_lt_one hm1)
  have : (m : F) ≤ N := by
    refine le_trans ?_ hN
    rw [le_div_iff₀ hBB0]
    exact key
  exact_mod_cast this

theorem mistakes_append (s : (Fin d → F) × F) (a b : List ((Fin d → F) × F)) :
    mistakes s (a ++ b) = mistakes s a + mistakes (run s a) b := by
  induction a generalizing s with
  | nil => simp [mistakes, run]
  | cons p a ih =>
    rw [List.cons_append, mistakes, mistakes, ih]
    have : run s (p :: a) = run (trainRow s p.1 p.2) a := rfl
    rw [this, Nat.add_assoc]

theorem run_append (s : (Fin d → F) × F) (a b : List ((Fin d → F) × F)) : run s (a ++ b) = run (run s a) b :=
  List.foldl_append

theorem no_mistakes (s : (Fin d → F) × F) (ps : List ((Fin d → F) × F)) (hp : ∀ p ∈ ps, p.2 = 1 ∨ p.2 = -1) :
    mistakes s ps = 0 ↔ ∀ p ∈ ps, Correct s p := by
  induction ps generalizing s with
  | nil => simp [mistakes]
  | cons p ps ih =>
    have hpp := hp p (by simp)
    rw [mistakes]
    by_cases h : label s.1 s.2 p.1 = p.2
    · have hc := (correct_iff s p hpp).2 h
      rw [correct_unchanged s p hpp hc, if_pos h, Nat.zero_add, ih s fun q hq => hp q (by simp [hq])]
      simp [hc]
    · rw [if_neg h]
      constructor
      · intro h0; omega
      · intro hc; exact absurd ((correct_iff s p hpp).1 (hc p (by simp))) h

theorem run_correct (s : (Fin d → F) × F) (ps : List ((Fin d → F) × F)) (hp : ∀ p ∈ ps, p.2 = 1 ∨ p.2 = -1)
    (h : ∀ p ∈ ps, Correct s p) : run s ps = s := by
  induction ps with
  | nil => rfl
  | cons p ps ih =>
    have : run s (p :: ps) = run (trainRow s p.1 p.2) ps := rfl
    rw [this, correct_unchanged s p (hp p (by simp)) (h p (by simp))]
    exact ih (fun q hq => hp q (by simp [hq])) fun q hq => h q (by simp [hq])

/-- C84: repeating a separable finite data set often enough, all samples are classified correctly from then on. -/
theorem perceptron_converges [Archimedean F] (data : List ((Fin d → F) × F)) (u : Fin d → F) (c γ : F) (hγ : 0 < γ)
    (hsep : ∀ p ∈ data, Separates u c γ p) (s : (Fin d → F) × F) :
    ∃ N : Nat, ∀ k, N ≤ k → ∀ p ∈ data, Correct (run s (List.replicate k data).flatten) p := by
  have hlab : ∀ p ∈ data, p.2 = 1 ∨ p.2 = -1 := fun p hp => (hsep p hp).1
  obtain ⟨R, hR⟩ : ∃ R : F, ∀ p ∈ data, (∑ j, p.1 j * p.1 j) ≤ R := by
    clear hsep hlab
    induction data with
    | nil => exact ⟨0, by simp⟩
    | cons p data ih =>
      obtain ⟨R, hR⟩ := ih
      refine ⟨max R (∑ j, p.1 j * p.1 j), fun q hq => ?_⟩
      rcases List.mem_cons.1 hq with rfl | hq
      · exact le_max_right _ _
      · exact le_trans (hR q hq) (le_max_left _ _)
  obtain ⟨N, hN⟩ := mistakes_bounded u c γ R hγ s
  have hsucc : ∀ k, (List.replicate (k + 1) data).flatten = (List.replicate k data).flatten ++ data := by
    intro k
    rw [List.replicate_succ', List.flatten_append]; simp
  -- either some repetition is free of mistakes, or there are as many mistakes as repetitions
  have hor : ∀ k, (∀ p ∈ data, Correct (run s (List.replicate k data).flatten) p) ∨
      k + 1 ≤ mistakes s (List.replicate (k + 1) data).flatten := by
    intro k
    induction k with
    | zero =>
      by_cases h : mistakes s data = 0
      · left; simpa [run] using (no_mistakes s data hlab).1 h
      · right; simp; omega
    | succ k ih =>
      rcases ih with h | h
      · left
        rw [hsucc, run_append, run_correct _ data hlab h]; exact h
      · by_cases h0 : mistakes (run s (List.replicate (k + 1) data).flatten) data = 0
        · left; exact (no_mistakes _ data hlab).1 h0
        · right
          rw [hsucc (k + 1), mistakes_append]; omega
  refine ⟨N, fun k hk => ?_⟩
  rcases hor k with h | h
  · exact h
  · have := hN (List.replicate (k + 1) data).flatten (by
      intro p hp
      obtain ⟨l, hl, hpl⟩ := List.mem_flatten.1 hp
      rw [List.eq_of_mem_replicate hl] at hpl
      exact ⟨hsep p hpl, hR p hpl⟩)
    omega

/-- C84: `train` called with a list of labels trains on the samples in order, starting from weights 1 and offset 0. -/
theorem train_is_run (s : St F d) (x : List (Fin d → F)) (ls : List F) (hlen : ls.length = x.length)
    (hl : ∀ l ∈ ls, l = 1 ∨ l = -1) :
    s.train x (.array ls) = (true, ⟨some (run (s.weights.getD fun _ => 1, s.offset) (x.zip ls)).1,
      (run (s.weights.getD fun _ => 1, s.offset) (x.zip ls)).2⟩) := by
  have : check x.length (.array ls) = true := by
    simp only [check, hlen, decide_true, Bool.true_and, List.all_eq_true, decide_eq_true_eq]
    exact hl
  rw [St.train, if_pos this]
  rfl

/-- C84: labels other than 1 and -1, or too many or too few, are refused and change nothing. -/
theorem train_refuses (s : St F d) (x : List (Fin d → F)) (ls : List F)
    (h : ls.length ≠ x.length ∨ ∃ l ∈ ls, l ≠ 1 ∧ l ≠ -1) : s.train x (.array ls) = (false, s) := by
  have : check x.length (.array ls) = false := by
    simp only [check, Bool.and_eq_false_iff, decide_eq_false_iff_not]
    rcases h with h | ⟨l, hl, h1, h2⟩
    · exact Or.inl h
    · right
      rw [← Bool.not_eq_true, List.all_eq_true]
      intro hc
      have := of_decide_eq_true (hc l hl)
      tauto
  simp [St.train, this]

/-! ## Examples -/

example : Separates (fun _ : Fin 1 => (1 : Rat)) (-2) 1 (fun _ => 3, 1) ∧
    Separates (fun _ : Fin 1 => (1 : Rat)) (-2) 1 (fun _ => 1, -1) := by
  constructor <;> simp [Separates] <;> norm_num

example : (trainRow (fun _ : Fin 1 => (1 : Rat), 0) (fun _ => 1) (-1)).2 = -1 / 5 := by
  decide +kernel

end Mdp.Perceptron
