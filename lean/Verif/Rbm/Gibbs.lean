import Verif.Rbm.Model
import Mathlib.MeasureTheory.Measure.Lebesgue.Basic
import Mathlib.Analysis.SpecialFunctions.Log.Deriv
import Mathlib.Analysis.SpecialFunctions.ExpDeriv

/-!
# Sampling of `RBMNode`: the conditional distributions of the energy

The specification is the Boltzmann distribution: the probability of a state is proportional to the exponential of minus its energy.
-/

namespace Mdp.Rbm

open Matrix MeasureTheory

variable {ι κ : Type} [Fintype ι] [Fintype κ]

/-! ## Specification -/

/-- Binary values as numbers. -/
def num {ι : Type} (h : ι → Bool) : ι → ℝ := fun j => if h j then 1 else 0

/-- The energy of a Boltzmann machine: the sum over variables with biases and over connections, with a minus sign. -/
def energyOf (w : Matrix ι κ ℝ) (bv : ι → ℝ) (bh : κ → ℝ) (v : ι → ℝ) (h : κ → ℝ) : ℝ :=
  -(∑ i, bv i * v i + ∑ j, bh j * h j + ∑ i, ∑ j, v i * w i j * h j)

/-- Independent uniform random numbers between zero and one. -/
def cube (κ : Type) : Set (κ → ℝ) := {u | ∀ j, 0 ≤ u j ∧ u j < 1}

/-- The probability of an event for uniform random numbers. -/
noncomputable def prob (s : Set (κ → ℝ)) : ℝ := (volume (s ∩ cube κ)).toReal

/-! ## Lemmas -/

theorem energy_eq (r : Rbm ι κ) (v : ι → ℝ) (h : κ → ℝ) : r.energy v h = energyOf r.w r.bv r.bh v h := by
  simp only [Rbm.energy, energyOf, dotProduct, vecMul, Finset.sum_mul]
  rw [Finset.sum_comm (s := Finset.univ) (t := Finset.univ) (f := fun j i => v i * r.w i j * h j)]
  simp only [mul_comm (v _) (r.bv _), mul_comm (h _) (r.bh _)]
  ring

/-- The logistic function. -/
noncomputable def logistic (a : ℝ) : ℝ := 1 / (1 + Real.exp (-a))

theorem logistic_pos (a : ℝ) : 0 < logistic a := by unfold logistic; positivity

theorem logistic_lt (a : ℝ) : logistic a < 1 := by
  unfold logistic
  rw [div_lt_one (by positivity)]
  linarith [Real.exp_pos (-a)]

theorem logistic_eq (a : ℝ) : logistic a = Real.exp a / (1 + Real.exp a) := by
  unfold logistic
  rw [Real.exp_neg]
  have := Real.exp_pos a
  field_simp
  ring

theorem one_sub_logistic (a : ℝ) : 1 - logistic a = 1 / (1 + Real.exp a) := by
  rw [logistic_eq]
  have := Real.exp_pos a
  field_simp
  ring

/-- The sum over all binary states of a product over variables is a product of sums. -/
theorem sum_states (κ : Type) [Fintype κ] [DecidableEq κ] (a : κ → ℝ) :
    ∑ h : κ → Bool, Real.exp (∑ j, a j * num h j) = ∏ j, (1 + Real.exp (a j)) := by
  have h1 : ∀ h : κ → Bool, Real.exp (∑ j, a j * num h j) = ∏ j, (if h j then Real.exp (a j) else 1) := by
    intro h
    rw [Real.exp_sum]
    refine Finset.prod_congr rfl fun j _ => ?_
    cases hj : h j <;> simp [num, hj]
  have h2 : ∀ j, (1 + Real.exp (a j)) = ∑ b : Bool, (if b then Real.exp (a j) else 1) := by
    intro j; rw [Fintype.sum_bool]; simp [add_comm]
  simp only [h1, h2]
  rw [Finset.prod_univ_sum, Fintype.piFinset_univ]

/-- The probability of a sample is the product of the probabilities of its values. -/
theorem prob_above (p : κ → ℝ) (h0 : ∀ j, 0 ≤ p j) (h1 : ∀ j, p j ≤ 1) (h : κ → Bool) :
    prob {u | above p u = num h} = ∏ j, (if h j then p j else 1 - p j) := by
  have e : {u | above p u = num h} ∩ cube κ = Set.pi Set.univ fun j => Set.Ico (if h j then 0 else p j) (if h j then p j else 1) := by
    ext u
    simp only [Set.mem_inter_iff, Set.mem_setOf_eq, cube, Set.mem_pi, Set.mem_univ, forall_true_left, Set.mem_Ico]
    constructor
    · rintro ⟨e1, e2⟩ j
      have e3 := congrFun e1 j
      have e4 := e2 j
      simp only [above, num] at e3
      cases hj : h j
      · simp only [hj, Bool.false_eq_true, if_false] at e3 ⊢
        split_ifs at e3 with e5
        · norm_num at e3
        · exact ⟨not_lt.1 e5, e4.2⟩
      · simp only [hj, if_true] at e3 ⊢
        split_ifs at e3 with e5
        · exact ⟨e4.1, e5⟩
        · norm_num at e3
    · intro e1
      refine ⟨?_, fun j => ?_⟩
      · funext j
        have e2 := e1 j
        simp only [above, num]
        cases hj : h j
        · simp only [hj, Bool.false_eq_true, if_false] at e2 ⊢
          rw [if_neg (not_lt.2 e2.1)]
        · simp only [hj, if_true] at e2 ⊢
          rw [if_pos e2.2]
      · have e2 := e1 j
        cases hj : h j
        · simp only [hj, Bool.false_eq_true, if_false] at e2
          exact ⟨(h0 j).trans e2.1, e2.2⟩
        · simp only [hj, if_true] at e2
          exact ⟨e2.1, e2.2.trans_le (h1 j)⟩
  rw [prob, e, Real.volume_pi_Ico, ENNReal.toReal_prod]
  refine Finset.prod_congr rfl fun j _ => ?_
  cases hj : h j
  · simp only [Bool.false_eq_true, if_false]
    rw [ENNReal.toReal_ofReal (by linarith [h1 j])]
  · simp only [if_true, sub_zero]
    rw [ENNReal.toReal_ofReal (h0 j)]

/-- Samples with logistic probabilities have the distribution of independent variables with these activations. -/
theorem prob_logistic [DecidableEq κ] (a : κ → ℝ) (h : κ → Bool) :
    prob {u | above (fun j => logistic (a j)) u = num h} =
      Real.exp (∑ j, a j * num h j) / ∑ h' : κ → Bool, Real.exp (∑ j, a j * num h' j) := by
  rw [prob_above _ (fun j => (logistic_pos _).le) (fun j => (logistic_lt _).le), sum_states, Real.exp_sum, ← Finset.prod_div_distrib]
  refine Finset.prod_congr rfl fun j _ => ?_
  cases hj : h j
  · simp [num, hj, one_sub_logistic]
  · simp [num, hj, logistic_eq]

theorem probsH_eq (r : Rbm ι κ) (v : ι → ℝ) : r.probsH v = fun j => logistic (r.bh j + ∑ i, v i * r.w i j) := by
  funext j
  simp only [Rbm.probsH, logistic, vecMul, dotProduct]
  congr 3
  ring

theorem probsV_eq (r : Rbm ι κ) (h : κ → ℝ) : r.probsV h = fun i => logistic (r.bv i + ∑ j, r.w i j * h j) := by
  funext i
  simp only [Rbm.probsV, logistic, vecMul, dotProduct, transpose_apply]
  congr 3
  simp only [mul_comm (h _)]
  ring

theorem energy_h (r : Rbm ι κ) (v : ι → ℝ) (h : κ → ℝ) :
    -energyOf r.w r.bv r.bh v h = ∑ i, r.bv i * v i + ∑ j, (r.bh j + ∑ i, v i * r.w i j) * h j := by
  simp only [energyOf, neg_neg, add_mul, Finset.sum_add_distrib, Finset.sum_mul]
  rw [Finset.sum_comm (s := Finset.univ) (t := Finset.univ) (f := fun i j => v i * r.w i j * h j)]
  ring

theorem energy_v (r : Rbm ι κ) (v : ι → ℝ) (h : κ → ℝ) :
    -energyOf r.w r.bv r.bh v h = ∑ j, r.bh j * h j + ∑ i, (r.bv i + ∑ j, r.w i j * h j) * v i := by
  simp only [energyOf, neg_neg, add_mul, Finset.sum_add_distrib, Finset.sum_mul]
  have : ∀ i, ∑ j, r.w i j * h j * v i = ∑ j, v i * r.w i j * h j := fun i => Finset.sum_congr rfl fun j _ => by ring
  simp only [this]
  ring

/-! ## Theorems -/

/-- `energy` is the energy of the Boltzmann machine. -/
theorem rbm_energy (r : Rbm ι κ) (v : ι → ℝ) (h : κ → ℝ) : r.energy v h = energyOf r.w r.bv r.bh v h := energy_eq r v h

/-- `sample_h`: for uniform random numbers the sample has the conditional distribution of the hidden variables given the visible ones,
whatever the (also non-binary) values of these. -/
theorem rbm_hidden [DecidableEq κ] (r : Rbm ι κ) (v : ι → ℝ) (h : κ → Bool) :
    prob {u | r.sampleH v u = num h} =
      Real.exp (-energyOf r.w r.bv r.bh v (num h)) / ∑ h' : κ → Bool, Real.exp (-energyOf r.w r.bv r.bh v (num h')) := by
  simp only [Rbm.sampleH, probsH_eq, energy_h, Real.exp_add (∑ i, r.bv i * v i), ← Finset.mul_sum]
  rw [prob_logistic, mul_div_mul_left _ _ (Real.exp_pos _).ne']

/-- `sample_v`: the conditional distribution of the visible variables given the hidden ones. -/
theorem rbm_visible [DecidableEq ι] (r : Rbm ι κ) (h : κ → ℝ) (v : ι → Bool) :
    prob {u | r.sampleV h u = num v} =
      Real.exp (-energyOf r.w r.bv r.bh (num v) h) / ∑ v' : ι → Bool, Real.exp (-energyOf r.w r.bv r.bh (num v') h) := by
  simp only [Rbm.sampleV, probsV_eq, energy_v, Real.exp_add (∑ j, r.bh j * h j), ← Finset.mul_sum]
  rw [prob_logistic, mul_div_mul_left _ _ (Real.exp_pos _).ne']

/-- The states with a given value of a variable. -/
theorem sum_states_one [DecidableEq κ] (a : κ → ℝ) (j : κ) :
    ∑ h : κ → Bool, (if h j then Real.exp (∑ j, a j * num h j) else 0) = logistic (a j) * ∑ h : κ → Bool, Real.exp (∑ j, a j * num h j) := by
  have h1 : ∀ h : κ → Bool, (if h j then Real.exp (∑ j, a j * num h j) else 0) =
      ∏ i, (if h i then Real.exp (a i) else if i = j then 0 else 1) := by
    intro h
    rw [Real.exp_sum]
    split_ifs with hj
    · refine Finset.prod_congr rfl fun i _ => ?_
      cases hi : h i
      · have : i ≠ j := fun e => by rw [e, hj] at hi; simp at hi
        simp [num, hi, this]
      · simp [num, hi]
    · rw [Finset.prod_eq_zero (Finset.mem_univ j)]
      simp [hj]
  have h2 : ∑ h : κ → Bool, ∏ i, (if h i then Real.exp (a i) else if i = j then 0 else 1) =
      ∏ i, ∑ b : Bool, (if b then Real.exp (a i) else if i = j then (0 : ℝ) else 1) := by
    rw [Finset.prod_univ_sum, Fintype.piFinset_univ]
  simp only [h1]
  rw [h2, sum_states, ← Finset.mul_prod_erase _ _ (Finset.mem_univ j), ← Finset.mul_prod_erase (f := fun j => 1 + Real.exp (a j)) _ (Finset.mem_univ j),
    ← mul_assoc, logistic_eq, div_mul_cancel₀ _ (by positivity)]
  congr 1
  · simp
  · refine Finset.prod_congr rfl fun i hi => ?_
    have := Finset.ne_of_mem_erase hi
    simp [this, add_comm]

/-- `execute` gives the conditional probabilities of the hidden variables to be one, or a sample. -/
theorem rbm_execute [DecidableEq κ] (r : Rbm ι κ) (v : ι → ℝ) (u : κ → ℝ) (j : κ) :
    r.execute true v u j = (∑ h : κ → Bool, if h j then Real.exp (-energyOf r.w r.bv r.bh v (num h)) else 0) /
        ∑ h : κ → Bool, Real.exp (-energyOf r.w r.bv r.bh v (num h)) ∧
      (r.execute false v u j = 1 ↔ u j < r.execute true v u j) ∧ (r.execute false v u j = 0 ↔ r.execute true v u j ≤ u j) := by
  refine ⟨?_, ?_, ?_⟩
  · simp only [Rbm.execute, if_true, energy_h, Real.exp_add (∑ i, r.bv i * v i), ← Finset.mul_sum, probsH_eq]
    have : ∀ h : κ → Bool, (if h j then Real.exp (∑ i, r.bv i * v i) * Real.exp (∑ j, (r.bh j + ∑ i, v i * r.w i j) * num h j) else 0) =
        Real.exp (∑ i, r.bv i * v i) * if h j then Real.exp (∑ j, (r.bh j + ∑ i, v i * r.w i j) * num h j) else 0 := by
      intro h; split_ifs <;> simp
    simp only [this, ← Finset.mul_sum]
    rw [sum_states_one, mul_div_mul_left _ _ (Real.exp_pos _).ne', mul_div_assoc, div_self, mul_one]
    rw [sum_states]
    exact (Finset.prod_pos fun j _ => by positivity).ne'
  · simp [Rbm.execute, Rbm.sampleH, above]
  · simp [Rbm.execute, Rbm.sampleH, above]

/-! ## Labels -/

section
variable {a b : Nat}

/-- A state of the visible variables with one label. -/
def withLabel (v : Fin a → Bool) (k : Fin b) : Fin a ⊕ Fin b → ℝ := Sum.elim (num v) fun i => if i = k then 1 else 0

theorem labelsV_eq (r : Rbm (Fin a ⊕ Fin b) κ) (h : κ → ℝ) : r.labelsV h = fun i => logistic (r.bv (.inl i) + ∑ j, r.w (.inl i) j * h j) := by
  funext i
  simp only [Rbm.labelsV, logistic, vecMul, dotProduct, transpose_apply, mul_comm (h _)]

theorem labelsL_eq (r : Rbm (Fin a ⊕ Fin b) κ) (h : κ → ℝ) (k : Fin b) :
    r.labelsL h k = Real.exp (r.bv (.inr k) + ∑ j, r.w (.inr k) j * h j) / ∑ i, Real.exp (r.bv (.inr i) + ∑ j, r.w (.inr i) j * h j) := by
  simp only [Rbm.labelsL, vecMul, dotProduct, transpose_apply, mul_comm (h _), sub_eq_add_neg, Real.exp_add _ (-_), ← Finset.sum_mul]
  rw [mul_div_mul_right _ _ (Real.exp_pos _).ne']

theorem energy_label (r : Rbm (Fin a ⊕ Fin b) κ) (v : Fin a → Bool) (k : Fin b) (h : κ → ℝ) :
    -energyOf r.w r.bv r.bh (withLabel v k) h = ∑ j, r.bh j * h j +
      (∑ i, (r.bv (.inl i) + ∑ j, r.w (.inl i) j * h j) * num v i + (r.bv (.inr k) + ∑ j, r.w (.inr k) j * h j)) := by
  rw [energy_v]
  simp [withLabel]

/-- `sample_v` of the node with labels: the probability of the visible variables times that of the label (`probs_l`, with which it is drawn) is the
conditional probability given the hidden variables, over the states with exactly one label. -/
theorem rbm_labels (r : Rbm (Fin a ⊕ Fin b) κ) (h : κ → ℝ) (v : Fin a → Bool) (k : Fin b) :
    prob {u | (r.labelsDraw h u k).1 = num v} * r.labelsL h k =
      Real.exp (-energyOf r.w r.bv r.bh (withLabel v k) h) /
        ∑ v' : Fin a → Bool, ∑ k' : Fin b, Real.exp (-energyOf r.w r.bv r.bh (withLabel v' k') h) := by
  simp only [Rbm.labelsDraw, labelsV_eq, labelsL_eq, energy_label, Real.exp_add (∑ j, r.bh j * h j), ← Finset.mul_sum]
  rw [prob_logistic, mul_div_mul_left _ _ (Real.exp_pos _).ne', div_mul_div_comm]
  simp only [Real.exp_add (∑ i : Fin a, _), ← Finset.mul_sum, ← Finset.sum_mul]

/-- The probabilities of the labels are positive and have the sum one; a drawn label is one of them only. -/
theorem rbm_labels_sum (r : Rbm (Fin a ⊕ Fin b) κ) (h : κ → ℝ) (hb : 0 < b) :
    (∀ k, 0 < r.labelsL h k) ∧ ∑ k, r.labelsL h k = 1 ∧ ∀ u k i, (r.labelsDraw h u k).2 i = if i = k then 1 else 0 := by
  haveI : Nonempty (Fin b) := ⟨⟨0, hb⟩⟩
  have hp : 0 < ∑ i, Real.exp (r.bv (.inr i) + ∑ j, r.w (.inr i) j * h j) :=
    Finset.sum_pos (fun i _ => Real.exp_pos _) Finset.univ_nonempty
  refine ⟨fun k => by rw [labelsL_eq]; exact div_pos (Real.exp_pos _) hp, ?_, fun u k i => rfl⟩
  simp only [labelsL_eq]
  rw [← Finset.sum_div, div_self hp.ne']

/-- In the samples used for training the visible variables are drawn as by `sample_v`, and each label is replaced by its conditional probability. -/
theorem rbm_labels_sample (r : Rbm (Fin a ⊕ Fin b) κ) (h : κ → ℝ) (u : Fin a ⊕ Fin b → ℝ) :
    (∀ i, r.labelsSample h u (.inl i) = if u (.inl i) < 1 / (1 + Real.exp (-(r.bv (.inl i) + ∑ j, r.w (.inl i) j * h j))) then 1 else 0) ∧
    (∀ i k, r.labelsSample h u (.inl i) = (r.labelsDraw h (fun i => u (.inl i)) k).1 i) ∧
    ∀ k, r.labelsSample h u (.inr k) = Real.exp (r.bv (.inr k) + ∑ j, r.w (.inr k) j * h j) /
      ∑ i, Real.exp (r.bv (.inr i) + ∑ j, r.w (.inr i) j * h j) := by
  refine ⟨fun i => ?_, fun i k => rfl, fun k => labelsL_eq r h k⟩
  simp only [Rbm.labelsSample, Sum.elim_inl, above, labelsV_eq, logistic, gt_iff_lt]

/-- `execute` of the node with labels gives the conditional probabilities of the hidden variables for visible variables and labels. -/
theorem rbm_labels_execute [DecidableEq κ] (r : Rbm (Fin a ⊕ Fin b) κ) (v : Fin a → ℝ) (l : Fin b → ℝ) (u : κ → ℝ) (j : κ) :
    r.labelsExecute true v l u j = (∑ h : κ → Bool, if h j then Real.exp (-r.labelsEnergy v (num h) l) else 0) /
        ∑ h : κ → Bool, Real.exp (-r.labelsEnergy v (num h) l) := by
  simp only [Rbm.labelsEnergy, energy_eq]
  exact (rbm_execute r (Sum.elim v l) u j).1

end

/-! ## Stationarity -/

/-- The Boltzmann distribution. -/
noncomputable def boltzmann [DecidableEq ι] [DecidableEq κ] (r : Rbm ι κ) (v : ι → Bool) (h : κ → Bool) : ℝ :=
  Real.exp (-energyOf r.w r.bv r.bh (num v) (num h)) / ∑ v' : ι → Bool, ∑ h' : κ → Bool, Real.exp (-energyOf r.w r.bv r.bh (num v') (num h'))

/-- The distribution after some rounds of sampling, visible variables first, starting with the Boltzmann distribution. -/
noncomputable def rounds [DecidableEq ι] [DecidableEq κ] (r : Rbm ι κ) : Nat → (ι → Bool) → (κ → Bool) → ℝ
  | 0 => boltzmann r
  | n + 1 => fun v' h' => ∑ v, ∑ h, rounds r n v h * (prob {u | r.sampleV (num h) u = num v'} * prob {u | r.sampleH (num v') u = num h'})

/-- Sampling leaves the Boltzmann distribution unchanged, in any number of rounds. -/
theorem rbm_stationary [DecidableEq ι] [DecidableEq κ] (r : Rbm ι κ) (n : Nat) : rounds r n = boltzmann r := by
  induction n with
  | zero => rfl
  | succ n ih =>
    funext v' h'
    simp only [rounds, ih]
    have h1 : ∑ h : κ → Bool, Real.exp (-energyOf r.w r.bv r.bh (num v') (num h)) ≠ 0 :=
      (Finset.sum_pos (fun _ _ => Real.exp_pos _) Finset.univ_nonempty).ne'
    have h2 : ∀ h : κ → Bool, ∑ v : ι → Bool, Real.exp (-energyOf r.w r.bv r.bh (num v) (num h)) ≠ 0 :=
      fun h => (Finset.sum_pos (fun _ _ => Real.exp_pos _) Finset.univ_nonempty).ne'
    rw [Finset.sum_comm]
    simp only [← Finset.sum_mul]
    simp only [boltzmann, ← Finset.sum_div]
    have h3 : ∀ h : κ → Bool, (∑ v : ι → Bool, Real.exp (-energyOf r.w r.bv r.bh (num v) (num h))) /
        (∑ v' : ι → Bool, ∑ h' : κ → Bool, Real.exp (-energyOf r.w r.bv r.bh (num v') (num h'))) *
        (prob {u | r.sampleV (num h) u = num v'} * prob {u | r.sampleH (num v') u = num h'}) =
        Real.exp (-energyOf r.w r.bv r.bh (num v') (num h)) * (prob {u | r.sampleH (num v') u = num h'} /
          ∑ v' : ι → Bool, ∑ h' : κ → Bool, Real.exp (-energyOf r.w r.bv r.bh (num v') (num h'))) := by
      intro h
      rw [rbm_visible]
      have := h2 h
      field_simp
    simp only [h3, ← Finset.sum_mul]
    rw [rbm_hidden]
    field_simp

/-- With all weights zero, every state of two hidden variables has probability 1/4. -/
example (v : Fin 1 → ℝ) (h : Fin 2 → Bool) : prob {u | (⟨0, 0, 0⟩ : Rbm (Fin 1) (Fin 2)).sampleH v u = num h} = 1 / 4 := by
  rw [rbm_hidden]
  norm_num [energyOf]

example (h : Fin 2 → ℝ) := rbm_labels_sum (⟨0, 0, 0⟩ : Rbm (Fin 1 ⊕ Fin 3) (Fin 2)) h (by norm_num)

end Mdp.Rbm
