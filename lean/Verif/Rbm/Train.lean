import Verif.Rbm.Gibbs

/-!
# Training of `RBMNode`
-/

namespace Mdp.Rbm

open Matrix

variable {ι κ : Type} [Fintype ι] [Fintype κ] {T : Nat}

/-! ## Specification -/

/-- Minus the logarithm of the sum of the Boltzmann factors over all states of the hidden variables. -/
noncomputable def free [DecidableEq κ] (w : Matrix ι κ ℝ) (bv : ι → ℝ) (bh : κ → ℝ) (v : ι → ℝ) : ℝ :=
  -Real.log (∑ h : κ → Bool, Real.exp (-energyOf w bv bh v (num h)))

/-- The mean over the rows of the free energy of the data minus that of the samples. -/
noncomputable def divergence [DecidableEq κ] (w : Matrix ι κ ℝ) (bv : ι → ℝ) (bh : κ → ℝ) (x y : Fin T → ι → ℝ) : ℝ :=
  (∑ t, free w bv bh (x t) - ∑ t, free w bv bh (y t)) / T

/-- The visible and hidden variables after `k` rounds of sampling, starting with the hidden ones; `sv` samples the visible ones. -/
inductive Sampled (r : Rbm ι κ) (sv : (κ → ℝ) → (ι → ℝ) → ι → ℝ) : Nat → (κ → ℝ) → (ι → ℝ) → (κ → ℝ) → Prop where
  | one (h : κ → ℝ) (u : ι → ℝ) (u' : κ → ℝ) : Sampled r sv 1 h (sv h u) (r.sampleH (sv h u) u')
  | next (k : Nat) (h h' : κ → ℝ) (v : ι → ℝ) (u : ι → ℝ) (u' : κ → ℝ) : Sampled r sv k h v h' →
      Sampled r sv (k + 1) h (sv h' u) (r.sampleH (sv h' u) u')

/-! ## Lemmas -/

theorem free_eq [DecidableEq κ] (w : Matrix ι κ ℝ) (bv : ι → ℝ) (bh : κ → ℝ) (v : ι → ℝ) :
    free w bv bh v = -(∑ i, bv i * v i) - ∑ j, Real.log (1 + Real.exp (bh j + ∑ i, v i * w i j)) := by
  have e := fun h => energy_h (⟨w, bv, bh⟩ : Rbm ι κ) v h
  simp only at e
  simp only [free, e, Real.exp_add (∑ i, bv i * v i), ← Finset.mul_sum]
  rw [sum_states, Real.log_mul (Real.exp_pos _).ne' (Finset.prod_pos fun j _ => by positivity).ne', Real.log_exp, Real.log_prod (fun j _ => by positivity)]
  ring

theorem deriv_softplus (a c : ℝ) : HasDerivAt (fun t => Real.log (1 + Real.exp (a + t * c))) (logistic a * c) 0 := by
  have h1 : HasDerivAt (fun t : ℝ => a + t * c) c 0 := by simpa using ((hasDerivAt_id (0 : ℝ)).mul_const c).const_add a
  have h2 := (h1.exp.const_add 1).log (by positivity)
  convert h2 using 1
  rw [logistic_eq]
  simp
  ring

theorem chain_sampled (r : Rbm ι κ) (sv : (κ → ℝ) → (ι → ℝ) → ι → ℝ) (uv : Nat → ι → ℝ) (uh : Nat → κ → ℝ) : ∀ (n i : Nat) (k : Nat) (h0 : κ → ℝ) (v : ι → ℝ) (h : κ → ℝ),
    Sampled r sv k h0 v h → ∃ v' h', chain r sv uv uh n i (some v) h = (some v', h') ∧ Sampled r sv (k + n) h0 v' h' := by
  intro n
  induction n with
  | zero => exact fun i k h0 v h hs => ⟨v, h, rfl, hs⟩
  | succ n ih =>
    intro i k h0 v h hs
    obtain ⟨v', h', e1, e2⟩ := ih (i + 1) (k + 1) h0 _ _ (Sampled.next k h0 h v (uv i) (uh i) hs)
    exact ⟨v', h', e1, by rw [show k + (n + 1) = k + 1 + n by omega]; exact e2⟩

theorem chain_start (r : Rbm ι κ) (sv : (κ → ℝ) → (ι → ℝ) → ι → ℝ) (uv : Nat → ι → ℝ) (uh : Nat → κ → ℝ) {n : Nat} (hn : n ≠ 0) (h : κ → ℝ) :
    ∃ v' h', chain r sv uv uh n 0 none h = (some v', h') ∧ Sampled r sv n h v' h' := by
  obtain ⟨n, rfl⟩ := Nat.exists_eq_succ_of_ne_zero hn
  obtain ⟨v', h', e1, e2⟩ := chain_sampled r sv uv uh n 1 1 h _ _ (Sampled.one h (uv 0) (uh 0))
  exact ⟨v', h', e1, by rw [show n.succ = 1 + n by omega]; exact e2⟩

/-! ## Theorems -/

/-- `train` for any way of sampling. -/
theorem train_eq (sv : Rbm ι κ → (κ → ℝ) → (ι → ℝ) → ι → ℝ) (r : Rbm ι κ) (dl : Rbm ι κ) (p : Args) (hn : p.nUpdates ≠ 0) (hT : T ≠ 0) (x : Fin T → ι → ℝ) (u : Rand T ι κ) :
    ∃ (v : Fin T → ι → ℝ) (h : Fin T → κ → ℝ) (r' dl' : Rbm ι κ),
      (∀ t, Sampled r (sv r) p.nUpdates (r.sampleH (x t) (u.h0 t)) (v t) (h t)) ∧
      St.train sv ⟨some r, dl⟩ p x u = (.ok (), ⟨some r', dl'⟩) ∧
      (∀ i j, r'.w i j = r.w i j + dl'.w i j) ∧ (∀ i, r'.bv i = r.bv i + dl'.bv i) ∧ (∀ j, r'.bh j = r.bh j + dl'.bh j) ∧
      (∀ i j, dl'.w i j = p.momentum * dl.w i j + p.epsilon *
        ((∑ t, x t i * r.probsH (x t) j - ∑ t, v t i * r.probsH (v t) j) / T - p.decay * r.w i j)) ∧
      (∀ i, dl'.bv i = p.momentum * dl.bv i + p.epsilon * ((∑ t, x t i - ∑ t, v t i) / T)) ∧
      (p.withPh = true → ∀ j, dl'.bh j = p.momentum * dl.bh j + p.epsilon * ((∑ t, r.probsH (x t) j - ∑ t, r.probsH (v t) j) / T)) ∧
      (p.withPh = false → ∀ j, dl'.bh j = p.momentum * dl.bh j + p.epsilon * ((∑ t, r.sampleH (x t) (u.h0 t) j - ∑ t, h t j) / T)) := by
  choose v h e1 e2 using fun t => chain_start r (sv r) (fun i => u.v i t) (fun i => u.h i t) hn (r.sampleH (x t) (u.h0 t))
  set dl' : Rbm ι κ := ⟨Matrix.of fun i j => p.momentum * dl.w i j + p.epsilon *
        ((∑ t, x t i * r.probsH (x t) j - ∑ t, v t i * r.probsH (v t) j) / T - p.decay * r.w i j),
      fun i => p.momentum * dl.bv i + p.epsilon * ((∑ t, x t i - ∑ t, v t i) / T),
      fun j => p.momentum * dl.bh j + p.epsilon * ((if p.withPh then ∑ t, r.probsH (x t) j - ∑ t, r.probsH (v t) j
        else ∑ t, r.sampleH (x t) (u.h0 t) j - ∑ t, h t j) / T)⟩ with hdl
  refine ⟨v, h, ⟨fun i j => r.w i j + dl'.w i j, fun i => r.bv i + dl'.bv i, fun j => r.bh j + dl'.bh j⟩, dl', e2, ?_, fun i j => rfl,
    fun i => rfl, fun j => rfl, fun i j => rfl, fun i => rfl, fun h j => ?_, fun h j => ?_⟩
  · simp only [St.train, if_neg hn, if_neg hT, e1, Option.getD_some, hdl]
  · simp only [hdl, h, if_true]
  · simp only [hdl, h, Bool.false_eq_true, if_false]

/-- What `train` computes: the change is the momentum times the last change, plus the learning rate times (data term minus model term, averaged over
the rows, minus decay), with the probabilities of the hidden variables for the data and for visible variables sampled in `n_updates` rounds from
hidden variables sampled for the data. -/
theorem rbm_train (r : Rbm ι κ) (dl : Rbm ι κ) (p : Args) (hn : p.nUpdates ≠ 0) (hT : T ≠ 0) (x : Fin T → ι → ℝ) (u : Rand T ι κ) :
    ∃ (v : Fin T → ι → ℝ) (h : Fin T → κ → ℝ) (r' dl' : Rbm ι κ),
      (∀ t, Sampled r r.sampleV p.nUpdates (r.sampleH (x t) (u.h0 t)) (v t) (h t)) ∧
      St.trainPlain ⟨some r, dl⟩ p x u = (.ok (), ⟨some r', dl'⟩) ∧
      (∀ i j, r'.w i j = r.w i j + dl'.w i j) ∧ (∀ i, r'.bv i = r.bv i + dl'.bv i) ∧ (∀ j, r'.bh j = r.bh j + dl'.bh j) ∧
      (∀ i j, dl'.w i j = p.momentum * dl.w i j + p.epsilon *
        ((∑ t, x t i * r.probsH (x t) j - ∑ t, v t i * r.probsH (v t) j) / T - p.decay * r.w i j)) ∧
      (∀ i, dl'.bv i = p.momentum * dl.bv i + p.epsilon * ((∑ t, x t i - ∑ t, v t i) / T)) ∧
      (p.withPh = true → ∀ j, dl'.bh j = p.momentum * dl.bh j + p.epsilon * ((∑ t, r.probsH (x t) j - ∑ t, r.probsH (v t) j) / T)) ∧
      (p.withPh = false → ∀ j, dl'.bh j = p.momentum * dl.bh j + p.epsilon * ((∑ t, r.sampleH (x t) (u.h0 t) j - ∑ t, h t j) / T)) :=
  train_eq Rbm.sampleV r dl p hn hT x u

/-- `train` of the node with labels: the same with the visible variables and labels one after the other; in the samples of the model the labels are
replaced by their probabilities; `update_with_ph` has no effect. -/
theorem rbm_train_labels {a b : Nat} (r dl : Rbm (Fin a ⊕ Fin b) κ) (p : Args) (hn : p.nUpdates ≠ 0) (hT : T ≠ 0) (vis : Fin T → Fin a → ℝ) (l : Fin T → Fin b → ℝ) (u : Rand T (Fin a ⊕ Fin b) κ) :
    ∃ (x v : Fin T → Fin a ⊕ Fin b → ℝ) (h : Fin T → κ → ℝ) (r' dl' : Rbm (Fin a ⊕ Fin b) κ),
      (∀ t i, x t (.inl i) = vis t i) ∧ (∀ t k, x t (.inr k) = l t k) ∧
      (∀ t, Sampled r r.labelsSample p.nUpdates (r.sampleH (x t) (u.h0 t)) (v t) (h t)) ∧
      St.trainLabels ⟨some r, dl⟩ p vis l u = (.ok (), ⟨some r', dl'⟩) ∧
      (∀ i j, r'.w i j = r.w i j + dl'.w i j) ∧ (∀ i, r'.bv i = r.bv i + dl'.bv i) ∧ (∀ j, r'.bh j = r.bh j + dl'.bh j) ∧
      (∀ i j, dl'.w i j = p.momentum * dl.w i j + p.epsilon *
        ((∑ t, x t i * r.probsH (x t) j - ∑ t, v t i * r.probsH (v t) j) / T - p.decay * r.w i j)) ∧
      (∀ i, dl'.bv i = p.momentum * dl.bv i + p.epsilon * ((∑ t, x t i - ∑ t, v t i) / T)) ∧
      ∀ j, dl'.bh j = p.momentum * dl.bh j + p.epsilon * ((∑ t, r.probsH (x t) j - ∑ t, r.probsH (v t) j) / T) := by
  obtain ⟨v, h, r', dl', e1, e2, e3, e4, e5, e6, e7, e8, _⟩ := train_eq Rbm.labelsSample r dl { p with withPh := true } hn hT
    (fun t => Sum.elim (vis t) (l t)) u
  exact ⟨_, v, h, r', dl', fun t i => rfl, fun t k => rfl, e1, e2, e3, e4, e5, e6, e7, e8 rfl⟩

/-- The probabilities of the hidden variables and the data are minus the derivatives of the free energy with respect to the weights. -/
theorem rbm_free [DecidableEq ι] [DecidableEq κ] (r : Rbm ι κ) (v : ι → ℝ) :
    (∀ i j, HasDerivAt (fun s : ℝ => free (r.w + s • Matrix.single i j (1 : ℝ)) r.bv r.bh v) (-(v i * r.probsH v j)) 0) ∧
    (∀ i, HasDerivAt (fun s : ℝ => free r.w (r.bv + s • Pi.single i (1 : ℝ)) r.bh v) (-(v i)) 0) ∧
    ∀ j, HasDerivAt (fun s : ℝ => free r.w r.bv (r.bh + s • Pi.single j (1 : ℝ)) v) (-(r.probsH v j)) 0 := by
  refine ⟨fun i j => ?_, fun i => ?_, fun j => ?_⟩
  · have e1 : (fun s : ℝ => free (r.w + s • Matrix.single i j (1 : ℝ)) r.bv r.bh v) = fun s =>
        -(∑ i, r.bv i * v i) - ∑ k, Real.log (1 + Real.exp (r.bh k + ∑ i, v i * r.w i k + s * (if k = j then v i else 0))) := by
      funext s
      rw [free_eq]
      congr 1
      refine Finset.sum_congr rfl fun k _ => ?_
      congr 3
      rw [add_assoc]
      congr 1
      simp only [Matrix.add_apply, Matrix.smul_apply, mul_add, Finset.sum_add_distrib, Matrix.single_apply]
      congr 1
      by_cases hk : j = k
      · subst hk
        simp [mul_comm]
      · simp [hk, Ne.symm hk]
    rw [e1]
    have e2 := (HasDerivAt.fun_sum (u := Finset.univ) fun k _ => deriv_softplus (r.bh k + ∑ i, v i * r.w i k) (if k = j then v i else 0)).const_sub
      (-(∑ i, r.bv i * v i))
    exact e2.congr_deriv (by simp [probsH_eq, mul_comm])
  · have e1 : (fun s : ℝ => free r.w (r.bv + s • Pi.single i (1 : ℝ)) r.bh v) = fun s =>
        -(∑ i, r.bv i * v i) - s * v i - ∑ k, Real.log (1 + Real.exp (r.bh k + ∑ i, v i * r.w i k)) := by
      funext s
      rw [free_eq]
      congr 1
      simp only [Pi.add_apply, Pi.smul_apply, add_mul, Finset.sum_add_distrib, Pi.single_apply]
      simp
      ring
    rw [e1]
    have e2 := (((hasDerivAt_id (0 : ℝ)).mul_const (v i)).const_sub (-(∑ i, r.bv i * v i))).sub_const
      (∑ k, Real.log (1 + Real.exp (r.bh k + ∑ i, v i * r.w i k)))
    simpa using e2
  · have e1 : (fun s : ℝ => free r.w r.bv (r.bh + s • Pi.single j (1 : ℝ)) v) = fun s =>
        -(∑ i, r.bv i * v i) - ∑ k, Real.log (1 + Real.exp (r.bh k + ∑ i, v i * r.w i k + s * (if k = j then 1 else 0))) := by
      funext s
      rw [free_eq]
      congr 1
      refine Finset.sum_congr rfl fun k _ => ?_
      congr 3
      simp only [Pi.add_apply, Pi.smul_apply, Pi.single_apply, smul_eq_mul]
      ring
    rw [e1]
    have e2 := (HasDerivAt.fun_sum (u := Finset.univ) fun k _ => deriv_softplus (r.bh k + ∑ i, v i * r.w i k) (if k = j then 1 else 0)).const_sub
      (-(∑ i, r.bv i * v i))
    exact e2.congr_deriv (by simp [probsH_eq])

theorem deriv_divergence {f : ℝ → (ι → ℝ) → ℝ} {g : (ι → ℝ) → ℝ} (h : ∀ v, HasDerivAt (fun s => f s v) (-(g v)) 0) (x y : Fin T → ι → ℝ) :
    HasDerivAt (fun s => (∑ t, f s (x t) - ∑ t, f s (y t)) / T) (-((∑ t, g (x t) - ∑ t, g (y t)) / T)) 0 := by
  have h1 := HasDerivAt.fun_sum (u := Finset.univ) fun t _ => h (x t)
  have h2 := HasDerivAt.fun_sum (u := Finset.univ) fun t _ => h (y t)
  refine ((h1.sub h2).div_const (T : ℝ)).congr_deriv ?_
  rw [Finset.sum_neg_distrib, Finset.sum_neg_distrib]
  ring

/-- Training is gradient descent of the contrastive divergence: without momentum and decay the change of every weight is minus the learning rate
times the derivative, with respect to that weight, of the difference of the mean free energies of data and samples. -/
theorem rbm_gradient [DecidableEq ι] [DecidableEq κ] (r : Rbm ι κ) (dl : Rbm ι κ) (p : Args) (hn : p.nUpdates ≠ 0) (hT : T ≠ 0)
    (hm : p.momentum = 0) (hd : p.decay = 0) (hp : p.withPh = true) (x : Fin T → ι → ℝ) (u : Rand T ι κ) :
    ∃ (v : Fin T → ι → ℝ) (h : Fin T → κ → ℝ) (r' dl' : Rbm ι κ),
      (∀ t, Sampled r r.sampleV p.nUpdates (r.sampleH (x t) (u.h0 t)) (v t) (h t)) ∧
      St.trainPlain ⟨some r, dl⟩ p x u = (.ok (), ⟨some r', dl'⟩) ∧
      (∀ i j, ∃ g, HasDerivAt (fun s : ℝ => divergence (r.w + s • Matrix.single i j (1 : ℝ)) r.bv r.bh x v) g 0 ∧ r'.w i j = r.w i j - p.epsilon * g) ∧
      (∀ i, ∃ g, HasDerivAt (fun s : ℝ => divergence r.w (r.bv + s • Pi.single i (1 : ℝ)) r.bh x v) g 0 ∧ r'.bv i = r.bv i - p.epsilon * g) ∧
      ∀ j, ∃ g, HasDerivAt (fun s : ℝ => divergence r.w r.bv (r.bh + s • Pi.single j (1 : ℝ)) x v) g 0 ∧ r'.bh j = r.bh j - p.epsilon * g := by
  obtain ⟨v, h, r', dl', e1, e2, e3, e4, e5, e6, e7, e8, _⟩ := rbm_train r dl p hn hT x u
  refine ⟨v, h, r', dl', e1, e2, fun i j => ⟨_, deriv_divergence (fun v => (rbm_free r v).1 i j) x v, ?_⟩,
    fun i => ⟨_, deriv_divergence (fun v => (rbm_free r v).2.1 i) x v, ?_⟩,
    fun j => ⟨_, deriv_divergence (fun v => (rbm_free r v).2.2 j) x v, ?_⟩⟩
  · rw [e3, e6, hm, hd]; ring
  · rw [e4, e7, hm]; ring
  · rw [e5, e8 hp, hm]; ring

/-- `n_updates=0` is an UnboundLocalError. -/
theorem rbm_updates_false (s : St ι κ) (p : Args) (hn : p.nUpdates = 0) (x : Fin T → ι → ℝ) (u : Rand T ι κ) :
    s.trainPlain p x u = (.error .unbound, s) := by
  simp [St.trainPlain, St.train, hn]

/-! ## Histories -/

/-- A call of `train`. -/
structure Call (ι κ : Type) where
  T : Nat
  args : Args
  x : Fin T → ι → ℝ
  u : Rand T ι κ

/-- The state after calls of `train`. -/
noncomputable def run (s : St ι κ) (l : List (Call ι κ)) : St ι κ := l.foldl (fun s c => (s.trainPlain c.args c.x c.u).2) s

/-- After a chunk without rows the weights are nan for ever, whatever the calls of `train` before and after. -/
theorem rbm_empty_false (s : St ι κ) (l l' : List (Call ι κ)) (c : Call ι κ) (hT : c.T = 0) (hn : c.args.nUpdates ≠ 0) :
    (run s (l ++ c :: l')).rbm = none := by
  have h1 : ∀ (l : List (Call ι κ)) (s : St ι κ), s.rbm = none → (run s l).rbm = none := by
    intro l
    induction l with
    | nil => exact fun s h => h
    | cons c l ih =>
      intro s h
      refine ih _ ?_
      simp only [St.trainPlain, St.train, h]
      split
      · exact h
      · exact h
  have h2 : ∀ s : St ι κ, (s.trainPlain c.args c.x c.u).2.rbm = none := by
    intro s
    simp only [St.trainPlain, St.train, if_neg hn]
    cases hs : s.rbm with
    | none => simp [hs]
    | some r => simp [hT]
  rw [run, List.foldl_append, List.foldl_cons]
  exact h1 l' _ (h2 _)

theorem above_unit {ι : Type} (p u : ι → ℝ) (j : ι) : 0 ≤ above p u j ∧ above p u j ≤ 1 := by
  simp only [above]; split_ifs <;> norm_num

theorem sampled_unit {r : Rbm ι κ} {k : Nat} {h h' : κ → ℝ} {v : ι → ℝ} (hs : Sampled r r.sampleV k h v h') :
    (∀ i, 0 ≤ v i ∧ v i ≤ 1) ∧ ∀ j, 0 ≤ h' j ∧ h' j ≤ 1 := by
  cases hs <;> exact ⟨fun i => above_unit _ _ _, fun j => above_unit _ _ _⟩

theorem probs_unit (r : Rbm ι κ) (v : ι → ℝ) (j : κ) : 0 ≤ r.probsH v j ∧ r.probsH v j ≤ 1 := by
  rw [probsH_eq]; exact ⟨(logistic_pos _).le, (logistic_lt _).le⟩

theorem mean_diff {a b : Fin T → ℝ} (hT : T ≠ 0) (ha : ∀ t, 0 ≤ a t ∧ a t ≤ 1) (hb : ∀ t, 0 ≤ b t ∧ b t ≤ 1) :
    |(∑ t, a t - ∑ t, b t) / T| ≤ 1 := by
  have hp : (0 : ℝ) < T := by exact_mod_cast Nat.pos_of_ne_zero hT
  rw [abs_div, abs_of_pos hp, div_le_one hp, ← Finset.sum_sub_distrib]
  refine (Finset.abs_sum_le_sum_abs _ _).trans ?_
  calc ∑ t, |a t - b t| ≤ ∑ _t : Fin T, (1 : ℝ) := Finset.sum_le_sum fun t _ => abs_le.2 ⟨by linarith [(ha t).1, (hb t).2], by linarith [(ha t).2, (hb t).1]⟩
    _ = T := by simp

/-- For data between zero and one, a learning rate `ε ≥ 0` and momentum `0 ≤ m < 1` no bias changes by more than `ε / (1 - m)` in a call of
`train`, after any calls of `train`. -/
theorem rbm_steps (ε m : ℝ) (h0 : 0 ≤ ε) (hm0 : 0 ≤ m) (hm : m < 1) (r : Rbm ι κ) (l : List (Call ι κ))
    (hl : ∀ c ∈ l, c.args.nUpdates ≠ 0 ∧ c.T ≠ 0 ∧ c.args.epsilon = ε ∧ c.args.momentum = m ∧ ∀ t i, 0 ≤ c.x t i ∧ c.x t i ≤ 1) :
    ∃ r' dl, run ⟨some r, ⟨0, 0, 0⟩⟩ l = ⟨some r', dl⟩ ∧ (∀ i, |dl.bv i| ≤ ε / (1 - m)) ∧ ∀ j, |dl.bh j| ≤ ε / (1 - m) := by
  have hp : 0 < 1 - m := by linarith
  have key : ∀ (l : List (Call ι κ)) (r dl : Rbm ι κ),
      (∀ c ∈ l, c.args.nUpdates ≠ 0 ∧ c.T ≠ 0 ∧ c.args.epsilon = ε ∧ c.args.momentum = m ∧ ∀ t i, 0 ≤ c.x t i ∧ c.x t i ≤ 1) →
      (∀ i, |dl.bv i| ≤ ε / (1 - m)) → (∀ j, |dl.bh j| ≤ ε / (1 - m)) →
      ∃ r' dl', run ⟨some r, dl⟩ l = ⟨some r', dl'⟩ ∧ (∀ i, |dl'.bv i| ≤ ε / (1 - m)) ∧ ∀ j, |dl'.bh j| ≤ ε / (1 - m) := by
    intro l
    induction l with
    | nil => exact fun r dl _ h1 h2 => ⟨r, dl, rfl, h1, h2⟩
    | cons c l ih =>
      intro r dl hl h1 h2
      obtain ⟨c1, c2, c3, c4, c5⟩ := hl c List.mem_cons_self
      obtain ⟨v, h, r', dl', e1, e2, _, _, _, _, e7, e8, e9⟩ := rbm_train r dl c.args c1 c2 c.x c.u
      have hstep : ∀ a b : ℝ, |a| ≤ ε / (1 - m) → |b| ≤ 1 → |m * a + ε * b| ≤ ε / (1 - m) := by
        intro a b ha hb
        calc |m * a + ε * b| ≤ |m * a| + |ε * b| := abs_add_le _ _
          _ = m * |a| + ε * |b| := by rw [abs_mul, abs_mul, abs_of_nonneg hm0, abs_of_nonneg h0]
          _ ≤ m * (ε / (1 - m)) + ε * 1 := by gcongr
          _ = ε / (1 - m) := by field_simp; ring
      have k1 : ∀ i, |dl'.bv i| ≤ ε / (1 - m) := fun i => by
        rw [e7, c3, c4]
        exact hstep _ _ (h1 i) (mean_diff c2 (fun t => c5 t i) (fun t => (sampled_unit (e1 t)).1 i))
      have k2 : ∀ j, |dl'.bh j| ≤ ε / (1 - m) := fun j => by
        cases hph : c.args.withPh with
        | true =>
          rw [e8 hph, c3, c4]
          exact hstep _ _ (h2 j) (mean_diff c2 (fun t => probs_unit r _ j) (fun t => probs_unit r _ j))
        | false =>
          rw [e9 hph, c3, c4]
          exact hstep _ _ (h2 j) (mean_diff c2 (fun t => above_unit _ _ j) (fun t => (sampled_unit (e1 t)).2 j))
      obtain ⟨r2, dl2, e3, k3⟩ := ih r' dl' (fun c hc => hl c (List.mem_cons_of_mem _ hc)) k1 k2
      refine ⟨r2, dl2, ?_, k3⟩
      rw [← e3, run, run, List.foldl_cons, e2]
  have hz : (0 : ℝ) ≤ ε / (1 - m) := div_nonneg h0 hp.le
  exact key l r ⟨0, 0, 0⟩ hl (fun i => by simpa using hz) (fun j => by simpa using hz)

/-- Weight decay keeps the weights bounded: for data between zero and one, decay `d > 0`, learning rate `ε ≥ 0` with `ε d ≤ 1` and no momentum, weights
that are at most `B` in absolute value, where `B ≥ 1 / d`, are so after any calls of `train`. -/
theorem rbm_decay (ε d B : ℝ) (h0 : 0 ≤ ε) (hd : 0 < d) (h1 : ε * d ≤ 1) (hB : 1 / d ≤ B) (r dl : Rbm ι κ) (hr : ∀ i j, |r.w i j| ≤ B)
    (l : List (Call ι κ))
    (hl : ∀ c ∈ l, c.args.nUpdates ≠ 0 ∧ c.T ≠ 0 ∧ c.args.epsilon = ε ∧ c.args.momentum = 0 ∧ c.args.decay = d ∧ ∀ t i, 0 ≤ c.x t i ∧ c.x t i ≤ 1) :
    ∃ r' dl', run ⟨some r, dl⟩ l = ⟨some r', dl'⟩ ∧ ∀ i j, |r'.w i j| ≤ B := by
  induction l generalizing r dl with
  | nil => exact ⟨r, dl, rfl, hr⟩
  | cons c l ih =>
    obtain ⟨c1, c2, c3, c4, c5, c6⟩ := hl c List.mem_cons_self
    obtain ⟨v, h, r', dl', e1, e2, e3, _, _, e6, _⟩ := rbm_train r dl c.args c1 c2 c.x c.u
    have k1 : ∀ i j, |r'.w i j| ≤ B := by
      intro i j
      have hu : ∀ a b : ℝ, 0 ≤ a ∧ a ≤ 1 → 0 ≤ b ∧ b ≤ 1 → 0 ≤ a * b ∧ a * b ≤ 1 := fun a b ha hb =>
        ⟨mul_nonneg ha.1 hb.1, mul_le_one₀ ha.2 hb.1 hb.2⟩
      have hg := mean_diff c2 (fun t => hu _ _ (c6 t i) (probs_unit r (c.x t) j)) (fun t => hu _ _ ((sampled_unit (e1 t)).1 i) (probs_unit r (v t) j))
      rw [e3, e6, c3, c4, c5]
      generalize (∑ t, c.x t i * r.probsH (c.x t) j - ∑ t, v t i * r.probsH (v t) j) / (c.T : ℝ) = g at hg
      have : r.w i j + (0 * dl.w i j + ε * (g - d * r.w i j)) = (1 - ε * d) * r.w i j + ε * g := by ring
      rw [this]
      have hdB : ε ≤ ε * d * B := by
        have : 1 ≤ d * B := by rw [div_le_iff₀ hd] at hB; linarith
        nlinarith
      calc |(1 - ε * d) * r.w i j + ε * g| ≤ |(1 - ε * d) * r.w i j| + |ε * g| := abs_add_le _ _
        _ = (1 - ε * d) * |r.w i j| + ε * |g| := by rw [abs_mul, abs_mul, abs_of_nonneg (by linarith : 0 ≤ 1 - ε * d), abs_of_nonneg h0]
        _ ≤ (1 - ε * d) * B + ε * 1 := by
          have := hr i j
          have : (0 : ℝ) ≤ 1 - ε * d := by linarith
          gcongr
        _ ≤ B := by linarith
    obtain ⟨r2, dl2, e4, k2⟩ := ih r' dl' k1 (fun c hc => hl c (List.mem_cons_of_mem _ hc))
    refine ⟨r2, dl2, ?_, k2⟩
    rw [← e4, run, run, List.foldl_cons, e2]

/-! ## Examples -/

/-- A chunk with two rows. -/
noncomputable def exCall : Call (Fin 2) (Fin 1) := ⟨2, ⟨1, 1 / 10, 1, 0, true⟩, ![![1, 0], ![0, 1]], ⟨fun _ _ => 0, fun _ _ _ => 0, fun _ _ _ => 0⟩⟩

example := rbm_decay (1 / 10) 1 1 (by norm_num) (by norm_num) (by norm_num) (by norm_num) (⟨0, 0, 0⟩ : Rbm (Fin 2) (Fin 1)) ⟨0, 0, 0⟩ (by simp)
  [exCall, exCall] (by
    intro c hc
    have : c = exCall := by simpa using hc
    subst this
    refine ⟨by simp [exCall], by simp [exCall], rfl, rfl, rfl, fun t i => ?_⟩
    simp only [exCall] at t ⊢
    fin_cases t <;> fin_cases i <;> simp)

example := rbm_steps (1 / 10) 0 (by norm_num) (by norm_num) (by norm_num) (⟨0, 0, 0⟩ : Rbm (Fin 2) (Fin 1)) [exCall, exCall] (by
    intro c hc
    have : c = exCall := by simpa using hc
    subst this
    refine ⟨by simp [exCall], by simp [exCall], rfl, rfl, fun t i => ?_⟩
    simp only [exCall] at t ⊢
    fin_cases t <;> fin_cases i <;> simp)

example := rbm_gradient (⟨0, 0, 0⟩ : Rbm (Fin 2) (Fin 1)) ⟨0, 0, 0⟩ ⟨1, 1 / 10, 0, 0, true⟩ (by simp) (by simp [exCall]) rfl rfl rfl exCall.x exCall.u

end Mdp.Rbm
