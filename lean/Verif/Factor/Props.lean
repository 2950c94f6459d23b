import Verif.Factor.Train

/-!
# Factor analysis (C213-C218)

`trained chunks` is a node to which the chunks have been given.
-/

namespace Mdp.Factor

open Matrix Mdp.Cov

noncomputable section

variable {d k : Nat}

/-- A new node after training with chunks of data. -/
def trained (d k : Nat) (chunks : List (List (Fin d → ℝ))) : St d k :=
  chunks.foldl (fun s x => (s.train x).2) (St.new d k)

theorem covMat_eq (X : List (Fin d → ℝ)) : covMat X = cmat X := by
  ext i j
  rw [cmat_apply]
  rfl

/-- The data that `stop_training` refuses. -/
def Refused (X : List (Fin d → ℝ)) : Prop := if d ≤ 300 then Degenerate X else ConstantColumn X

theorem stopped (c : Cfg) (noise : Matrix (Fin d) (Fin k) ℝ) (chunks : List (List (Fin d → ℝ))) (hX : chunks.flatten ≠ [])
    (hd : 0 < d) (s' : St d k) (r : Res d k) (hs : (trained d k chunks).stop c noise = (.ok (), s')) (hr : s'.res = some r) :
    ∃ n curve, (∀ i, 0 < cmat chunks.flatten i i) ∧
      r = ⟨(initPar chunks.flatten noise).iter (cmat chunks.flatten) n, avg chunks.flatten,
        (pmean ((initPar chunks.flatten noise).iter (cmat chunks.flatten) n).A
          ((initPar chunks.flatten noise).iter (cmat chunks.flatten) n).sigma)ᵀ, curve, chunks.flatten.length, 0⟩ ∧
      LoopEnd c.tol ((initPar chunks.flatten noise).lik chunks.flatten) c.maxCycles n curve := by
  obtain ⟨h1, h2⟩ := stop_eq c noise chunks hX hd
  by_cases h : (if d ≤ 300 then Degenerate chunks.flatten else ConstantColumn chunks.flatten)
  · have := h1 h
    unfold trained at hs
    rw [this] at hs
    cases hs
  · obtain ⟨n, curve, h3, h4, h5⟩ := h2 h
    unfold trained at hs
    rw [h4] at hs
    cases hs
    cases hr
    exact ⟨n, curve, h3, rfl, h5⟩

/-! ## C213: the likelihood -/

/-- **C213**: the likelihoods recorded in `lhood` never decrease, all are log-likelihoods of the data, the resulting
parameters are at least as likely as all recorded, and the warning about a decreasing likelihood is never given. -/
theorem fa_likelihood (c : Cfg) (noise : Matrix (Fin d) (Fin k) ℝ) (chunks : List (List (Fin d → ℝ)))
    (hX : chunks.flatten ≠ []) (hd : 0 < d) (s' : St d k) (r : Res d k)
    (hs : (trained d k chunks).stop c noise = (.ok (), s')) (hr : s'.res = some r) :
    r.lhood.Pairwise (· ≤ ·) ∧ (∀ l ∈ r.lhood, l ≤ logLik chunks.flatten r.par.A r.par.sigma) ∧ r.warned = 0 ∧
      (∀ l ∈ r.lhood.head?, l = logLik chunks.flatten
        (Real.sqrt ((if d ≤ 300 then (covMat chunks.flatten).det else ∏ i, covMat chunks.flatten i i) ^ (1 / (d : ℝ)) / k) • noise)
        (fun i => covMat chunks.flatten i i)) ∧
      (c.maxCycles = 0 ↔ r.lhood = []) := by
  obtain ⟨n, curve, hpos, rfl, hend⟩ := stopped c noise chunks hX hd s' r hs hr
  have hmono := Par.lik_mono chunks.flatten hX hpos (initPar chunks.flatten noise) hpos
  obtain ⟨m, hm, hcurve, hz⟩ : ∃ m, m ≤ n ∧ curve = (List.range m).map ((initPar chunks.flatten noise).lik chunks.flatten) ∧
      (c.maxCycles = 0 ↔ m = 0) := by
    have hle := hend.le
    rcases hend.ends with ⟨t, h1, h2, h3⟩ | ⟨h1, h2, h3⟩
    · exact ⟨t, by omega, h3, by have := h2.1; omega⟩
    · exact ⟨n, le_rfl, h3, by omega⟩
  subst hcurve
  refine ⟨?_, ?_, rfl, ?_, by simpa using hz⟩
  · rw [List.pairwise_map]
    exact List.pairwise_lt_range.imp fun h => hmono h.le
  · intro l hl
    obtain ⟨t, ht, rfl⟩ := List.mem_map.1 hl
    exact hmono (by have := List.mem_range.1 ht; omega)
  · intro l hl
    cases m with
    | zero => simp at hl
    | succ m =>
      rw [List.range_succ_eq_map] at hl
      simp only [List.map_cons, List.head?_cons, Option.mem_def, Option.some.injEq] at hl
      rw [← hl, covMat_eq]
      unfold Par.lik Par.iter initPar scale
      split_ifs <;> rfl

/-! ## C214: singular data -/

/-- **C214** (at most 300 dimensions): training is refused exactly if the data are in a plane of smaller dimension. -/
theorem fa_refuses_partial (c : Cfg) (noise : Matrix (Fin d) (Fin k) ℝ) (chunks : List (List (Fin d → ℝ)))
    (hX : chunks.flatten ≠ []) (hd : 0 < d) (h300 : d ≤ 300) :
    ((trained d k chunks).stop c noise).1 = .error .singular ↔ Degenerate chunks.flatten := by
  obtain ⟨h1, h2⟩ := stop_eq c noise chunks hX hd
  rw [if_pos h300] at h1 h2
  unfold trained
  constructor
  · intro h
    by_contra hn
    obtain ⟨n, curve, _, h4, _⟩ := h2 hn
    rw [h4] at h
    cases h
  · intro h
    rw [h1 h]

/-- **C214** (more than 300 dimensions): training is refused exactly if a component is constant. -/
theorem fa_refuses_large (c : Cfg) (noise : Matrix (Fin d) (Fin k) ℝ) (chunks : List (List (Fin d → ℝ)))
    (hX : chunks.flatten ≠ []) (h300 : 300 < d) :
    ((trained d k chunks).stop c noise).1 = .error .singular ↔ ConstantColumn chunks.flatten := by
  obtain ⟨h1, h2⟩ := stop_eq c noise chunks hX (by omega)
  rw [if_neg (by omega)] at h1 h2
  unfold trained
  constructor
  · intro h
    by_contra hn
    obtain ⟨n, curve, _, h4, _⟩ := h2 hn
    rw [h4] at h
    cases h
  · intro h
    rw [h1 h]

/-- **C214** fails for more than 300 dimensions: two different rows are always in a line, and are not refused. -/
theorem fa_refuses_violation (c : Cfg) (noise : Matrix (Fin d) (Fin k) ℝ) (h300 : 300 < d) :
    Degenerate [0, (fun _ : Fin d => (1 : ℝ))] ∧
      ((trained d k [[0, fun _ => 1]]).stop c noise).1 = .ok () := by
  constructor
  · refine ⟨Pi.single ⟨0, by omega⟩ 1 - Pi.single ⟨1, by omega⟩ 1, ?_, 0, ?_⟩
    · intro h
      have := congrFun h ⟨0, by omega⟩
      simp [Pi.single_apply] at this
    · intro x hx
      simp only [List.mem_cons, List.not_mem_nil, or_false] at hx
      rcases hx with rfl | rfl <;> simp
  · obtain ⟨_, h2⟩ := stop_eq c noise [[0, fun _ : Fin d => (1 : ℝ)]] (by simp) (by omega)
    have hn : ¬ (if d ≤ 300 then Degenerate [[0, fun _ : Fin d => (1 : ℝ)]].flatten
        else ConstantColumn [[0, fun _ : Fin d => (1 : ℝ)]].flatten) := by
      rw [if_neg (by omega)]
      rintro ⟨i, c, h⟩
      have e1 := h 0 (by simp)
      have e2 := h (fun _ => 1) (by simp)
      simp only [Pi.zero_apply] at e1
      rw [← e1] at e2
      exact one_ne_zero e2
    obtain ⟨n, curve, _, h4, _⟩ := h2 hn
    unfold trained
    rw [h4]

/-- **C214**: a node that has refused its data accepts no further data, and cannot be stopped: both raise
AttributeError. -/
theorem fa_refused_unusable (c c' : Cfg) (noise noise' : Matrix (Fin d) (Fin k) ℝ) (chunks : List (List (Fin d → ℝ)))
    (hX : chunks.flatten ≠ []) (hd : 0 < d) (h : ((trained d k chunks).stop c noise).1 = .error .singular)
    (x : List (Fin d → ℝ)) :
    (((trained d k chunks).stop c noise).2.train x).1 = .error .attribute ∧
    (((trained d k chunks).stop c noise).2.stop c' noise').1 = .error .attribute := by
  obtain ⟨h1, h2⟩ := stop_eq c noise chunks hX hd
  by_cases hr : (if d ≤ 300 then Degenerate chunks.flatten else ConstantColumn chunks.flatten)
  · unfold trained
    rw [h1 hr]
    exact ⟨rfl, rfl⟩
  · obtain ⟨n, curve, _, h4, _⟩ := h2 hr
    unfold trained at h
    rw [h4] at h
    cases h

/-! ## C215: training succeeds -/

/-- **C215**: with data that are not refused training never fails, whatever the random numbers: all matrices can be
inverted, all noise variances are positive, and the mean and the number of the data are those of all rows given. -/
theorem fa_stops (c : Cfg) (noise : Matrix (Fin d) (Fin k) ℝ) (chunks : List (List (Fin d → ℝ))) (hX : chunks.flatten ≠ [])
    (hd : 0 < d) (h : ((trained d k chunks).stop c noise).1 ≠ .error .singular) :
    ∃ s' r, (trained d k chunks).stop c noise = (.ok (), s') ∧ s'.res = some r ∧ (∀ i, 0 < r.par.sigma i) ∧
      r.mu = avg chunks.flatten ∧ r.tlen = chunks.flatten.length := by
  obtain ⟨h1, h2⟩ := stop_eq c noise chunks hX hd
  by_cases hr : (if d ≤ 300 then Degenerate chunks.flatten else ConstantColumn chunks.flatten)
  · unfold trained at h
    rw [h1 hr] at h
    exact absurd rfl h
  · obtain ⟨n, curve, h3, h4, _⟩ := h2 hr
    exact ⟨_, _, h4, rfl, Par.iter_pos chunks.flatten hX h3 _ h3 n, rfl, rfl⟩

/-! ## C216: execution -/

/-- **C216**: `execute` returns the maximum a posteriori estimate of the factors: no other value has a density as large. -/
theorem fa_execute (c : Cfg) (noise : Matrix (Fin d) (Fin k) ℝ) (chunks : List (List (Fin d → ℝ))) (hX : chunks.flatten ≠ [])
    (hd : 0 < d) (s' : St d k) (r : Res d k) (hs : (trained d k chunks).stop c noise = (.ok (), s')) (hr : s'.res = some r)
    (x : Fin d → ℝ) :
    ∃ y, s'.execute x = .ok y ∧
      ∀ y', y' ≠ y → energy (avg chunks.flatten) r.par.A r.par.sigma x y < energy (avg chunks.flatten) r.par.A r.par.sigma x y' := by
  obtain ⟨n, curve, hpos, hrr, _⟩ := stopped c noise chunks hX hd s' r hs hr
  have hp := Par.iter_pos chunks.flatten hX hpos (initPar chunks.flatten noise) hpos n
  unfold St.execute
  rw [hr, hrr]
  simp only []
  generalize (initPar chunks.flatten noise).iter (cmat chunks.flatten) n = p at hp
  refine ⟨_, rfl, fun y' hy => ?_⟩
  rw [vecMul_transpose] at hy ⊢
  rw [energy_split (avg chunks.flatten) p.A p.sigma hp x y']
  have := (pinfo_posDef (A := p.A) hp).dotProduct_mulVec_pos (sub_ne_zero.2 hy)
  rw [star_trivial] at this
  linarith

/-! ## C217: the algorithm -/

/-- **C217**: training runs EM: the parameters are the result of `n` EM steps from loading factors that are the given
random numbers, scaled, and from the variances of the data. It runs for `max_cycles` steps, or ends with the step after
the first cycle in which the likelihood has settled; `lhood` has the likelihoods before each step, without that of the
settled cycle. -/
theorem fa_em (c : Cfg) (noise : Matrix (Fin d) (Fin k) ℝ) (chunks : List (List (Fin d → ℝ))) (hX : chunks.flatten ≠ [])
    (hd : 0 < d) (s' : St d k) (r : Res d k) (hs : (trained d k chunks).stop c noise = (.ok (), s')) (hr : s'.res = some r) :
    ∃ (A : Nat → Matrix (Fin d) (Fin k) ℝ) (σ : Nat → Fin d → ℝ) (n : Nat),
      A 0 = Real.sqrt ((if d ≤ 300 then (covMat chunks.flatten).det else ∏ i, covMat chunks.flatten i i) ^ (1 / (d : ℝ)) / k) • noise ∧
      (∀ i, σ 0 i = covMat chunks.flatten i i) ∧
      (∀ t, EmStep chunks.flatten (A t) (σ t) (A (t + 1)) (σ (t + 1))) ∧
      r.par.A = A n ∧ r.par.sigma = σ n ∧ n ≤ c.maxCycles ∧
      (∀ t, t + 1 < n → ¬ Settled c.tol (fun t => logLik chunks.flatten (A t) (σ t)) t) ∧
      ((∃ t, n = t + 1 ∧ Settled c.tol (fun t => logLik chunks.flatten (A t) (σ t)) t ∧
          r.lhood = (List.range t).map fun t => logLik chunks.flatten (A t) (σ t)) ∨
       (n = c.maxCycles ∧ (∀ t, n = t + 1 → ¬ Settled c.tol (fun t => logLik chunks.flatten (A t) (σ t)) t) ∧
          r.lhood = (List.range n).map fun t => logLik chunks.flatten (A t) (σ t))) := by
  obtain ⟨n, curve, hpos, rfl, hend⟩ := stopped c noise chunks hX hd s' r hs hr
  refine ⟨fun t => ((initPar chunks.flatten noise).iter (cmat chunks.flatten) t).A,
    fun t => ((initPar chunks.flatten noise).iter (cmat chunks.flatten) t).sigma, n, ?_, ?_, ?_, rfl, rfl, hend.le, hend.before,
    hend.ends⟩
  · rw [covMat_eq]
    simp only [Par.iter, initPar, scale]
    split_ifs <;> rfl
  · intro i
    rw [covMat_eq]
    rfl
  · intro t
    exact (Par.cycle_eq chunks.flatten hX hpos _ (Par.iter_pos chunks.flatten hX hpos _ hpos t)).2.2.2

/-- An EM step never decreases the likelihood. -/
theorem em_increases (X : List (Fin d → ℝ)) (hX : X ≠ []) (hc : ¬ ConstantColumn X) (A A' : Matrix (Fin d) (Fin k) ℝ)
    (σ σ' : Fin d → ℝ) (hσ : ∀ i, 0 < σ i) (h : EmStep X A σ A' σ') : logLik X A σ ≤ logLik X A' σ' := by
  obtain ⟨_, h2, h3, h4⟩ := Par.cycle_eq X hX (diag_pos X hX hc) ⟨A, σ⟩ hσ
  by_cases he : (A', σ') = (((⟨A, σ⟩ : Par d k).next (cmat X)).A, ((⟨A, σ⟩ : Par d k).next (cmat X)).sigma)
  · cases he
    exact h3
  · have h5 := h4.2 A' σ' h.1 he
    have h6 := h.2 _ _ h4.1 (fun hh => he hh.symm)
    exact absurd (h5.trans h6) (lt_irrefl _)

/-! ## C218: generated data -/

theorem generated_moments (A : Matrix (Fin d) (Fin k) ℝ) (σ μ : Fin d → ℝ) (hp : ∀ i, 0 < σ i)
    (Y : List ((Fin k → ℝ) × (Fin d → ℝ))) (hY : Y ≠ [])
    (hy0 : ∀ i, (Y.map fun p => p.1 i).sum = 0) (he0 : ∀ i, (Y.map fun p => p.2 i).sum = 0)
    (hyy : ∀ i j, (Y.map fun p => p.1 i * p.1 j).sum / Y.length = if i = j then 1 else 0)
    (hee : ∀ i j, (Y.map fun p => p.2 i * p.2 j).sum / Y.length = if i = j then 1 else 0)
    (hye : ∀ i j, (Y.map fun p => p.1 i * p.2 j).sum = 0) :
    avg (Y.map fun p => p.1 ᵥ* Aᵀ + μ + fun i => p.2 i * Real.sqrt (σ i)) = μ ∧
    covMat (Y.map fun p => p.1 ᵥ* Aᵀ + μ + fun i => p.2 i * Real.sqrt (σ i)) = A * Aᵀ + diagonal σ := by
  have hn : (Y.length : ℝ) ≠ 0 := by simpa using hY
  have hcomp : ∀ i, ((fun x : Fin d → ℝ => x i) ∘ fun p : (Fin k → ℝ) × (Fin d → ℝ) =>
      p.1 ᵥ* Aᵀ + μ + fun i => p.2 i * Real.sqrt (σ i)) =
      fun p => (∑ j, p.1 j * A i j + μ i) + p.2 i * Real.sqrt (σ i) := by
    intro i
    funext p
    simp only [Function.comp, Pi.add_apply, vecMul, dotProduct, transpose_apply]
  have hav : avg (Y.map fun p => p.1 ᵥ* Aᵀ + μ + fun i => p.2 i * Real.sqrt (σ i)) = μ := by
    funext i
    unfold avg
    rw [List.map_map, List.length_map, hcomp, List.sum_map_add, List.sum_map_add, list_sum_comm]
    simp only [List.sum_map_mul_right, hy0, he0, zero_mul, Finset.sum_const_zero, List.map_const', List.sum_replicate,
      nsmul_eq_mul]
    field_simp
    ring
  refine ⟨hav, ?_⟩
  · ext i l
    unfold covMat
    rw [hav, Matrix.of_apply, List.map_map, List.length_map]
    have hprod : ((fun x : Fin d → ℝ => (x i - μ i) * (x l - μ l)) ∘ fun p : (Fin k → ℝ) × (Fin d → ℝ) =>
        p.1 ᵥ* Aᵀ + μ + fun i => p.2 i * Real.sqrt (σ i)) =
        fun p => (∑ j, ∑ m, p.1 j * p.1 m * (A i j * A l m)) +
          ((∑ j, p.1 j * p.2 l * (A i j * Real.sqrt (σ l))) +
          ((∑ j, p.1 j * p.2 i * (A l j * Real.sqrt (σ i))) +
          p.2 i * p.2 l * (Real.sqrt (σ i) * Real.sqrt (σ l)))) := by
      funext p
      have h1 : ∀ i, (p.1 ᵥ* Aᵀ + μ + fun i => p.2 i * Real.sqrt (σ i)) i - μ i =
          ∑ j, p.1 j * A i j + p.2 i * Real.sqrt (σ i) := by
        intro i
        simp only [Pi.add_apply, vecMul, dotProduct, transpose_apply]
        ring
      have h2 : (∑ j, p.1 j * A i j) * (∑ m, p.1 m * A l m) =
          ∑ j, ∑ m, p.1 j * p.1 m * (A i j * A l m) := by
        rw [Finset.sum_mul_sum]
        refine Finset.sum_congr rfl fun j _ => Finset.sum_congr rfl fun m _ => by ring
      have h3 : ∀ (i l : Fin d), (∑ j, p.1 j * A i j) * (p.2 l * Real.sqrt (σ l)) =
          ∑ j, p.1 j * p.2 l * (A i j * Real.sqrt (σ l)) := by
        intro i l
        rw [Finset.sum_mul]
        refine Finset.sum_congr rfl fun j _ => by ring
      simp only [Function.comp, h1]
      rw [← h2, ← h3, ← h3]
      ring
    rw [hprod, List.sum_map_add, List.sum_map_add, List.sum_map_add, list_sum_comm, list_sum_comm, list_sum_comm]
    simp only [list_sum_comm, List.sum_map_mul_right, hye, zero_mul, Finset.sum_const_zero, zero_add]
    rw [add_div, Finset.sum_div]
    have h4 : ∀ j, (∑ m, (Y.map fun p => p.1 j * p.1 m).sum * (A i j * A l m)) / Y.length =
        A i j * A l j := by
      intro j
      rw [Finset.sum_div]
      have : ∀ m, (Y.map fun p => p.1 j * p.1 m).sum * (A i j * A l m) / Y.length =
          if j = m then A i j * A l m else 0 := by
        intro m
        rw [mul_div_right_comm, hyy]
        split_ifs <;> simp
      simp only [this]
      simp
    simp only [h4]
    rw [Matrix.add_apply, mul_apply]
    simp only [transpose_apply]
    congr 1
    rw [mul_div_right_comm, hee, diagonal_apply]
    split_ifs with hil
    · subst hil
      rw [one_mul, Real.mul_self_sqrt (hp i).le]
    · simp

/-- **C218**: data generated without noise are the predictions from the factors. -/
theorem fa_generate_plain (c : Cfg) (noise : Matrix (Fin d) (Fin k) ℝ) (chunks : List (List (Fin d → ℝ)))
    (hX : chunks.flatten ≠ []) (hd : 0 < d) (s' : St d k) (r : Res d k)
    (hs : (trained d k chunks).stop c noise = (.ok (), s')) (hr : s'.res = some r) (y : Fin k → ℝ) :
    s'.generate y none = .ok fun i => avg chunks.flatten i + ∑ j, r.par.A i j * y j := by
  obtain ⟨n, curve, _, hrr, _⟩ := stopped c noise chunks hX hd s' r hs hr
  have hmu : r.mu = avg chunks.flatten := by rw [hrr]
  simp only [St.generate, hr, hmu]
  congr 1
  funext i
  simp only [Pi.add_apply, vecMul, dotProduct, transpose_apply]
  rw [add_comm]
  congr 1
  exact Finset.sum_congr rfl fun j _ => mul_comm _ _

/-- **C218**: if the factors and the noise given have mean zero, variance one and are uncorrelated, the generated data have the mean of the training data and the covariance matrix `A Aᵀ + sigma`. -/
theorem fa_generate (c : Cfg) (noise : Matrix (Fin d) (Fin k) ℝ) (chunks : List (List (Fin d → ℝ))) (hX : chunks.flatten ≠ [])
    (hd : 0 < d) (s' : St d k) (r : Res d k) (hs : (trained d k chunks).stop c noise = (.ok (), s')) (hr : s'.res = some r)
    (Y : List ((Fin k → ℝ) × (Fin d → ℝ))) (hY : Y ≠ [])
    (hy0 : ∀ i, (Y.map fun p => p.1 i).sum = 0) (he0 : ∀ i, (Y.map fun p => p.2 i).sum = 0)
    (hyy : ∀ i j, (Y.map fun p => p.1 i * p.1 j).sum / Y.length = if i = j then 1 else 0)
    (hee : ∀ i j, (Y.map fun p => p.2 i * p.2 j).sum / Y.length = if i = j then 1 else 0)
    (hye : ∀ i j, (Y.map fun p => p.1 i * p.2 j).sum = 0) :
    ∃ G : List (Fin d → ℝ), Y.map (fun p => s'.generate p.1 (some p.2)) = G.map .ok ∧
      avg G = avg chunks.flatten ∧ covMat G = r.par.A * r.par.Aᵀ + diagonal r.par.sigma := by
  obtain ⟨n, curve, hpos, hrr, _⟩ := stopped c noise chunks hX hd s' r hs hr
  have hp : ∀ i, 0 < r.par.sigma i := by
    have := Par.iter_pos chunks.flatten hX hpos (initPar chunks.flatten noise) hpos n
    rw [hrr]
    exact this
  have hmu : r.mu = avg chunks.flatten := by rw [hrr]
  clear hrr
  obtain ⟨h1, h2⟩ := generated_moments r.par.A r.par.sigma r.mu hp Y hY hy0 he0 hyy hee hye
  refine ⟨_, ?_, h1.trans hmu, h2⟩
  rw [List.map_map]
  refine List.map_congr_left fun p _ => ?_
  simp only [St.generate, hr, Function.comp]

/-! ## Concrete cases -/

/-- Three points in the plane that are not on a line. -/
def tri : List (List (Fin 2 → ℝ)) := [[![0, 0], ![1, 0]], [], [![0, 1]]]

theorem tri_nondegenerate : ¬ Degenerate tri.flatten := by
  rintro ⟨w, hw, c, h⟩
  have h1 := h ![0, 0] (by simp [tri])
  have h2 := h ![1, 0] (by simp [tri])
  have h3 := h ![0, 1] (by simp [tri])
  simp [dotProduct, Fin.sum_univ_two] at h1 h2 h3
  apply hw
  funext i
  fin_cases i
  · simp; linarith
  · simp; linarith

/-- Training with them succeeds, for every tolerance, number of cycles and random numbers. -/
example (c : Cfg) (noise : Matrix (Fin 2) (Fin 1) ℝ) : ∃ s' r, (trained 2 1 tri).stop c noise = (.ok (), s') ∧ s'.res = some r := by
  have hX : tri.flatten ≠ [] := by simp [tri]
  have h := (fa_refuses_partial (k := 1) c noise tri hX (by norm_num) (by norm_num)).not.2 tri_nondegenerate
  obtain ⟨s', r, h1, h2, _⟩ := fa_stops c noise tri hX (by norm_num) h
  exact ⟨s', r, h1, h2⟩

/-- Three points on a line are refused. -/
example (c : Cfg) (noise : Matrix (Fin 2) (Fin 1) ℝ) :
    ((trained 2 1 [[![0, 1], ![1, 3]], [![2, 5]]]).stop c noise).1 = .error .singular := by
  refine (fa_refuses_partial (k := 1) c noise _ (by simp) (by norm_num) (by norm_num)).2 ⟨![2, -1], ?_, -1, ?_⟩
  · intro h
    have := congrFun h 0
    norm_num at this
  · intro x hx
    simp at hx
    rcases hx with rfl | rfl | rfl <;> norm_num [dotProduct, Fin.sum_univ_two]

/-- Factors and noise that meet the hypotheses of `fa_generate`. -/
example : let Y : List ((Fin 1 → ℝ) × (Fin 1 → ℝ)) := [(![1], ![1]), (![1], ![-1]), (![-1], ![1]), (![-1], ![-1])]
    (∀ i, (Y.map fun p => p.1 i).sum = 0) ∧ (∀ i, (Y.map fun p => p.2 i).sum = 0) ∧
    (∀ i j, (Y.map fun p => p.1 i * p.1 j).sum / Y.length = if i = j then 1 else 0) ∧
    (∀ i j, (Y.map fun p => p.2 i * p.2 j).sum / Y.length = if i = j then 1 else 0) ∧
    (∀ i j, (Y.map fun p => p.1 i * p.2 j).sum = 0) := by
  intro Y
  refine ⟨?_, ?_, ?_, ?_, ?_⟩ <;> intro i <;> fin_cases i
  · norm_num [Y]
  · norm_num [Y]
  · intro j; fin_cases j; norm_num [Y]
  · intro j; fin_cases j; norm_num [Y]
  · intro j; fin_cases j; norm_num [Y]

/-- Likelihoods 0, 8, 9, 9: settled for the first time at cycle 3, with the default tolerance. -/
example : let L : Nat → ℝ := fun t => if t = 0 then 0 else if t = 1 then 8 else 9
    ¬ Settled 0.0001 L 1 ∧ ¬ Settled 0.0001 L 2 ∧ Settled 0.0001 L 3 := by
  intro L
  refine ⟨?_, ?_, ?_⟩
  · rintro ⟨_, h⟩; norm_num [L] at h
  · rintro ⟨_, h⟩; norm_num [L] at h
  · refine ⟨by norm_num, ?_⟩; norm_num [L]

end

end Mdp.Factor
