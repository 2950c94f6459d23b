import Verif.Factor.Stat

/-! # The EM algorithm of `FANode` -/

namespace Mdp.Factor

open Matrix Mdp.Cov

noncomputable section

variable {d k : Nat}

/-- The parameters after a cycle. -/
def Par.next (C : Matrix (Fin d) (Fin d) ℝ) (p : Par d k) : Par d k :=
  ⟨newA C (pmean p.A p.sigma) (1 - pmean p.A p.sigma * p.A),
   fun i => resid C (pmean p.A p.sigma) (1 - pmean p.A p.sigma * p.A)
     (newA C (pmean p.A p.sigma) (1 - pmean p.A p.sigma * p.A)) i i⟩

theorem inv_posDef {n : Nat} {M : Matrix (Fin n) (Fin n) ℝ} (h : M.PosDef) : inv M = .ok M⁻¹ := by
  unfold inv
  rw [if_neg h.det_pos.ne']

theorem Par.cycle_eq (X : List (Fin d → ℝ)) (hX : X ≠ []) (hd : ∀ i, 0 < cmat X i i) (p : Par d k)
    (hp : ∀ i, 0 < p.sigma i) :
    p.cycle (cmat X) = .ok (logLik X p.A p.sigma, p.next (cmat X)) ∧ (∀ i, 0 < (p.next (cmat X)).sigma i) ∧
      logLik X p.A p.sigma ≤ logLik X (p.next (cmat X)).A (p.next (cmat X)).sigma ∧
      EmStep X p.A p.sigma (p.next (cmat X)).A (p.next (cmat X)).sigma := by
  have hC := cmat_posSemidef X
  have hV := pvar_posDef (A := p.A) hp
  have hem := em_formula X hX hd p.A p.sigma hp
  refine ⟨?_, hem.1, ?_, hem⟩
  · have ho : p.outer = mcov p.A p.sigma := rfl
    have hB := mcov_posDef (A := p.A) hp
    have he : - (p.Aᵀ * (mcov p.A p.sigma)⁻¹ * p.A) + p.Aᵀ * (mcov p.A p.sigma)⁻¹ * cmat X * (p.Aᵀ * (mcov p.A p.sigma)⁻¹)ᵀ + 1 =
        emom (cmat X) (pmean p.A p.sigma) (1 - pmean p.A p.sigma * p.A) := by
      unfold emom pmean
      abel
    unfold Par.cycle
    simp only [ho, inv_posDef hB, he, inv_posDef (emom_posDef (G := pmean p.A p.sigma) hC hV)]
    congr 1
    refine Prod.ext ?_ ?_
    · simp only []
      rw [logLik_eq X hX, abs_of_pos hB.det_pos]
      unfold nll
      have : ∑ i, ∑ j, (mcov p.A p.sigma)⁻¹ i j * (cmat X)ᵀ i j = ((mcov p.A p.sigma)⁻¹ * cmat X).trace := by
        simp only [Matrix.trace, diag_apply, mul_apply, transpose_apply]
      rw [this]
      norm_num
      ring
    · simp only []
      unfold Par.next
      congr 1
      funext i
      rw [resid_newA hC hV, Matrix.sub_apply]
      rfl
  · rw [logLik_eq X hX, logLik_eq X hX]
    have := nll_step hC hd p.A p.sigma hp
    unfold Par.next
    linarith

/-- The parameters after `n` cycles. -/
def Par.iter (C : Matrix (Fin d) (Fin d) ℝ) (p : Par d k) : Nat → Par d k
  | 0 => p
  | n + 1 => (Par.iter C p n).next C

theorem Par.iter_pos (X : List (Fin d → ℝ)) (hX : X ≠ []) (hd : ∀ i, 0 < cmat X i i) (p : Par d k)
    (hp : ∀ i, 0 < p.sigma i) (n : Nat) : ∀ i, 0 < (p.iter (cmat X) n).sigma i := by
  induction n with
  | zero => exact hp
  | succ n ih => exact (Par.cycle_eq X hX hd _ ih).2.1

/-- The likelihood after `n` cycles. -/
def Par.lik (X : List (Fin d → ℝ)) (p : Par d k) (n : Nat) : ℝ :=
  logLik X (p.iter (cmat X) n).A (p.iter (cmat X) n).sigma

theorem Par.lik_mono (X : List (Fin d → ℝ)) (hX : X ≠ []) (hd : ∀ i, 0 < cmat X i i) (p : Par d k)
    (hp : ∀ i, 0 < p.sigma i) : Monotone (p.lik X) :=
  monotone_nat_of_le_succ fun n => (Par.cycle_eq X hX hd _ (Par.iter_pos X hX hd p hp n)).2.2.1

/-- The result of the loop after `n` cycles. -/
structure LoopEnd (tol : ℝ) (L : Nat → ℝ) (max n : Nat) (curve : List ℝ) : Prop where
  le : n ≤ max
  before : ∀ t, t + 1 < n → ¬ Settled tol L t
  ends : (∃ t, n = t + 1 ∧ Settled tol L t ∧ curve = (List.range t).map L) ∨
    (n = max ∧ (∀ t, n = t + 1 → ¬ Settled tol L t) ∧ curve = (List.range n).map L)

theorem Em.loop_eq (X : List (Fin d → ℝ)) (hX : X ≠ []) (hd : ∀ i, 0 < cmat X i i) (tol : ℝ) (p : Par d k)
    (hp : ∀ i, 0 < p.sigma i) (rest n : Nat) (hs : ∀ t, t < n → ¬ Settled tol (p.lik X) t) :
    ∃ m curve, Em.loop tol (cmat X) rest ⟨p.iter (cmat X) n,
        (if n = 0 then none else some (p.lik X 0, p.lik X (n - 1))), (List.range n).map (p.lik X), 0⟩ =
      .ok ⟨p.iter (cmat X) m, (if curve = [] then none else some (p.lik X 0, p.lik X (curve.length - 1))), curve, 0⟩ ∧
      LoopEnd tol (p.lik X) (n + rest) m curve := by
  induction rest generalizing n with
  | zero =>
    refine ⟨n, (List.range n).map (p.lik X), ?_, ⟨le_rfl, fun t ht => hs t (by omega), .inr ⟨rfl, fun t ht => hs t (by omega), rfl⟩⟩⟩
    cases n with
    | zero => rfl
    | succ n =>
      unfold Em.loop
      have : (List.range (n + 1)).map (p.lik X) ≠ [] := by simp
      rw [if_neg (Nat.succ_ne_zero n), if_neg this]
      simp
  | succ rest ih =>
    have hpos := Par.iter_pos X hX hd p hp n
    have hc := (Par.cycle_eq X hX hd _ hpos).1
    have hL : logLik X (p.iter (cmat X) n).A (p.iter (cmat X) n).sigma = p.lik X n := rfl
    have hnext : (p.iter (cmat X) n).next (cmat X) = p.iter (cmat X) (n + 1) := rfl
    rw [hL, hnext] at hc
    unfold Em.loop
    simp only [hc]
    by_cases hset : Settled tol (p.lik X) n
    · refine ⟨n + 1, (List.range n).map (p.lik X), ?_, ⟨by omega, fun t ht => hs t (by omega), .inl ⟨n, rfl, hset, rfl⟩⟩⟩
      have hn : n ≠ 0 := by have := hset.1; omega
      have hne : (List.range n).map (p.lik X) ≠ [] := by simpa using hn
      unfold Em.judge
      simp only [if_neg hn, if_neg hne, if_pos hset.2]
      simp
    · have hrec := ih (n + 1) (fun t ht => by
        rcases Nat.lt_succ_iff_lt_or_eq.1 ht with h | h
        · exact hs t h
        · rw [h]; exact hset)
      obtain ⟨m, curve, h1, h2⟩ := hrec
      refine ⟨m, curve, ?_, by rw [show n + (rest + 1) = n + 1 + rest by omega]; exact h2⟩
      rw [← h1]
      cases n with
      | zero =>
        unfold Em.judge
        simp
      | succ n =>
        have h3 : ¬ (p.lik X (n + 1) - p.lik X 0 < (1 + tol) * (p.lik X n - p.lik X 0)) := fun h => hset ⟨by omega, by simpa using h⟩
        have h4 : ¬ p.lik X (n + 1) < p.lik X n := not_lt.2 (Par.lik_mono X hX hd p hp (Nat.le_succ n))
        unfold Em.judge
        simp [h3, h4, List.range_succ (n := n + 1)]

/-! ### `stop_training` -/

theorem cov_eq (X : List (Fin d → ℝ)) (i j : Fin d) :
    Mdp.Cov.cov true (X.map fun x => (x i, x j)) = cmat X i j := by
  rw [cmat_apply]
  simp only [Mdp.Cov.cov, codev, List.map_map, mean, List.length_map, if_true]
  rfl

theorem train_run (chunks : List (List (Fin d → ℝ))) (s : St d k) (c : CovSt ℝ d) (hs : s.cov = some c) :
    chunks.foldl (fun s x => (St.train s x).2) s = { s with cov := some (chunks.foldl CovSt.update c) } := by
  induction chunks generalizing s c with
  | nil => cases s; cases hs; rfl
  | cons x chunks ih =>
    have : (St.train s x).2 = { s with cov := some (c.update x) } := by unfold St.train; rw [hs]
    simp only [List.foldl_cons]
    rw [ih _ (c.update x) (by rw [this]), this]

/-- The initial loading factors. -/
def initPar (X : List (Fin d → ℝ)) (noise : Matrix (Fin d) (Fin k) ℝ) : Par d k :=
  ⟨Real.sqrt (scale (cmat X) / k) • noise, fun i => cmat X i i⟩

theorem scale_le (X : List (Fin d → ℝ)) (hX : X ≠ []) (hd : 0 < d) :
    scale (cmat X) ≤ 0 ↔ if d ≤ 300 then Degenerate X else ConstantColumn X := by
  have hdr : (1 / (d : ℝ)) ≠ 0 := by
    have : (d : ℝ) ≠ 0 := by exact_mod_cast hd.ne'
    exact one_div_ne_zero this
  have key : ∀ a : ℝ, 0 ≤ a → (a ^ (1 / (d : ℝ)) ≤ 0 ↔ a = 0) := by
    intro a ha
    constructor
    · intro h
      exact (Real.rpow_eq_zero ha hdr).1 (le_antisymm h (Real.rpow_nonneg ha _))
    · rintro rfl
      rw [Real.zero_rpow hdr]
  unfold scale
  split_ifs
  · rw [key _ (cmat_det_nonneg X), cmat_singular X hX]
  · rw [key _ (Finset.prod_nonneg fun i _ => (cmat_posSemidef X).diag_nonneg), Finset.prod_eq_zero_iff]
    unfold ConstantColumn
    simp only [Finset.mem_univ, true_and]
    exact exists_congr fun i => cmat_diag_zero X hX i

theorem diag_pos (X : List (Fin d → ℝ)) (hX : X ≠ []) (h : ¬ ConstantColumn X) (i : Fin d) : 0 < cmat X i i := by
  refine lt_of_le_of_ne (cmat_posSemidef X).diag_nonneg fun h0 => h ?_
  exact ⟨i, (cmat_diag_zero X hX i).1 h0.symm⟩

theorem stop_eq (c : Cfg) (noise : Matrix (Fin d) (Fin k) ℝ) (chunks : List (List (Fin d → ℝ))) (hX : chunks.flatten ≠ [])
    (hd : 0 < d) :
    let X := chunks.flatten
    let s : St d k := chunks.foldl (fun s x => (St.train s x).2) (St.new d k)
    ((if d ≤ 300 then Degenerate X else ConstantColumn X) → s.stop c noise = (.error .singular, ⟨none, none⟩)) ∧
    (¬ (if d ≤ 300 then Degenerate X else ConstantColumn X) → ∃ n curve,
      (∀ i, 0 < cmat X i i) ∧
      s.stop c noise = (.ok (), ⟨none, some ⟨(initPar X noise).iter (cmat X) n, avg X,
        (pmean ((initPar X noise).iter (cmat X) n).A ((initPar X noise).iter (cmat X) n).sigma)ᵀ, curve, X.length, 0⟩⟩) ∧
      LoopEnd c.tol ((initPar X noise).lik X) c.maxCycles n curve) := by
  intro X s
  have hs : s = ⟨some (chunks.foldl CovSt.update (CovSt.new ℝ d true)), none⟩ :=
    train_run chunks (St.new d k) (CovSt.new ℝ d true) rfl
  have hlen : 1 ≤ chunks.flatten.length := List.length_pos_iff.2 hX
  obtain ⟨cv, av, h1, h2, h3⟩ := covariance_correct true chunks (by simpa using hlen)
  have hcv : Matrix.of cv = cmat X := by
    ext i j
    rw [Matrix.of_apply, h2, cov_eq]
  have hav : av = avg X := by
    funext i
    rw [h3]
    simp only [mean, avg, List.length_map]
    rfl
  have hcv' : ∀ i, cv i i = cmat X i i := fun i => by rw [← hcv, Matrix.of_apply]
  constructor
  · intro h
    rw [hs]
    unfold St.stop
    simp only [h1, hcv, if_pos ((scale_le X hX hd).2 h)]
  · intro h
    have hcc : ¬ ConstantColumn X := by
      split_ifs at h
      · exact fun hc => h (constant_degenerate X hc)
      · exact h
    have hpos := diag_pos X hX hcc
    obtain ⟨n, curve, h4, h5⟩ := Em.loop_eq X hX hpos c.tol (initPar X noise) hpos c.maxCycles 0 (by omega)
    rw [Nat.zero_add] at h5
    have hpn := Par.iter_pos X hX hpos (initPar X noise) hpos n
    refine ⟨n, curve, hpos, ?_, h5⟩
    rw [hs]
    unfold St.stop
    have hinit : (⟨Real.sqrt (scale (cmat X) / k) • noise, fun i => cv i i⟩ : Par d k) = initPar X noise := by
      unfold initPar
      rw [funext hcv']
    simp only [h1, hcv, if_neg (fun hh => h ((scale_le X hX hd).1 hh)), hinit, hav]
    simp only [if_true, List.range_zero, List.map_nil, Par.iter] at h4
    rw [h4]
    have ho : ((initPar X noise).iter (cmat X) n).outer =
        mcov ((initPar X noise).iter (cmat X) n).A ((initPar X noise).iter (cmat X) n).sigma := rfl
    simp only [ho, inv_posDef (mcov_posDef hpn)]
    unfold pmean
    rw [transpose_mul, transpose_transpose]

end

end Mdp.Factor
