import Verif.Isfa.Props

/-!
# The limit of the iterations, the constructor (C277-C279)
-/

namespace Mdp.Isfa

open Mdp.Ica Matrix

variable {n T : Nat}

theorem pairLoop_limit (p : Par T) (M M' : Nat) (l : List (Fin n × Fin n)) : ∀ s : Sweep T n,
    pairLoop { p with maxIter := M } s l = pairLoop { p with maxIter := M' } s l := by
  induction l with
  | nil => intro s; rfl
  | cons x l ih =>
    obtain ⟨i, j⟩ := x
    intro s
    unfold pairLoop
    simp only [ih]
    rfl

theorem doSweep_limit (p : Par T) (M M' : Nat) (ax : List (Fin n × Fin n)) (o : Opt T n) :
    doSweep { p with maxIter := M } ax o = doSweep { p with maxIter := M' } ax o := by
  unfold doSweep
  rw [pairLoop_limit p M M']

theorem optLoop_limit (p : Par T) (M : Nat) (draw : Nat → Draw p.R n) (r : Opt T n) (fuel : Nat) : ∀ sweep o, sweep + fuel + 1 = M →
    (optLoop { p with maxIter := M } draw (fuel + 1) sweep o = some (.ok r) ↔ optLoop { p with maxIter := 0 } draw fuel sweep o = some (.ok r)) := by
  induction fuel with
  | zero =>
    intro sweep o h
    constructor
    · intro e
      obtain ⟨_, _, _, hm, _⟩ := optLoop_step e
      exact absurd h hm
    · intro e; exact nomatch e
  | succ fuel ih =>
    intro sweep o h
    rw [optLoop, optLoop]
    simp only []
    rw [doSweep_limit p M 0]
    cases doSweep { p with maxIter := 0 } (draw (sweep + 1)).axes o with
    | error e => simp
    | ok x =>
      obtain ⟨mi, o1⟩ := x
      simp only []
      have e : ∀ c s pe pa, decide' { p with maxIter := M } mi c s pe pa = decide' { p with maxIter := 0 } mi c s pe pa := fun _ _ _ _ => rfl
      rw [e]
      generalize decide' { p with maxIter := 0 } mi o1.contrast (sweep + 1) o1.perturbed o1.part = D
      obtain ⟨sw, pe, pa⟩ := D
      simp only []
      rw [if_neg (show ¬sweep + 1 = M by omega), if_neg (show ¬sweep + 1 = 0 by omega)]
      split
      · exact ih _ _ (by omega)
      · rfl

theorem optLoop_ends (p : Par T) (draw : Nat → Draw p.R n) (fuel : Nat) : ∀ sweep o, sweep + fuel + 1 = p.maxIter →
    optLoop p draw (fuel + 1) sweep o ≠ none := by
  induction fuel with
  | zero =>
    intro sweep o h
    unfold optLoop
    simp only []
    split
    · simp
    · generalize decide' p _ _ _ _ _ = D
      obtain ⟨sw, pe, pa⟩ := D
      simp only []
      rw [if_pos (by omega)]
      simp
  | succ fuel ih =>
    intro sweep o h
    rw [optLoop]
    simp only []
    split
    · simp
    · generalize decide' p _ _ _ _ _ = D
      obtain ⟨sw, pe, pa⟩ := D
      simp only []
      rw [if_neg (by omega)]
      split
      · exact ih _ _ (by omega)
      · simp

theorem stop_none (p : Par (T + 1)) (order : (Fin n → ℝ) → List (Fin n) → List (Fin n)) (draw : Nat → Draw p.R n) (fuel : Nat)
    (rp0 : Option (Matrix (Fin n) (Fin n) ℝ)) (c : Covs (T + 1) n) (h : stop p order draw fuel rp0 c = none) :
    ∃ o, optLoop p draw fuel 0 o = none := by
  unfold stop at h
  cases rp0 <;>
  · simp only [] at h
    split at h
    · next h1 =>
      unfold optimize at h1
      simp only [] at h1
      split at h1
      · next h2 => exact ⟨_, h2⟩
      · exact nomatch h1
      · exact nomatch h1
    · exact nomatch h
    · exact nomatch h

/-- **C277** (isfa_terminates): with a positive limit, training ends after at most that many sweeps. -/
theorem isfa_terminates (p : Par (T + 1)) (hp : 0 < p.maxIter) (order : (Fin n → ℝ) → List (Fin n) → List (Fin n)) (draw : Nat → Draw p.R n)
    (rp0 : Option (Matrix (Fin n) (Fin n) ℝ)) (c : Covs (T + 1) n) : stop p order draw p.maxIter rp0 c ≠ none := by
  intro h
  obtain ⟨o, ho⟩ := stop_none p order draw p.maxIter rp0 c h
  obtain ⟨k, hk⟩ := Nat.exists_eq_succ_of_ne_zero hp.ne'
  rw [hk] at ho
  exact optLoop_ends p draw k 0 o (by omega) ho

theorem stop_limit (p : Par (T + 1)) (M : Nat) (order : (Fin n → ℝ) → List (Fin n) → List (Fin n)) (draw : Nat → Draw p.R n)
    (rp0 : Option (Matrix (Fin n) (Fin n) ℝ)) (c : Covs (T + 1) n) (r : Res (T + 1) n) :
    stop { p with maxIter := M + 1 } order draw (M + 1) rp0 c = some (.ok r) ↔ stop { p with maxIter := 0 } order draw M rp0 c = some (.ok r) := by
  have key : ∀ (c : Covs (T + 1) n) x, optimize { p with maxIter := M + 1 } draw (M + 1) c = some (.ok x) ↔ optimize { p with maxIter := 0 } draw M c = some (.ok x) := by
    intro c x
    have e0 : contrast { p with maxIter := M + 1 } c = contrast { p with maxIter := 0 } c := rfl
    have hl := fun o => optLoop_limit p (M + 1) draw o M 0 ⟨c, 1, (contrast { p with maxIter := 0 } c).1 + (contrast { p with maxIter := 0 } c).2, if n = p.R then -1 else 0, 0⟩ (by omega)
    unfold optimize
    simp only [e0]
    generalize optLoop { p with maxIter := M + 1 } draw (M + 1) 0 _ = A at hl ⊢
    generalize optLoop { p with maxIter := 0 } draw M 0 _ = B at hl ⊢
    constructor
    · intro h
      split at h
      · exact nomatch h
      · exact nomatch h
      · next o => rw [(hl o).1 rfl]; exact h
    · intro h
      split at h
      · exact nomatch h
      · exact nomatch h
      · next o => rw [(hl o).2 rfl]; exact h
  unfold stop
  cases rp0 with
  | none =>
    simp only []
    have k := key c
    generalize optimize { p with maxIter := M + 1 } draw (M + 1) c = A at k ⊢
    generalize optimize { p with maxIter := 0 } draw M c = B at k ⊢
    constructor
    · intro h
      split at h
      · exact nomatch h
      · exact nomatch h
      · next q a b => rw [(k _).1 rfl]; exact h
    · intro h
      split at h
      · exact nomatch h
      · exact nomatch h
      · next q a b => rw [(k _).2 rfl]; exact h
  | some rp =>
    simp only []
    have k := key (trCovs rp c)
    generalize optimize { p with maxIter := M + 1 } draw (M + 1) (trCovs rp c) = A at k ⊢
    generalize optimize { p with maxIter := 0 } draw M (trCovs rp c) = B at k ⊢
    constructor
    · intro h
      split at h
      · exact nomatch h
      · exact nomatch h
      · next q a b => rw [(k _).1 rfl]; exact h
    · intro h
      split at h
      · exact nomatch h
      · exact nomatch h
      · next q a b => rw [(k _).2 rfl]; exact h

/-- **C277**: training with limit `M` succeeds exactly if the loop without a limit converges within `M - 1` sweeps: convergence in the last sweep
allowed is refused. -/
theorem isfa_limit_violation (p : Par (T + 1)) (M : Nat) (hM : 0 < M) (order : (Fin n → ℝ) → List (Fin n) → List (Fin n)) (draw : Nat → Draw p.R n)
    (rp0 : Option (Matrix (Fin n) (Fin n) ℝ)) (c : Covs (T + 1) n) (r : Res (T + 1) n) :
    stop { p with maxIter := M } order draw M rp0 c = some (.ok r) ↔ stop { p with maxIter := 0 } order draw (M - 1) rp0 c = some (.ok r) := by
  obtain ⟨k, rfl⟩ := Nat.exists_eq_succ_of_ne_zero hM.ne'
  exact stop_limit p k order draw rp0 c r

/-- **C277**: with `max_iter=1` training never succeeds. -/
theorem isfa_one_iteration_violation (p : Par (T + 1)) (hp : p.maxIter = 1) (order : (Fin n → ℝ) → List (Fin n) → List (Fin n)) (draw : Nat → Draw p.R n)
    (fuel : Nat) (rp0 : Option (Matrix (Fin n) (Fin n) ℝ)) (c : Covs (T + 1) n) (r : Res (T + 1) n) :
    stop p order draw fuel rp0 c ≠ some (.ok r) := by
  intro h
  obtain ⟨o, ho, _⟩ := stop_ok h
  cases fuel with
  | zero => exact nomatch ho
  | succ fuel =>
    obtain ⟨_, _, _, hm, _⟩ := optLoop_step ho
    exact hm hp.symm

/-- **C278** (isfa_one_signal): with one signal there is no pair of axes, and training ends in an UnboundLocalError. -/
theorem isfa_one_signal_violation (p : Par (T + 1)) (order : (Fin 1 → ℝ) → List (Fin 1) → List (Fin 1)) (draw : Nat → Draw p.R 1)
    (hd : ∀ k, (draw k).Ok) (fuel : Nat) (rp0 : Option (Matrix (Fin 1) (Fin 1) ℝ)) (c : Covs (T + 1) 1) :
    stop p order draw (fuel + 1) rp0 c = some (.error .unbound) := by
  have hax : (draw 1).axes = [] := by
    apply List.eq_nil_iff_forall_not_mem.2
    intro x hx
    have := (axes_lt (hd 1) hx).2
    exact absurd (Subsingleton.elim x.1 x.2) this.ne
  have hl : ∀ o, optLoop p draw (fuel + 1) 0 o = some (.error .unbound) := by
    intro o
    unfold optLoop
    have : doSweep p (draw (0 + 1)).axes o = .error .unbound := by
      unfold doSweep
      rw [Nat.zero_add, hax]
      rfl
    simp only [this]
  unfold stop optimize
  cases rp0 <;> simp only [hl]

/-! ## The constructor -/

/-- **C279** (isfa_weights): which weights are accepted, and what they are. -/
theorem isfa_weights (lags : List Int) (ica sfa : Weights) (whitened : Bool) (wc od : Option Nat) (s : Init) (h : init (.list lags) ica sfa whitened wc od = .ok s) :
    s.lags = lags ∧ s.ica.length = lags.length ∧ s.sfa.length = lags.length ∧
    (ica = .default → ∀ x ∈ s.ica, x = 1) ∧ (∀ l, ica = .list l → s.ica = l) ∧
    (sfa = .default → s.sfa[0]? = some 1 ∧ ∀ t x, 0 < t → s.sfa[t]? = some x → x = 0) ∧ (∀ l, sfa = .list l → s.sfa = l) := by
  unfold init Lags.get at h
  simp only [] at h
  split at h
  · exact nomatch h
  next i hi =>
  split at h
  · exact nomatch h
  next f hf =>
  have e : s.lags = lags ∧ s.ica = i ∧ s.sfa = f := by
    split at h
    · injection h with h; rw [← h]; exact ⟨rfl, rfl, rfl⟩
    · split at h
      · injection h with h; rw [← h]; exact ⟨rfl, rfl, rfl⟩
      · injection h with h; rw [← h]; exact ⟨rfl, rfl, rfl⟩
  obtain ⟨e1, e2, e3⟩ := e
  rw [e1, e2, e3]
  refine ⟨rfl, ?_, ?_, ?_, ?_, ?_, ?_⟩
  · cases ica with
    | default => injection hi with hi; rw [← hi]; simp
    | number x => exact nomatch hi
    | list l =>
      simp only [Weights.ica] at hi
      split at hi
      · exact nomatch hi
      · next hl => injection hi with hi; rw [← hi]; exact not_not.1 hl
  · cases sfa with
    | default =>
      simp only [Weights.sfa] at hf
      split at hf
      · exact nomatch hf
      · next hl => injection hf with hf; rw [← hf]; simp; omega
    | number x => exact nomatch hf
    | list l =>
      simp only [Weights.sfa] at hf
      split at hf
      · exact nomatch hf
      · next hl => injection hf with hf; rw [← hf]; exact not_not.1 hl
  · rintro rfl
    injection hi with hi
    rw [← hi]
    intro x hx
    exact (List.mem_replicate.1 hx).2
  · rintro l rfl
    simp only [Weights.ica] at hi
    split at hi
    · exact nomatch hi
    · injection hi with hi; exact hi.symm
  · rintro rfl
    simp only [Weights.sfa] at hf
    split at hf
    · exact nomatch hf
    · injection hf with hf
      rw [← hf]
      refine ⟨rfl, fun t x ht hx => ?_⟩
      obtain ⟨k, rfl⟩ := Nat.exists_eq_succ_of_ne_zero ht.ne'
      rw [List.getElem?_cons_succ] at hx
      exact (List.mem_replicate.1 (List.mem_of_getElem? hx)).2
  · rintro l rfl
    simp only [Weights.sfa] at hf
    split at hf
    · exact nomatch hf
    · injection hf with hf; exact hf.symm

/-- **C279**: weights of a wrong length are refused, but with a TypeError instead of the message. -/
theorem isfa_weights_refused (lags : List Int) (w : List ℝ) (hw : w.length ≠ lags.length) (other : Weights) (whitened : Bool) (wc od : Option Nat) :
    init (.list lags) (.list w) other whitened wc od = .error .type ∧
    (∀ i, other.ica lags.length = .ok i → init (.list lags) other (.list w) whitened wc od = .error .type) := by
  constructor
  · simp [init, Lags.get, Weights.ica, hw]
  · intro i hi
    simp [init, Lags.get, hi, Weights.sfa, hw]

/-- **C279**: the documented single number for all time-lags is refused with a TypeError. -/
theorem isfa_number_weight_violation (lags : List Int) (x : ℝ) (sfa : Weights) (whitened : Bool) (wc od : Option Nat) :
    init (.list lags) (.number x) sfa whitened wc od = .error .type ∧
    init (.list lags) .default (.number x) whitened wc od = .error .type := by
  constructor <;> simp [init, Lags.get, Weights.ica, Weights.sfa]

/-- **C279** (isfa_lags): an integer `k` stands for the time-lags `1, …, k`; without a positive number the default weights raise an IndexError. -/
theorem isfa_lags (k : Int) (ica : Weights) (sfa : Weights) (whitened : Bool) (wc od : Option Nat) :
    (∀ s, init (.int k) ica sfa whitened wc od = .ok s → s.lags.length = k.toNat ∧ ∀ t : Nat, t < k.toNat → s.lags[t]? = some ((t : Int) + 1)) ∧
    (k ≤ 0 → init (.int k) .default .default whitened wc od = .error .index) := by
  constructor
  · intro s h
    unfold init at h
    simp only [Lags.get] at h
    split at h
    · exact nomatch h
    split at h
    · exact nomatch h
    have e : s.lags = (List.range k.toNat).map fun i : Nat => (i : Int) + 1 := by
      split at h
      · injection h with h; rw [← h]
      · split at h <;> injection h with h <;> rw [← h]
    rw [e]
    refine ⟨by simp, fun t ht => ?_⟩
    simp [ht]
  · intro hk
    have : k.toNat = 0 := Int.toNat_eq_zero.2 hk
    simp [init, Lags.get, this, Weights.ica, Weights.sfa]

/-- **C280** (isfa_outer_space): a node that whitens its data has no outer space: the number of outputs is the number of whitened components, and
`white_comp` has no effect if `output_dim` is given. -/
theorem isfa_outer_space_violation (lags : Lags) (ica sfa : Weights) (wc wc' : Option Nat) (k d : Nat) :
    init lags ica sfa false wc (some k) = init lags ica sfa false wc' (some k) ∧
    (∀ s od, init lags ica sfa false wc od = .ok s → s.outputs d = s.effective d) := by
  constructor
  · unfold init; rfl
  · intro s od h
    unfold init at h
    split at h
    · exact nomatch h
    split at h
    · exact nomatch h
    split at h
    · exact nomatch h
    simp only [Bool.false_eq_true, if_false] at h
    split at h
    · injection h with h; rw [← h]; rfl
    · injection h with h; rw [← h]
      unfold Init.outputs Init.effective
      cases wc <;> rfl

/-- **C280**: for white data the outer space is as documented: `output_dim` outputs from all inputs. -/
theorem isfa_whitened_dims (lags : Lags) (ica sfa : Weights) (wc od : Option Nat) (d : Nat) (s : Init) (h : init lags ica sfa true wc od = .ok s) :
    s.effective d = d ∧ s.outputs d = od.getD d := by
  unfold init at h
  split at h
  · exact nomatch h
  split at h
  · exact nomatch h
  split at h
  · exact nomatch h
  simp only [if_true] at h
  injection h with h
  rw [← h]
  exact ⟨rfl, rfl⟩

/-- **C280**: the documented way to hand over covariance matrices, a list, raises an AttributeError for all data. -/
theorem isfa_given_list_violation (fixed : Covs T n) : (Given.list : Given T n).fix fixed = .error .attribute := rfl

end Mdp.Isfa
