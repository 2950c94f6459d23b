import Verif.Ica.NodeModel
import Verif.Ica.Fast
import Verif.Nodes.PcaOut

/-!
# Theorems about `ICANode`
-/

namespace Mdp.Ica

open Matrix
open Mdp.Cov (cov codev)

variable {d : Nat}

/-! ## Lemmas -/

theorem toVec_ofFn {k : Nat} (v : Vec k) : toVec k (List.ofFn v) = v := by
  funext i
  simp [toVec, List.getD_eq_getElem?_getD]

theorem ofFn_toVec {k : Nat} {l : List ℝ} (h : l.length = k) : List.ofFn (toVec k l) = l := by
  subst h
  apply List.ext_getElem (by simp)
  intro i h1 h2
  simp [toVec, List.getD_eq_getElem?_getD, List.getElem?_eq_getElem h2]

theorem vec_filters {k : Nat} (f : Matrix (Fin k) (Fin k) ℝ) (h : f * fᵀ = 1) (v : Vec k) : (v ᵥ* f) ᵥ* fᵀ = v := by
  rw [vecMul_vecMul, h, vecMul_one]

/-! ## Telescope mode -/

/-- In telescope mode the result is that of the core routine for the first `2^p` samples, where `p` is the first power in the range for which
the convergence value is at most the limit, or else the last one. -/
theorem telescope_spec {α β : Type} {core : List α → Except Err (β × ℝ)} {limit : ℝ} {data : List α} (l : List Nat) {o : Option (β × ℝ)} {r : β × ℝ}
    (h : telescope core limit data o l = .ok r) : (l = [] ∧ o = some r) ∨ ∃ a p b, l = a ++ p :: b ∧ core (data.take (2 ^ p)) = .ok r ∧
      (∀ q ∈ a, ∃ r', core (data.take (2 ^ q)) = .ok r' ∧ limit < r'.2) ∧ (r.2 ≤ limit ∨ b = []) := by
  induction l generalizing o with
  | nil =>
    cases o with
    | none => simp [telescope] at h
    | some r' => left; simp only [telescope, Except.ok.injEq] at h; exact ⟨rfl, by rw [h]⟩
  | cons t l ih =>
    right
    simp only [telescope] at h
    cases hc : core (data.take (2 ^ t)) with
    | error e => simp [hc] at h
    | ok r' =>
      simp only [hc] at h
      split_ifs at h with h1
      · injection h with h
        subst h
        exact ⟨[], t, l, rfl, hc, by simp, .inl h1⟩
      · rcases ih h with ⟨h2, h3⟩ | ⟨a, p, b, h2, h3, h4, h5⟩
        · injection h3 with h3
          subst h3 h2
          exact ⟨[], t, [], rfl, hc, by simp, .inr rfl⟩
        · refine ⟨t :: a, p, b, by rw [h2]; rfl, h3, fun q hq => ?_, h5⟩
          rcases List.mem_cons.1 hq with rfl | hq
          · exact ⟨r', hc, not_le.1 h1⟩
          · exact h4 q hq

/-- The powers of the telescope mode: from the first one above ten times the number of columns, up to the number of samples. -/
theorem powers_spec (d n p : Nat) (hd : 0 < d) (hn : 0 < n) : p ∈ powers d n ↔ 10 * d < 2 ^ p ∧ 2 ^ p ≤ n := by
  simp only [powers, hd.ne', if_false, List.mem_range'_1]
  rw [← Nat.log_lt_iff_lt_pow (by norm_num) (by omega), ← Nat.le_log_iff_pow_le (by norm_num) (by omega)]
  omega

/-- Training in telescope mode, with whitened data. -/
theorem telescope_partial {c : ICfg} {core : Core} {solve : Pca.Solver ℝ d} {data : List (Vec d)} {t : Trained d} (hw : c.whitened = true)
    (ht : c.tele = true) (hd : 0 < d) (hn : 0 < data.length) (h : c.finish core solve data = .ok t) :
    ∃ p f v, 10 * d < 2 ^ p ∧ 2 ^ p ≤ data.length ∧ core d (data.take (2 ^ p)) = .ok (f, v) ∧ t = ⟨d, none, d, f, v⟩ ∧
      (∀ q, 10 * d < 2 ^ q → q < p → ∃ r, core d (data.take (2 ^ q)) = .ok r ∧ c.limit < r.2) ∧
      (v ≤ c.limit ∨ data.length < 2 ^ (p + 1)) := by
  simp only [ICfg.finish, hw, if_true, ICfg.call, ht] at h
  cases hc : telescope (core d) c.limit data none (powers d data.length) with
  | error e => simp [hc] at h
  | ok r =>
    simp only [hc, ICfg.outDim, hw, if_true, Except.ok.injEq] at h
    rcases telescope_spec _ hc with ⟨_, h1⟩ | ⟨a, p, b, h1, h2, h3, h4⟩
    · simp at h1
    · have hp := (powers_spec d data.length p hd hn).1 (by rw [h1]; simp)
      have hs : (powers d data.length).Pairwise (· < ·) := by
        simp only [powers]; exact List.pairwise_lt_range'
      rw [h1, List.pairwise_append] at hs
      refine ⟨p, r.1, r.2, hp.1, hp.2, h2, h.symm, fun q hq hqp => ?_, ?_⟩
      · have hq2 : 2 ^ q ≤ data.length := (Nat.pow_le_pow_right (by norm_num) hqp.le).trans hp.2
        have := (powers_spec d data.length q hd hn).2 ⟨hq, hq2⟩
        rw [h1, List.mem_append, List.mem_cons] at this
        rcases this with h5 | rfl | h5
        · exact h3 q h5
        · omega
        · have := (List.pairwise_cons.1 hs.2.1).1 q h5; omega
      · rcases h4 with h4 | h4
        · exact .inl h4
        · right
          by_contra h5
          push Not at h5
          have h6 := (powers_spec d data.length (p + 1) hd hn).2
            ⟨hp.1.trans (Nat.pow_lt_pow_right (by norm_num) (by omega)), h5⟩
          rw [h1, h4, List.mem_append, List.mem_singleton] at h6
          rcases h6 with h6 | h6
          · have := hs.2.2 _ h6 p List.mem_cons_self; omega
          · omega

/-- With fewer samples than the first power of two above ten times the number of columns, training in telescope mode is an
UnboundLocalError, whatever the data and the algorithm. -/
theorem telescope_false {c : ICfg} (core : Core) (solve : Pca.Solver ℝ d) (data : List (Vec d)) (hw : c.whitened = true)
    (ht : c.tele = true) (hd : 0 < d) (hn : 0 < data.length) (hs : ∀ p, 10 * d < 2 ^ p → data.length < 2 ^ p) :
    c.finish core solve data = .error .unbound := by
  have h1 : powers d data.length = [] := by
    rw [List.eq_nil_iff_forall_not_mem]
    intro p hp
    obtain ⟨h2, h3⟩ := (powers_spec d data.length p hd hn).1 hp
    have := hs p h2
    omega
  simp only [ICfg.finish, hw, if_true, ICfg.call, ht, h1, telescope]

example : ∀ p, 10 * 2 < 2 ^ p → 31 < 2 ^ p := by
  intro p hp
  have : 5 ≤ p := by
    by_contra h
    have h2 : 2 ^ p ≤ 2 ^ 4 := Nat.pow_le_pow_right (by norm_num) (by omega)
    omega
  calc 31 < 2 ^ 5 := by norm_num
    _ ≤ 2 ^ p := Nat.pow_le_pow_right (by norm_num) this

/-! ## After an exception -/

/-- The calls of the interface. -/
inductive Call (d : Nat) where
  | train (x : List (Vec d))
  | stop
  | execute (x : List (Vec d))

/-- The state after a call, and whether it raised. -/
noncomputable def NSt.call (c : ICfg) (core : Core) (solve : Pca.Solver ℝ d) (s : NSt d) : Call d → Bool × NSt d
  | .train x => ((s.train x).1.toOption.isNone, (s.train x).2)
  | .stop => ((s.stop c core solve).1.toOption.isNone, (s.stop c core solve).2)
  | .execute x => ((s.execute c core solve x).1.toOption.isNone, (s.execute c core solve x).2)

/-- After `stop_training` has raised (for example because there is no convergence) the node cannot be used any more: every further call, in
any order, raises, also `stop_training` with a larger number of iterations or other parameters, and `train` with more data. -/
theorem retry_false {c : ICfg} {core : Core} {solve : Pca.Solver ℝ d} {s : NSt d} {e : NErr} {l : List (List (Vec d))} (hl : l ≠ [])
    (hs : s.store = .chunks l) (ht : s.training = true) (h : (s.stop c core solve).1 = .error e)
    (calls : List (ICfg × Core × Pca.Solver ℝ d × Call d)) :
    let run := calls.foldl (fun (p : List Bool × NSt d) q =>
      (p.1 ++ [(p.2.call q.1 q.2.1 q.2.2.1 q.2.2.2).1], (p.2.call q.1 q.2.1 q.2.2.1 q.2.2.2).2)) ([], (s.stop c core solve).2)
    run.1 = List.replicate calls.length true ∧ run.2.training = true := by
  have h0 : (s.stop c core solve).2.training = true ∧ ((s.stop c core solve).2.store = .array ∨ (s.stop c core solve).2.store = .flat) := by
    cases l with
    | nil => exact absurd rfl hl
    | cons a l =>
      simp only [NSt.stop, ht, Bool.true_eq_false, if_false, hs] at h ⊢
      cases hf : c.finish core solve (a :: l).flatten with
      | error e' => simp only [ht]; exact ⟨trivial, .inl trivial⟩
      | ok t => rw [hf] at h; exact absurd h (by simp)
  have step : ∀ (q : ICfg × Core × Pca.Solver ℝ d × Call d) (s : NSt d), s.training = true → (s.store = .array ∨ s.store = .flat) →
      (s.call q.1 q.2.1 q.2.2.1 q.2.2.2).1 = true ∧ (s.call q.1 q.2.1 q.2.2.1 q.2.2.2).2.training = true ∧
      ((s.call q.1 q.2.1 q.2.2.1 q.2.2.2).2.store = .array ∨ (s.call q.1 q.2.1 q.2.2.1 q.2.2.2).2.store = .flat) := by
    rintro ⟨c, core, solve, call⟩ s h1 h2
    cases call <;> rcases h2 with h2 | h2 <;> simp [NSt.call, NSt.train, NSt.stop, NSt.execute, h1, h2, Except.toOption]
  have key : ∀ (calls : List (ICfg × Core × Pca.Solver ℝ d × Call d)) (p : List Bool × NSt d), p.2.training = true →
      (p.2.store = .array ∨ p.2.store = .flat) →
      let run := calls.foldl (fun (p : List Bool × NSt d) q =>
        (p.1 ++ [(p.2.call q.1 q.2.1 q.2.2.1 q.2.2.2).1], (p.2.call q.1 q.2.1 q.2.2.1 q.2.2.2).2)) p
      run.1 = p.1 ++ List.replicate calls.length true ∧ run.2.training = true := by
    intro calls
    induction calls with
    | nil => intro p h1 _; simp [h1]
    | cons q calls ih =>
      intro p h1 h2
      obtain ⟨k1, k2, k3⟩ := step q p.2 h1 h2
      obtain ⟨k4, k5⟩ := ih (p.1 ++ [(p.2.call q.1 q.2.1 q.2.2.1 q.2.2.2).1], (p.2.call q.1 q.2.1 q.2.2.1 q.2.2.2).2) k2 k3
      refine ⟨?_, k5⟩
      rw [List.foldl_cons, k4, k1, List.length_cons, List.replicate_succ, List.append_assoc, List.singleton_append]
  simpa using key calls ([], (s.stop c core solve).2) h0.1 h0.2

/-! ## Outputs -/

/-- What is relied on of the whitening: there are at least two samples, the eigenvalue solver works for their covariance matrix, the
parameters are valid. -/
structure White (c : ICfg) (solve : Pca.Solver ℝ d) (data : List (Vec d)) (lam : Fin d → ℝ) (v : Fin d → Vec d) : Prop where
  two : 2 ≤ data.length
  solves : Pca.Solves solve (Pca.covOf data) lam v
  valid : Pca.Valid c.whiteCfg d

theorem finish_white {c : ICfg} {core : Core} {solve : Pca.Solver ℝ d} {data : List (Vec d)} {t : Trained d} (hw : c.whitened = false)
    (h : c.finish core solve data = .ok t) :
    ∃ r, Pca.stop c.whiteCfg solve (Pca.trained [data]) = .ok r ∧ t.white = some (Pca.whiten Real.sqrt r) ∧
      t.k = (Pca.whiten Real.sqrt r).vs.length ∧ t.outDim = c.whiteComp.getD d := by
  simp only [ICfg.finish, hw, Bool.false_eq_true, if_false] at h
  split at h
  · simp at h
  · rename_i r hr
    refine ⟨r, hr, ?_⟩
    split at h
    · simp at h
    · injection h with h
      subst h
      simp [ICfg.outDim, hw]

theorem mean_sum {α ι : Type} [Fintype ι] (l : List α) (g : ι → α → ℝ) (w : ι → ℝ) (h : ∀ i, Cov.mean (l.map (g i)) = 0) :
    Cov.mean (l.map fun x => ∑ i, g i x * w i) = 0 := by
  simp only [Cov.mean, List.length_map] at h ⊢
  rw [Pca.sum_swap l (fun i x => g i x * w i), Finset.sum_div]
  refine Finset.sum_eq_zero fun i _ => ?_
  rw [show (l.map fun x => g i x * w i) = (l.map (g i)).map (· * w i) by simp [Function.comp_def], List.sum_map_mul_right, List.map_id',
    mul_div_right_comm, h, zero_mul]

theorem cov_centred {α : Type} (l : List α) (f g : α → ℝ) (hf : Cov.mean (l.map f) = 0) (hg : Cov.mean (l.map g) = 0) :
    cov false (l.map fun x => (f x, g x)) = (l.map fun x => f x * g x).sum / (l.length - 1) := by
  simp only [cov, codev, List.map_map, Function.comp_def, hf, hg, sub_zero, List.length_map, Bool.false_eq_true, if_false]

theorem cov_sum {α ι : Type} [Fintype ι] (l : List α) (g : ι → α → ℝ) (w u : ι → ℝ) (h : ∀ i, Cov.mean (l.map (g i)) = 0) :
    cov false (l.map fun x => (∑ i, g i x * w i, ∑ i, g i x * u i)) =
      ∑ i, ∑ j, w i * u j * cov false (l.map fun x => (g i x, g j x)) := by
  rw [cov_centred l _ _ (mean_sum l g w h) (mean_sum l g u h)]
  simp only [cov_centred l _ _ (h _) (h _), Finset.sum_mul_sum]
  rw [Pca.sum_swap l (fun i x => ∑ j, g i x * w i * (g j x * u j)), Finset.sum_div]
  refine Finset.sum_congr rfl fun i _ => ?_
  rw [Pca.sum_swap l (fun j x => g i x * w i * (g j x * u j)), Finset.sum_div]
  refine Finset.sum_congr rfl fun j _ => ?_
  rw [show (l.map fun x => g i x * w i * (g j x * u j)) = (l.map fun x => g i x * g j x).map (· * (w i * u j)) by
    simp only [List.map_map, Function.comp_def]; exact List.map_congr_left fun x _ => by ring, List.sum_map_mul_right, List.map_id']
  ring

/-- The outputs of an ICA node are white: for the training data they have mean zero, variance one, and are pairwise uncorrelated, if the filters
are orthogonal and no variance is zero. -/
theorem ica_white {c : ICfg} {core : Core} {solve : Pca.Solver ℝ d} {data : List (Vec d)} {t : Trained d} {lam : Fin d → ℝ}
    {v : Fin d → Vec d} (hw : c.whitened = false) (hd : White c solve data lam v) (h : c.finish core solve data = .ok t)
    (hf : t.filtersᵀ * t.filters = 1) (hpos : ∀ w, t.white = some w → ∀ a ∈ w.ds, 0 < a) :
    (∀ x, (t.execute x).length = t.k) ∧ ∀ i j, i < t.k → j < t.k →
      Cov.mean (data.map fun x => (t.execute x).getD i 0) = 0 ∧
      cov false (data.map fun x => ((t.execute x).getD i 0, (t.execute x).getD j 0)) = if i = j then 1 else 0 := by
  refine ⟨fun x => by simp [Trained.execute], fun i j hi hj => ?_⟩
  obtain ⟨r, h1, h2, h3, _⟩ := finish_white hw h
  have hfl : [data].flatten = data := by simp
  have hp := hpos _ h2
  have hw := Pca.whitening_outputs_partial Real.sqrt c.whiteCfg solve [data] (by rw [hfl]; exact hd.two) (by rw [hfl]; exact hd.solves) hd.valid
    (by simp [ICfg.whiteCfg]) r h1 hp (fun a ha => Real.mul_self_sqrt (hp a ha).le)
  rw [hfl] at hw
  have hlen : t.k = r.ds.length := by
    rw [h3, ← hw.1 0]; simp [Pca.Res.execute]
  have hin : ∀ x a, t.inner x a = ((Pca.whiten Real.sqrt r).execute none x).getD a 0 := by
    intro x a; simp only [Trained.inner, h2, toVec]
  have hex : ∀ x (i : Nat) (hi : i < t.k), (t.execute x).getD i 0 = ∑ a, t.inner x a * t.filters a ⟨i, hi⟩ := by
    intro x i hi
    simp [Trained.execute, List.getD_eq_getElem?_getD, hi, vecMul, dotProduct]
  have hm : ∀ a : Fin t.k, Cov.mean (data.map fun x => t.inner x a) = 0 := fun a => by
    simp only [hin]; exact (hw.2 a a (hlen ▸ a.2) (hlen ▸ a.2)).1
  simp only [hex _ i hi, hex _ j hj]
  refine ⟨mean_sum data (fun a x => t.inner x a) _ hm, ?_⟩
  rw [cov_sum data (fun a x => t.inner x a) _ _ hm]
  have hc : ∀ a b : Fin t.k, cov false (data.map fun x => (t.inner x a, t.inner x b)) = if a = b then 1 else 0 := fun a b => by
    simp only [hin]
    rw [(hw.2 a b (hlen ▸ a.2) (hlen ▸ b.2)).2]
    simp only [Fin.ext_iff]
  simp only [hc, mul_ite, mul_one, mul_zero, Finset.sum_ite_eq, Finset.mem_univ, if_true]
  have := congrFun (congrFun hf ⟨i, hi⟩) ⟨j, hj⟩
  simp only [mul_apply, transpose_apply, one_apply, Fin.mk.injEq] at this
  exact this

theorem inverse_eq {c : ICfg} {core : Core} {solve : Pca.Solver ℝ d} {data : List (Vec d)} {t : Trained d} {lam : Fin d → ℝ}
    {v : Fin d → Vec d} (hw : c.whitened = false) (hd : White c solve data lam v) (h : c.finish core solve data = .ok t)
    (hf : t.filters * t.filtersᵀ = 1) (hpos : ∀ w, t.white = some w → ∀ a ∈ w.ds, 0 < a) :
    ∃ r, Pca.stop c.whiteCfg solve (Pca.trained [data]) = .ok r ∧ t.k = r.ds.length ∧ t.outDim = c.whiteComp.getD d ∧
      (t.outDim ≠ t.k → ∀ x, t.inverse (t.execute x) = .error .dim) ∧
      (t.outDim = t.k → ∀ x y, r.inverse (r.execute none x) = .ok y → t.inverse (t.execute x) = .ok y) := by
  obtain ⟨r, h1, h2, h3, h4⟩ := finish_white hw h
  have hfl : [data].flatten = data := by simp
  have hp := hpos _ h2
  have hn : 2 ≤ [data].flatten.length := by rw [hfl]; exact hd.two
  have hs : Pca.Solves solve (Pca.covOf [data].flatten) lam v := by rw [hfl]; exact hd.solves
  have hlen : t.k = r.ds.length := by
    have := (Pca.whitening_outputs_partial Real.sqrt c.whiteCfg solve [data] hn hs hd.valid
      (by simp [ICfg.whiteCfg]) r h1 hp (fun a ha => Real.mul_self_sqrt (hp a ha).le)).1 0
    rw [h3, ← this]; simp [Pca.Res.execute]
  refine ⟨r, h1, hlen, h4, fun h5 x => ?_, fun h5 x y hy => ?_⟩
  · have : (t.execute x).length ≠ t.outDim := by simp [Trained.execute, h5.symm]
    rw [Trained.inverse, if_pos this]
  · have e1 : ¬ (t.execute x).length ≠ t.outDim := by simp [Trained.execute, h5]
    have e2 : ¬ (t.execute x).length ≠ t.k := by simp [Trained.execute]
    have e3 : List.ofFn (toVec t.k (t.execute x) ᵥ* t.filtersᵀ) = (Pca.whiten Real.sqrt r).execute none x := by
      rw [Trained.execute, toVec_ofFn, vec_filters _ hf]
      simp only [Trained.inner, h2]
      rw [ofFn_toVec]
      simp [Pca.Res.execute, h3]
    have e4 := Pca.whitening_inverse Real.sqrt c.whiteCfg solve [data] hn hs hd.valid
      (by simp [ICfg.whiteCfg]) r h1 hp (fun a ha => Real.mul_self_sqrt (hp a ha).le) x
    rw [Trained.inverse, if_neg e1, if_neg e2]
    simp only [h2, e3, e4, hy]

/-- Without the parameter `reduce`, `inverse` takes the outputs back to the reconstruction of the input from its principal components: the mean
square error for the training data is the variance of those left out; the input itself if none is left out. -/
theorem ica_inverse {c : ICfg} {core : Core} {solve : Pca.Solver ℝ d} {data : List (Vec d)} {t : Trained d} {lam : Fin d → ℝ}
    {v : Fin d → Vec d} (hw : c.whitened = false) (hr : c.parm.reduce = false) (hd : White c solve data lam v)
    (h : c.finish core solve data = .ok t)
    (hf : t.filters * t.filtersᵀ = 1) (hpos : ∀ w, t.white = some w → ∀ a ∈ w.ds, 0 < a) :
    ∃ back : Vec d → Vec d, (∀ x, t.inverse (t.execute x) = .ok (back x)) ∧ (c.whiteComp = none → ∀ x, back x = x) ∧
      (data.map fun x => ∑ k, (x k - back x k) ^ 2).sum =
        ((data.length : ℝ) - 1) * (Pca.totalVariance data - ∑ i : Fin d, if i.val < t.k then lam i else 0) := by
  obtain ⟨r, h1, hk, ho, _, h2⟩ := inverse_eq hw hd h hf hpos
  have hfl : [data].flatten = data := by simp
  have hn : 2 ≤ [data].flatten.length := by rw [hfl]; exact hd.two
  have hs : Pca.Solves solve (Pca.covOf [data].flatten) lam v := by rw [hfl]; exact hd.solves
  obtain ⟨r', e1, e2⟩ := Pca.pca_number c.whiteCfg solve [data] hn hs hd.valid rfl hr
  rw [h1] at e1
  injection e1 with e1
  subst e1
  obtain ⟨back, h3, h4, h5⟩ := Pca.pca_reconstruction c.whiteCfg solve [data] hn hs hd.valid (by simp [ICfg.whiteCfg]) r h1
  have e3 : c.whiteCfg.outDim = c.whiteComp := rfl
  refine ⟨back, fun x => h2 (by rw [hk, e2, ho, e3]) x _ (h3 x), fun h6 x => h4 (by rw [e2, e3, h6]; rfl) x, ?_⟩
  rw [hfl] at h5
  rw [h5]
  congr 2
  obtain ⟨m, hp, _⟩ := Pca.stop_prefix c.whiteCfg solve [data] hn hs hd.valid (by simp [ICfg.whiteCfg]) r h1
  have hds : r.ds = (List.ofFn lam).take m := hp.ds
  rw [hk, (Pca.ds_length hp).1, hds]
  have hle := hp.le
  clear * - hle
  induction m with
  | zero => simp
  | succ m ih =>
    have hm : m < d := by omega
    rw [List.take_succ, List.sum_append, ih (by omega)]
    have e : ∀ i : Fin d, (if i.val < m + 1 then lam i else 0) = (if i.val < m then lam i else 0) + if i = ⟨m, hm⟩ then lam i else 0 := by
      intro i
      rcases lt_trichotomy i.val m with h | h | h
      · rw [if_pos (by omega), if_pos h, if_neg (fun h' => by rw [h'] at h; simp at h), add_zero]
      · rw [if_pos (by omega), if_neg (by omega), if_pos (Fin.ext h), zero_add]
      · rw [if_neg (by omega), if_neg (by omega), if_neg (fun h' => by rw [h'] at h; simp at h), add_zero]
    simp only [e, Finset.sum_add_distrib, Finset.sum_ite_eq', Finset.mem_univ, if_true]
    simp [hm]

/-- With `white_parm = {'reduce': True}` and data in a hyperplane `inverse` cannot be applied to the outputs: it raises for every input, because
the node has the wrong output dimension. -/
theorem ica_reduce_false {c : ICfg} {core : Core} {solve : Pca.Solver ℝ d} {data : List (Vec d)} {t : Trained d} {lam : Fin d → ℝ}
    {v : Fin d → Vec d} (hw : c.whitened = false) (hr : c.parm.reduce = true) (hc : c.whiteComp = none) (hd : White c solve data lam v)
    (h : c.finish core solve data = .ok t)
    (hf : t.filters * t.filtersᵀ = 1) (hpos : ∀ w, t.white = some w → ∀ a ∈ w.ds, 0 < a) (u : Vec d) (hu : u ≠ 0) (b : ℝ)
    (hx : ∀ x ∈ data, x ⬝ᵥ u = b) : t.k < t.outDim ∧ ∀ x, (t.execute x).length < t.outDim ∧ t.inverse (t.execute x) = .error .dim := by
  obtain ⟨r, h1, hk, ho, h2, _⟩ := inverse_eq hw hd h hf hpos
  have hfl : [data].flatten = data := by simp
  have hn : 2 ≤ [data].flatten.length := by rw [hfl]; exact hd.two
  have hs : Pca.Solves solve (Pca.covOf [data].flatten) lam v := by rw [hfl]; exact hd.solves
  have hlt : t.k < t.outDim := by
    obtain ⟨m, hp, _⟩ := Pca.stop_prefix c.whiteCfg solve [data] hn hs hd.valid (by simp [ICfg.whiteCfg]) r h1
    obtain ⟨r0, e0, hz⟩ := Pca.whitening_singular { c.whiteCfg with reduce := false, outDim := none } solve [data] hn hs
      ⟨by simp, hd.valid.2.1, by simp⟩ rfl rfl rfl u hu b (by rw [hfl]; exact hx)
    obtain ⟨m0, hp0, _⟩ := Pca.stop_prefix { c.whiteCfg with reduce := false, outDim := none } solve [data] hn hs
      ⟨by simp, hd.valid.2.1, by simp⟩ (by simp [ICfg.whiteCfg]) r0 e0
    have hz0 : (0 : ℝ) ∈ (List.ofFn lam) := by
      have : r0.ds = (List.ofFn lam).take m0 := hp0.ds
      rw [this] at hz
      exact List.mem_of_mem_take hz
    have hds : r.ds = (List.ofFn lam).take m := hp.ds
    have hpos' : ∀ a ∈ r.ds, 0 < a := by
      obtain ⟨r', g1, g2, _⟩ := finish_white hw h
      rw [h1] at g1
      injection g1 with g1
      subst g1
      exact fun a ha => hpos _ g2 a ha
    rw [hk, ho, hc, Option.getD_none, (Pca.ds_length hp).1]
    refine lt_of_le_of_ne hp.le fun hm => ?_
    rw [hds, hm, List.take_of_length_le (by simp)] at hpos'
    exact lt_irrefl _ (hpos' 0 hz0)
  refine ⟨hlt, fun x => ⟨by simpa [Trained.execute] using hlt, h2 hlt.ne' x⟩⟩

/-! ## The matrices -/

theorem proj_dot (avg x v : Vec d) : Pca.proj avg x v = ∑ k, (x k - avg k) * v k := Pca.proj_eq avg x v

/-- The projection matrix is what `execute` applies to the deviation from the mean. -/
theorem ica_projmatrix {c : ICfg} {core : Core} {solve : Pca.Solver ℝ d} {data : List (Vec d)} {t : Trained d}
    (h : c.finish core solve data = .ok t) :
    ∃ avg : Vec d, (c.whitened = true → avg = 0) ∧ ∀ x, t.execute x = List.ofFn ((x - avg) ᵥ* t.proj) := by
  cases hw : c.whitened with
  | true =>
    refine ⟨0, fun _ => rfl, fun x => ?_⟩
    simp only [ICfg.finish, hw, if_true] at h
    split at h
    · simp at h
    · injection h with h
      subst h
      simp only [Trained.execute, Trained.inner, toVec_ofFn, Trained.proj, sub_zero]
      congr 2
      ext i a
      simp
  | false =>
    obtain ⟨r, _, h2, h3, _⟩ := finish_white hw h
    refine ⟨r.avg, by simp, fun x => ?_⟩
    simp only [Trained.execute]
    congr 1
    funext a
    have e1 : ∀ j : Fin t.k, t.inner x j = ∑ i, (x i - r.avg i) * (Pca.whiten Real.sqrt r).vs.getD j 0 i := by
      intro j
      have hj : (j : Nat) < (Pca.whiten Real.sqrt r).vs.length := h3 ▸ j.2
      simp only [Trained.inner, h2, toVec, Pca.Res.execute, List.getD_eq_getElem?_getD, List.getElem?_map, List.getElem?_eq_getElem hj,
        Option.map_some, Option.getD_some]
      exact proj_dot _ _ _
    simp only [vecMul, dotProduct, e1, Trained.proj, h2, of_apply, Finset.sum_mul, Finset.mul_sum, Pi.sub_apply]
    rw [Finset.sum_comm]
    exact Finset.sum_congr rfl fun i _ => Finset.sum_congr rfl fun j _ => by ring

/-- The reconstruction matrix is what `inverse` applies, and the projection matrix takes it back: their product is the identity. -/
theorem ica_recmatrix {c : ICfg} {core : Core} {solve : Pca.Solver ℝ d} {data : List (Vec d)} {t : Trained d} {lam : Fin d → ℝ}
    {v : Fin d → Vec d} (hw : c.whitened = false) (hd : White c solve data lam v) (h : c.finish core solve data = .ok t)
    (hf : t.filtersᵀ * t.filters = 1) (hpos : ∀ w, t.white = some w → ∀ a ∈ w.ds, 0 < a) :
    t.back * t.proj = 1 ∧ ∃ avg : Vec d, (∀ i, avg i = Cov.mean (data.map fun x => x i)) ∧
      ∀ y : Vec t.k, t.outDim = t.k → t.inverse (List.ofFn y) = .ok (y ᵥ* t.back + avg) := by
  obtain ⟨r, h1, h2, h3, _⟩ := finish_white hw h
  have hfl : [data].flatten = data := by simp
  have hn : 2 ≤ [data].flatten.length := by rw [hfl]; exact hd.two
  have hs : Pca.Solves solve (Pca.covOf [data].flatten) lam v := by rw [hfl]; exact hd.solves
  obtain ⟨m, hp, hav, _⟩ := Pca.stop_prefix c.whiteCfg solve [data] hn hs hd.valid (by simp [ICfg.whiteCfg]) r h1
  obtain ⟨hl1, hl2⟩ := Pca.ds_length hp
  have hk : t.k = m := by rw [h3]; simp [Pca.whiten, hl1, hl2]
  have hle := hp.le
  have hpp := hpos _ h2
  have hlam : ∀ j : Fin t.k, 0 < lam ⟨j, by omega⟩ := by
    intro j
    apply hpp
    show _ ∈ r.ds
    have hds : r.ds = (List.ofFn lam).take m := hp.ds
    rw [hds, List.mem_take_iff_getElem]
    exact ⟨j, by simp; omega, by simp⟩
  have hvs : ∀ j : Fin t.k, (Pca.whiten Real.sqrt r).vs.getD j 0 = fun k => v ⟨j, by omega⟩ k / Real.sqrt (lam ⟨j, by omega⟩) := by
    intro j
    have e1 : r.vs = (List.ofFn v).take m := hp.vs
    have e2 : r.ds = (List.ofFn lam).take m := hp.ds
    simp only [Pca.whiten, e1, e2]
    rw [List.getD_eq_getElem?_getD, List.getElem?_eq_getElem (by simp; omega)]
    simp
  have hds : ∀ j : Fin t.k, (Pca.whiten Real.sqrt r).ds.getD j 0 = lam ⟨j, by omega⟩ := by
    intro j
    have e2 : r.ds = (List.ofFn lam).take m := hp.ds
    simp only [Pca.whiten, e2]
    rw [List.getD_eq_getElem?_getD, List.getElem?_eq_getElem (by simp; omega)]
    simp
  have hort : ∀ i j : Fin t.k, ∑ k, v ⟨i, by omega⟩ k * v ⟨j, by omega⟩ k = if i = j then 1 else 0 := by
    intro i j
    have := hd.solves.spec.ortho ⟨i, by omega⟩ ⟨j, by omega⟩
    simp only [Pca.dot, Fin.mk.injEq] at this
    rw [this]
    simp only [Fin.ext_iff]
  refine ⟨?_, r.avg, fun i => by rw [hav i, hfl], fun y ho => ?_⟩
  · have e1 : t.back = t.filtersᵀ * Matrix.of fun (j : Fin t.k) (i : Fin d) => (Pca.whiten Real.sqrt r).vs.getD j 0 i * (Pca.whiten Real.sqrt r).ds.getD j 0 := by
      ext a i
      simp only [Trained.back, h2, of_apply, mul_apply, transpose_apply]
    have e2 : t.proj = (Matrix.of fun (i : Fin d) (j : Fin t.k) => (Pca.whiten Real.sqrt r).vs.getD j 0 i) * t.filters := by
      ext i a
      simp only [Trained.proj, h2, of_apply, mul_apply]
      exact Finset.sum_congr rfl fun j _ => mul_comm _ _
    have e3 : (Matrix.of fun (j : Fin t.k) (i : Fin d) => (Pca.whiten Real.sqrt r).vs.getD j 0 i * (Pca.whiten Real.sqrt r).ds.getD j 0) *
        (Matrix.of fun (i : Fin d) (j : Fin t.k) => (Pca.whiten Real.sqrt r).vs.getD j 0 i) = 1 := by
      ext i j
      simp only [mul_apply, of_apply, hvs, hds]
      have e4 : ∀ k, v ⟨i, by omega⟩ k / Real.sqrt (lam ⟨i, by omega⟩) * lam ⟨i, by omega⟩ * (v ⟨j, by omega⟩ k / Real.sqrt (lam ⟨j, by omega⟩)) =
          lam ⟨i, by omega⟩ / (Real.sqrt (lam ⟨i, by omega⟩) * Real.sqrt (lam ⟨j, by omega⟩)) * (v ⟨i, by omega⟩ k * v ⟨j, by omega⟩ k) := by
        intro k
        ring
      simp only [e4, ← Finset.mul_sum, hort, one_apply]
      split_ifs with hij
      · subst hij
        rw [Real.mul_self_sqrt (hlam i).le, div_self (hlam i).ne', one_mul]
      · rw [mul_zero]
    rw [e1, e2, Matrix.mul_assoc, ← Matrix.mul_assoc _ _ t.filters, e3, Matrix.one_mul, hf]
  · have e1 : ¬ (List.ofFn y).length ≠ t.outDim := by simp [ho]
    have e2 : ¬ (List.ofFn y).length ≠ t.k := by simp
    rw [Trained.inverse, if_neg e1, if_neg e2]
    have hout : (Pca.whiten Real.sqrt r).outDim = some m := hp.out
    have e0 : ¬ t.k > m := by omega
    simp only [h2, toVec_ofFn, Pca.Res.whiteInverse, Pca.Res.inverseWith, hout, List.length_ofFn, if_neg e0]
    congr 1
    funext i
    simp only [Pca.recon, Pi.add_apply]
    show _ + r.avg i = _
    congr 1
    have e3 : (List.zipWith (fun v a => fun k => v k * a) (Pca.whiten Real.sqrt r).vs (Pca.whiten Real.sqrt r).ds).take t.k =
        List.ofFn fun j : Fin t.k => fun k => (Pca.whiten Real.sqrt r).vs.getD j 0 k * (Pca.whiten Real.sqrt r).ds.getD j 0 := by
      apply List.ext_getElem
      · simp [Pca.whiten, hl1, hl2, hk]
      · intro n q1 q2
        have hq : n < t.k := by simpa using q2
        have q3 : n < (Pca.whiten Real.sqrt r).vs.length := h3 ▸ hq
        have q4 : n < (Pca.whiten Real.sqrt r).ds.length := by
          show n < r.ds.length
          omega
        simp [List.getD_eq_getElem?_getD, List.getElem?_eq_getElem q3, List.getElem?_eq_getElem q4]
    have e4 : ∀ (f : Fin t.k → ℝ) (g : Fin t.k → Vec d), (List.zipWith (fun a w => a * w i) (List.ofFn f) (List.ofFn g)).sum = ∑ j, f j * g j i := by
      intro f g
      rw [← List.sum_ofFn]
      congr 1
      apply List.ext_getElem <;> simp
    rw [e3, e4]
    simp only [vecMul, dotProduct, Trained.back, h2, of_apply, transpose_apply, Finset.sum_mul, Finset.mul_sum]
    rw [Finset.sum_comm]
    exact Finset.sum_congr rfl fun j _ => Finset.sum_congr rfl fun a _ => by ring

/-! ## The nodes -/

/-- The core routine only returns orthogonal matrices. -/
def Core.Orth (core : Core) : Prop := ∀ k (data : List (Vec k)) r, core k data = .ok r → r.1ᵀ * r.1 = 1

theorem cubica_orth (limit : ℝ) : (cubicaCore limit).Orth := by
  intro k data r h
  simp only [cubicaCore, Except.ok.injEq] at h
  subst h
  exact (cubica_orthogonal limit data).1

theorem jade_orth (limit : ℝ) (maxIt : Nat) (order : (k : Nat) → Matrix (Fin k) (Fin k) ℝ → Equiv.Perm (Fin k)) :
    (jadeCore limit maxIt order).Orth := fun _ _ _ h => (jade_orthogonal h).1

theorem call_orth {c : ICfg} {core : Core} (hc : core.Orth) {d k : Nat} {data : List (Vec k)} {r : Matrix (Fin k) (Fin k) ℝ × ℝ}
    (h : c.call core d k data = .ok r) : r.1ᵀ * r.1 = 1 := by
  simp only [ICfg.call] at h
  split at h
  · rcases telescope_spec _ h with ⟨_, h1⟩ | ⟨_, p, _, _, h1, _⟩
    · simp at h1
    · exact hc _ _ _ h1
  · split at h
    · simp at h
    · rename_i r' hr
      injection h with h
      subst h
      exact hc _ _ _ hr

theorem finish_orth {c : ICfg} {core : Core} (hc : core.Orth) {solve : Pca.Solver ℝ d} {data : List (Vec d)} {t : Trained d}
    (h : c.finish core solve data = .ok t) : t.filtersᵀ * t.filters = 1 := by
  simp only [ICfg.finish] at h
  split at h
  · split at h
    · simp at h
    · rename_i r hr
      injection h with h
      subst h
      exact call_orth hc hr
  · split at h
    · simp at h
    · split at h
      · simp at h
      · rename_i r hr
        injection h with h
        subst h
        exact call_orth hc hr

/-- With `whitened=True` the outputs are a rotation of the input: `inverse` gives the input back, and squared distances stay the same. -/
theorem ica_whitened {c : ICfg} {core : Core} (hc : core.Orth) (hw : c.whitened = true) {solve : Pca.Solver ℝ d} {data : List (Vec d)}
    {t : Trained d} (h : c.finish core solve data = .ok t) :
    (∀ x, t.inverse (t.execute x) = .ok x) ∧ (∀ x, (t.execute x).length = d) ∧
      ∀ x, ((t.execute x).map fun a => a ^ 2).sum = ∑ i, x i ^ 2 := by
  have hf := finish_orth hc h
  simp only [ICfg.finish, hw, if_true] at h
  split at h
  · simp at h
  · rename_i r hr
    injection h with h
    subst h
    have hf' := mul_eq_one_comm.1 hf
    simp only at hf hf'
    have e1 : ∀ x, Trained.execute (⟨c.outDim d, none, d, r.1, r.2⟩ : Trained d) x = List.ofFn (x ᵥ* r.1) := fun x => by
      simp only [Trained.execute, Trained.inner, toVec_ofFn]
    refine ⟨fun x => ?_, fun x => by simp [e1], fun x => ?_⟩
    · have e2 : ¬ (List.ofFn (x ᵥ* r.1)).length ≠ c.outDim d := by simp [ICfg.outDim, hw]
      have e3 : ¬ (List.ofFn (x ᵥ* r.1)).length ≠ d := by simp
      rw [e1, Trained.inverse, if_neg e2, if_neg e3]
      simp only [toVec_ofFn, vec_filters _ hf']
    · have e4 : (x ᵥ* r.1) ⬝ᵥ (x ᵥ* r.1) = x ⬝ᵥ x := by
        rw [← dotProduct_mulVec, ← vecMul_transpose, vec_filters _ hf']
      rw [e1, List.map_ofFn, List.sum_ofFn]
      simpa [dotProduct, pow_two] using e4

/-- With `whitened=True` the reconstruction matrix is what `inverse` applies, and the projection matrix takes it back. -/
theorem ica_recmatrix_white {c : ICfg} {core : Core} (hc : core.Orth) (hw : c.whitened = true) {solve : Pca.Solver ℝ d}
    {data : List (Vec d)} {t : Trained d} (h : c.finish core solve data = .ok t) :
    t.back * t.proj = 1 ∧ ∀ y : Vec t.k, t.inverse (List.ofFn y) = .ok (y ᵥ* t.back) := by
  have hf := finish_orth hc h
  simp only [ICfg.finish, hw, if_true] at h
  split at h
  · simp at h
  · rename_i r hr
    injection h with h
    subst h
    simp only at hf
    have e1 : Trained.back (⟨c.outDim d, none, d, r.1, r.2⟩ : Trained d) = r.1ᵀ := by
      ext a i; simp [Trained.back]
    have e2 : Trained.proj (⟨c.outDim d, none, d, r.1, r.2⟩ : Trained d) = r.1 := by
      ext a i; simp [Trained.proj]
    refine ⟨by rw [e1, e2]; exact hf, fun y => ?_⟩
    have e3 : ¬ (List.ofFn y).length ≠ c.outDim d := by simp [ICfg.outDim, hw]
    have e4 : ¬ (List.ofFn y).length ≠ d := by simp
    rw [e1, Trained.inverse, if_neg e3, if_neg e4]
    simp only [toVec_ofFn]

/-- `CuBICANode` and `JADENode` with all components, for data with covariance matrix of full rank: training is successful (for JADE: or there
is no convergence), outputs are white for the training data, and `inverse` gives the input back. -/
theorem ica_node {c : ICfg} {core : Core} (hc : core.Orth) {solve : Pca.Solver ℝ d} {data : List (Vec d)} {lam : Fin d → ℝ}
    {v : Fin d → Vec d} (hw : c.whitened = false) (hk : c.whiteComp = none) (hr : c.parm.reduce = false) (ht : c.tele = false)
    (hd : White c solve data lam v) (hpos : ∀ i, 0 < lam i) :
    (∃ e x, core d x = .error e ∧ c.finish core solve data = .error (.core e)) ∨
    ∃ t, c.finish core solve data = .ok t ∧ (∀ x, (t.execute x).length = d) ∧ (∀ x, t.inverse (t.execute x) = .ok x) ∧
      ∀ i j, i < d → j < d → Cov.mean (data.map fun x => (t.execute x).getD i 0) = 0 ∧
        cov false (data.map fun x => ((t.execute x).getD i 0, (t.execute x).getD j 0)) = if i = j then 1 else 0 := by
  have hfl : [data].flatten = data := by simp
  have hn : 2 ≤ [data].flatten.length := by rw [hfl]; exact hd.two
  have hs : Pca.Solves solve (Pca.covOf [data].flatten) lam v := by rw [hfl]; exact hd.solves
  obtain ⟨r, e1, e2⟩ := Pca.pca_number c.whiteCfg solve [data] hn hs hd.valid rfl hr
  have e3 : c.whiteCfg.outDim = none := hk
  rw [e3, Option.getD_none] at e2
  obtain ⟨m, hp, _⟩ := Pca.stop_prefix c.whiteCfg solve [data] hn hs hd.valid (by simp [ICfg.whiteCfg]) r e1
  have hl := Pca.ds_length hp
  have hkd : (Pca.whiten Real.sqrt r).vs.length = d := by simp [Pca.whiten, hl.1, hl.2, ← e2]
  cases hcall : c.call core d (Pca.whiten Real.sqrt r).vs.length
      (data.map fun x => toVec (Pca.whiten Real.sqrt r).vs.length ((Pca.whiten Real.sqrt r).execute none x)) with
  | error e =>
    left
    have hfin : c.finish core solve data = .error e := by
      simp only [ICfg.finish, hw, Bool.false_eq_true, if_false]
      rw [e1]
      simp only [hcall]
    simp only [ICfg.call, ht, Bool.false_eq_true, if_false] at hcall
    have key : ∀ k, k = d → ∀ (z : List (Vec k)) (e' : Err), core k z = .error e' → ∃ x, core d x = .error e' := by
      rintro k rfl z e' h
      exact ⟨z, h⟩
    split at hcall
    · rename_i e' he'
      injection hcall with hcall
      subst hcall
      obtain ⟨x, hx⟩ := key _ hkd _ _ he'
      exact ⟨e', x, hx, hfin⟩
    · simp at hcall
  | ok f =>
    right
    have hfin : c.finish core solve data = .ok ⟨c.outDim d, some (Pca.whiten Real.sqrt r), (Pca.whiten Real.sqrt r).vs.length, f.1, f.2⟩ := by
      simp only [ICfg.finish, hw, Bool.false_eq_true, if_false]
      rw [e1]
      simp only [hcall]
    have ho := finish_orth hc hfin
    have hpp : ∀ w, (some (Pca.whiten Real.sqrt r) : Option (Pca.Res ℝ d)) = some w → ∀ a ∈ w.ds, 0 < a := by
      intro w hw a ha
      injection hw with hw
      subst hw
      have hds : r.ds = (List.ofFn lam).take m := hp.ds
      have : a ∈ r.ds := ha
      rw [hds] at this
      obtain ⟨i, rfl⟩ := List.mem_ofFn.1 (List.mem_of_mem_take this)
      exact hpos i
    obtain ⟨h1, h2⟩ := ica_white hw hd hfin ho hpp
    obtain ⟨back, h3, h4, _⟩ := ica_inverse hw hr hd hfin (mul_eq_one_comm.1 ho) hpp
    refine ⟨_, hfin, fun x => (h1 x).trans hkd, fun x => by rw [h3, h4 hk],
      fun i j hi hj => h2 i j (lt_of_lt_of_eq hi hkd.symm) (lt_of_lt_of_eq hj hkd.symm)⟩

/-- `CuBICANode` never fails. -/
theorem cubica_node {c : ICfg} (limit : ℝ) {solve : Pca.Solver ℝ d} {data : List (Vec d)} {lam : Fin d → ℝ}
    {v : Fin d → Vec d} (hw : c.whitened = false) (hk : c.whiteComp = none) (hr : c.parm.reduce = false) (ht : c.tele = false)
    (hd : White c solve data lam v) (hpos : ∀ i, 0 < lam i) :
    ∃ t, c.finish (cubicaCore limit) solve data = .ok t ∧ (∀ x, (t.execute x).length = d) ∧ (∀ x, t.inverse (t.execute x) = .ok x) ∧
      ∀ i j, i < d → j < d → Cov.mean (data.map fun x => (t.execute x).getD i 0) = 0 ∧
        cov false (data.map fun x => ((t.execute x).getD i 0, (t.execute x).getD j 0)) = if i = j then 1 else 0 := by
  rcases ica_node (cubica_orth limit) hw hk hr ht hd hpos with ⟨e, x, h, _⟩ | h
  · simp [cubicaCore] at h
  · exact h

/-- The node after training with chunks. -/
def afterChunks (l : List (List (Vec d))) : NSt d := l.foldl (fun s x => (s.train x).2) {}

theorem afterChunks_eq (l : List (List (Vec d))) : afterChunks l = { store := .chunks l } := by
  have key : ∀ (l l0 : List (List (Vec d))),
      l.foldl (fun s x => (NSt.train s x).2) ({ store := .chunks l0 } : NSt d) = { store := .chunks (l0 ++ l) } := by
    intro l
    induction l with
    | nil => intro l0; simp
    | cons x l ih =>
      intro l0
      rw [List.foldl_cons]
      exact (ih (l0 ++ [x])).trans (by simp)
  exact (key l []).trans (by simp)

/-- `CuBICANode` trained with any chunks, then executed on any inputs, again and again: no call fails, all outputs are those of one map,
which is invertible and makes **all** the training data white, however they were divided into chunks. -/
theorem cubica_chunks {c : ICfg} (limit : ℝ) {solve : Pca.Solver ℝ d} {l : List (List (Vec d))} {lam : Fin d → ℝ}
    {v : Fin d → Vec d} (hw : c.whitened = false) (hk : c.whiteComp = none) (hr : c.parm.reduce = false) (ht : c.tele = false)
    (hd : White c solve l.flatten lam v) (hpos : ∀ i, 0 < lam i) :
    ∃ f : Vec d → List ℝ, Function.Injective f ∧
      (∀ x y, ((afterChunks l).execute c (cubicaCore limit) solve x).1 = .ok (x.map f) ∧
        (((afterChunks l).execute c (cubicaCore limit) solve x).2.execute c (cubicaCore limit) solve y).1 = .ok (y.map f)) ∧
      (∀ x z, (((afterChunks l).execute c (cubicaCore limit) solve x).2.train z).1 = .error .finished) ∧
      ∀ i j, i < d → j < d → Cov.mean (l.flatten.map fun x => (f x).getD i 0) = 0 ∧
        cov false (l.flatten.map fun x => ((f x).getD i 0, (f x).getD j 0)) = if i = j then 1 else 0 := by
  obtain ⟨t, h1, _, h3, h4⟩ := cubica_node (c := c) limit hw hk hr ht hd hpos
  have hs : (afterChunks l).stop c (cubicaCore limit) solve = (.ok (), { store := .array, training := false, result := some t }) := by
    rw [afterChunks_eq]
    cases l with
    | nil => exact absurd hd.two (by simp)
    | cons a l => simp only [NSt.stop, Bool.true_eq_false, if_false, h1]
  have htr : (afterChunks l).training = true := by rw [afterChunks_eq]
  have he : ∀ x, (afterChunks l).execute c (cubicaCore limit) solve x =
      (.ok (x.map t.execute), { store := .array, training := false, result := some t }) := by
    intro x
    simp only [NSt.execute, htr, if_true, hs]
  refine ⟨t.execute, ?_, ?_, ?_, h4⟩
  · intro x y hxy
    have := h3 x
    rw [hxy, h3 y] at this
    injection this with this
    exact this.symm
  · intro x y
    rw [he x]
    exact ⟨rfl, by simp [NSt.execute]⟩
  · intro x z
    rw [he x]
    rfl

/-! ## Examples -/

/-- Four samples with two signals, of variances `8/3` and `2/3`. -/
def exData : List (Vec 2) := [![2, 0], ![-2, 0], ![0, 1], ![0, -1]]

noncomputable def exLam : Fin 2 → ℝ := ![8 / 3, 2 / 3]

def exV : Fin 2 → Vec 2 := ![![1, 0], ![0, 1]]

noncomputable def exSolve : Pca.Solver ℝ 2 := fun _ o =>
  match o with
  | none => some (List.ofFn fun i => (exLam i, exV i)).reverse
  | some (a, _) => some ((List.ofFn fun i => (exLam i, exV i)).take (3 - a).toNat).reverse

noncomputable def exParm : Pca.Cfg ℝ := { outDim := none, desired := none, svd := false, reduce := false, varRel := 0, varAbs := 0, varPart := none }

theorem exSolves : Pca.Solves exSolve (Pca.covOf exData) exLam exV := by
  refine ⟨⟨?_, ?_, ?_⟩, rfl, ?_⟩
  · intro i k
    fin_cases i <;> fin_cases k <;>
      norm_num [Pca.covOf, cov, codev, Cov.mean, exData, exLam, exV, Fin.sum_univ_two]
  · intro i j
    fin_cases i <;> fin_cases j <;> norm_num [exV, Pca.dot, Fin.sum_univ_two]
  · intro i j h
    fin_cases i <;> fin_cases j <;> first | (exact absurd h (by decide)) | norm_num [exLam]
  · intro k h1 h2
    interval_cases k <;> rfl

theorem exWhite (tele : Bool) (limit : ℝ) : White ⟨false, none, exParm, tele, limit⟩ exSolve exData exLam exV :=
  ⟨by simp [exData], exSolves, by simp [ICfg.whiteCfg], by simp [ICfg.whiteCfg], by simp [ICfg.whiteCfg, exParm]⟩

example := cubica_chunks (c := ⟨false, none, exParm, false, 1 / 1000⟩) (l := [[![2, 0]], [![-2, 0], ![0, 1], ![0, -1]]]) (1 / 1000) rfl rfl rfl rfl
  (exWhite _ _)

example := cubica_node (c := ⟨false, none, exParm, false, 1 / 1000⟩) (1 / 1000) rfl rfl rfl rfl (exWhite _ _)
  (fun i => by fin_cases i <;> norm_num [exLam])

/-- Data on a line, whitened with `reduce`. -/
def flatData : List (Vec 2) := [![1, 0], ![-1, 0]]

noncomputable def flatLam : Fin 2 → ℝ := ![2, 0]

noncomputable def flatSolve : Pca.Solver ℝ 2 := fun _ o =>
  match o with
  | none => some (List.ofFn fun i => (flatLam i, exV i)).reverse
  | some (a, _) => some ((List.ofFn fun i => (flatLam i, exV i)).take (3 - a).toNat).reverse

theorem flatSolves : Pca.Solves flatSolve (Pca.covOf flatData) flatLam exV := by
  refine ⟨⟨?_, ?_, ?_⟩, rfl, ?_⟩
  · intro i k
    fin_cases i <;> fin_cases k <;>
      norm_num [Pca.covOf, cov, codev, Cov.mean, flatData, flatLam, exV, Fin.sum_univ_two]
  · intro i j
    fin_cases i <;> fin_cases j <;> norm_num [exV, Pca.dot, Fin.sum_univ_two]
  · intro i j h
    fin_cases i <;> fin_cases j <;> first | (exact absurd h (by decide)) | norm_num [flatLam]
  · intro k h1 h2
    interval_cases k <;> rfl

example : ∃ t, ICfg.finish ⟨false, none, { exParm with reduce := true }, false, 1 / 1000⟩ (cubicaCore (1 / 1000)) flatSolve flatData = .ok t ∧
    t.k < t.outDim ∧ ∀ x, (t.execute x).length < t.outDim ∧ t.inverse (t.execute x) = .error .dim := by
  set c : ICfg := ⟨false, none, { exParm with reduce := true }, false, 1 / 1000⟩ with hc
  have hd : White c flatSolve flatData flatLam exV := ⟨by simp [flatData], flatSolves, by simp [c, ICfg.whiteCfg], by simp [c, ICfg.whiteCfg], by simp [c, ICfg.whiteCfg, exParm]⟩
  have hfl : [flatData].flatten = flatData := by simp
  obtain ⟨r, big, h1, _, _, h2⟩ := (Pca.pca_reduce c.whiteCfg flatSolve [flatData] (by simp [flatData]) (by rw [hfl]; exact flatSolves) hd.valid rfl rfl
    _ rfl).2 ⟨2, by simp [c, ICfg.whiteCfg, flatLam], by norm_num [c, ICfg.whiteCfg, exParm]⟩
  obtain ⟨t, ht, hw⟩ : ∃ t, c.finish (cubicaCore (1 / 1000)) flatSolve flatData = .ok t ∧ t.white = some (Pca.whiten Real.sqrt r) := by
    simp only [ICfg.finish, c, Bool.false_eq_true, if_false]
    rw [show Pca.stop (ICfg.whiteCfg ⟨false, none, { exParm with reduce := true }, false, 1 / 1000⟩) flatSolve
      ([flatData].foldl Cov.CovSt.update (Cov.CovSt.new ℝ 2 false)) = .ok r from h1]
    exact ⟨_, rfl, rfl⟩
  refine ⟨t, ht, ica_reduce_false rfl rfl rfl hd ht (mul_eq_one_comm.1 (finish_orth (cubica_orth _) ht)) ?_ ![0, 1] ?_ 0 ?_⟩
  · intro w hw' a ha
    rw [hw] at hw'
    injection hw' with hw'
    subst hw'
    have ha' : a ∈ r.ds := ha
    rw [h2, List.mem_filter] at ha'
    have := (of_decide_eq_true ha'.2).1
    simpa [c, ICfg.whiteCfg, exParm] using this
  · intro h
    simpa using congrFun h 1
  · intro x hx
    simp [flatData] at hx
    rcases hx with rfl | rfl <;> simp

/-- A core routine that fails. -/
example (calls : List (ICfg × Core × Pca.Solver ℝ 2 × Call 2)) :=
  retry_false (c := ⟨true, none, exParm, false, 1 / 1000⟩) (core := fun _ _ => .error .convergence) (solve := exSolve)
    (s := ⟨.chunks [exData], true, none⟩) (e := .core .convergence) (l := [exData]) (by simp) rfl rfl rfl calls

end Mdp.Ica
