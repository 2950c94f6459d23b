import Verif.Nodes.PcaProps

/-!
# Outputs of PCA and whitening nodes (C109-C112)
-/

namespace Mdp.Pca

open Mdp.Cov

variable {F : Type} [Field F] [LinearOrder F] [IsStrictOrderedRing F] {d : Nat}

/-! ## Lemmas -/

theorem mean_shift (l : List F) (h : l ≠ []) (a : F) : mean (l.map (· - a)) = mean l - a := by
  have hn : (l.length : F) ≠ 0 := by simpa using h
  have : (l.map (· - a)).sum = l.sum - l.length * a := by
    clear h hn
    induction l with
    | nil => simp
    | cons b l ih => simp only [List.map_cons, List.sum_cons, ih, List.length_cons]; push_cast; ring
  simp only [mean, this, List.length_map]
  field_simp

theorem cov_shift (l : List (F × F)) (h : l ≠ []) (a b : F) :
    cov false (l.map fun p => (p.1 - a, p.2 - b)) = cov false l := by
  have h1 : mean ((l.map fun p => (p.1 - a, p.2 - b)).map (·.1)) = mean (l.map (·.1)) - a := by
    rw [← mean_shift _ (by simpa using h)]; simp [Function.comp_def]
  have h2 : mean ((l.map fun p => (p.1 - a, p.2 - b)).map (·.2)) = mean (l.map (·.2)) - b := by
    rw [← mean_shift _ (by simpa using h)]; simp [Function.comp_def]
  simp only [cov, Bool.false_eq_true, if_false, List.length_map, codev, h1, h2]
  simp only [List.map_map, Function.comp_def]
  congr 2
  refine List.map_congr_left fun p _ => ?_
  ring

/-- The projection of a row on a vector: a scalar product minus its mean. -/
theorem proj_dev {rows : List (Row F d)} {avg : Row F d} (ha : ∀ i, avg i = mean (rows.map fun x => x i)) (x w : Row F d) :
    proj avg x w = dot x w - mean (rows.map fun x => dot x w) := by
  rw [proj_eq, dev_dot]
  exact Finset.sum_congr rfl fun k _ => by rw [ha k]

theorem mean_proj {rows : List (Row F d)} (hne : rows ≠ []) {avg : Row F d}
    (ha : ∀ i, avg i = mean (rows.map fun x => x i)) (w : Row F d) : mean (rows.map fun x => proj avg x w) = 0 := by
  simp only [proj_dev ha]
  have := mean_shift (rows.map fun x => dot x w) (by simpa using hne) (mean (rows.map fun x => dot x w))
  simp only [List.map_map, Function.comp_def, sub_self] at this
  exact this

theorem cov_proj {rows : List (Row F d)} (hne : rows ≠ []) {avg : Row F d}
    (ha : ∀ i, avg i = mean (rows.map fun x => x i)) (w u : Row F d) :
    cov false (rows.map fun x => (proj avg x w, proj avg x u)) = cov false (rows.map fun x => (dot x w, dot x u)) := by
  simp only [proj_dev ha]
  have := cov_shift (rows.map fun x => (dot x w, dot x u)) (by simpa using hne) (mean (rows.map fun x => dot x w))
    (mean (rows.map fun x => dot x u))
  simp only [List.map_map, Function.comp_def] at this
  exact this

theorem cov_components {rows : List (Row F d)} (hne : rows ≠ []) {avg : Row F d}
    (ha : ∀ i, avg i = mean (rows.map fun x => x i)) {lam : Fin d → F} {v : Fin d → Row F d}
    (hs : Spectrum (covOf rows) lam v) (i j : Fin d) :
    cov false (rows.map fun x => (proj avg x (v i), proj avg x (v j))) = if i = j then lam i else 0 := by
  rw [cov_proj hne ha, cov_dot, hs.quad, hs.ortho i j]
  split
  · rename_i h; subst h; simp
  · simp

theorem exec_getD {lam : Fin d → F} {v : Fin d → Row F d} {m : Nat} {r : Res F d} (h : Prefix lam v m (r.ds, r.vs, r.outDim))
    (x : Row F d) (i : Fin d) (hi : i.1 < m) : (r.execute none x).getD i.1 0 = proj r.avg x (v i) := by
  have hvs : r.vs = (List.ofFn v).take m := h.vs
  simp only [Res.execute, hvs]
  rw [List.getD_eq_getElem?_getD, List.getElem?_eq_getElem (by simp [hi])]
  simp

theorem ds_length {lam : Fin d → F} {v : Fin d → Row F d} {m : Nat} {r : Res F d}
    (h : Prefix lam v m (r.ds, r.vs, r.outDim)) : r.ds.length = m ∧ r.vs.length = m := by
  have h1 : r.ds = (List.ofFn lam).take m := h.ds
  have h2 : r.vs = (List.ofFn v).take m := h.vs
  have := h.le
  rw [h1, h2]
  simp [this]

theorem take_sum (n : Nat) (f : Fin n → F) (k : Nat) :
    ((List.ofFn f).take k).sum = ∑ i : Fin n, if i.1 < k then f i else 0 := by
  induction n generalizing k with
  | zero => simp
  | succ n ih =>
    cases k with
    | zero => simp
    | succ k =>
      rw [List.ofFn_succ, List.take_succ_cons, List.sum_cons, ih, Fin.sum_univ_succ]
      simp

/-! ## C109 -/

/-- **C109**: the outputs of a trained `PCANode` for the training data have mean zero, are uncorrelated, and their
variances are the attribute `d`, in descending order; there are as many as the output dimension says; `execute` with `n`
returns the first `n` of them; `total_variance` and `explained_variance` are what they are called. -/
theorem pca_outputs (c : Cfg F) (solve : Solver F d) (chunks : List (List (Row F d))) (hn : 2 ≤ chunks.flatten.length)
    {lam : Fin d → F} {v : Fin d → Row F d} (hs : Solves solve (covOf chunks.flatten) lam v) (hc : Valid c d)
    (ht : c.desired.isSome = true → totalVariance chunks.flatten ≠ 0) (r : Res F d)
    (h : stop c solve (trained chunks) = .ok r) :
    (∀ x, (r.execute none x).length = r.ds.length) ∧ r.outDim = some r.ds.length ∧ r.ds.Pairwise (· ≥ ·) ∧
    (∀ x n, r.execute (some n) x = (r.execute none x).take n) ∧
    r.total = totalVariance chunks.flatten ∧ r.explained = r.ds.sum / totalVariance chunks.flatten ∧
    ∀ (i j : Nat) (hi : i < r.ds.length) (_hj : j < r.ds.length),
      mean (chunks.flatten.map fun x => (r.execute none x).getD i 0) = 0 ∧
      cov false (chunks.flatten.map fun x => ((r.execute none x).getD i 0, (r.execute none x).getD j 0))
        = if i = j then r.ds[i] else 0 := by
  obtain ⟨m, hp, hav, h1, h2⟩ := stop_prefix c solve chunks hn hs hc ht r h
  obtain ⟨hl1, hl2⟩ := ds_length hp
  have hne : chunks.flatten ≠ [] := by intro h; rw [h] at hn; simp at hn
  have hds : r.ds = (List.ofFn lam).take m := hp.ds
  refine ⟨fun x => by simp [Res.execute, hl1, hl2], by rw [hl1]; exact hp.out, ?_, ?_, h1, h2, ?_⟩
  · rw [hds]
    exact (ofFn_desc hs.spec).sublist (List.take_sublist m _)
  · intro x n
    simp only [Res.execute, List.map_take]
  · intro i j hi hj
    rw [hl1] at hi hj
    have hle := hp.le
    have ei : ∀ x, (r.execute none x).getD i 0 = proj r.avg x (v ⟨i, by omega⟩) := fun x =>
      exec_getD hp x ⟨i, by omega⟩ hi
    have ej : ∀ x, (r.execute none x).getD j 0 = proj r.avg x (v ⟨j, by omega⟩) := fun x =>
      exec_getD hp x ⟨j, by omega⟩ hj
    simp only [ei, ej]
    refine ⟨mean_proj hne hav _, ?_⟩
    rw [cov_components hne hav hs.spec]
    have hg : r.ds[i]'(by rw [hl1]; exact hi) = lam ⟨i, by omega⟩ := by
      simp only [hds, List.getElem_take, List.getElem_ofFn]
    simp only [Fin.mk.injEq, hg]

/-- **C109**: the first `k` outputs have as much variance as any `k` orthogonal directions can have, for every `k` up to
the output dimension. -/
theorem pca_optimal (c : Cfg F) (solve : Solver F d) (chunks : List (List (Row F d))) (hn : 2 ≤ chunks.flatten.length)
    {lam : Fin d → F} {v : Fin d → Row F d} (hs : Solves solve (covOf chunks.flatten) lam v) (hc : Valid c d)
    (ht : c.desired.isSome = true → totalVariance chunks.flatten ≠ 0) (r : Res F d)
    (h : stop c solve (trained chunks) = .ok r) (k : Nat) (hk : k ≤ r.ds.length) (w : Fin k → Row F d)
    (hw : Orthonormal w) :
    ∑ a, variance (chunks.flatten.map fun x => dot x (w a)) ≤ (r.ds.take k).sum := by
  obtain ⟨m, hp, _⟩ := stop_prefix c solve chunks hn hs hc ht r h
  have hds : r.ds = (List.ofFn lam).take m := hp.ds
  rw [(ds_length hp).1] at hk
  have hle := hp.le
  simp only [variance_dot]
  refine (hs.spec.optimal hw).trans (le_of_eq ?_)
  rw [hds, List.take_take, min_eq_left hk]
  rw [take_sum]

/-! ## C110: the number of components -/

/-- **C110**: without `reduce` and with the number of components given, or not given, training ends with that number
of components, or all of them. -/
theorem pca_number (c : Cfg F) (solve : Solver F d) (chunks : List (List (Row F d))) (hn : 2 ≤ chunks.flatten.length)
    {lam : Fin d → F} {v : Fin d → Row F d} (hs : Solves solve (covOf chunks.flatten) lam v) (hc : Valid c d)
    (hd : c.desired = none) (hr : c.reduce = false) :
    ∃ r, stop c solve (trained chunks) = .ok r ∧ r.ds.length = c.outDim.getD d := by
  obtain ⟨avg, _, he⟩ := stop_eq c solve chunks hn hs hc
  rw [he]
  simp only [conclude, byVariance, byReduce, hd, hr, Bool.false_eq_true, if_false]
  refine ⟨_, rfl, ?_⟩
  cases ho : c.outDim with
  | none => simp
  | some k => simp [(hc.1 k ho).2.1]

/-- **C110**: with the fraction `p` of the variance to be explained, training ends with the smallest number of components
that explains it: those kept do, fewer do not, and no smaller number of orthogonal directions does. -/
theorem pca_fraction_partial (c : Cfg F) (solve : Solver F d) (chunks : List (List (Row F d))) (hn : 2 ≤ chunks.flatten.length)
    {lam : Fin d → F} {v : Fin d → Row F d} (hs : Solves solve (covOf chunks.flatten) lam v) (hc : Valid c d)
    (p : F) (hd : c.desired = some p) (hr : c.reduce = false) (ht : totalVariance chunks.flatten ≠ 0) :
    ∃ r, stop c solve (trained chunks) = .ok r ∧ p ≤ r.explained ∧
      (∀ k < r.ds.length, (r.ds.take k).sum / totalVariance chunks.flatten < p) ∧
      ∀ (k : Nat) (w : Fin k → Row F d), Orthonormal w →
        p * totalVariance chunks.flatten ≤ ∑ a, variance (chunks.flatten.map fun x => dot x (w a)) → r.ds.length ≤ k := by
  obtain ⟨avg, _, he⟩ := stop_eq c solve chunks hn hs hc
  have ho : c.outDim = none := by
    cases ho : c.outDim with
    | none => rfl
    | some k => rw [(hc.1 k ho).2.2] at hd; cases hd
  have htr : totalVariance chunks.flatten = ∑ i, lam i := by rw [total_eq, hs.spec.trace]
  obtain ⟨m, hm1, hm, hb, hge, hlt⟩ := byVariance_prefix c p hd (hc.2.1 p hd).1 (hc.2.1 p hd).2 hs.spec
    (fun i => lam_nonneg hn hs.spec i) (by rw [← htr]; exact ht)
  have hle := hm.le
  rw [← htr] at hb
  have hstop : stop c solve (trained chunks) = .ok ⟨(List.ofFn lam).take m, (List.ofFn v).take m, avg,
      totalVariance chunks.flatten, ((List.ofFn lam).take m).sum / totalVariance chunks.flatten, some m⟩ := by
    rw [he]
    simp only [conclude, ho, hd, Option.getD_none, Option.isSome_some, if_true]
    rw [List.take_of_length_le (by simp), List.take_of_length_le (by simp), hb]
    simp [byReduce, hr]
  have hlen : ((List.ofFn lam).take m).length = m := by simp [hle]
  have hpre : ∀ k < m, (((List.ofFn lam).take m).take k).sum / totalVariance chunks.flatten < p := by
    intro k hk
    have := hlt k hk
    rw [List.take_take, min_eq_left hk.le, htr]
    exact this
  refine ⟨_, hstop, by rw [htr]; exact hge, fun k hk => hpre k (by simpa [hle] using hk), ?_⟩
  intro k w hw hk
  simp only [hlen]
  by_contra hcon
  push Not at hcon
  have h1 := pca_optimal c solve chunks hn hs hc (fun _ => ht) _ hstop k (by simp only [hlen]; omega) w hw
  have h2 := hpre k hcon
  have h0 : 0 < totalVariance chunks.flatten := by
    refine lt_of_le_of_ne ?_ (Ne.symm ht)
    rw [htr]
    exact Finset.sum_nonneg fun i _ => lam_nonneg hn hs.spec i
  rw [div_lt_iff₀ h0] at h2
  exact absurd (hk.trans h1) (not_le.2 h2)

/-- **C110**: with `reduce` training raises if no component has a variance above `var_abs`; otherwise exactly those of
the candidates are kept whose variance is above `var_abs`, relative to the largest one above `var_rel`, and relative to the
total variance above `var_part` if that is given. The candidates are the requested number of largest variances. -/
theorem pca_reduce (c : Cfg F) (solve : Solver F d) (chunks : List (List (Row F d))) (hn : 2 ≤ chunks.flatten.length)
    {lam : Fin d → F} {v : Fin d → Row F d} (hs : Solves solve (covOf chunks.flatten) lam v) (hc : Valid c d)
    (hd : c.desired = none) (hr : c.reduce = true) (cand : List F) (hcand : cand = (List.ofFn lam).take (c.outDim.getD d)) :
    ((∀ x ∈ cand, x ≤ c.varAbs) → stop c solve (trained chunks) = .error .reduced) ∧
    ((∃ x ∈ cand, c.varAbs < x) → ∃ r big, stop c solve (trained chunks) = .ok r ∧ big ∈ cand ∧ (∀ x ∈ cand, x ≤ big) ∧
      r.ds = cand.filter (fun x => decide (c.varAbs < x ∧ c.varRel < x / big ∧
        ∀ p, c.varPart = some p → p < x / totalVariance chunks.flatten))) := by
  obtain ⟨avg, _, he⟩ := stop_eq c solve chunks hn hs hc
  rw [he, ← hcand]
  have htr : totalVariance chunks.flatten = ∑ i, lam i := by rw [total_eq, hs.spec.trace]
  have hmax : ∀ x ∈ cand, x ≤ totalVariance chunks.flatten := by
    intro x hx
    rw [hcand] at hx
    obtain ⟨i, rfl⟩ := (List.mem_ofFn' _ _).1 (List.mem_of_mem_take hx)
    rw [htr]
    exact Finset.single_le_sum (fun i _ => lam_nonneg hn hs.spec i) (Finset.mem_univ i)
  have hdesc : cand.Pairwise (· ≥ ·) := by
    rw [hcand]
    exact (ofFn_desc hs.spec).sublist (List.take_sublist _ _)
  simp only [conclude, byVariance, hd, Option.isSome_none, Bool.false_eq_true, if_false]
  rcases byReduce_eq c hr (hc.2.2 hr) (t := totalVariance chunks.flatten) (B := (List.ofFn v).take (c.outDim.getD d))
    (o := some (c.outDim.getD d)) hdesc hmax with ⟨h1, h2⟩ | ⟨big, l, m, hA, hbig, _, hf, h2⟩
  · refine ⟨fun _ => by rw [h2], fun ⟨x, hx, hlt⟩ => absurd hlt (not_lt.2 (h1 x hx))⟩
  · refine ⟨fun h => absurd hbig (not_lt.2 (h big (by rw [hA]; simp))), fun _ => ?_⟩
    rw [h2]
    refine ⟨_, big, rfl, by rw [hA]; simp, ?_, ?_⟩
    · intro x hx
      rw [hA] at hx hdesc
      rcases List.mem_cons.1 hx with rfl | hx
      · exact le_refl _
      · exact (List.pairwise_cons.1 hdesc).1 x hx
    · simp only
      rw [← hf]
      refine List.filter_congr fun x _ => ?_
      cases hp : c.varPart with
      | none => simp [Kept.cond, hp]
      | some q => simp [Kept.cond, hp, Bool.and_assoc]


/-! ## C111: reconstruction -/

theorem zipWith_sum {α : Type} (n : Nat) (y : List F) (v : Fin n → α) (f : F → α → F) (h0 : ∀ a, f 0 a = 0) :
    (List.zipWith f y (List.ofFn v)).sum = ∑ i : Fin n, f (y.getD i.1 0) (v i) := by
  induction n generalizing y with
  | zero => simp
  | succ n ih =>
    cases y with
    | nil => simp [h0]
    | cons a y =>
      rw [List.ofFn_succ, List.zipWith_cons_cons, List.sum_cons, ih, Fin.sum_univ_succ]
      simp

theorem zipWith_take {α β γ : Type} (f : α → β → γ) (y : List α) (l : List β) :
    List.zipWith f y (l.take y.length) = List.zipWith f y l := by
  induction y generalizing l with
  | nil => simp
  | cons a y ih => cases l <;> simp [ih]

theorem recon_eq {lam : Fin d → F} {v : Fin d → Row F d} {m : Nat} {r : Res F d} (h : Prefix lam v m (r.ds, r.vs, r.outDim))
    (y : List F) (hy : y.length ≤ m) :
    r.inverse y = .ok fun k => (∑ i : Fin d, y.getD i.1 0 * v i k) + r.avg k := by
  have hvs : r.vs = (List.ofFn v).take m := h.vs
  have hout : r.outDim = some m := h.out
  simp only [Res.inverse, Res.inverseWith, hout, if_neg (not_lt.2 hy), recon, hvs, List.take_take, min_eq_left hy]
  congr 1
  funext k
  simp only [recon]
  rw [zipWith_take, zipWith_sum d y v (fun a w => a * w k) (by simp)]

/-- The output `i` of the node for a row: zero beyond the number of components. -/
theorem exec_getD' {lam : Fin d → F} {v : Fin d → Row F d} {m : Nat} {r : Res F d} (h : Prefix lam v m (r.ds, r.vs, r.outDim))
    (x : Row F d) (i : Fin d) : (r.execute none x).getD i.1 0 = if i.1 < m then proj r.avg x (v i) else 0 := by
  split
  · rename_i hi; exact exec_getD h x i hi
  · rename_i hi
    rw [List.getD_eq_getElem?_getD, List.getElem?_eq_none]
    · rfl
    · simp only [Res.execute, List.length_map, (ds_length h).2]
      omega

theorem proj_recon {v : Fin d → Row F d} (ho : Orthonormal v) (avg : Row F d) (y : Fin d → F) (j : Fin d) :
    proj avg (fun k => (∑ i, y i * v i k) + avg k) (v j) = y j := by
  rw [proj_eq]
  simp only [add_sub_cancel_right, Finset.sum_mul]
  rw [Finset.sum_comm]
  have : ∀ i, ∑ k, y i * v i k * v j k = if i = j then y i else 0 := by
    intro i
    have : ∑ k, y i * v i k * v j k = y i * dot (v i) (v j) := by
      rw [dot, Finset.mul_sum]; exact Finset.sum_congr rfl fun k _ => by ring
    rw [this, ho i j]
    split <;> simp
  simp [this]

/-- **C111**: `execute` undoes `inverse`: of `n` numbers, up to the output dimension, `inverse` makes an input whose first
outputs are these numbers and whose other outputs are zero. More numbers are refused. -/
theorem pca_execute_inverse (c : Cfg F) (solve : Solver F d) (chunks : List (List (Row F d)))
    (hn : 2 ≤ chunks.flatten.length)
    {lam : Fin d → F} {v : Fin d → Row F d} (hs : Solves solve (covOf chunks.flatten) lam v) (hc : Valid c d)
    (ht : c.desired.isSome = true → totalVariance chunks.flatten ≠ 0) (r : Res F d)
    (h : stop c solve (trained chunks) = .ok r) (y : List F) :
    (y.length ≤ r.ds.length → ∃ x, r.inverse y = .ok x ∧
      r.execute none x = y ++ List.replicate (r.ds.length - y.length) 0) ∧
    (r.ds.length < y.length → r.inverse y = .error .inverse) := by
  obtain ⟨m, hp, _⟩ := stop_prefix c solve chunks hn hs hc ht r h
  obtain ⟨hl1, hl2⟩ := ds_length hp
  rw [hl1]
  refine ⟨fun hy => ⟨_, recon_eq hp y hy, ?_⟩, fun hy => ?_⟩
  · have hle := hp.le
    refine List.ext_getElem (by simp [Res.execute, hl2]; omega) fun i h1 h2 => ?_
    have hi : i < m := by simpa [Res.execute, hl2] using h1
    have e := exec_getD hp (fun k => (∑ i : Fin d, y.getD i.1 0 * v i k) + r.avg k) ⟨i, by omega⟩ hi
    rw [proj_recon hs.spec.ortho r.avg (fun i => y.getD i.1 0)] at e
    rw [List.getD_eq_getElem?_getD, List.getElem?_eq_getElem h1, Option.getD_some] at e
    rw [e]
    simp only
    by_cases hiy : i < y.length
    · rw [List.getElem_append_left hiy, List.getD_eq_getElem?_getD, List.getElem?_eq_getElem hiy]
      rfl
    · rw [List.getElem_append_right (by omega), List.getD_eq_getElem?_getD, List.getElem?_eq_none (by omega)]
      simp
  · have hout : r.outDim = some m := hp.out
    simp [Res.inverse, Res.inverseWith, hout, hy]

/-- **C111**: the reconstruction of an input from its outputs is exact if all components are kept; the squared errors for
the training data add up to `n - 1` times the variance that has not been kept. -/
theorem pca_reconstruction (c : Cfg F) (solve : Solver F d) (chunks : List (List (Row F d)))
    (hn : 2 ≤ chunks.flatten.length)
    {lam : Fin d → F} {v : Fin d → Row F d} (hs : Solves solve (covOf chunks.flatten) lam v) (hc : Valid c d)
    (ht : c.desired.isSome = true → totalVariance chunks.flatten ≠ 0) (r : Res F d)
    (h : stop c solve (trained chunks) = .ok r) :
    ∃ back : Row F d → Row F d, (∀ x, r.inverse (r.execute none x) = .ok (back x)) ∧
      (r.ds.length = d → ∀ x, back x = x) ∧
      (chunks.flatten.map fun x => ∑ k, (x k - back x k) ^ 2).sum
        = ((chunks.flatten.length : F) - 1) * (totalVariance chunks.flatten - r.ds.sum) := by
  obtain ⟨m, hp, hav, _⟩ := stop_prefix c solve chunks hn hs hc ht r h
  obtain ⟨hl1, hl2⟩ := ds_length hp
  have hne : chunks.flatten ≠ [] := by intro h; rw [h] at hn; simp at hn
  have hle := hp.le
  have hds : r.ds = (List.ofFn lam).take m := hp.ds
  have htr : totalVariance chunks.flatten = ∑ i, lam i := by rw [total_eq, hs.spec.trace]
  have hexp : ∀ x k, x k = (∑ i : Fin d, proj r.avg x (v i) * v i k) + r.avg k := by
    intro x k
    have h1 := hs.spec.ortho.expand (fun k => x k - r.avg k) k
    simp only [dot] at h1
    simp only [proj_eq]
    rw [← h1]
    ring
  refine ⟨_, fun x => recon_eq hp _ (by simp [Res.execute, hl2]), fun hd x => ?_, ?_⟩
  · funext k
    rw [hexp x k]
    congr 1
    refine Finset.sum_congr rfl fun i _ => ?_
    rw [exec_getD' hp, if_pos (by rw [hl1] at hd; rw [hd]; exact i.2)]
  · have herr : ∀ x : Row F d, ∑ k, (x k - ((∑ i : Fin d, (r.execute none x).getD i.1 0 * v i k) + r.avg k)) ^ 2
        = ∑ i : Fin d, if i.1 < m then 0 else proj r.avg x (v i) * proj r.avg x (v i) := by
      intro x
      have e1 : ∀ k, x k - ((∑ i : Fin d, (r.execute none x).getD i.1 0 * v i k) + r.avg k)
          = ∑ i : Fin d, (if i.1 < m then 0 else proj r.avg x (v i)) * v i k := by
        intro k
        rw [hexp x k, add_sub_add_right_eq_sub, ← Finset.sum_sub_distrib]
        refine Finset.sum_congr rfl fun i _ => ?_
        have he := exec_getD' hp x i
        rw [he]
        split <;> simp
      simp only [e1]
      generalize hq : (fun i : Fin d => if i.1 < m then (0 : F) else proj r.avg x (v i)) = q
      have hq' : ∀ i : Fin d, (if i.1 < m then (0 : F) else proj r.avg x (v i)) = q i := fun i => congrFun hq i
      have hq2 : ∀ i : Fin d, (if i.1 < m then (0 : F) else proj r.avg x (v i) * proj r.avg x (v i)) = q i * q i := by
        intro i; rw [← hq' i]; split <;> simp
      simp only [hq', hq2]
      have e2 : ∀ k, (∑ i, q i * v i k) ^ 2 = ∑ i, ∑ j, q i * q j * (v i k * v j k) := by
        intro k
        rw [sq, Finset.sum_mul_sum]
        exact Finset.sum_congr rfl fun i _ => Finset.sum_congr rfl fun j _ => by ring
      simp only [e2]
      rw [Finset.sum_comm]
      refine Finset.sum_congr rfl fun i _ => ?_
      rw [Finset.sum_comm]
      have : ∀ j, ∑ k, q i * q j * (v i k * v j k) = if i = j then q i * q j else 0 := by
        intro j
        rw [← Finset.mul_sum]
        have := hs.spec.ortho i j
        rw [dot] at this
        rw [this]
        split <;> simp
      simp [this]
    simp only [herr]
    rw [sum_swap]
    have hn1 : ((chunks.flatten.length : F) - 1) ≠ 0 := cast_sub_one_ne hn
    have hvar : ∀ i : Fin d, (chunks.flatten.map fun x => if i.1 < m then (0 : F) else
        proj r.avg x (v i) * proj r.avg x (v i)).sum
        = ((chunks.flatten.length : F) - 1) * (lam i - if i.1 < m then lam i else 0) := by
      intro i
      by_cases hi : i.1 < m
      · simp only [hi, if_true, sub_self, mul_zero, List.map_const', List.sum_replicate, smul_zero]
      · simp only [hi, if_false, sub_zero]
        have h1 := cov_components hne hav hs.spec i i
        rw [if_pos rfl] at h1
        have h2 := mean_proj hne hav (v i)
        simp only [cov, Bool.false_eq_true, if_false, codev, List.map_map, Function.comp_def, h2, sub_zero,
          List.length_map] at h1
        rw [← h1]
        field_simp
    simp only [hvar]
    rw [← Finset.mul_sum, Finset.sum_sub_distrib, htr, hds, take_sum]

/-! ## C112: whitening -/

/-- **C112**: with positive variances the outputs of a trained `WhiteningNode` for the training data have mean zero, are
uncorrelated and have variance one. -/
theorem whitening_outputs_partial (sqrt : F → F) (c : Cfg F) (solve : Solver F d) (chunks : List (List (Row F d)))
    (hn : 2 ≤ chunks.flatten.length)
    {lam : Fin d → F} {v : Fin d → Row F d} (hs : Solves solve (covOf chunks.flatten) lam v) (hc : Valid c d)
    (ht : c.desired.isSome = true → totalVariance chunks.flatten ≠ 0) (r : Res F d)
    (h : stop c solve (trained chunks) = .ok r) (hpos : ∀ a ∈ r.ds, 0 < a) (hsq : ∀ a ∈ r.ds, sqrt a * sqrt a = a) :
    (∀ x, ((whiten sqrt r).execute none x).length = r.ds.length) ∧
    ∀ i j, i < r.ds.length → j < r.ds.length →
      mean (chunks.flatten.map fun x => ((whiten sqrt r).execute none x).getD i 0) = 0 ∧
      cov false (chunks.flatten.map fun x =>
        (((whiten sqrt r).execute none x).getD i 0, ((whiten sqrt r).execute none x).getD j 0)) = if i = j then 1 else 0 := by
  obtain ⟨m, hp, hav, _⟩ := stop_prefix c solve chunks hn hs hc ht r h
  obtain ⟨hl1, hl2⟩ := ds_length hp
  have hne : chunks.flatten ≠ [] := by intro h; rw [h] at hn; simp at hn
  have hle := hp.le
  have hds : r.ds = (List.ofFn lam).take m := hp.ds
  refine ⟨fun x => by simp [Res.execute, whiten, hl1, hl2], ?_⟩
  rw [hl1]
  intro i j hi hj
  have key : ∀ i (hi : i < m) x, ((whiten sqrt r).execute none x).getD i 0 =
      proj r.avg x (fun k => v ⟨i, by omega⟩ k / sqrt (lam ⟨i, by omega⟩)) := by
    intro i hi x
    have hvs : r.vs = (List.ofFn v).take m := hp.vs
    simp only [Res.execute, whiten, hvs, hds]
    rw [List.getD_eq_getElem?_getD, List.getElem?_eq_getElem (by simp [hi]; omega)]
    simp
  have hmem : ∀ i (hi : i < m), lam ⟨i, by omega⟩ ∈ r.ds := by
    intro i hi
    rw [hds, List.mem_take_iff_getElem]
    exact ⟨i, by simp; omega, by simp⟩
  simp only [key i hi, key j hj]
  refine ⟨mean_proj hne hav _, ?_⟩
  rw [cov_proj hne hav, cov_dot]
  have e : ∀ k l, v ⟨i, by omega⟩ k / sqrt (lam ⟨i, by omega⟩) * covOf chunks.flatten k l *
      (v ⟨j, by omega⟩ l / sqrt (lam ⟨j, by omega⟩)) =
      (1 / (sqrt (lam ⟨i, by omega⟩) * sqrt (lam ⟨j, by omega⟩))) *
        (v ⟨i, by omega⟩ k * covOf chunks.flatten k l * v ⟨j, by omega⟩ l) := by
    intro k l
    ring
  simp only [e, ← Finset.mul_sum]
  rw [hs.spec.quad, hs.spec.ortho]
  by_cases hij : i = j
  · subst hij
    have h1 := hpos _ (hmem i hi)
    rw [hsq _ (hmem i hi)]
    simp only [if_true, mul_one]
    field_simp
  · rw [if_neg hij, if_neg (by simpa using hij)]
    simp

/-- **C112**: the reconstruction of a `WhiteningNode` from its outputs is that of the `PCANode` (C111). -/
theorem whitening_inverse (sqrt : F → F) (c : Cfg F) (solve : Solver F d) (chunks : List (List (Row F d)))
    (hn : 2 ≤ chunks.flatten.length)
    {lam : Fin d → F} {v : Fin d → Row F d} (hs : Solves solve (covOf chunks.flatten) lam v) (hc : Valid c d)
    (ht : c.desired.isSome = true → totalVariance chunks.flatten ≠ 0) (r : Res F d)
    (h : stop c solve (trained chunks) = .ok r) (hpos : ∀ a ∈ r.ds, 0 < a) (hsq : ∀ a ∈ r.ds, sqrt a * sqrt a = a)
    (x : Row F d) :
    (whiten sqrt r).whiteInverse ((whiten sqrt r).execute none x) = r.inverse (r.execute none x) := by
  obtain ⟨m, hp, hav, _⟩ := stop_prefix c solve chunks hn hs hc ht r h
  obtain ⟨hl1, hl2⟩ := ds_length hp
  have hout : r.outDim = some m := hp.out
  have hle1 : ((whiten sqrt r).execute none x).length = m := by simp [Res.execute, whiten, hl1, hl2]
  have hle2 : (r.execute none x).length = m := by simp [Res.execute, hl2]
  have ho2 : (whiten sqrt r).outDim = some m := hout
  simp only [Res.whiteInverse, Res.inverse, Res.inverseWith, hout, ho2, hle1, hle2, lt_irrefl, if_false]
  congr 1
  funext k
  simp only [recon]
  show (List.zipWith _ _ _).sum + r.avg k = _
  congr 2
  have ha : (whiten sqrt r).avg = r.avg := rfl
  have hd2 : (whiten sqrt r).ds = r.ds := rfl
  have hv2 : (whiten sqrt r).vs = List.zipWith (fun v a => fun k => v k / sqrt a) r.vs r.ds := rfl
  simp only [Res.execute, ha, hd2, hv2]
  refine List.ext_getElem (by simp [hl1, hl2]) fun i h1 h2 => ?_
  have hi : i < m := by simp [hl1, hl2] at h1; exact h1
  simp only [List.getElem_zipWith, List.getElem_map, List.getElem_take]
  have hmem : r.ds[i]'(by omega) ∈ r.ds := List.getElem_mem _
  have e1 := hpos _ hmem
  have e2 := hsq _ hmem
  generalize r.ds[i]'(by omega) = a at e1 e2 ⊢
  have hsne : sqrt a ≠ 0 := by intro h0; rw [h0, mul_zero] at e2; exact absurd e2 (ne_of_lt e1)
  have e3 : ∀ u : Row F d, proj r.avg x (fun k => u k / sqrt a) = proj r.avg x u / sqrt a := by
    intro u
    rw [proj_eq, proj_eq, Finset.sum_div]
    exact Finset.sum_congr rfl fun k _ => by ring
  rw [e3]
  field_simp
  rw [sq, e2]
  ring


/-- **C112**, violated: if the training data lie in a hyperplane and all components are kept, then one of the variances is
zero: the node divides by the square root of zero, without raising. -/
theorem whitening_singular (c : Cfg F) (solve : Solver F d) (chunks : List (List (Row F d)))
    (hn : 2 ≤ chunks.flatten.length)
    {lam : Fin d → F} {v : Fin d → Row F d} (hs : Solves solve (covOf chunks.flatten) lam v) (hc : Valid c d)
    (hd : c.desired = none) (hr : c.reduce = false) (ho : c.outDim = none)
    (w : Row F d) (hw : w ≠ 0) (b : F) (hx : ∀ x ∈ chunks.flatten, dot x w = b) :
    ∃ r, stop c solve (trained chunks) = .ok r ∧ (0 : F) ∈ r.ds := by
  obtain ⟨r, h, hlen⟩ := pca_number c solve chunks hn hs hc hd hr
  refine ⟨r, h, ?_⟩
  obtain ⟨m, hp, _⟩ := stop_prefix c solve chunks hn hs hc (by simp [hd]) r h
  have hds : r.ds = (List.ofFn lam).take m := hp.ds
  rw [(ds_length hp).1, ho, Option.getD_none] at hlen
  subst hlen
  rw [hds, List.take_of_length_le (by simp)]
  have h1 : ∑ i, lam i * dot w (v i) ^ 2 = 0 := by
    rw [← hs.spec.quad_self, ← variance_dot]
    have : (chunks.flatten.map fun x => dot x w) = chunks.flatten.map fun _ => b := List.map_congr_left hx
    rw [this]
    have hm : mean (chunks.flatten.map fun _ => b) = b := by
      have hn0 : (chunks.flatten.length : F) ≠ 0 := by
        have : chunks.flatten.length ≠ 0 := by omega
        exact_mod_cast this
      simp only [mean, List.map_const', List.sum_replicate, List.length_replicate, nsmul_eq_mul]
      field_simp
    have hc0 : codev ((chunks.flatten.map fun _ => b).map fun a => (a, a)) = 0 := by
      simp only [codev, List.map_map, Function.comp_def] at hm ⊢
      rw [hm, sub_self, mul_zero, List.map_const', List.sum_replicate, smul_zero]
    simp only [variance, cov, hc0, zero_div, Bool.false_eq_true, if_false]
  have h2 := (Finset.sum_eq_zero_iff_of_nonneg (fun i _ => mul_nonneg (lam_nonneg hn hs.spec i) (sq_nonneg _))).1 h1
  obtain ⟨i, hi⟩ : ∃ i, dot w (v i) ≠ 0 := by
    by_contra hcon
    push Not at hcon
    apply hw
    funext k
    rw [hs.spec.ortho.expand w k]
    simp [hcon]
  have h3 := h2 i (Finset.mem_univ i)
  rcases mul_eq_zero.1 h3 with h3 | h3
  · rw [← h3]
    exact (List.mem_ofFn' _ _).2 ⟨i, rfl⟩
  · exact absurd (pow_eq_zero_iff (by norm_num) |>.1 h3) hi

/-- **C110**, violated: if the positive eigenvalues that the solver returns add up to less than the fraction asked for,
as happens with `output_dim=1.0` and rounded numbers, then the output dimension is one more than the number of
variances. -/
theorem pca_rounding (c : Cfg F) (solve : Solver F d) (s s' : CovSt F d) (C : Mat F d d) (avg : Row F d) (n : Nat)
    (l : List (F × Row F d)) (p : F) (hd : c.desired = some p) (ho : c.outDim = none) (hr : c.reduce = false)
    (hfix : s.fix true = .ok ((C, avg, n), s')) (hl : solve C none = some l) (hpos : ∀ q ∈ l, 0 < q.1)
    (ht : 0 < trace C) (hsum : (l.map (·.1)).sum < p * trace C) :
    ∃ r, stop c solve s = .ok r ∧ r.ds.length = l.length ∧ r.vs.length = l.length ∧ r.outDim = some (l.length + 1) := by
  have hf : (l.reverse.map (·.1)).filter (fun x => decide (0 < x)) = l.reverse.map (·.1) := by
    rw [List.filter_eq_self]
    intro a ha
    obtain ⟨q, hq, rfl⟩ := List.mem_map.1 ha
    simpa using hpos q (List.mem_reverse.1 hq)
  have hss : searchsorted (cumsum 0 ((l.reverse.map (·.1)).map (· / trace C))) p = l.length := by
    have hlen : (cumsum 0 ((l.reverse.map (·.1)).map (· / trace C))).length = l.length := by
      rw [cumsum_length]; simp
    have hall : ∀ x ∈ cumsum 0 ((l.reverse.map (·.1)).map (· / trace C)), x < p := by
      intro x hx
      obtain ⟨i, hi, rfl⟩ := List.getElem_of_mem hx
      rw [cumsum_get, zero_add, ← List.map_take, sum_map_div, div_lt_iff₀ ht]
      refine lt_of_le_of_lt ?_ hsum
      have h1 : (l.reverse.map (·.1)).sum = (l.map (·.1)).sum := by
        rw [List.map_reverse, List.sum_reverse]
      rw [← h1]
      conv_rhs => rw [← List.take_append_drop (i + 1) (l.reverse.map (·.1)), List.sum_append]
      have : 0 ≤ ((l.reverse.map (·.1)).drop (i + 1)).sum := by
        refine List.sum_nonneg fun a ha => ?_
        obtain ⟨q, hq, rfl⟩ := List.mem_map.1 (List.mem_of_mem_drop ha)
        exact (hpos q (List.mem_reverse.1 hq)).le
      linarith
    unfold searchsorted
    rw [← hlen]
    generalize cumsum 0 ((l.reverse.map (·.1)).map (· / trace C)) = cs at hall
    clear hlen
    induction cs with
    | nil => rfl
    | cons a cs ih =>
      rw [List.takeWhile_cons_of_pos (by simpa using hall a (by simp)), List.length_cons, List.length_cons,
        ih fun x hx => hall x (List.mem_cons_of_mem _ hx)]
  simp only [stop, hfix, adjust, hd, ho, hl, Option.isSome_some, Bool.or_true, Bool.not_true, Bool.false_and,
    Bool.false_eq_true, if_false, conclude, byVariance, true_or, if_true, byReduce, hr, hf, hss]
  refine ⟨_, rfl, ?_, ?_, rfl⟩
  · simp
  · simp

/-! ## Example -/

/-- Two chunks of rows on the axes: the covariance matrix is diagonal with the entries 8/3 and 2/3. -/
def exChunks : List (List (Row ℚ 2)) := [[![2, 0], ![-2, 0]], [![0, 1], ![0, -1]]]

def exLam : Fin 2 → ℚ := ![8 / 3, 2 / 3]
def exV : Fin 2 → Row ℚ 2 := ![![1, 0], ![0, 1]]

def exSolve : Solver ℚ 2 := fun _ rng => match rng with
  | none => some (List.ofFn fun i => (exLam i, exV i)).reverse
  | some (lo, _) => some ((List.ofFn fun i => (exLam i, exV i)).take (3 - lo).toNat).reverse

theorem exSolves : Solves exSolve (covOf exChunks.flatten) exLam exV where
  spec := ⟨by decide +kernel, by unfold Orthonormal dot; decide +kernel, by decide +kernel⟩
  all := rfl
  largest := by
    intro k h1 h2
    have : ((3 : Int) - (((2 : Nat) : Int) - k + 1)).toNat = k := by omega
    simp only [exSolve, this]

def exCfg (p : Option ℚ) (reduce : Bool) : Cfg ℚ :=
  { desired := p, reduce := reduce, varAbs := 1, varRel := 1 / 10 }

theorem exValid : Valid (exCfg none false) 2 ∧ Valid (exCfg (some (3 / 4)) false) 2 ∧ Valid (exCfg none true) 2 := by
  refine ⟨⟨by simp [exCfg], by simp [exCfg], by simp [exCfg]⟩, ⟨by simp [exCfg], ?_, by simp [exCfg]⟩,
    ⟨by simp [exCfg], by simp [exCfg], by simp [exCfg]⟩⟩
  intro p h
  cases h
  norm_num

/-- All components; three quarters of the variance; the variances above one. -/
example : (stop (exCfg none false) exSolve (trained exChunks)).toOption.map (·.ds) = some [8 / 3, 2 / 3] ∧
    (stop (exCfg (some (3 / 4)) false) exSolve (trained exChunks)).toOption.map (·.ds) = some [8 / 3] ∧
    (stop (exCfg none true) exSolve (trained exChunks)).toOption.map (·.ds) = some [8 / 3] := by decide +kernel

example := pca_outputs (exCfg none false) exSolve exChunks (by decide) exSolves exValid.1 (by simp [exCfg])
example := pca_fraction_partial (exCfg (some (3 / 4)) false) exSolve exChunks (by decide) exSolves exValid.2.1 (3 / 4) rfl rfl
  (by decide +kernel)
example := pca_reduce (exCfg none true) exSolve exChunks (by decide) exSolves exValid.2.2 rfl rfl _ rfl

end Mdp.Pca
