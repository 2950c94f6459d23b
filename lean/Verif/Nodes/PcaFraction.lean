import Verif.Nodes.PcaOut

/-!
# PCANode with a fraction of the variance: data without variance, and `reduce` (C110)

Properties of the model of `Nodes/Pca.lean` (pca_nodes.py:184-292). No definitions are added.
-/

namespace Mdp.Pca

open Mdp.Cov

variable {F : Type} [Field F] [LinearOrder F] [IsStrictOrderedRing F] {d : Nat}

/-- **C110, false for data without variance**: with a fraction of the variance to be explained, training ends with output dimension one,
one vector and no eigenvalue. (The fraction explained is a quotient of zeros.) -/
theorem pca_fraction_constant_violation (c : Cfg F) (solve : Solver F d) (chunks : List (List (Row F d)))
    (hn : 2 ≤ chunks.flatten.length) {lam : Fin d → F} {v : Fin d → Row F d} (hs : Solves solve (covOf chunks.flatten) lam v)
    (hc : Valid c d) (p : F) (hd : c.desired = some p) (hr : c.reduce = false) (ht : totalVariance chunks.flatten = 0) :
    ∃ r, stop c solve (trained chunks) = .ok r ∧ r.ds = [] ∧ r.outDim = some 1 ∧ r.vs = (List.ofFn v).take 1 := by
  obtain ⟨avg, _, he⟩ := stop_eq c solve chunks hn hs hc
  have ho : c.outDim = none := by
    cases ho : c.outDim with
    | none => rfl
    | some k => rw [(hc.1 k ho).2.2] at hd; cases hd
  have htr : ∑ i, lam i = 0 := by rw [← ht, total_eq, hs.spec.trace]
  have hz : ∀ i, lam i = 0 := fun i =>
    (Finset.sum_eq_zero_iff_of_nonneg fun i _ => lam_nonneg hn hs.spec i).1 htr i (Finset.mem_univ i)
  have hf : (List.ofFn lam).filter (fun x => decide (0 < x)) = [] := by
    rw [List.filter_eq_nil_iff]
    intro x hx
    obtain ⟨i, rfl⟩ := (List.mem_ofFn' _ _).1 hx
    simp [hz i]
  rw [he]
  simp only [conclude, byVariance, byReduce, ho, hd, hr, Option.getD_none, Option.isSome_some, if_true, Bool.false_eq_true, if_false]
  rw [List.take_of_length_le (l := List.ofFn lam) (by simp), List.take_of_length_le (l := List.ofFn v) (by simp), hf]
  refine ⟨_, rfl, ?_⟩
  simp [cumsum, searchsorted]

/-- **C110, a fraction together with `reduce`**: the candidates are the smallest number of components that explain the fraction; of
these exactly those are kept whose variance is above `var_abs`, relative to the largest one above `var_rel`, and relative to the
total variance above `var_part` if that is given; training raises if none is above `var_abs`. -/
theorem pca_fraction_reduce (c : Cfg F) (solve : Solver F d) (chunks : List (List (Row F d))) (hn : 2 ≤ chunks.flatten.length)
    {lam : Fin d → F} {v : Fin d → Row F d} (hs : Solves solve (covOf chunks.flatten) lam v) (hc : Valid c d)
    (p : F) (hd : c.desired = some p) (hr : c.reduce = true) (ht : totalVariance chunks.flatten ≠ 0) : ∃ m, m ≤ d ∧
    p ≤ ((List.ofFn lam).take m).sum / totalVariance chunks.flatten ∧
    (∀ k < m, ((List.ofFn lam).take k).sum / totalVariance chunks.flatten < p) ∧
    ((∀ x ∈ (List.ofFn lam).take m, x ≤ c.varAbs) → stop c solve (trained chunks) = .error .reduced) ∧
    ((∃ x ∈ (List.ofFn lam).take m, c.varAbs < x) → ∃ r big, stop c solve (trained chunks) = .ok r ∧
      big ∈ (List.ofFn lam).take m ∧ (∀ x ∈ (List.ofFn lam).take m, x ≤ big) ∧
      r.ds = ((List.ofFn lam).take m).filter (fun x => decide (c.varAbs < x ∧ c.varRel < x / big ∧
        ∀ p, c.varPart = some p → p < x / totalVariance chunks.flatten)) ∧ r.outDim = some r.ds.length ∧
      r.vs = (List.ofFn v).take r.ds.length) := by
  obtain ⟨avg, _, he⟩ := stop_eq c solve chunks hn hs hc
  have ho : c.outDim = none := by
    cases ho : c.outDim with
    | none => rfl
    | some k => rw [(hc.1 k ho).2.2] at hd; cases hd
  have htr : totalVariance chunks.flatten = ∑ i, lam i := by rw [total_eq, hs.spec.trace]
  obtain ⟨m, hm1, hm, hb, hge, hlt⟩ := byVariance_prefix c p hd (hc.2.1 p hd).1 (hc.2.1 p hd).2 hs.spec
    (fun i => lam_nonneg hn hs.spec i) (by rw [← htr]; exact ht)
  rw [← htr] at hb hge
  refine ⟨m, hm.le, hge, fun k hk => by rw [htr]; exact hlt k hk, ?_⟩
  rw [he]
  simp only [conclude, ho, hd, Option.getD_none, Option.isSome_some, if_true]
  rw [List.take_of_length_le (l := List.ofFn lam) (i := d) (by simp),
    List.take_of_length_le (l := List.ofFn v) (i := d) (by simp), hb]
  simp only
  have hmax : ∀ x ∈ (List.ofFn lam).take m, x ≤ totalVariance chunks.flatten := by
    intro x hx
    obtain ⟨i, rfl⟩ := (List.mem_ofFn' _ _).1 (List.mem_of_mem_take hx)
    rw [htr]
    exact Finset.single_le_sum (fun i _ => lam_nonneg hn hs.spec i) (Finset.mem_univ i)
  have hdesc : ((List.ofFn lam).take m).Pairwise (· ≥ ·) := (ofFn_desc hs.spec).sublist (List.take_sublist _ _)
  obtain ⟨cand, hcand⟩ : ∃ cand, cand = (List.ofFn lam).take m := ⟨_, rfl⟩
  rw [← hcand] at hmax hdesc ⊢
  rcases byReduce_eq c hr (hc.2.2 hr) (t := totalVariance chunks.flatten) (B := (List.ofFn v).take m)
    (o := some m) hdesc hmax with ⟨h1, h2⟩ | ⟨big, l, q, hA, hbig, hq, hf, h2⟩
  · refine ⟨fun _ => by rw [h2], fun ⟨x, hx, hlt⟩ => absurd hlt (not_lt.2 (h1 x hx))⟩
  · refine ⟨fun h => absurd hbig (not_lt.2 (h big (by rw [hA]; simp))), fun _ => ?_⟩
    rw [h2]
    refine ⟨_, big, rfl, by rw [hA]; simp, ?_, ?_, ?_, ?_⟩
    · intro x hx
      rw [hA] at hx hdesc
      rcases List.mem_cons.1 hx with rfl | hx
      · exact le_refl _
      · exact (List.pairwise_cons.1 hdesc).1 x hx
    · simp only
      rw [← hf]
      refine List.filter_congr fun x _ => ?_
      cases hp : c.varPart with
      | none => simp [Kept.cond, hp]
      | some q => simp [Kept.cond, hp, Bool.and_assoc]
    · have : cand.length = m := by rw [hcand]; simp [hm.le]
      simp only [List.length_take]
      rw [min_eq_left hq]
    · have : cand.length = m := by rw [hcand]; simp [hm.le]
      simp only [List.length_take, List.take_take]
      rw [min_eq_left hq, min_eq_left (this ▸ hq)]

/-- Two equal rows, and three quarters of the variance: output dimension one, no eigenvalue. -/
example : ((stop (exCfg (some (3 / 4)) false) (fun _ _ => some [(0, ![0, 1]), (0, ![1, 0])])
      (trained [[![1, 1]], [![1, 1]]])).toOption.map fun r => (r.ds, r.outDim, r.vs.length)) = some ([], some 1, 1) := by
  decide +kernel

/-- The constant data meet the hypotheses of `pca_fraction_constant_violation`. -/
example : ∃ r, stop (exCfg (some (3 / 4)) false) (fun _ rng => match rng with
      | none => some (List.ofFn fun i => ((fun _ => 0 : Fin 2 → ℚ) i, exV i)).reverse
      | some (lo, _) => some ((List.ofFn fun i => ((fun _ => 0 : Fin 2 → ℚ) i, exV i)).take (3 - lo).toNat).reverse)
      (trained [[![1, 1]], [![1, 1]]]) = .ok r ∧ r.ds = [] ∧ r.outDim = some 1 ∧ r.vs = (List.ofFn exV).take 1 :=
  pca_fraction_constant_violation _ _ [[![1, 1]], [![1, 1]]] (by decide) (lam := fun _ => 0)
    ⟨⟨by decide +kernel, by unfold Orthonormal dot; decide +kernel, by decide +kernel⟩, rfl, by
      intro k h1 h2
      have : ((3 : Int) - (((2 : Nat) : Int) - k + 1)).toNat = k := by omega
      simp only [this]⟩ exValid.2.1 (3 / 4) rfl rfl (by decide +kernel)

example := pca_fraction_reduce (exCfg (some (9 / 10)) true) exSolve exChunks (by decide) exSolves
  ⟨by simp [exCfg], by intro p h; cases h; norm_num, by simp [exCfg]⟩ (9 / 10) rfl rfl (by decide +kernel)
example : (stop (exCfg (some (9 / 10)) true) exSolve (trained exChunks)).toOption.map (·.ds) = some [8 / 3] := by decide +kernel

end Mdp.Pca
